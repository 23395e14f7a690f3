import Verif.Props.RadialReturn

/-!
# C179: energy, plastic work and stored energy of rate independent plasticity
-/

namespace Neml.SolveStep

open Matrix Neml.SmallStrain Neml.Flow Neml.Mandel Neml.Elastic

/-! ## The balance -/

section balance

variable {K : Type} [Field K] {ι κ : Type} [Fintype ι] [DecidableEq ι] [Fintype κ] [DecidableEq κ]

/-- Strain energy stored by a stress. -/
def stored (S : Matrix ι ι K) (s : ι → K) : K := s ⬝ᵥ (S *ᵥ s) / 2

theorem ripWork_balance {H : Type} (el : Elastic K ι) (x : Substep.Point K (ι → K) (ι → K) H)
    (e1 : ι → K) (T1 : K) (s1 : ι → K) (hS : el.S T1 = el.S x.T) (hsym : (el.S T1)ᵀ = el.S T1)
    (ep : ι → K) (hep : ep = x.e - el.S x.T *ᵥ x.s) :
    (ripWork el ep x e1 T1 s1).1 - (ripWork el ep x e1 T1 s1).2 - stored (el.S T1) s1 =
      x.u - x.p - stored (el.S T1) x.s := by
  have h1 : (fun i => e1 i - (el.S T1 *ᵥ s1) i - ep i) =
      (e1 - x.e) - (el.S T1 *ᵥ s1 - el.S T1 *ᵥ x.s) := by
    ext i
    rw [hep, hS]
    simp only [Pi.sub_apply]
    ring
  have h2 : (fun i => s1 i + x.s i) = s1 + x.s := rfl
  have h3 : (s1 + x.s) ⬝ᵥ (el.S T1 *ᵥ s1 - el.S T1 *ᵥ x.s) =
      s1 ⬝ᵥ (el.S T1 *ᵥ s1) - x.s ⬝ᵥ (el.S T1 *ᵥ x.s) := by
    have h4 : x.s ⬝ᵥ (el.S T1 *ᵥ s1) = s1 ⬝ᵥ (el.S T1 *ᵥ x.s) := by
      rw [dotProduct_comm, sym_dot hsym, dotProduct_comm]
    rw [add_dotProduct, dotProduct_sub, dotProduct_sub, h4]
    ring
  simp only [ripWork, stored]
  rw [h1, h2, dotProduct_sub _ (e1 - x.e), h3]
  ring

/-- What the two models share: the work of a step, whatever the solver did. -/
theorem work_of_step {H P τ : Type} [Fintype P] [DecidableEq P] (m : Integrator K ι H P τ)
    (x : Substep.Point K (ι → K) (ι → K) H) (e1 : ι → K) (T1 t1 : K) (inc)
    (h : updateStep m x e1 T1 t1 = some inc) :
    ∃ h1, (inc.u, inc.p) = m.work (m.setup x e1 T1 t1) x e1 T1 t1 inc.s h1 := by
  by_cases he : m.elasticStep (m.setup x e1 T1 t1) x e1 T1 t1
  · obtain ⟨inc', g1, g2, g3, g4⟩ := updateStep_elastic m x e1 T1 t1 he
    rw [g1] at h
    injection h with h
    subst h
    exact ⟨x.h, by rw [g4, g2]⟩
  · obtain ⟨z, J, -, -, -, -, g⟩ := updateStep_plastic m x e1 T1 t1 he inc h
    exact ⟨inc.h, g⟩

/-- C179. Perfect plasticity, any surface, any solver: energy less plastic work changes by the change
of the stored elastic energy. -/
theorem C179_balance_perfect [LE K] (el : Elastic K ι) (sf : PPSurface K ι) (ys : K → K) (solve inv)
    (x : Substep.Point K (ι → K) (ι → K) Unit) (e1 : ι → K) (T1 t1 : K) (hS : el.S T1 = el.S x.T)
    (hsym : (el.S T1)ᵀ = el.S T1) (inc)
    (h : updateStep (perfectPlasticity el sf ys solve inv) x e1 T1 t1 = some inc) :
    inc.u - inc.p - stored (el.S T1) inc.s = x.u - x.p - stored (el.S T1) x.s := by
  obtain ⟨h1, g⟩ := work_of_step _ x e1 T1 t1 inc h
  have g' : (inc.u, inc.p) = ripWork el (ppTrial el ys x e1 T1).ep x e1 T1 inc.s := g
  have := ripWork_balance el x e1 T1 inc.s hS hsym (ppTrial el ys x e1 T1).ep rfl
  rwa [← g'] at this

/-- C179. Rate independent plasticity, any flow rule, any solver. -/
theorem C179_balance_hardening [LE K] (el : Elastic K ι) (fl : RIFlow K ι κ) (solve inv)
    (x : Substep.Point K (ι → K) (ι → K) (κ → K)) (e1 : ι → K) (T1 t1 : K)
    (hS : el.S T1 = el.S x.T) (hsym : (el.S T1)ᵀ = el.S T1) (inc)
    (h : updateStep (rateIndependent el fl solve inv) x e1 T1 t1 = some inc) :
    inc.u - inc.p - stored (el.S T1) inc.s = x.u - x.p - stored (el.S T1) x.s := by
  obtain ⟨h1, g⟩ := work_of_step _ x e1 T1 t1 inc h
  have g' : (inc.u, inc.p) = ripWork el (riTrial el x e1 T1).ep x e1 T1 inc.s := g
  have := ripWork_balance el x e1 T1 inc.s hS hsym (riTrial el x e1 T1).ep rfl
  rwa [← g'] at this

/-- Take a list of steps: strain, temperature and time at the end of each. -/
def run {H P : Type} (base : Substep.Base K (ι → K) (ι → K) H P ι) :
    List ((ι → K) × K × K) → Substep.Point K (ι → K) (ι → K) H →
      Option (Substep.Point K (ι → K) (ι → K) H)
  | [], x => some x
  | (e, T, t) :: l, x =>
    match base x e T t with
    | none => none
    | some inc => run base l ⟨e, T, t, inc.s, inc.h, inc.u, inc.p⟩

theorem run_balance {H P : Type} (base : Substep.Base K (ι → K) (ι → K) H P ι) (S : Matrix ι ι K)
    (hb : ∀ x e T t inc, base x e T t = some inc →
      inc.u - inc.p - stored S inc.s = x.u - x.p - stored S x.s)
    (l : List ((ι → K) × K × K)) (x y : Substep.Point K (ι → K) (ι → K) H)
    (h : run base l x = some y) : y.u - y.p - stored S y.s = x.u - x.p - stored S x.s := by
  induction l generalizing x with
  | nil =>
    simp only [run, Option.some.injEq] at h
    rw [h]
  | cons a l ih =>
    obtain ⟨e, T, t⟩ := a
    simp only [run] at h
    cases hc : base x e T t with
    | none => rw [hc] at h; simp at h
    | some inc =>
      rw [hc] at h
      rw [ih _ h]
      exact hb x e T t inc hc

/-- C179. Over a whole history that starts without stress, energy and work, the energy is the plastic
work plus the energy stored by the final stress, for perfect plasticity. -/
theorem C179_history_perfect [LE K] (el : Elastic K ι) (sf : PPSurface K ι) (ys : K → K) (solve inv)
    (S : Matrix ι ι K) (hS : ∀ T, el.S T = S) (hsym : Sᵀ = S) (l) (e0 : ι → K) (T0 t0 : K) (y)
    (h : run (updateStep (perfectPlasticity el sf ys solve inv)) l ⟨e0, T0, t0, 0, (), 0, 0⟩ = some y) :
    y.u = y.p + y.s ⬝ᵥ (S *ᵥ y.s) / 2 := by
  have := run_balance _ S (fun x e T t inc hb => by
    have := C179_balance_perfect el sf ys solve inv x e T t (by rw [hS, hS]) (by rw [hS, hsym]) inc hb
    rwa [hS] at this) l _ y h
  simp only [stored, zero_dotProduct, zero_div, sub_zero] at this
  linear_combination this

/-- C179. The same with hardening, whatever the flow rule and the initial history. -/
theorem C179_history_hardening [LE K] (el : Elastic K ι) (fl : RIFlow K ι κ) (solve inv)
    (S : Matrix ι ι K) (hS : ∀ T, el.S T = S) (hsym : Sᵀ = S) (l) (e0 : ι → K) (T0 t0 : K)
    (h0 : κ → K) (y)
    (h : run (updateStep (rateIndependent el fl solve inv)) l ⟨e0, T0, t0, 0, h0, 0, 0⟩ = some y) :
    y.u = y.p + y.s ⬝ᵥ (S *ᵥ y.s) / 2 := by
  have := run_balance _ S (fun x e T t inc hb => by
    have := C179_balance_hardening el fl solve inv x e T t (by rw [hS, hS]) (by rw [hS, hsym]) inc hb
    rwa [hS] at this) l _ y h
  simp only [stored, zero_dotProduct, zero_div, sub_zero] at this
  linear_combination this

/-- C179. Substeps keep the balance: it holds for every chain of increments the adaptive loop
accepts. -/
theorem chain_balance {H P : Type} [LinearOrder K] [IsStrictOrderedRing K] [Fintype P]
    (base : Substep.Base K (ι → K) (ι → K) H P ι) (S : Matrix ι ι K)
    (hb : ∀ x e T t inc, base x e T t = some inc →
      inc.u - inc.p - stored S inc.s = x.u - x.p - stored S x.s)
    (a : Substep.Args K (ι → K) (ι → K) H) {k l x D} (h : Substep.Chain base a k l x D) :
    x.u - x.p - stored S x.s = a.start.u - a.start.p - stored S a.start.s := by
  induction h with
  | start => rfl
  | next l' inc _ _ _ hbase ih => exact (hb _ _ _ _ _ hbase).trans ih

theorem update_balance {H P : Type} [LinearOrder K] [IsStrictOrderedRing K] [Fintype P]
    (base : Substep.Base K (ι → K) (ι → K) H P ι) (S : Matrix ι ι K)
    (hb : ∀ x e T t inc, base x e T t = some inc →
      inc.u - inc.p - stored S inc.s = x.u - x.p - stored S x.s)
    {md : Int} (hmd : 0 ≤ md) (force : Bool) (a) (fuel : Nat) (st)
    (h : Substep.update base md force a fuel = some (some st)) :
    ∃ inc, st.out = some inc ∧ inc.u - inc.p - stored S inc.s =
      a.start.u - a.start.p - stored S a.start.s := by
  obtain ⟨k, x, D, inc, hc, -, -, -, -, -, h1, h2, -, h4, h5, -⟩ :=
    Substep.C19_covers_step hmd fuel st h
  refine ⟨inc, h1, ?_⟩
  rw [h2, h4, h5]
  exact chain_balance base S hb a hc

/-- C179. The whole adaptive update keeps the balance, however it was divided: perfect plasticity. -/
theorem C179_update_perfect [LinearOrder K] [IsStrictOrderedRing K] (el : Elastic K ι)
    (sf : PPSurface K ι) (ys : K → K) (solve inv) (S : Matrix ι ι K) (hS : ∀ T, el.S T = S)
    (hsym : Sᵀ = S) {md : Int} (hmd : 0 ≤ md) (force : Bool) (a) (fuel : Nat) (st)
    (h : Substep.update (updateStep (perfectPlasticity el sf ys solve inv)) md force a fuel =
      some (some st)) :
    ∃ inc, st.out = some inc ∧ inc.u - inc.p - stored S inc.s =
      a.start.u - a.start.p - stored S a.start.s :=
  update_balance _ S (fun x e T t inc hb => by
    have := C179_balance_perfect el sf ys solve inv x e T t (by rw [hS, hS]) (by rw [hS, hsym]) inc hb
    rwa [hS] at this) hmd force a fuel st h

/-- C179. The whole adaptive update keeps the balance, however it was divided: with hardening. -/
theorem C179_update_hardening [LinearOrder K] [IsStrictOrderedRing K] (el : Elastic K ι)
    (fl : RIFlow K ι κ) (solve inv) (S : Matrix ι ι K) (hS : ∀ T, el.S T = S)
    (hsym : Sᵀ = S) {md : Int} (hmd : 0 ≤ md) (force : Bool) (a) (fuel : Nat) (st)
    (h : Substep.update (updateStep (rateIndependent el fl solve inv)) md force a fuel =
      some (some st)) :
    ∃ inc, st.out = some inc ∧ inc.u - inc.p - stored S inc.s =
      a.start.u - a.start.p - stored S a.start.s :=
  update_balance _ S (fun x e T t inc hb => by
    have := C179_balance_hardening el fl solve inv x e T t (by rw [hS, hS]) (by rw [hS, hsym]) inc hb
    rwa [hS] at this) hmd force a fuel st h

end balance

/-! ## The plastic work of a J2 material -/

section j2work

variable {el : Elastic ℝ (Fin 6)} {ys : ℝ → ℝ} {eps G Kb : ℝ}
  {lin : Matrix (Fin 7) (Fin 7) ℝ → (Fin 7 → ℝ) → Option (Fin 7 → ℝ)} {p : Newton.Params}
  {fuel : Nat}
  {inv : Matrix (Fin 6 ⊕ Unit) (Fin 6 ⊕ Unit) ℝ → Option (Matrix (Fin 6 ⊕ Unit) (Fin 6 ⊕ Unit) ℝ)}
  {x : Substep.Point ℝ (Fin 6 → ℝ) (Fin 6 → ℝ) Unit} {e1 : Fin 6 → ℝ} {T1 t1 : ℝ}

/-- The plastic strain increment is the compliance times the stress given up. -/
theorem plastic_increment (hS : el.S T1 = el.S x.T) (hinv : el.S T1 * el.C T1 = 1) (s1 : Fin 6 → ℝ) :
    (fun i => e1 i - (el.S T1 *ᵥ s1) i - (ppTrial el ys x e1 T1).ep i) =
      el.S T1 *ᵥ (trial el x e1 T1 - s1) := by
  have h1 : el.S T1 *ᵥ (el.C T1 *ᵥ (e1 - x.e)) = e1 - x.e := by
    rw [mulVec_mulVec, hinv, one_mulVec]
  rw [trial, mulVec_sub, mulVec_add, h1]
  ext i
  show e1 i - (el.S T1 *ᵥ s1) i - (x.e i - (el.S x.T *ᵥ x.s) i) = _
  rw [hS]
  simp only [Pi.sub_apply, Pi.add_apply]
  ring

theorem S_dev (hi : IsoStep el G Kb x.T T1) (hinv : el.S T1 * el.C T1 = 1) {v : Fin 6 → ℝ}
    (hv : tr3 v = 0) : el.S T1 *ᵥ v = (1 / (2 * G)) • v := by
  have hG := hi.shear
  have h1 : v = el.C T1 *ᵥ ((1 / (2 * G)) • v) := by
    rw [hi.stiff, isoC_dev G Kb (by rw [tr3_smul, hv, mul_zero]), smul_smul]
    field_simp
    simp
  nth_rewrite 1 [h1]
  rw [mulVec_mulVec, hinv, one_mulVec]

theorem work_at {s1 : Fin 6 → ℝ} (hS : el.S T1 = el.S x.T) (hinv : el.S T1 * el.C T1 = 1) :
    (ripWork el (ppTrial el ys x e1 T1).ep x e1 T1 s1).2 =
      x.p + (s1 + x.s) ⬝ᵥ (el.S T1 *ᵥ (trial el x e1 T1 - s1)) / 2 := by
  simp only [ripWork]
  rw [plastic_increment hS hinv]
  rfl

/-- C179. Plastic work of a step of a perfectly plastic J2 material: none if the trial stress is
accepted, otherwise the multiplier times the mean of the deviators at both ends along the flow. -/
theorem work_j2 (he : 0 < eps) (hs : Standard p fuel) (hl : ExactSolve lin) (hv : ExactInv inv)
    (hi : IsoStep el G Kb x.T T1) (hS : el.S T1 = el.S x.T) (hinv : el.S T1 * el.C T1 = 1)
    (hk : eps ≤ √(2 / 3) * ys T1) :
    ∃ inc, updateStep (perfect el (j2 eps) ys lin p fuel inv) x e1 T1 t1 = some inc ∧
      (norm2 (devVec (trial el x e1 T1)) - √(2 / 3) * ys T1 < p.atol → inc.p = x.p) ∧
      (p.atol ≤ norm2 (devVec (trial el x e1 T1)) - √(2 / 3) * ys T1 →
        inc.p = x.p + (norm2 (devVec (trial el x e1 T1)) - √(2 / 3) * ys T1) / (2 * G) *
          ((√(2 / 3) * ys T1 + dir (trial el x e1 T1) ⬝ᵥ devVec x.s) / 2)) := by
  have hk0 : 0 < √(2 / 3) * ys T1 := he.trans_le hk
  by_cases h0 : norm2 (devVec (trial el x e1 T1)) ≤ √(2 / 3) * ys T1
  · obtain ⟨inc, h1, h2⟩ := C178_elastic (eps := eps) (lin := lin) (p := p) (fuel := fuel)
      (inv := inv) (t1 := t1) h0
    refine ⟨inc, h1, fun _ => ?_, fun h => by linarith [hs.atol]⟩
    obtain ⟨_, g⟩ := work_of_step _ x e1 T1 t1 inc h1
    have g' : (inc.u, inc.p) = ripWork el (ppTrial el ys x e1 T1).ep x e1 T1 inc.s := g
    have := congrArg Prod.snd g'
    rw [work_at hS hinv, h2] at this
    simpa using this
  · by_cases h : norm2 (devVec (trial el x e1 T1)) - √(2 / 3) * ys T1 < p.atol
    · obtain ⟨inc, h1, h2, h3, -⟩ := band_step (lin := lin) (t1 := t1) he hs hv hi hk (not_le.mp h0) h
      refine ⟨inc, h1, fun _ => ?_, fun h' => absurd h (not_lt.mpr h')⟩
      have := congrArg Prod.snd h3
      rw [work_at hS hinv, h2] at this
      simpa using this
    · obtain ⟨inc, h1, h2, h3, -⟩ := return_step (t1 := t1) he hs hl hv hi hk (not_lt.mp h)
      refine ⟨inc, h1, fun h' => absurd h' h, fun _ => ?_⟩
      have hN : 0 < norm2 (devVec (trial el x e1 T1)) := hk0.trans (not_le.mp h0)
      have := congrArg Prod.snd h3
      rw [work_at hS hinv, h2] at this
      have hm := norm2_dir hN
      have htr := tr3_dir (trial el x e1 T1)
      have e1' : trial el x e1 T1 - radial (√(2 / 3) * ys T1) (trial el x e1 T1) =
          (norm2 (devVec (trial el x e1 T1)) - √(2 / 3) * ys T1) • dir (trial el x e1 T1) := by
        rw [radial_eq hN]; abel
      have e2 : radial (√(2 / 3) * ys T1) (trial el x e1 T1) ⬝ᵥ dir (trial el x e1 T1) =
          √(2 / 3) * ys T1 := by
        rw [dotProduct_comm, ← dot_devProj htr, ← devVec_eq, devVec_radial, dotProduct_smul, hm]
        simp
      have e3 : x.s ⬝ᵥ dir (trial el x e1 T1) = dir (trial el x e1 T1) ⬝ᵥ devVec x.s := by
        rw [devVec_eq, dot_devProj htr, dotProduct_comm]
      rw [e1', S_dev hi hinv (by rw [tr3_smul, htr, mul_zero]), dotProduct_smul, dotProduct_smul,
        add_dotProduct, e2, e3] at this
      simp only [smul_eq_mul] at this
      rw [this]
      ring

/-- C179. Started on or within the surface of the end temperature, a step of a perfectly plastic J2
material does not lower the plastic work. -/
theorem C179_work_grows_partial (he : 0 < eps) (hs : Standard p fuel) (hl : ExactSolve lin)
    (hv : ExactInv inv) (hi : IsoStep el G Kb x.T T1) (hS : el.S T1 = el.S x.T)
    (hinv : el.S T1 * el.C T1 = 1) (hk : eps ≤ √(2 / 3) * ys T1)
    (h0 : norm2 (devVec x.s) ≤ √(2 / 3) * ys T1) :
    ∃ inc, updateStep (perfect el (j2 eps) ys lin p fuel inv) x e1 T1 t1 = some inc ∧
      x.p ≤ inc.p := by
  obtain ⟨inc, h1, h2, h3⟩ := work_j2 (e1 := e1) (t1 := t1) he hs hl hv hi hS hinv hk
  refine ⟨inc, h1, ?_⟩
  rcases lt_or_ge (norm2 (devVec (trial el x e1 T1)) - √(2 / 3) * ys T1) p.atol with h | h
  · rw [h2 h]
  · rw [h3 h]
    have hG := hi.shear
    have ha := hs.atol
    have hN : 0 < norm2 (devVec (trial el x e1 T1)) := by
      have := he.trans_le hk; linarith
    have hd : -(√(2 / 3) * ys T1) ≤ dir (trial el x e1 T1) ⬝ᵥ devVec x.s := by
      have h4 := dot_le_norm2 (-dir (trial el x e1 T1)) (devVec x.s)
      have h5 : norm2 (-dir (trial el x e1 T1)) = 1 := by
        simp [norm2, norm2_dir hN]
      rw [h5, neg_dotProduct] at h4
      linarith
    have h6 : 0 ≤ (norm2 (devVec (trial el x e1 T1)) - √(2 / 3) * ys T1) / (2 * G) *
        ((√(2 / 3) * ys T1 + dir (trial el x e1 T1) ⬝ᵥ devVec x.s) / 2) := by
      apply mul_nonneg
      · apply div_nonneg <;> linarith
      · linarith
    linarith

/-- C179. In general the loss of work in a step is no more than the multiplier times half the excess
of the start stress over the surface, which over a history at constant yield stress is less than the
tolerance of the solver. -/
theorem C179_work_bound_partial (he : 0 < eps) (hs : Standard p fuel) (hl : ExactSolve lin)
    (hv : ExactInv inv) (hi : IsoStep el G Kb x.T T1) (hS : el.S T1 = el.S x.T)
    (hinv : el.S T1 * el.C T1 = 1) (hk : eps ≤ √(2 / 3) * ys T1)
    (h0 : norm2 (devVec x.s) < √(2 / 3) * ys T1 + p.atol) :
    ∃ inc, updateStep (perfect el (j2 eps) ys lin p fuel inv) x e1 T1 t1 = some inc ∧
      norm2 (devVec inc.s) < √(2 / 3) * ys T1 + p.atol ∧
      x.p - max 0 (norm2 (devVec (trial el x e1 T1)) - √(2 / 3) * ys T1) / (2 * G) *
        (p.atol / 2) ≤ inc.p := by
  obtain ⟨inc, h1, h2, h3⟩ := work_j2 (e1 := e1) (t1 := t1) he hs hl hv hi hS hinv hk
  obtain ⟨inc', g1, g2, -⟩ := C178_every_step (e1 := e1) (t1 := t1) he hs hl hv hi hk
  rw [h1] at g1
  injection g1 with g1
  subst g1
  refine ⟨inc, h1, g2, ?_⟩
  have hG := hi.shear
  have ha := hs.atol
  have hmax : 0 ≤ max 0 (norm2 (devVec (trial el x e1 T1)) - √(2 / 3) * ys T1) / (2 * G) := by
    apply div_nonneg (le_max_left _ _); linarith
  rcases lt_or_ge (norm2 (devVec (trial el x e1 T1)) - √(2 / 3) * ys T1) p.atol with h | h
  · rw [h2 h]
    have := mul_nonneg hmax (half_pos ha).le
    linarith
  · rw [h3 h]
    have hN : 0 < norm2 (devVec (trial el x e1 T1)) := by
      have := he.trans_le hk; linarith
    rw [max_eq_right (by linarith)] at hmax ⊢
    have hd : -(√(2 / 3) * ys T1 + p.atol) ≤ dir (trial el x e1 T1) ⬝ᵥ devVec x.s := by
      have h4 := dot_le_norm2 (-dir (trial el x e1 T1)) (devVec x.s)
      have h5 : norm2 (-dir (trial el x e1 T1)) = 1 := by
        simp [norm2, norm2_dir hN]
      rw [h5, neg_dotProduct] at h4
      linarith
    nlinarith

end j2work

/-! ## Where plastic work falls -/

/-- The step of the first witness: a stressed material is heated at constant strain. The compliance is
`1 + T` times that of `isoElastic`. -/
noncomputable def softening (G Kb : ℝ) : Elastic ℝ (Fin 6) :=
  ⟨fun T => (1 / (1 + T)) • isoC G Kb, fun T => (1 + T) • isoS G Kb⟩

/-- C179, disagreement: heating a stressed material at constant strain lowers the reported plastic
work, although the step is elastic and the stress does not change. -/
theorem C179_heating_disagreement (lin) (p : Newton.Params) (fuel : Nat) (inv) (t1 : ℝ) :
    ∃ inc, updateStep (perfect (softening (1 / 2) 1) (j2 1) (fun _ => √(3 / 2)) lin p fuel inv)
        ⟨shear, 0, 0, shear, (), 0, 0⟩ shear 1 t1 = some inc ∧
      inc.s = shear ∧ inc.p < 0 := by
  have htr : trial (softening (1 / 2) 1)
      (⟨shear, 0, 0, shear, (), 0, 0⟩ : Substep.Point ℝ (Fin 6 → ℝ) (Fin 6 → ℝ) Unit) shear 1 =
      shear := by
    simp [trial]
  have hd : devVec shear = shear := by simpa using devVec_shear 1
  have hn : norm2 shear = 1 := by simp [norm2, shear_unit]
  obtain ⟨inc, h1, h2⟩ := C178_elastic (el := softening (1 / 2) 1) (eps := 1) (ys := fun _ => √(3 / 2))
    (lin := lin) (p := p) (fuel := fuel) (inv := inv) (x := ⟨shear, 0, 0, shear, (), 0, 0⟩)
    (e1 := shear) (T1 := 1) (t1 := t1) (by rw [htr, hd, hn, sqrt_cancel])
  refine ⟨inc, h1, by rw [h2, htr], ?_⟩
  obtain ⟨_, g⟩ := work_of_step _ _ shear 1 t1 inc h1
  have g' : (inc.u, inc.p) = ripWork (softening (1 / 2) 1)
    (ppTrial (softening (1 / 2) 1) (fun _ => √(3 / 2)) ⟨shear, 0, 0, shear, (), 0, 0⟩ shear 1).ep
    ⟨shear, 0, 0, shear, (), 0, 0⟩ shear 1 inc.s := g
  have h3 := congrArg Prod.snd g'
  rw [h2, htr] at h3
  have hS : isoS (1 / 2) 1 *ᵥ shear = shear := by
    have h4 : isoC (1 / 2) 1 *ᵥ shear = shear := by
      rw [isoC_dev _ _ (by simp [tr3, shear])]
      simp
    nth_rewrite 1 [← h4]
    rw [mulVec_mulVec, (C36_iso_inverse (1 / 2) 1 (by norm_num) (by norm_num)).1, one_mulVec]
  have h5 : (fun i => shear i - ((softening (1 / 2) 1).S 1 *ᵥ shear) i -
      (ppTrial (softening (1 / 2) 1) (fun _ => √(3 / 2)) ⟨shear, 0, 0, shear, (), 0, 0⟩ shear 1).ep i)
      = (-1 : ℝ) • shear := by
    ext i
    show shear i - (((1 + 1 : ℝ) • isoS (1 / 2) 1) *ᵥ shear) i -
      (shear i - (((1 + 0 : ℝ) • isoS (1 / 2) 1) *ᵥ shear) i) = _
    rw [Matrix.smul_mulVec, Matrix.smul_mulVec, hS]
    simp only [Pi.smul_apply, smul_eq_mul]
    ring
  simp only [ripWork] at h3
  rw [h5] at h3
  rw [h3]
  have h6 : (fun i => shear i + shear i) = (2 : ℝ) • shear := by ext i; simp; ring
  rw [h6, smul_dotProduct, dotProduct_smul, shear_unit]
  norm_num

/-- C179, disagreement: with a yield stress that falls on heating, a step that reverses the load from
one side of the surface to the other lowers the reported plastic work, although the material flows:
the start stress outside the new surface is averaged into the work. -/
theorem C179_reversal_disagreement :
    ∃ inc, updateStep (perfect (isoElastic (1 / 2) 1) (j2 1) (fun T => √(3 / 2) * (3 - 2 * T)) exactLin
        ⟨1 / 10, 1 / 10, 5, true⟩ 5 exactInv) ⟨0, 0, 0, (-3 : ℝ) • shear, (), 0, 0⟩ ((5 : ℝ) • shear) 1 1 =
        some inc ∧ inc.s = shear ∧ inc.p = -1 := by
  have htr : trial (isoElastic (1 / 2) 1)
      (⟨0, 0, 0, (-3 : ℝ) • shear, (), 0, 0⟩ : Substep.Point ℝ (Fin 6 → ℝ) (Fin 6 → ℝ) Unit)
      ((5 : ℝ) • shear) 1 = (2 : ℝ) • shear := by
    have h3 : tr3 ((5 : ℝ) • shear) = 0 := by simp [tr3, shear]
    show (-3 : ℝ) • shear + isoC (1 / 2) 1 *ᵥ ((5 : ℝ) • shear - 0) = _
    rw [sub_zero, isoC_dev _ _ h3]
    module
  have hN : norm2 (devVec ((2 : ℝ) • shear)) = 2 := by
    rw [devVec_shear, norm2_unit shear_unit]
    norm_num
  have hys : √(2 / 3) * (√(3 / 2) * (3 - 2 * 1)) = 1 := by
    rw [← mul_assoc, sqrt_cancel]; norm_num
  have hdir : dir ((2 : ℝ) • shear) = shear := by
    rw [dir, hN, devVec_shear, smul_smul]; norm_num
  have hst := isoElastic_step (G := 1 / 2) (Kb := 1) (by norm_num) (by norm_num) 0 1
  have hpar : Standard ⟨1 / 10, 1 / 10, 5, true⟩ 5 := ⟨by norm_num, by norm_num, by norm_num, by norm_num⟩
  obtain ⟨inc, h1, -, h3⟩ := work_j2 (el := isoElastic (1 / 2) 1) (G := 1 / 2) (Kb := 1)
    (ys := fun T => √(3 / 2) * (3 - 2 * T)) (x := ⟨0, 0, 0, (-3 : ℝ) • shear, (), 0, 0⟩)
    (e1 := (5 : ℝ) • shear) (T1 := 1) (t1 := 1) one_pos hpar exactLin_exact exactInv_exact hst rfl
    (C36_iso_inverse (1 / 2) 1 (by norm_num) (by norm_num)).1 (by rw [hys])
  obtain ⟨inc', g1, -, -, -, g2, -⟩ := C178_return (el := isoElastic (1 / 2) 1) (G := 1 / 2) (Kb := 1)
    (ys := fun T => √(3 / 2) * (3 - 2 * T)) (x := ⟨0, 0, 0, (-3 : ℝ) • shear, (), 0, 0⟩)
    (e1 := (5 : ℝ) • shear) (T1 := 1) (t1 := 1) one_pos hpar exactLin_exact exactInv_exact hst
    (by rw [hys]) (by rw [htr, hN, hys]; norm_num)
  rw [h1] at g1
  injection g1 with g1
  subst g1
  refine ⟨inc, h1, ?_, ?_⟩
  · rw [g2, htr, hys, radial_eq (by rw [hN]; norm_num), hN, hdir]
    module
  · rw [h3 (by rw [htr, hN, hys]; norm_num), htr, hN, hys, hdir, devVec_shear, dotProduct_smul,
      shear_unit]
    norm_num

/-- A history that meets the hypotheses of `C179_history_perfect`: one step from an unstressed state to
three times the strain at yield. The energy is the plastic work one plus the stored energy one half. -/
example : ∃ y, run (updateStep (perfect (isoElastic (1 / 2) 1) (j2 1) (fun _ => √(3 / 2)) exactLin
      ⟨1 / 10, 1 / 10, 5, true⟩ 5 exactInv)) [((3 : ℝ) • shear, 0, 1)] ⟨0, 0, 0, 0, (), 0, 0⟩ = some y ∧
    y.p = 1 ∧ y.u = 3 / 2 := by
  have htr : trial (isoElastic (1 / 2) 1)
      (⟨0, 0, 0, 0, (), 0, 0⟩ : Substep.Point ℝ (Fin 6 → ℝ) (Fin 6 → ℝ) Unit) ((3 : ℝ) • shear) 0 =
      (3 : ℝ) • shear := by
    have h3 : tr3 ((3 : ℝ) • shear) = 0 := by simp [tr3, shear]
    show (0 : Fin 6 → ℝ) + isoC (1 / 2) 1 *ᵥ ((3 : ℝ) • shear - 0) = _
    rw [sub_zero, isoC_dev _ _ h3]
    simp
  have hN : norm2 (devVec ((3 : ℝ) • shear)) = 3 := by
    rw [devVec_shear, norm2_unit shear_unit]
    norm_num
  have hst := isoElastic_step (G := 1 / 2) (Kb := 1) (by norm_num) (by norm_num) 0 0
  have hpar : Standard ⟨1 / 10, 1 / 10, 5, true⟩ 5 := ⟨by norm_num, by norm_num, by norm_num, by norm_num⟩
  have hinv := (C36_iso_inverse (1 / 2) 1 (by norm_num) (by norm_num)).1
  obtain ⟨inc, h1, -, h3⟩ := work_j2 (el := isoElastic (1 / 2) 1) (G := 1 / 2) (Kb := 1)
    (ys := fun _ => √(3 / 2)) (x := ⟨0, 0, 0, 0, (), 0, 0⟩)
    (e1 := (3 : ℝ) • shear) (T1 := 0) (t1 := 1) one_pos hpar exactLin_exact exactInv_exact hst rfl
    hinv (by rw [sqrt_cancel])
  obtain ⟨inc', g1, -, -, -, g2, -⟩ := C178_return (el := isoElastic (1 / 2) 1) (G := 1 / 2) (Kb := 1)
    (ys := fun _ => √(3 / 2)) (x := ⟨0, 0, 0, 0, (), 0, 0⟩)
    (e1 := (3 : ℝ) • shear) (T1 := 0) (t1 := 1) one_pos hpar exactLin_exact exactInv_exact hst
    (by rw [sqrt_cancel]) (by rw [htr, hN, sqrt_cancel]; norm_num)
  rw [h1] at g1
  injection g1 with g1
  subst g1
  have hs : inc.s = shear := by
    rw [g2, htr, sqrt_cancel, radial, dir, hN, devVec_shear]
    simp
  have hp : inc.p = 1 := by
    rw [h3 (by rw [htr, hN, sqrt_cancel]; norm_num), htr, hN, sqrt_cancel]
    have : devVec (0 : Fin 6 → ℝ) = 0 := by simpa using devVec_shear 0
    rw [this, dotProduct_zero]
    norm_num
  have hrun : run (updateStep (perfect (isoElastic (1 / 2) 1) (j2 1) (fun _ => √(3 / 2)) exactLin
      ⟨1 / 10, 1 / 10, 5, true⟩ 5 exactInv)) [((3 : ℝ) • shear, 0, 1)] ⟨0, 0, 0, 0, (), 0, 0⟩ =
      some ⟨(3 : ℝ) • shear, 0, 1, inc.s, inc.h, inc.u, inc.p⟩ := by
    simp only [run, h1]
  refine ⟨_, hrun, hp, ?_⟩
  have hsym : (isoS (1 / 2) 1)ᵀ = isoS (1 / 2) 1 := by
    ext i j
    fin_cases i <;> fin_cases j <;> rfl
  have h4 := C179_history_perfect (isoElastic (1 / 2) 1) (j2 1) (fun _ => √(3 / 2)) _ _
    (isoS (1 / 2) 1) (fun _ => rfl) hsym _ _ _ _ _ hrun
  have hS : isoS (1 / 2) 1 *ᵥ shear = shear := by
    have h4 : isoC (1 / 2) 1 *ᵥ shear = shear := by
      rw [isoC_dev _ _ (by simp [tr3, shear])]
      simp
    nth_rewrite 1 [← h4]
    rw [mulVec_mulVec, hinv, one_mulVec]
  simp only [hp, hs, hS, shear_unit] at h4
  rw [h4]
  norm_num

end Neml.SolveStep
