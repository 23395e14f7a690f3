import Verif.Model.Uniaxial
import Verif.Props.PySolve
import Verif.Props.Kinematics
import Verif.Props.Elastic
import Mathlib.Analysis.Calculus.InverseFunctionTheorem.FDeriv
import Mathlib.Analysis.Calculus.Deriv.Prod
import Mathlib.Topology.Algebra.Module.FiniteDimension

/-!
# C70: the uniaxial wrapper

A state of uniaxial stress of the three-dimensional material is one whose five other stress components vanish.
The statements compare what the wrapper returns with what the material returns for the strain the wrapper
recorded. -/

namespace Neml.Uniaxial

open Matrix Neml.PySolve Neml.Damage Neml.Kinematics Neml.Elastic

variable {H : Type}

/-! ## The stress state -/

/-- **C70.** What the update returns is the response of the material to the axial strain asked for and the five
lateral strains now in the store, from the recorded old state: axial stress, store, energy and dissipation; the
five other stress components are within the tolerance. -/
theorem C70_update (m : Model3 H) (rtol atol : ℝ) (miter : Nat) (i : In1 (Store H)) (o : Out1 (Store H))
    (h : update m rtol atol miter i = some o) :
    ∃ o3, m.update ⟨Fin.cons i.e1 o.h.1, Fin.cons i.e0 i.h0.1, i.T1, i.T0, i.t1, i.t0, ![i.s0, 0, 0, 0, 0, 0], i.h0.2,
        i.u0, i.p0⟩ = some o3 ∧ o.s = o3.s 0 ∧ o.h.2 = o3.h ∧ o.u = o3.u ∧ o.p = o3.p ∧ condensed o3.A = some o.A ∧
      ∃ g, m.update ⟨Fin.cons i.e1 i.h0.1, Fin.cons i.e0 i.h0.1, i.T1, i.T0, i.t1, i.t0, ![i.s0, 0, 0, 0, 0, 0],
          i.h0.2, i.u0, i.p0⟩ = some g ∧
        (norm2 (fun k : Fin 5 => o3.s k.succ) ≤ rtol * norm2 (fun k : Fin 5 => g.s k.succ) ∨
          norm2 (fun k : Fin 5 => o3.s k.succ) ≤ atol) := by
  have hs : ss2sv i.s0 = ![i.s0, 0, 0, 0, 0, 0] := by
    funext k; fin_cases k <;> rfl
  unfold update at h
  split at h
  · cases h
  · rename_i ef u e1
    split at h
    · cases h
    · rename_i o3 e2
      split at h
      · cases h
      · rename_i a e3
        simp only [Option.some.injEq] at h
        subst h
        obtain ⟨r0, j0, s1, e4, s0, r, j, e5, hr⟩ := C112_answer (plain (rj m i)) rtol atol miter () _ _ _ e1
        simp only [plain, rj, Option.map_eq_some_iff, Prod.mk.injEq] at e4 e5
        obtain ⟨g, e4, rfl, -, -⟩ := e4
        obtain ⟨o3', e5, rfl, -, -⟩ := e5
        rw [e2] at e5
        obtain rfl : o3 = o3' := Option.some.inj e5
        simp only [call, hs] at e2 e4
        exact ⟨o3, e2, rfl, rfl, rfl, rfl, e3, g, e4, hr⟩

/-- **C70.** With an exactly solved system the state is uniaxial: all stress components of the material but the
axial one vanish. -/
theorem C70_exact (m : Model3 H) (miter : Nat) (i : In1 (Store H)) (o : Out1 (Store H))
    (h : update m 0 0 miter i = some o) :
    ∃ o3, m.update ⟨Fin.cons i.e1 o.h.1, Fin.cons i.e0 i.h0.1, i.T1, i.T0, i.t1, i.t0, ![i.s0, 0, 0, 0, 0, 0], i.h0.2,
        i.u0, i.p0⟩ = some o3 ∧ o3.s = ![o.s, 0, 0, 0, 0, 0] ∧ o.h.2 = o3.h ∧ o.u = o3.u ∧ o.p = o3.p := by
  obtain ⟨o3, h1, h2, h3, h4, h5, -, g, -, hr⟩ := C70_update m 0 0 miter i o h
  have hz : norm2 (fun k : Fin 5 => o3.s k.succ) ≤ 0 := by
    rcases hr with hr | hr
    · simpa using hr
    · exact hr
  have hz := norm2_eq_zero.1 (le_antisymm hz (norm2_nonneg _))
  refine ⟨o3, h1, ?_, h3, h4, h5⟩
  funext k
  refine Fin.cases ?_ (fun k => ?_) k
  · exact h2.symm
  · refine (congrFun hz k).trans ?_
    fin_cases k <;> rfl

/-! ## The tangent -/

/-- **C70.** The condensed tangent: if a strain increment changes none of the five other stress components, then
it changes the axial stress by the condensed tangent times its axial component. -/
theorem C70_condensed (A : Matrix (Fin 6) (Fin 6) ℝ) (a : ℝ) (h : condensed A = some a) (w : Fin 6 → ℝ)
    (hw : ∀ k : Fin 5, (A *ᵥ w) k.succ = 0) : (A *ᵥ w) 0 = a * w 0 := by
  unfold condensed at h
  simp only [Option.map_eq_some_iff] at h
  obtain ⟨sv, e, rfl⟩ := h
  obtain ⟨hdet, e⟩ := linSolve_spec e
  have hy : ∀ k : Fin 5, w k.succ = -(w 0 * sv k) := by
    have : lateral A *ᵥ (fun k => w k.succ + w 0 * sv k) = 0 := by
      have e0 : (fun k : Fin 5 => w k.succ + w 0 * sv k) = (fun k => w k.succ) + w 0 • sv := rfl
      rw [e0, mulVec_add, mulVec_smul, e]
      funext k
      have := hw k
      simp only [mulVec, dotProduct, Fin.sum_univ_succ (n := 5)] at this
      simp only [mulVec, dotProduct, lateral, submatrix_apply, Pi.add_apply, Pi.smul_apply, smul_eq_mul,
        Pi.zero_apply]
      linarith
    have hz := eq_zero_of_mulVec_eq_zero hdet this
    intro k
    have := congrFun hz k
    simp only [Pi.zero_apply] at this
    linarith
  simp only [mulVec, dotProduct, Fin.sum_univ_succ (n := 5)]
  simp only [hy]
  have : ∑ i : Fin 5, A 0 i.succ * -(w 0 * sv i) = -(w 0 * ∑ i : Fin 5, A 0 i.succ * sv i) := by
    rw [Finset.mul_sum, ← Finset.sum_neg_distrib]
    exact Finset.sum_congr rfl fun i _ => by ring
  rw [this]
  ring

/-- The increment along which the state stays uniaxial. -/
theorem condensed_increment (A : Matrix (Fin 6) (Fin 6) ℝ) (a : ℝ) (h : condensed A = some a) :
    ∃ w : Fin 6 → ℝ, w 0 = 1 ∧ A *ᵥ w = ![a, 0, 0, 0, 0, 0] := by
  have h' := h
  unfold condensed at h
  simp only [Option.map_eq_some_iff] at h
  obtain ⟨sv, e, -⟩ := h
  obtain ⟨hdet, e⟩ := linSolve_spec e
  have hlat : ∀ k : Fin 5, (A *ᵥ (Fin.cons 1 (-sv) : Fin 6 → ℝ)) k.succ = 0 := by
    intro k
    have := congrFun e k
    simp only [mulVec, dotProduct, lateral, submatrix_apply] at this
    simp only [mulVec, dotProduct, Fin.sum_univ_succ (n := 5), Fin.cons_zero, Fin.cons_succ, Pi.neg_apply, mul_neg,
      Finset.sum_neg_distrib]
    linarith
  refine ⟨Fin.cons 1 (-sv), rfl, ?_⟩
  funext k
  refine Fin.cases ?_ (fun k => ?_) k
  · rw [C70_condensed A a h' _ hlat]
    simp
  · rw [hlat k]
    fin_cases k <;> rfl

/-- **C70.** The reported tangent is the derivative of the axial stress with respect to the axial strain in
uniaxial stress: along any differentiable path of strains of states of uniaxial stress. (The material's own tangent is
the derivative of its stress.) -/
theorem C70_tangent (S : (Fin 6 → ℝ) → Fin 6 → ℝ) (E : ℝ → Fin 6 → ℝ) (E' : Fin 6 → ℝ) (t0 : ℝ)
    (hE : Moves E E' t0) (A : Matrix (Fin 6) (Fin 6) ℝ) (hS : Moves (fun t => S (E t)) (A *ᵥ E') t0)
    (huni : ∀ᶠ t in nhds t0, ∀ k : Fin 5, S (E t) k.succ = 0) (a : ℝ) (ha : condensed A = some a) :
    HasDerivAt (fun t => S (E t) 0) (a * E' 0) t0 := by
  rw [← C70_condensed A a ha E' fun k => ?_]
  · exact hS 0
  · have h0 : HasDerivAt (fun t => S (E t) k.succ) 0 t0 :=
      (hasDerivAt_const t0 (0 : ℝ)).congr_of_eventuallyEq (huni.mono fun t h => h k)
    exact (hS k.succ).unique h0

/-- **C70.** Such a path exists, and the axial stress is a function of the axial strain with the reported tangent
as derivative: from a state of uniaxial stress the lateral strains can be continued, as functions of the axial
strain, so that the stress stays uniaxial. -/
theorem C70_path (S : (Fin 6 → ℝ) → Fin 6 → ℝ) (E0 : Fin 6 → ℝ) (A : Matrix (Fin 6) (Fin 6) ℝ)
    (hS : HasStrictFDerivAt S (LinearMap.toContinuousLinearMap (toLin' A)) E0) (huni : ∀ k : Fin 5, S E0 k.succ = 0)
    (a : ℝ) (ha : condensed A = some a) :
    ∃ x : ℝ → Fin 5 → ℝ, (∀ k, x (E0 0) k = E0 k.succ) ∧
      (∀ᶠ e in nhds (E0 0), ∀ k : Fin 5, S (es2ev e (x e)) k.succ = 0) ∧
      HasDerivAt (fun e => S (es2ev e (x e)) 0) a (E0 0) := by
  have hdet : (lateral A).det ≠ 0 := by
    unfold condensed at ha
    simp only [Option.map_eq_some_iff] at ha
    obtain ⟨sv, e, -⟩ := ha
    exact (linSolve_spec e).1
  -- axial strain together with the lateral stresses
  let M : Matrix (Fin 6) (Fin 6) ℝ := fun i j => Fin.cases (if j = 0 then 1 else 0) (fun k => A k.succ j) i
  have hM : M.det ≠ 0 := by
    intro h
    obtain ⟨v, hv, e⟩ := exists_mulVec_eq_zero_iff.2 h
    have e0 : v 0 = 0 := by
      have := congrFun e 0
      simpa [M, mulVec, dotProduct, Fin.sum_univ_succ (n := 5)] using this
    refine hv ?_
    have : lateral A *ᵥ (fun k => v k.succ) = 0 := by
      funext k
      have := congrFun e k.succ
      simp only [M, mulVec, dotProduct, Fin.cases_succ, Fin.sum_univ_succ (n := 5), e0, mul_zero, zero_add] at this
      exact this
    have hz := eq_zero_of_mulVec_eq_zero hdet this
    funext j
    refine Fin.cases e0 (fun k => congrFun hz k) j
  let eq : (Fin 6 → ℝ) ≃ₗ[ℝ] (Fin 6 → ℝ) := Matrix.toLinearEquiv' M (M.invertibleOfIsUnitDet (Ne.isUnit hM))
  let ceq : (Fin 6 → ℝ) ≃L[ℝ] (Fin 6 → ℝ) := eq.toContinuousLinearEquiv
  let G : (Fin 6 → ℝ) → Fin 6 → ℝ := fun E => Fin.cons (E 0) fun k => S E k.succ
  have hceq : ∀ v, ceq v = M *ᵥ v := fun v => rfl
  have hG : HasStrictFDerivAt G (ceq : (Fin 6 → ℝ) →L[ℝ] (Fin 6 → ℝ)) E0 := by
    rw [hasStrictFDerivAt_pi']
    intro i
    refine Fin.cases ?_ (fun k => ?_) i
    · have : (ContinuousLinearMap.proj (R := ℝ) (φ := fun _ : Fin 6 => ℝ) 0).comp
          (ceq : (Fin 6 → ℝ) →L[ℝ] (Fin 6 → ℝ)) = ContinuousLinearMap.proj (R := ℝ) (φ := fun _ : Fin 6 => ℝ) 0 := by
        ext v
        have := hceq v
        simp only [ContinuousLinearMap.comp_apply, ContinuousLinearEquiv.coe_coe, ContinuousLinearMap.proj_apply, this]
        simp [M, mulVec, dotProduct, Fin.sum_univ_succ (n := 5)]
      rw [this]
      exact (ContinuousLinearMap.proj (R := ℝ) (φ := fun _ : Fin 6 => ℝ) 0).hasStrictFDerivAt
    · have h1 := (hasStrictFDerivAt_pi'.1 hS) k.succ
      have : (ContinuousLinearMap.proj (R := ℝ) (φ := fun _ : Fin 6 => ℝ) k.succ).comp
          (ceq : (Fin 6 → ℝ) →L[ℝ] (Fin 6 → ℝ)) =
          (ContinuousLinearMap.proj (R := ℝ) (φ := fun _ : Fin 6 => ℝ) k.succ).comp
            (LinearMap.toContinuousLinearMap (toLin' A)) := by
        ext v
        have := hceq v
        simp only [ContinuousLinearMap.comp_apply, ContinuousLinearEquiv.coe_coe, ContinuousLinearMap.proj_apply, this]
        rfl
      rw [this]
      exact h1
  let g := hG.localInverse G ceq E0
  have hg0 : G E0 = Fin.cons (E0 0) 0 := by
    funext i
    refine Fin.cases rfl (fun k => huni k) i
  have hgd : HasStrictFDerivAt g (ceq.symm : (Fin 6 → ℝ) →L[ℝ] (Fin 6 → ℝ)) (G E0) := hG.to_localInverse
  have hright : ∀ᶠ y in nhds (G E0), G (g y) = y := hG.eventually_right_inverse
  have hgE : g (G E0) = E0 := hG.localInverse_apply_image
  -- along the axial strain
  let c : ℝ → Fin 6 → ℝ := fun e => Fin.cons e 0
  have hc0 : c (E0 0) = G E0 := hg0.symm
  have hc : HasDerivAt c (Fin.cons 1 0) (E0 0) := by
    rw [hasDerivAt_pi]
    intro i
    refine Fin.cases ?_ (fun k => ?_) i
    · exact hasDerivAt_id _
    · exact hasDerivAt_const _ _
  have hcc : Filter.Tendsto c (nhds (E0 0)) (nhds (G E0)) := by
    rw [← hc0]; exact hc.continuousAt
  have hev : ∀ᶠ e in nhds (E0 0), G (g (c e)) = c e := hcc.eventually hright
  have hpath : HasDerivAt (fun e => g (c e)) (ceq.symm (Fin.cons 1 0)) (E0 0) := by
    have := hgd.hasFDerivAt
    rw [← hc0] at this
    exact this.comp_hasDerivAt (E0 0) hc
  have hfirst : ∀ᶠ e in nhds (E0 0), es2ev e (fun k => g (c e) k.succ) = g (c e) := by
    refine hev.mono fun e he => ?_
    funext i
    refine Fin.cases ?_ (fun k => rfl) i
    exact (congrFun he 0).symm
  have huni' : ∀ᶠ e in nhds (E0 0), ∀ k : Fin 5, S (g (c e)) k.succ = 0 :=
    hev.mono fun e he k => congrFun he k.succ
  have hx0 : g (c (E0 0)) = E0 := by rw [hc0, hgE]
  refine ⟨fun e k => g (c e) k.succ, fun k => by simp only [hx0], ?_, ?_⟩
  · exact (hfirst.and huni').mono fun e h k => by rw [h.1]; exact h.2 k
  · have hSc : Moves (fun e => S (g (c e))) (A *ᵥ (ceq.symm (Fin.cons 1 0))) (E0 0) := by
      have h1 := hS.hasFDerivAt
      rw [← hx0] at h1
      have h2 := h1.comp_hasDerivAt (E0 0) hpath
      exact hasDerivAt_pi.1 h2
    have hm : Moves (fun e => g (c e)) (ceq.symm (Fin.cons 1 0)) (E0 0) := hasDerivAt_pi.1 hpath
    have h1 := C70_tangent S (fun e => g (c e)) _ (E0 0) hm A hSc huni' a ha
    have e1 : (ceq.symm (Fin.cons 1 0)) 0 = 1 := by
      have := hceq (ceq.symm (Fin.cons 1 0))
      rw [ContinuousLinearEquiv.apply_symm_apply] at this
      have := congrFun this 0
      simpa [M, mulVec, dotProduct, Fin.sum_univ_succ (n := 5)] using this.symm
    rw [e1, mul_one] at h1
    exact h1.congr_of_eventuallyEq (hfirst.mono fun e h => by simp only [h])

/-- **C70.** If the material's tangent is positive, so is the reported one. -/
theorem C70_positive (A : Matrix (Fin 6) (Fin 6) ℝ) (hA : ∀ e : Fin 6 → ℝ, e ≠ 0 → 0 < e ⬝ᵥ (A *ᵥ e)) :
    ∃ a, condensed A = some a ∧ 0 < a := by
  have hdet : (lateral A).det ≠ 0 := by
    intro h
    obtain ⟨v, hv, e⟩ := exists_mulVec_eq_zero_iff.2 h
    have hne : (Fin.cons 0 v : Fin 6 → ℝ) ≠ 0 := fun h => hv (funext fun k => by
      have := congrFun h k.succ
      simpa using this)
    have := hA _ hne
    have e2 : (Fin.cons 0 v : Fin 6 → ℝ) ⬝ᵥ (A *ᵥ (Fin.cons 0 v : Fin 6 → ℝ)) = v ⬝ᵥ (lateral A *ᵥ v) := by
      simp only [dotProduct, mulVec, lateral, submatrix_apply, Fin.sum_univ_succ (n := 5), Fin.cons_zero,
        Fin.cons_succ, zero_mul, mul_zero, zero_add]
    rw [e2, e, dotProduct_zero] at this
    exact lt_irrefl _ this
  have hc : condensed A = some (A 0 0 - (fun k => A 0 (Fin.succ k)) ⬝ᵥ ((lateral A)⁻¹ *ᵥ fun k => A k.succ 0)) := by
    unfold condensed
    rw [linSolve_some hdet]
    rfl
  refine ⟨_, hc, ?_⟩
  obtain ⟨w, h1, h2⟩ := condensed_increment A _ hc
  have := hA w fun h => by rw [h] at h1; simp at h1
  rw [h2] at this
  simpa [dotProduct, Fin.sum_univ_succ, h1] using this

/-- **C70.** For an isotropic elastic material the reported tangent is Young's modulus. -/
theorem C70_young (G K : ℝ) (hG : 0 < G) (hK : 0 < K) : condensed (isoC G K) = some (9 * K * G / (3 * K + G)) := by
  obtain ⟨a, ha, -⟩ := C70_positive (isoC G K) ((C36_iso_positive G K).2 ⟨hG, hK⟩)
  rw [ha, Option.some.injEq]
  have h3 : 3 * K + G ≠ 0 := by positivity
  have e : isoC G K *ᵥ ![1, -((3 * K - 2 * G) / (2 * (3 * K + G))), -((3 * K - 2 * G) / (2 * (3 * K + G))), 0, 0, 0] =
      ![9 * K * G / (3 * K + G), 0, 0, 0, 0, 0] := by
    funext i
    fin_cases i <;> simp [isoC, mulVec, dotProduct, Fin.sum_univ_succ] <;> field_simp <;> ring
  have := C70_condensed _ a ha _ (fun k => by rw [e]; fin_cases k <;> rfl)
  rw [e] at this
  simpa using this.symm

/-! ## Histories -/

/-- The three-dimensional state a uniaxial state stands for. -/
def spread (st : State1 (Store H)) : State3 H :=
  ⟨Fin.cons st.e st.h.1, st.T, st.t, ![st.s, 0, 0, 0, 0, 0], st.h.2, st.u, st.p⟩

/-- Every step of a list in turn, with the states passed through. -/
def runs {σ Q : Type} (f : σ → Q → Option σ) : σ → List Q → Option (List σ)
  | _, [] => some []
  | s, q :: qs =>
    match f s q with
    | none => none
    | some s' => (runs f s' qs).map (s' :: ·)

/-- **C70.** A history of uniaxial updates is a history of the three-dimensional material: with exactly solved
systems, driving the material with the axial strains asked for and the lateral strains found gives the same
stresses (uniaxial at every step), stores, energies and dissipations. -/
theorem C70_history (m : Model3 H) (miter : Nat) (qs : List (ℝ × ℝ × ℝ)) (st : State1 (Store H))
    (sts : List (State1 (Store H))) (h : runs (step1 m 0 0 miter) st qs = some sts) :
    runs (step3 m) (spread st) (List.zipWith (fun q s => (Fin.cons q.1 s.h.1, q.2)) qs sts) =
      some (sts.map spread) := by
  induction qs generalizing st sts with
  | nil =>
    simp only [runs, Option.some.injEq] at h
    subst h
    rfl
  | cons q qs ih =>
    rw [runs] at h
    split at h
    · cases h
    · rename_i s' e
      simp only [Option.map_eq_some_iff] at h
      obtain ⟨rest, h, rfl⟩ := h
      have hrest := ih s' rest h
      simp only [step1, Option.map_eq_some_iff] at e
      obtain ⟨o, e, rfl⟩ := e
      obtain ⟨o3, h1, h2, h3, h4, h5⟩ := C70_exact m miter _ o e
      simp only [List.zipWith_cons_cons, List.map_cons, runs]
      have : step3 m (spread st) (Fin.cons q.1 o.h.1, q.2) = some (spread ⟨q.1, q.2.1, q.2.2, o.s, o.h, o.u, o.p⟩) := by
        simp only [step3, spread]
        rw [h1]
        simp only [Option.map_some, h2, h3, h4, h5]
      rw [this]
      simp only [hrest, Option.map_some]

/-- **C70.** A history that starts from the initial store is a history of the material that starts unstrained and
unstressed with its own initial store. -/
theorem C70_initial (m : Model3 H) (miter : Nat) (qs : List (ℝ × ℝ × ℝ)) (T t : ℝ) (sts : List (State1 (Store H)))
    (h : runs (step1 m 0 0 miter) ⟨0, T, t, 0, initStore m, 0, 0⟩ qs = some sts) :
    runs (step3 m) ⟨0, T, t, 0, m.init, 0, 0⟩ (List.zipWith (fun q s => (Fin.cons q.1 s.h.1, q.2)) qs sts) =
      some (sts.map spread) := by
  have e : spread (⟨0, T, t, 0, initStore m, 0, 0⟩ : State1 (Store H)) = ⟨0, T, t, 0, m.init, 0, 0⟩ := by
    simp only [spread, initStore, State3.mk.injEq, and_true, true_and]
    constructor <;> (funext k; fin_cases k <;> rfl)
  rw [← e]
  exact C70_history m miter qs _ sts h

/-! ## Elastic strains -/

/-- **C70.** The elastic strain reported is that of the material for materials that do not read their store. -/
theorem C70_elastic_partial (el : (Fin 6 → ℝ) → ℝ → List ℝ → Fin 6 → ℝ) (hel : ∀ s T h h', el s T h = el s T h')
    (s T : ℝ) (x h : List ℝ) : elasticStrains el s T (x ++ h) = el ![s, 0, 0, 0, 0, 0] T h 0 := by
  have hs : ss2sv s = ![s, 0, 0, 0, 0, 0] := by funext k; fin_cases k <;> rfl
  unfold elasticStrains
  rw [hs, hel _ _ _ h]

/-- **C70, disagreement.** A material that does read its store is handed the lateral strains in place of its first
five variables: here one whose compliance is its first variable. -/
theorem C70_elastic_disagreement :
    ∃ (el : (Fin 6 → ℝ) → ℝ → List ℝ → Fin 6 → ℝ) (x h : List ℝ), x.length = 5 ∧
      elasticStrains el 1 0 (x ++ h) ≠ el ![1, 0, 0, 0, 0, 0] 0 h 0 := by
  refine ⟨fun s _ h k => h.headD 0 * s k, [0, 0, 0, 0, 0], [1], rfl, ?_⟩
  simp [elasticStrains, ss2sv]

/-! ## Concrete cases -/

/-- A linear elastic material. -/
noncomputable def elastic (G K : ℝ) : Model3 Unit where
  update i := some ⟨isoC G K *ᵥ i.e1, (), isoC G K, 0, 0⟩
  alpha _ := 0
  init := ()

theorem lateral_det {A : Matrix (Fin 6) (Fin 6) ℝ} {a : ℝ} (h : condensed A = some a) : (lateral A).det ≠ 0 := by
  unfold condensed at h
  simp only [Option.map_eq_some_iff] at h
  obtain ⟨sv, e, -⟩ := h
  exact (linSolve_spec e).1

/-- The exactly solved update of a linear elastic material answers from every state, so the hypotheses above can be
met; the stress is Young's modulus times the strain. -/
example (G K : ℝ) (hG : 0 < G) (hK : 0 < K) (i : In1 (Store Unit)) : ∃ o, update (elastic G K) 0 0 20 i = some o ∧
    o.s = 9 * K * G / (3 * K + G) * i.e1 ∧ o.A = 9 * K * G / (3 * K + G) := by
  have hy := C70_young G K hG hK
  have hd := lateral_det hy
  have hrj : rj (elastic G K) i = fun _ x => some (lateral (isoC G K) *ᵥ x -
      (-fun k : Fin 5 => isoC G K k.succ 0 * i.e1), lateral (isoC G K), ()) := by
    funext u x
    simp only [rj, elastic, Option.map_some, Option.some.injEq, Prod.mk.injEq, and_true]
    funext k
    simp only [call, es2ev, mulVec, dotProduct, Fin.sum_univ_succ (n := 5), lateral, submatrix_apply, Pi.sub_apply,
      Pi.neg_apply, Fin.cons_zero, Fin.cons_succ]
    ring
  obtain ⟨x, hx, -⟩ := C112_linear (lateral (isoC G K)) hd (-fun k : Fin 5 => isoC G K k.succ 0 * i.e1) i.h0.1 0 0
    le_rfl le_rfl 20 (by norm_num)
  have hu : update (elastic G K) 0 0 20 i =
      some ⟨(isoC G K *ᵥ es2ev i.e1 x) 0, (x, ()), 9 * K * G / (3 * K + G), 0, 0⟩ := by
    unfold update
    rw [hrj, hx]
    simp only [elastic, hy, call]
  refine ⟨_, hu, ?_, rfl⟩
  obtain ⟨o3, h1, h2, -⟩ := C70_exact _ _ _ _ hu
  simp only [elastic, Option.some.injEq] at h1
  rw [← h1] at h2
  have hlat : ∀ k : Fin 5, (isoC G K *ᵥ es2ev i.e1 x) k.succ = 0 := by
    intro k
    refine (congrFun h2 k.succ).trans ?_
    fin_cases k <;> rfl
  rw [C70_condensed _ _ hy _ hlat]
  rfl

end Neml.Uniaxial
