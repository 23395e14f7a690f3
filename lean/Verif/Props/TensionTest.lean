import Verif.Props.DriverTests

/-!
# C122: the tension test -/

namespace Neml.DriverTests

open Matrix Neml.Driver Neml.PySolve Neml.Uniaxial

variable {H : Type}

theorem run_trans (d d1 d2 : Driver H) (ops ops' : List Op) (h : d.run ops = some d1) (h' : d1.run ops' = some d2) :
    d.run (ops ++ ops') = some d2 := by
  induction ops generalizing d with
  | nil => simp only [Driver.run, Option.some.injEq] at h; subst h; exact h'
  | cons o os ih =>
    simp only [Driver.run, Option.bind_eq_some_iff, List.cons_append] at h ⊢
    obtain ⟨d3, h3, h4⟩ := h
    exact ⟨d3, h3, ih d3 h4⟩

theorem run_prefix (d d' : Driver H) (ops : List Op) (h : d.run ops = some d') :
    d.strain.toList <+: d'.strain.toList ∧ d.stress.toList <+: d'.stress.toList := by
  induction ops generalizing d with
  | nil => simp only [Driver.run, Option.some.injEq] at h; subst h; exact ⟨List.prefix_refl _, List.prefix_refl _⟩
  | cons o os ih =>
    simp only [Driver.run, Option.bind_eq_some_iff] at h
    obtain ⟨d1, h1, h2⟩ := h
    obtain ⟨e, t, hs, -⟩ := step_strain d d1 o h1
    obtain ⟨_, -, -, -, -, -, -, -, f1, -, -, f4, -⟩ := strainStep_spec d d1 e t _ hs
    obtain ⟨g1, g2⟩ := ih d1 h2
    rw [f1, Series.push_toList] at g1
    rw [f4, Series.push_toList] at g2
    exact ⟨(List.prefix_append _ _).trans g1, (List.prefix_append _ _).trans g2⟩

namespace Tension

/-- The lists at the end of the loop: the first points of the ramp; and the driver has gone on from where it was. -/
theorem loop_went {d0 : Driver H} (a : Tension H) (hr : d0.rtol = 0) (ha : d0.atol = 0)
    (h0 : d0.t.before.length = d0.stress.before.length) (n : ℕ) (x : Rec H × Guess) (path : List (ℝ × ℝ)) (t e : ℝ)
    (h : On d0 a.T a.sdir x.1 path) (hp : path.getLast? = some (t, e)) (r : Rec H) (hl : a.loop n x = some r) :
    ∃ k ≤ n, Off d0 a.T a.sdir r (path ++ leg t e (a.emax / a.nsteps / a.erate) (a.emax / a.nsteps) k) ∧
      (r.d.t.toList.length = path.length + k + 1 → k < n ∧ a.damage r.d.stored.last = true) := by
  induction n generalizing x path t e with
  | zero =>
    simp only [loop, Option.some.injEq] at hl
    subst hl
    refine ⟨0, le_rfl, by simpa [leg] using h.off h0, fun hlen => ?_⟩
    rw [h.times, h.time, List.length_map] at hlen
    omega
  | succ n ih =>
    obtain ⟨ops, ho, -⟩ := h.run
    obtain ⟨tr, ta, -⟩ := run_tol _ _ _ ho
    have hdt : x.1.d.t.last = t := by
      refine toList_last (h.times.trans h.time) ?_
      rw [List.getLast?_map, hp]; rfl
    rw [loop] at hl
    cases hx : x.1.d.erateEincStep a.sdir a.erate (a.emax / a.nsteps) a.T (x.2.map Prod.fst) (x.2.map Prod.snd) with
    | none =>
      rw [hx] at hl
      simp only [Option.some.injEq] at hl
      subst hl
      refine ⟨0, Nat.zero_le _, by simpa [leg] using h.off h0, fun hlen => ?_⟩
      rw [h.times, h.time, List.length_map] at hlen
      omega
    | some q =>
      obtain ⟨d', de, s⟩ := q
      have hstep : x.1.d.step (.erateEinc a.sdir a.erate (a.emax / a.nsteps) a.T (x.2.map Prod.fst)
          (x.2.map Prod.snd)) = some d' := by simp [Driver.step, hx]
      rw [hx] at hl
      simp only at hl
      split at hl
      · rename_i hdam
        split at hl
        · cases hl
        · simp only [Option.some.injEq] at hl
          subst hl
          exact ⟨0, Nat.zero_le _, by simpa [leg] using h.over h0 _ d' hstep rfl, fun _ => ⟨Nat.succ_pos n, hdam⟩⟩
      · have hx' := hx
        simp only [Driver.erateEincStep] at hx'
        split_ifs at hx' with he
        obtain ⟨-, -, h3, h4⟩ := C71_erate _ (tr.trans hr) (ta.trans ha) _ _ _ _ _ _ _ _ _ hx'
        rw [hdt] at h4
        rw [h4] at hl
        have hon := h.note hp _ d' hstep rfl _ (a.emax / a.nsteps) h4 (by
          rw [h3, add_sub_cancel_left, mul_div_cancel₀ _ he]; ring)
        obtain ⟨k, hk, w1, w2⟩ := ih _ _ (t + a.emax / a.nsteps / a.erate) (e + a.emax / a.nsteps) hon (by simp) hl
        refine ⟨k + 1, by omega, by rw [leg_succ]; simpa using w1, fun hlen => ?_⟩
        have := w2 (by rw [hlen]; simp only [List.length_append, List.length_cons, List.length_nil]; omega)
        exact ⟨by omega, this.2⟩

theorem loop_run (a : Tension H) (n : ℕ) (x : Rec H × Guess) (r : Rec H) (hl : a.loop n x = some r) :
    ∃ ops, x.1.d.run ops = some r.d := by
  induction n generalizing x with
  | zero =>
    simp only [loop, Option.some.injEq] at hl
    subst hl
    exact ⟨[], rfl⟩
  | succ n ih =>
    rw [loop] at hl
    cases hx : x.1.d.erateEincStep a.sdir a.erate (a.emax / a.nsteps) a.T (x.2.map Prod.fst) (x.2.map Prod.snd) with
    | none =>
      rw [hx] at hl
      simp only [Option.some.injEq] at hl
      subst hl
      exact ⟨[], rfl⟩
    | some q =>
      obtain ⟨d', de, s⟩ := q
      have hstep : x.1.d.step (.erateEinc a.sdir a.erate (a.emax / a.nsteps) a.T (x.2.map Prod.fst)
          (x.2.map Prod.snd)) = some d' := by simp [Driver.step, hx]
      rw [hx] at hl
      simp only at hl
      split at hl
      · split at hl
        · cases hl
        · simp only [Option.some.injEq] at hl
          subst hl
          exact ⟨[_], by rw [Driver.run, hstep]; rfl⟩
      · obtain ⟨ops, ho⟩ := ih _ hl
        exact ⟨_ :: ops, by rw [Driver.run, hstep]; exact ho⟩

theorem driver_fields (c : Setup H) (T : ℝ) (hist : Option H) :
    (c.driver T hist).rtol = c.rtol ∧ (c.driver T hist).atol = c.atol ∧ (c.driver T hist).miter = c.miter ∧
      (c.driver T hist).model = c.model ∧ (c.driver T hist).stress = ⟨0, []⟩ ∧ (c.driver T hist).strain = ⟨0, []⟩ ∧
      (c.driver T hist).t = ⟨0, []⟩ ∧ (c.driver T hist).T = ⟨T, []⟩ ∧ (c.driver T hist).u = ⟨0, []⟩ ∧
      (c.driver T hist).p = ⟨0, []⟩ ∧ (c.driver T hist).thermal = ⟨0, []⟩ ∧ (c.driver T hist).nts = false ∧
      (c.driver T hist).stored.before = [] := by
  cases hist <;> simp [Setup.driver, Driver.new]

theorem new_on (c : Setup H) (T : ℝ) (hist : Option H) (sdir : Fin 6 → ℝ) :
    On (c.driver T hist) T sdir (Rec.new (c.driver T hist)) [(0, 0)] := by
  obtain ⟨-, -, -, -, h1, h2, h3, -⟩ := driver_fields c T hist
  refine ⟨?_, ?_, ?_, ?_, ?_, [], rfl, by simp⟩ <;> simp [Rec.new, h1, h2, h3, Series.toList]

end Tension

/-- What `Tension.run` has to have done. -/
theorem Tension.run_went (a : Tension H) (c : Setup H) (hr : c.rtol = 0) (ha : c.atol = 0) (o : TensionOut H)
    (h : a.run c = some o) : a.nsteps ≠ 0 ∧ ∃ r : Rec H, ∃ k ≤ a.nsteps,
      a.loop a.nsteps (Rec.new (c.driver a.T a.history), none) = some r ∧
      Off (c.driver a.T a.history) a.T a.sdir r ((0, 0) :: leg 0 0 (a.emax / a.nsteps / a.erate) (a.emax / a.nsteps) k) ∧
      (r.d.t.toList.length = k + 2 → k < a.nsteps ∧ a.damage r.d.stored.last = true) ∧
      o.strain = r.strain.toList ∧ o.stress = r.stress.toList ∧ o.energy = r.d.u.toList ∧ o.work = r.d.p.toList ∧
      o.history = r.d.stored.last ∧ ∃ e0 e el s0 s sl v0 v vl, r.strain.toList = e0 :: e :: el ∧
        r.stress.toList = s0 :: s :: sl ∧ r.d.strain.toList = v0 :: v :: vl ∧ e ≠ 0 ∧ o.youngs = |s| / |e| ∧
        o.poissons = -(v ⬝ᵥ a.tdir) / (v ⬝ᵥ a.sdir) := by
  obtain ⟨f1, f2, -, -, f4, -, f3, -⟩ := Tension.driver_fields c a.T a.history
  unfold Tension.run at h
  split_ifs at h with hn
  refine ⟨hn, ?_⟩
  cases hl : a.loop a.nsteps (Rec.new (c.driver a.T a.history), none) with
  | none => rw [hl] at h; cases h
  | some r =>
    obtain ⟨k, hk, w1, w2⟩ := Tension.loop_went a (f1.trans hr) (f2.trans ha) (by rw [f3, f4]; rfl) a.nsteps _ _ _ _
      (Tension.new_on c a.T a.history a.sdir) rfl r hl
    rw [hl] at h
    simp only at h
    split at h
    · rename_i e0 e el s0 s sl v0 v vl h1 h2 h3
      split_ifs at h with he
      simp only [Option.some.injEq] at h
      subst h
      exact ⟨r, k, hk, rfl, w1, fun hlen => w2 (by simp only [List.length_singleton]; omega), rfl, rfl, rfl, rfl, rfl,
        e0, e, el, s0, s, sl, v0, v, vl, h1, h2, h3, he, rfl, rfl⟩
    · cases h

/-- **C122.** The tension test returns strains and stresses of equal number, at least two. With exactly solved steps the
strains are `k emax / nsteps` for `k = 0, 1, ...` up to the last step made (times the length of the direction vector). -/
theorem C122_strains (a : Tension H) (c : Setup H) (hr : c.rtol = 0) (ha : c.atol = 0) (hs : norm2 a.sdir = 1)
    (o : TensionOut H) (h : a.run c = some o) :
    o.stress.length = o.strain.length ∧ 2 ≤ o.strain.length ∧ o.strain.length ≤ a.nsteps + 1 ∧
      ∀ k (hk : k < o.strain.length), o.strain[k] = k * (a.emax / a.nsteps) := by
  obtain ⟨hn, r, k, hk, -, w, -, e1, e2, -, -, -, x0, x, xl, -, -, -, -, -, -, hx, -⟩ := Tension.run_went a c hr ha o h
  have hlen : o.strain.length = k + 1 := by
    rw [e1, w.strain, List.length_map, List.length_cons, leg_length]
  refine ⟨?_, ?_, by omega, ?_⟩
  · rw [e2, w.lengths, hlen, List.length_cons, leg_length]
  · rw [e1, hx]; simp
  · intro i hi
    have : o.strain = ((0, 0) :: leg 0 0 (a.emax / a.nsteps / a.erate) (a.emax / a.nsteps) k).map Prod.snd := by
      rw [e1, w.strain, hs]; simp
    simp only [this, List.getElem_map]
    cases i with
    | zero => simp
    | succ i => simp [leg]

/-- **C122, as far as it goes.** The lists of energy and plastic work have the length of the list of strains if the test
has made all its steps, or a step was not solved. Missing: a test stopped by damage, see the next theorem. -/
theorem C122_energy_partial (a : Tension H) (c : Setup H) (hr : c.rtol = 0) (ha : c.atol = 0) (o : TensionOut H)
    (h : a.run c = some o) (hd : a.damage o.history = false ∨ o.strain.length = a.nsteps + 1) :
    o.energy.length = o.strain.length ∧ o.work.length = o.strain.length := by
  obtain ⟨hn, r, k, hk, hloop, w, wd, e1, -, e3, e4, e5, -⟩ := Tension.run_went a c hr ha o h
  have hlen : o.strain.length = k + 1 := by
    rw [e1, w.strain, List.length_map, List.length_cons, leg_length]
  have ht : r.d.t.toList.length = k + 1 := by
    have h1 := w.times.length_le
    have h2 := w.more
    rw [w.time] at h1
    simp only [List.length_map, List.length_cons, leg_length] at h1 h2
    by_contra hne
    have h3 := wd (by omega)
    rcases hd with hd | hd
    · rw [← e5, hd] at h3; exact absurd h3.2 (by simp)
    · omega
  obtain ⟨ops, ho, -⟩ := w.run
  obtain ⟨f1, f2, -, -, f4, -, f3, -, fu, fp, -⟩ := Tension.driver_fields c a.T a.history
  obtain ⟨m1, m2, m3, -⟩ := run_lengths _ _ _ ho
  rw [toList_len] at ht
  rw [e3, e4, toList_len, toList_len, m2, m3, hlen, fu, fp]
  rw [m1, f3] at ht
  simp only [List.length_nil] at ht ⊢
  omega

/-- **C122, disagreement.** A test stopped by damage returns one more energy and one more value of plastic work than
strains and stresses: here a material that is damaged after its second step. -/
theorem C122_energy_disagreement : ∃ (a : Tension ℕ) (c : Setup ℕ) (o : TensionOut ℕ), a.run c = some o ∧
    o.energy.length = o.strain.length + 1 := by
  -- the first two steps answer
  let d0 : Driver ℕ := (⟨counter, 0, 0, 25, 0⟩ : Setup ℕ).driver 300 none
  have hdir : (![1, 0, 0, 0, 0, 0] : Fin 6 → ℝ) ⬝ᵥ (1 : Matrix (Fin 6) (Fin 6) ℝ)⁻¹ *ᵥ ![1, 0, 0, 0, 0, 0] ≠ 0 := by
    simp [dotProduct, Fin.sum_univ_six]
  have hone : norm2 (![1, 0, 0, 0, 0, 0] : Fin 6 → ℝ) = 1 := by
    simp [norm2, Fin.sum_univ_six]
  have stored : ∀ (d d' : Driver ℕ) (g : (Fin 6 → ℝ) × ℝ) (eg : Option (Fin 6 → ℝ)) (ag : Option ℝ), d.model = counter →
      d.erateEincStep ![1, 0, 0, 0, 0, 0] (1 / 1000) (1 / 2 / (2 : ℕ)) 300 eg ag = some (d', g) →
      d'.stored.last = d.stored.last + 1 ∧ d'.model = counter ∧ d'.rtol = d.rtol ∧ d'.atol = d.atol ∧
        d'.miter = d.miter := by
    intro d d' g eg ag hm h
    rw [Driver.erateEincStep, if_neg (by norm_num)] at h
    obtain ⟨e, he⟩ := erateStep_strain _ _ _ _ _ _ _ _ h
    obtain ⟨o, ho, h1, -, h2, h3, h4, -, -, -, -, -, h5, -⟩ := strainStep_spec _ _ _ _ _ he
    rw [Driver.call, hm] at ho
    simp only [counter, Option.some.injEq] at ho
    exact ⟨by rw [h5, ← ho]; rfl, h1.trans hm, h2, h3, h4⟩
  obtain ⟨⟨d1, g1⟩, hx1⟩ := C71_elastic_einc d0 le_rfl le_rfl (by norm_num [d0, Setup.driver, Driver.new]) 1
    counter_elastic (by simp) ![1, 0, 0, 0, 0, 0] hdir (1 / 1000) (1 / 2 / (2 : ℕ)) 300 (by norm_num) (by norm_num) none none
  obtain ⟨s1, m1, r1, a1, i1⟩ := stored _ _ _ _ _ rfl hx1
  obtain ⟨⟨d2, g2⟩, hx2⟩ := C71_elastic_einc d1 r1.ge a1.ge (by rw [i1]; norm_num [d0, Setup.driver, Driver.new]) 1
    (by rw [m1]; exact counter_elastic) (by simp) ![1, 0, 0, 0, 0, 0] hdir (1 / 1000) (1 / 2 / (2 : ℕ)) 300 (by norm_num)
    (by norm_num) (some g1.1) (some g1.2)
  obtain ⟨s2, -⟩ := stored _ _ _ _ _ m1 hx2
  have hs1 : d1.stored.last = 1 := s1
  have hs2 : d2.stored.last = 2 := by rw [s2, hs1]
  let a : Tension ℕ := ⟨1 / 1000, 300, 1 / 2, 2, ![1, 0, 0, 0, 0, 0], ![0, 1, 0, 0, 0, 0], none, fun h => decide (2 ≤ h), false⟩
  have hloop : a.loop 2 (Rec.new d0, none) =
      some { (Rec.new d0).note ![1, 0, 0, 0, 0, 0] d1 d1.t.last with d := d2 } := by
    rw [Tension.loop]
    simp only [a, Rec.new, Option.map_none, hx1, hs1]
    rw [if_neg (by simp), Tension.loop]
    simp only [Rec.note, Option.map_some, hx2, hs2]
    rw [if_pos (by simp), if_neg (by simp)]
  have pushed : ∀ (d d' : Driver ℕ) (g : (Fin 6 → ℝ) × ℝ) (eg : Option (Fin 6 → ℝ)) (ag : Option ℝ),
      d.erateEincStep ![1, 0, 0, 0, 0, 0] (1 / 1000) (1 / 2 / (2 : ℕ)) 300 eg ag = some (d', g) →
      (∃ e, d'.strain = d.strain.push e) ∧ ∃ u, d'.u = d.u.push u := by
    intro d d' g eg ag h
    rw [Driver.erateEincStep, if_neg (by norm_num)] at h
    obtain ⟨e, he⟩ := erateStep_strain _ _ _ _ _ _ _ _ h
    obtain ⟨o, -, -, -, -, -, -, -, h1, -, -, -, -, -, -, h2, -⟩ := strainStep_spec _ _ _ _ _ he
    exact ⟨⟨_, h1⟩, _, h2⟩
  obtain ⟨⟨e1, he1⟩, u1, hu1⟩ := pushed _ _ _ _ _ hx1
  obtain ⟨⟨e2, he2⟩, u2, hu2⟩ := pushed _ _ _ _ _ hx2
  have hval : d1.strain.last ⬝ᵥ ![1, 0, 0, 0, 0, 0] = 1 / 4 := by
    obtain ⟨-, h, -⟩ := C71_einc d0 rfl rfl _ hone _ _ _ _ _ d1 g1.1 g1.2 hx1
    rw [sub_dotProduct] at h
    have h0 : d0.strain.last = 0 := rfl
    rw [h0, zero_dotProduct, sub_zero] at h
    rw [h]; norm_num
  refine ⟨a, ⟨counter, 0, 0, 25, 0⟩, ⟨[0, d1.strain.last ⬝ᵥ ![1, 0, 0, 0, 0, 0]], [0, d1.stress.last ⬝ᵥ ![1, 0, 0, 0, 0, 0]],
    d2.u.toList, d2.p.toList, |d1.stress.last ⬝ᵥ ![1, 0, 0, 0, 0, 0]| / |d1.strain.last ⬝ᵥ ![1, 0, 0, 0, 0, 0]|,
    -(e1 ⬝ᵥ ![0, 1, 0, 0, 0, 0]) / (e1 ⬝ᵥ ![1, 0, 0, 0, 0, 0]), d2.stored.last⟩, ?_, ?_⟩
  · unfold Tension.run
    rw [if_neg (by simp [a])]
    rw [show a.loop a.nsteps (Rec.new ((⟨counter, 0, 0, 25, 0⟩ : Setup ℕ).driver a.T a.history), none) = _ from hloop]
    have q1 : ((Rec.new d0).note ![1, 0, 0, 0, 0, 0] d1 d1.t.last).strain.toList =
      [0, d1.strain.last ⬝ᵥ ![1, 0, 0, 0, 0, 0]] := by simp [Rec.note, Rec.new, Series.push_toList]; rfl
    have q2 : ((Rec.new d0).note ![1, 0, 0, 0, 0, 0] d1 d1.t.last).stress.toList =
      [0, d1.stress.last ⬝ᵥ ![1, 0, 0, 0, 0, 0]] := by simp [Rec.note, Rec.new, Series.push_toList]; rfl
    have q3 : d2.strain.toList = [0, e1, e2] := by
      rw [he2, Series.push_toList, he1, Series.push_toList]; rfl
    simp only [q1, q2, q3]
    rw [if_neg (by rw [hval]; norm_num)]
  · simp only [hu2, hu1, Series.push_toList]
    rfl

/-- **C122.** For a linear elastic material with stiffness `C` the modulus returned is the one along the direction: for a
unit vector `n` it is `1 / (n · C⁻¹ n)`; and Poisson's ratio is minus the lateral over the axial compliance. -/
theorem C122_elastic (a : Tension H) (c : Setup H) (hr : c.rtol = 0) (ha : c.atol = 0)
    (C : Matrix (Fin 6) (Fin 6) ℝ) (hm : IsElastic c.model C) (hC : C.det ≠ 0) (hs : norm2 a.sdir = 1) (o : TensionOut H)
    (h : a.run c = some o) : o.youngs = 1 / |a.sdir ⬝ᵥ C⁻¹ *ᵥ a.sdir| ∧
      o.poissons = -(a.tdir ⬝ᵥ C⁻¹ *ᵥ a.sdir) / (a.sdir ⬝ᵥ C⁻¹ *ᵥ a.sdir) := by
  obtain ⟨hn, r, k, hk, hloop, w, -, e1, -, -, -, -, x0, x, xl, s0, s, sl, v0, v, vl, hx, hsx, hv, hx0, hy, hp⟩ :=
    Tension.run_went a c hr ha o h
  obtain ⟨f1, f2, -, f5, f4, f6, f3, f7, -, -, f8, -⟩ := Tension.driver_fields c a.T a.history
  obtain ⟨n, hn'⟩ := Nat.exists_eq_succ_of_ne_zero hn
  have hs2 : s = (r.d.stress.toList.getD 1 0) ⬝ᵥ a.sdir := by
    obtain ⟨l, hl⟩ := w.stresses
    have := congrArg (fun l => l[1]?) hl
    rw [hsx] at this
    simp only [List.cons_append, List.getElem?_cons_succ, List.getElem?_cons_zero, List.getElem?_map] at this
    cases hg : r.d.stress.toList[1]? with
    | none => rw [hg] at this; cases this
    | some z =>
      rw [hg] at this
      simp only [Option.map_some, Option.some.injEq] at this
      rw [List.getD_eq_getElem?_getD, hg]
      exact this
  have hx2 : x = v ⬝ᵥ a.sdir := by
    obtain ⟨l, hl⟩ := w.strains
    rw [hx, hv] at hl
    simp only [List.cons_append, List.map_cons, List.cons.injEq] at hl
    exact hl.2.1
  -- the first step
  have hloop' := hloop
  rw [hn', Tension.loop] at hloop'
  simp only [Option.map_none] at hloop'
  cases hx1 : (Rec.new (c.driver a.T a.history)).d.erateEincStep a.sdir a.erate (a.emax / a.nsteps) a.T none none with
  | none =>
    rw [hx1] at hloop'
    simp only [Option.some.injEq] at hloop'
    rw [← hloop'] at hx
    simp [Rec.new, Series.toList] at hx
  | some q =>
    obtain ⟨d1, g⟩ := q
    rw [hx1] at hloop'
    have hrun : ∃ ops, d1.run ops = some r.d := by
      simp only at hloop'
      split at hloop'
      · split at hloop'
        · cases hloop'
        · simp only [Option.some.injEq] at hloop'
          rw [← hloop'] at hx
          simp [Rec.new, Series.toList] at hx
      · exact Tension.loop_run a n _ r hloop'
    obtain ⟨ops, ho⟩ := hrun
    obtain ⟨pe, ps⟩ := run_prefix _ _ _ ho
    have hx1' : (c.driver a.T a.history).erateEincStep a.sdir a.erate (a.emax / a.nsteps) a.T none none =
      some (d1, g) := hx1
    rw [Driver.erateEincStep] at hx1'
    split_ifs at hx1' with he
    obtain ⟨g1, g2, -⟩ := C71_erate _ (f1.trans hr) (f2.trans ha) _ _ _ _ _ _ _ _ _ hx1'
    obtain ⟨e', hst⟩ := erateStep_strain _ _ _ _ _ _ _ _ hx1'
    obtain ⟨d1', hst', hstress⟩ := strainStep_elastic (c.driver a.T a.history) C (by rw [f5]; exact hm) e'
      ((c.driver a.T a.history).t.last + a.emax / a.nsteps / a.erate) a.T
    simp only at hst
    rw [hst] at hst'
    obtain rfl : d1 = d1' := Option.some.inj hst'
    obtain ⟨_, -, -, -, -, -, -, -, t1, -, -, t4, -⟩ := strainStep_spec _ _ _ _ _ hst
    have hth : (c.driver a.T a.history).thermalNext a.T = 0 := by
      simp [Driver.thermalNext, f7, f8]
    rw [hth, sub_zero] at hstress
    have hv1 : v = e' := by
      rw [t1, Series.push_toList, f6] at pe
      obtain ⟨l, hl⟩ := pe
      rw [hv] at hl
      simp only [Series.toList, List.reverse_nil, List.nil_append, List.cons_append, List.cons.injEq] at hl
      exact hl.2.1.symm
    have hss : r.d.stress.toList.getD 1 0 = d1.stress.last := by
      obtain ⟨l, hl⟩ := ps
      rw [t4, Series.push_toList, f4] at hl
      rw [← hl, t4]
      simp [Series.toList, Series.push]
    rw [g1, f4, hs, div_one] at hstress
    simp only [zero_add] at hstress
    have hve : v = g.2 • (C⁻¹ *ᵥ a.sdir) := by
      rw [hv1, ← mulVec_smul, hstress, mulVec_mulVec, nonsing_inv_mul _ (Ne.isUnit hC), one_mulVec]
    have hse : s = g.2 := by
      rw [hs2, hss, g1, f4, hs, div_one]
      simp only [zero_add]
      rw [smul_dotProduct, dot_self_norm, hs]
      simp
    have hxe : x = g.2 * (a.sdir ⬝ᵥ C⁻¹ *ᵥ a.sdir) := by
      rw [hx2, hve, smul_dotProduct, smul_eq_mul, dotProduct_comm]
    have hg : g.2 ≠ 0 := fun h => hx0 (by rw [hxe, h, zero_mul])
    refine ⟨?_, ?_⟩
    · rw [hy, hse, hxe, abs_mul]
      field_simp
    · rw [hp, hve, smul_dotProduct, smul_dotProduct, smul_eq_mul, smul_eq_mul, dotProduct_comm _ a.tdir,
        dotProduct_comm _ a.sdir]
      rw [neg_div, neg_div, mul_div_mul_left _ _ hg]

end Neml.DriverTests
