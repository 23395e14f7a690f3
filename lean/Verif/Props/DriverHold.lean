import Verif.Props.DriverJacobian

/-!
# C71: a strain hold of another component than the first fails

The Jacobian being wrong is not without effect: on an isotropic elastic material a hold of the second component
against a change of temperature raises, whatever the limits on iterations; Newton's method runs away and the line
search does not end. The same hold of the first component succeeds. -/

namespace Neml.Driver

open Matrix Neml.PySolve Neml.Uniaxial Neml.Elastic

/-- An isotropic elastic material with a constant expansion coefficient. -/
noncomputable def expanding (G K a : ℝ) : Model3 Unit where
  update i := some ⟨isoC G K *ᵥ i.e1, (), isoC G K, 0, 0⟩
  alpha _ := a
  init := ()

/-- The residual of the hold of the second component, written out. -/
def HR (mu la rho : ℝ) (x : Fin 6 → ℝ) : Fin 6 → ℝ :=
  ![x 1, (mu + la) * x 0 + la * x 1 + la * x 2 - rho, la * x 0 + la * x 1 + (mu + la) * x 2 - rho, mu * x 3, mu * x 4,
    mu * x 5]

/-- The Jacobian used. -/
def HJ (mu la : ℝ) : Matrix (Fin 6) (Fin 6) ℝ :=
  !![1, 0, 0, 0, 0, 0; mu + la, la, la, 0, 0, 0; la, la, mu + la, 0, 0, 0; 0, 0, 0, mu, 0, 0; 0, 0, 0, 0, mu, 0;
    0, 0, 0, 0, 0, mu]

theorem hold_rj (G K a : ℝ) (rtol atol : ℝ) (miter fuel : Nat) (T0 t1 T1 E : ℝ) (hE : E ≠ 0) (x : Fin 6 → ℝ) :
    (Driver.new (expanding G K a) rtol atol miter fuel T0 false).holdRJ 1 t1 T1 1 E x =
      some (HR (2 * G) (K - 2 / 3 * G) (3 * K * (a * (T1 - T0))) x, HJ (2 * G) (K - 2 / 3 * G)) := by
  simp only [Driver.holdRJ, if_neg hE, Driver.call, Driver.new, Driver.thermalNext, expanding, Option.map_some,
    Option.some.injEq, Prod.mk.injEq]
  constructor
  · funext k
    refine Fin.cases ?_ (fun k => ?_) k
    · simp [HR]
    · rw [Fin.cons_succ]
      fin_cases k <;>
        simp [HR, isoC, isoDir, mulVec, dotProduct, Fin.sum_univ_succ, Fin.succAbove] <;> ring
  · ext i j
    refine Fin.cases ?_ (fun k => ?_) i
    · fin_cases j <;> simp [HJ]
    · rw [of_apply]
      simp only [Fin.cases_succ]
      fin_cases k <;> fin_cases j <;> simp [HJ, isoC, Fin.succAbove] <;> ring

theorem HJ_solve (mu la : ℝ) (hm : mu ≠ 0) (hl : la ≠ 0) (a r : Fin 6 → ℝ) (h : HJ mu la *ᵥ a = r) :
    linSolve (HJ mu la) r = some a := by
  have hdet : (HJ mu la).det ≠ 0 := by
    intro h
    obtain ⟨v, hv, e⟩ := exists_mulVec_eq_zero_iff.2 h
    refine hv ?_
    have e0 := congrFun e 0
    have e1 := congrFun e 1
    have e2 := congrFun e 2
    have e3 := congrFun e 3
    have e4 := congrFun e 4
    have e5 := congrFun e 5
    simp [HJ, mulVec, dotProduct, Fin.sum_univ_succ, hm] at e0 e1 e2 e3 e4 e5
    have h2 : v 2 = 0 := by
      have : mu * v 2 = 0 := by rw [e0] at e1 e2; linarith
      exact (mul_eq_zero.1 this).resolve_left hm
    have h1 : v 1 = 0 := by
      rw [e0, h2] at e1
      have : la * v 1 = 0 := by linarith
      exact (mul_eq_zero.1 this).resolve_left hl
    funext k
    fin_cases k
    · exact e0
    · exact h1
    · exact h2
    · exact e3
    · exact e4
    · exact e5
  rw [linSolve_some hdet, ← h, mulVec_mulVec, nonsing_inv_mul _ (Ne.isUnit hdet), one_mulVec]

/-- The Newton direction where only the held strain is off. -/
noncomputable def dirn (mu la y : ℝ) : Fin 6 → ℝ := ![y, -((mu + 2 * la) / la * y), y, 0, 0, 0]

theorem dirn_solve (mu la y : ℝ) (hm : mu ≠ 0) (hl : la ≠ 0) :
    linSolve (HJ mu la) ![y, 0, 0, 0, 0, 0] = some (dirn mu la y) := by
  refine HJ_solve mu la hm hl _ _ ?_
  funext k
  fin_cases k <;> simp [HJ, dirn, mulVec, dotProduct, Fin.sum_univ_succ] <;> field_simp <;> ring

theorem HR_step (mu la rho y al : ℝ) (hl : la ≠ 0) (x : Fin 6 → ℝ)
    (hx : HR mu la rho x = ![y, 0, 0, 0, 0, 0]) :
    HR mu la rho (x - al • dirn mu la y) = ![(1 + al * ((mu + 2 * la) / la)) * y, 0, 0, 0, 0, 0] := by
  have e := fun k => congrFun hx k
  have e0 := e 0
  have e1 := e 1
  have e2 := e 2
  have e3 := e 3
  have e4 := e 4
  have e5 := e 5
  simp only [HR, cons_val] at e0 e1 e2 e3 e4 e5
  funext k
  fin_cases k
  · simp only [HR, dirn, Fin.zero_eta, cons_val, Pi.sub_apply, Pi.smul_apply, smul_eq_mul, e0]
    ring
  · simp only [HR, dirn, Fin.mk_one, cons_val, Pi.sub_apply, Pi.smul_apply, smul_eq_mul]
    have : la * (al * -((mu + 2 * la) / la * y)) = -(al * (mu + 2 * la) * y) := by field_simp
    linear_combination e1 - this
  · simp only [HR, dirn, Fin.reduceFinMk, cons_val, Pi.sub_apply, Pi.smul_apply, smul_eq_mul]
    have : la * (al * -((mu + 2 * la) / la * y)) = -(al * (mu + 2 * la) * y) := by field_simp
    linear_combination e2 - this
  · simp only [HR, dirn, Fin.reduceFinMk, cons_val, Pi.sub_apply, Pi.smul_apply, smul_eq_mul]
    linear_combination e3
  · simp only [HR, dirn, Fin.reduceFinMk, cons_val, Pi.sub_apply, Pi.smul_apply, smul_eq_mul]
    linear_combination e4
  · simp only [HR, dirn, Fin.reduceFinMk, cons_val, Pi.sub_apply, Pi.smul_apply, smul_eq_mul]
    linear_combination e5

theorem norm2_first (y : ℝ) : norm2 ![y, 0, 0, 0, 0, 0] = |y| := by
  rw [norm2, Fin.sum_univ_six]
  simp [Real.sqrt_sq_eq_abs]

/-- From a point where only the held strain is off, Newton's method never answers. -/
theorem plain_stuck (mu la rho : ℝ) (hm : 0 < mu) (hl : 0 < la) (rtol atol nR0 : ℝ) (k : Nat) (x : Fin 6 → ℝ) (y : ℝ)
    (hx : HR mu la rho x = ![y, 0, 0, 0, 0, 0]) (h1 : rtol * nR0 < |y|) (h2 : atol < |y|) :
    loop (plain (σ := Unit) fun _ x => some (HR mu la rho x, HJ mu la, ())) rtol atol nR0 k () x (HR mu la rho x)
      (HJ mu la) = none := by
  have hnd : ∀ z : ℝ, |y| ≤ |z| → ¬ Done rtol atol nR0 (norm2 ![z, 0, 0, 0, 0, 0]) := fun z hz => by
    rw [done_iff, norm2_first, not_or]
    exact ⟨not_le.2 (h1.trans_le hz), not_le.2 (h2.trans_le hz)⟩
  induction k generalizing x y with
  | zero =>
    rw [loop]
    exact if_neg (by rw [hx]; exact hnd y le_rfl)
  | succ k ih =>
    rw [loop]
    have : ¬ Done rtol atol nR0 ((plain (σ := Unit) fun _ x => some (HR mu la rho x, HJ mu la, ())).size
        (HR mu la rho x)) := by rw [hx]; exact hnd y le_rfl
    rw [if_neg this]
    have hs := HR_step mu la rho y 1 hl.ne' x hx
    rw [one_smul, one_mul] at hs
    have hgrow : |y| ≤ |(1 + (mu + 2 * la) / la) * y| := by
      rw [abs_mul]
      have : 1 ≤ |1 + (mu + 2 * la) / la| := by
        rw [abs_of_nonneg (by positivity)]
        have : 0 ≤ (mu + 2 * la) / la := by positivity
        linarith
      nlinarith [abs_nonneg y]
    simp only [plain]
    rw [hx, dirn_solve mu la y hm.ne' hl.ne']
    simp only [Option.map_some]
    exact ih (x - dirn mu la y) _ hs (h1.trans_le hgrow) (h2.trans_le hgrow) fun z hz => hnd z (hgrow.trans hz)

/-- From such a point the line search does not end. -/
theorem search_endless (mu la rho : ℝ) (hm : 0 < mu) (hl : 0 < la) (tau c : ℝ) (ht : 0 < tau ∧ tau ≤ 1)
    (hc : 0 < c ∧ c ≤ 1) (x : Fin 6 → ℝ) (y : ℝ) (hy : y ≠ 0) (hx : HR mu la rho x = ![y, 0, 0, 0, 0, 0]) (fuel : Nat) (al : ℝ)
    (hal : 0 < al ∧ al ≤ 1) :
    backtrack (σ := Unit) (fun _ x => some (HR mu la rho x, HJ mu la, ())) (HR mu la rho x) (HJ mu la) x
      (-dirn mu la y) tau c fuel al () = none := by
  induction fuel generalizing al with
  | zero => rfl
  | succ fuel ih =>
    rw [backtrack]
    have e1 : x + al • -dirn mu la y = x - al • dirn mu la y := by rw [smul_neg, ← sub_eq_add_neg]
    have e2 : HR mu la rho x + (c * al) • (HJ mu la *ᵥ -dirn mu la y) = ![(1 - c * al) * y, 0, 0, 0, 0, 0] := by
      rw [mulVec_neg, (linSolve_spec (dirn_solve mu la y hm.ne' hl.ne')).2, hx]
      funext k
      fin_cases k <;> simp
      ring
    rw [e1]
    simp only [HR_step mu la rho y al hl.ne' x hx, e2, norm2_first]
    have : |(1 - c * al) * y| < |(1 + al * ((mu + 2 * la) / la)) * y| := by
      rw [abs_mul, abs_mul]
      refine mul_lt_mul_of_pos_right ?_ (abs_pos.2 hy)
      have h1 : c * al ≤ 1 := by nlinarith [hal.1, hal.2, hc.1, hc.2]
      have h2 : 0 < al * ((mu + 2 * la) / la) := mul_pos hal.1 (by positivity)
      rw [abs_of_nonneg (by linarith), abs_of_pos (by linarith)]
      have := mul_pos hc.1 hal.1
      linarith
    rw [if_pos this]
    exact ih (al * tau) ⟨mul_pos hal.1 ht.1, by nlinarith [hal.1, hal.2, ht.1, ht.2]⟩

theorem search_stuck (mu la rho : ℝ) (hm : 0 < mu) (hl : 0 < la) (tau c : ℝ) (ht : 0 < tau ∧ tau ≤ 1)
    (hc : 0 < c ∧ c ≤ 1) (fuel : Nat) (rtol atol nR0 : ℝ) (k : Nat) (x : Fin 6 → ℝ) (y : ℝ) (hy : y ≠ 0)
    (hx : HR mu la rho x = ![y, 0, 0, 0, 0, 0]) (h1 : rtol * nR0 < |y|) (h2 : atol < |y|) :
    loop (searching (σ := Unit) (fun _ x => some (HR mu la rho x, HJ mu la, ())) tau c fuel) rtol atol nR0 k () x
      (HR mu la rho x) (HJ mu la) = none := by
  have hnd : ¬ Done rtol atol nR0 ((searching (σ := Unit) (fun _ x => some (HR mu la rho x, HJ mu la, ())) tau c
      fuel).size (HR mu la rho x)) := by
    show ¬ Done rtol atol nR0 (norm2 (HR mu la rho x))
    rw [hx, done_iff, norm2_first, not_or]
    exact ⟨not_le.2 h1, not_le.2 h2⟩
  cases k with
  | zero => rw [loop]; exact if_neg hnd
  | succ k =>
    rw [loop, if_neg hnd]
    have hnext : (searching (σ := Unit) (fun _ x => some (HR mu la rho x, HJ mu la, ())) tau c fuel).next () x
        (HR mu la rho x) (HJ mu la) = none := by
      simp only [searching]
      have hd : linSolve (HJ mu la) (HR mu la rho x) = some (dirn mu la y) := by
        rw [hx]; exact dirn_solve mu la y hm.ne' hl.ne'
      rw [hd]
      simp only [search_endless mu la rho hm hl tau c ht hc x y hy hx fuel 1 ⟨one_pos, le_rfl⟩, Option.map_none]
    rw [hnext]

/-- The first Newton direction, from zero strain. -/
theorem first_solve (mu la rho : ℝ) (hm : mu ≠ 0) (hl : la ≠ 0) :
    linSolve (HJ mu la) (HR mu la rho 0) = some ![0, -(rho / la), 0, 0, 0, 0] := by
  refine HJ_solve mu la hm hl _ _ ?_
  funext k
  fin_cases k <;> simp [HJ, HR, mulVec, dotProduct, Fin.sum_univ_succ] <;> field_simp

theorem first_point (mu la rho : ℝ) (hl : la ≠ 0) :
    HR mu la rho (0 - ![0, -(rho / la), 0, 0, 0, 0]) = ![rho / la, 0, 0, 0, 0, 0] := by
  funext k
  fin_cases k <;> simp [HR] <;> field_simp <;> ring

theorem first_norm (mu la rho : ℝ) : norm2 (HR mu la rho 0) = √2 * |rho| := by
  rw [norm2, Fin.sum_univ_six]
  simp only [HR, cons_val, Pi.zero_apply, mul_zero, add_zero, zero_sub]
  rw [show (0 : ℝ) ^ 2 + (-rho) ^ 2 + (-rho) ^ 2 + 0 ^ 2 + 0 ^ 2 + 0 ^ 2 = 2 * rho ^ 2 by ring,
    Real.sqrt_mul (by norm_num), Real.sqrt_sq_eq_abs]

/-- **C71, disagreement.** A strain hold of the second component of a fresh isotropic elastic specimen against a
change of temperature raises, whatever the limits on iterations, although a solution exists: the specimen is free in all
other directions. (Lamé's first constant is at least one and not too large for the relative tolerance, in the units
used; the strain to be corrected is above the absolute tolerance.) -/
theorem C71_hold_fails (G K a : ℝ) (hG : 0 < G) (hla : 1 ≤ K - 2 / 3 * G) (rtol atol : ℝ) (hr : 0 ≤ rtol)
    (hrla : rtol * (√2 * (K - 2 / 3 * G)) < 1) (miter fuel : Nat) (T0 t1 T1 E : ℝ)
    (hat : atol < 3 * K * |a * (T1 - T0)| / (K - 2 / 3 * G)) (hT : a * (T1 - T0) ≠ 0) (hE : E ≠ 0) :
    (Driver.new (expanding G K a) rtol atol miter fuel T0 false).holdStep 1 t1 T1 1 E = none := by
  set d := Driver.new (expanding G K a) rtol atol miter fuel T0 false with hd
  have hm : (0 : ℝ) < 2 * G := by linarith
  set la := K - 2 / 3 * G with hladef
  have hl : 0 < la := by linarith
  have hK : 0 < K := by linarith
  set rho := 3 * K * (a * (T1 - T0)) with hrho
  have hrho0 : rho ≠ 0 := mul_ne_zero (by linarith) hT
  have habs : |rho| = 3 * K * |a * (T1 - T0)| := by rw [hrho, abs_mul, abs_of_pos (by linarith : 0 < 3 * K)]
  rw [← habs] at hat
  set y := rho / la with hy
  have hy0 : y ≠ 0 := div_ne_zero hrho0 hl.ne'
  have hyabs : |y| = |rho| / la := by rw [hy, abs_div, abs_of_pos hl]
  have hs2 : (1 : ℝ) ≤ √2 := by
    rw [show (1 : ℝ) = √1 from Real.sqrt_one.symm]
    exact Real.sqrt_le_sqrt (by norm_num)
  have hpos : 0 < |rho| := abs_pos.2 hrho0
  have hya : atol < |y| := by rw [hyabs]; exact hat
  have hyr : rtol * (√2 * |rho|) < |y| := by
    rw [hyabs, lt_div_iff₀ hl]
    nlinarith [mul_lt_mul_of_pos_right hrla hpos]
  have hyle : |y| ≤ |rho| := by
    rw [hyabs, div_le_iff₀ hl]
    nlinarith
  -- not converged at the start
  have hnd : ¬ Done rtol atol (norm2 (HR (2 * G) la rho 0)) (norm2 (HR (2 * G) la rho 0)) := by
    rw [first_norm, done_iff, not_or, not_le, not_le]
    refine ⟨hyr.trans_le (hyle.trans ?_), hya.trans_le (hyle.trans ?_)⟩ <;> nlinarith
  have hx1 := first_point (2 * G) la rho hl.ne'
  let f : VecRJ Unit 6 := fun _ x => some (HR (2 * G) la rho x, HJ (2 * G) la, ())
  have hplain : newton f rtol atol miter () 0 = none := by
    unfold newton solve
    simp only [plain, f]
    cases miter with
    | zero => rw [loop]; exact if_neg hnd
    | succ k =>
      rw [loop]
      rw [if_neg hnd]
      simp only [first_solve (2 * G) la rho hm.ne' hl.ne', Option.map_some]
      refine plain_stuck (2 * G) la rho hm hl rtol atol _ k _ y hx1 ?_ hya
      rw [first_norm]; exact hyr
  have hsearch : newtonSearch f rtol atol miter (1 / 2) (1 / 10000) fuel () 0 = none := by
    unfold newtonSearch solve
    simp only [searching, f]
    cases miter with
    | zero => rw [loop]; exact if_neg hnd
    | succ k =>
      rw [loop]
      rw [if_neg hnd]
      simp only [first_solve (2 * G) la rho hm.ne' hl.ne']
      cases fuel with
      | zero => rfl
      | succ fuel =>
        have hacc : ¬ norm2 (HR (2 * G) la rho 0 + ((1 / 10000 : ℝ) * 1) •
            (HJ (2 * G) la *ᵥ -![0, -(rho / la), 0, 0, 0, 0])) <
            norm2 (HR (2 * G) la rho (0 + (1 : ℝ) • -![0, -(rho / la), 0, 0, 0, 0])) := by
          rw [mulVec_neg, (linSolve_spec (first_solve (2 * G) la rho hm.ne' hl.ne')).2, one_smul, ← sub_eq_add_neg, hx1,
            norm2_first, smul_neg, ← sub_eq_add_neg, not_lt, ← hy]
          have : HR (2 * G) la rho 0 - ((1 / 10000 : ℝ) * 1) • HR (2 * G) la rho 0 =
              (9999 / 10000 : ℝ) • HR (2 * G) la rho 0 := by
            funext k
            simp only [Pi.sub_apply, Pi.smul_apply, smul_eq_mul]
            ring
          rw [this, norm2_smul, first_norm, abs_of_pos (by norm_num : (0 : ℝ) < 9999 / 10000)]
          have h7 : (7 / 5 : ℝ) ≤ √2 := by
            rw [show (7 / 5 : ℝ) = √((7 / 5) ^ 2) from (Real.sqrt_sq (by norm_num)).symm]
            exact Real.sqrt_le_sqrt (by norm_num)
          refine hyle.trans ?_
          nlinarith
        have hb : backtrack f (HR (2 * G) la rho 0) (HJ (2 * G) la) 0 (-![0, -(rho / la), 0, 0, 0, 0]) (1 / 2) (1 / 10000)
            (fuel + 1) 1 () = some (1, ()) := by
          rw [backtrack]
          simp only [f, if_neg hacc]
        simp only [f] at hb
        rw [hb]
        simp only [Option.map_some, one_smul]
        refine search_stuck (2 * G) la rho hm hl (1 / 2) (1 / 10000) ⟨by norm_num, by norm_num⟩
          ⟨by norm_num, by norm_num⟩ (fuel + 1) rtol atol _ k _ y hy0 hx1 ?_ hya
        rw [first_norm]; exact hyr
  have hq : ¬(¬ IsClose 1 1 ∧ IsClose E (-1)) := fun h => h.1 (by
    unfold IsClose
    norm_num)
  have hrj : d.holdRJ 1 t1 T1 1 E = fun x => some (HR (2 * G) la rho x, HJ (2 * G) la) :=
    funext fun x => hold_rj G K a rtol atol miter fuel T0 t1 T1 E hE x
  have hst : d.solveTry (d.holdRJ 1 t1 T1 1 E) d.strain.last [] = none := by
    rw [hrj]
    simp only [Driver.solveTry, PySolve.solveTry, firstSuccess, List.findSome?_cons, List.findSome?_nil, Option.map_some]
    simp only [f] at hplain hsearch
    have e0 : d.strain.last = 0 := rfl
    have e1 : d.rtol = rtol := rfl
    have e2 : d.atol = atol := rfl
    have e3 : d.miter = miter := rfl
    have e4 : d.fuel = fuel := rfl
    rw [e0, e1, e2, e3, e4, hplain, hsearch]
    rfl
  unfold Driver.holdStep
  rw [if_neg hq, hst]

/-- **C71.** The same hold of the first component succeeds, if one iteration is allowed. -/
theorem C71_hold_first (G K a : ℝ) (hG : 0 < G) (hK : 0 < K) (rtol atol : ℝ) (hr : 0 ≤ rtol) (ha : 0 ≤ atol)
    (miter fuel : Nat) (hmi : 0 < miter) (T0 t1 T1 E : ℝ) (hE : E ≠ 0) :
    ∃ d', (Driver.new (expanding G K a) rtol atol miter fuel T0 false).holdStep 0 t1 T1 1 E = some d' := by
  set d := Driver.new (expanding G K a) rtol atol miter fuel T0 false with hd
  let th := a * (T1 - T0)
  let A : Matrix (Fin 6) (Fin 6) ℝ := of fun r j =>
    Fin.cases (if j = 0 then 1 else 0) (fun k => isoC G K (Fin.succ k) j) r
  have hdet : A.det ≠ 0 := by
    intro h
    obtain ⟨v, hv, e⟩ := exists_mulVec_eq_zero_iff.2 h
    have e0 : v 0 = 0 := by
      have := congrFun e 0
      simpa [A, mulVec, dotProduct, Fin.sum_univ_succ] using this
    have hpos := (C36_iso_positive G K).2 ⟨hG, hK⟩ v hv
    have hz : v ⬝ᵥ (isoC G K *ᵥ v) = 0 := by
      rw [dotProduct, Fin.sum_univ_succ (n := 5), e0, zero_mul, zero_add]
      refine Finset.sum_eq_zero fun k _ => ?_
      have : (isoC G K *ᵥ v) k.succ = 0 := by
        have := congrFun e k.succ
        simpa [A, mulVec, dotProduct] using this
      rw [this, mul_zero]
    rw [hz] at hpos
    exact lt_irrefl _ hpos
  let b : Fin 6 → ℝ := Fin.cons 0 fun k : Fin 5 => (isoC G K *ᵥ (th • isoDir)) k.succ
  have hrj : d.holdRJ 0 t1 T1 1 E = fun x => some (A *ᵥ x - b, A) := by
    funext x
    simp only [Driver.holdRJ, if_neg hE, Driver.call, hd, Driver.new, Driver.thermalNext, expanding, Option.map_some,
      Option.some.injEq, Prod.mk.injEq]
    constructor
    · funext k
      refine Fin.cases ?_ (fun k => ?_) k
      · simp [A, b, mulVec, dotProduct, Fin.sum_univ_succ]
      · simp only [Fin.cons_succ, Fin.zero_succAbove, Pi.sub_apply, b, Pi.zero_apply, sub_zero, if_neg (by simp : ¬ false = true),
          zero_add, mulVec_sub]
        have e1 : (T1 - T0) * (a + a) / 2 = th := by simp only [th]; ring
        rw [e1]
        congr 1
    · ext i j
      refine Fin.cases ?_ (fun k => ?_) i
      · simp [A]
      · simp [A]
  obtain ⟨x, hx, -⟩ := C112_linear A hdet b 0 rtol atol hr ha miter hmi
  have hst : d.solveTry (d.holdRJ 0 t1 T1 1 E) d.strain.last [] = some x := by
    rw [hrj]
    exact C112_first _ _ _ _ _ _ _ _ hx
  have hq : ¬(¬ IsClose 1 1 ∧ IsClose E (-1)) := fun h => h.1 (by
    unfold IsClose
    norm_num)
  unfold Driver.holdStep
  rw [if_neg hq, hst]
  exact ⟨_, rfl⟩

/-! ## Concrete cases -/

/-- The hypotheses of the failing hold can be met: shear modulus 3/2, bulk modulus 2, a unit change of temperature. -/
example : (Driver.new (expanding (3 / 2) 2 1) (1 / 10 ^ 6) (1 / 10 ^ 10) 25 1000 0 false).holdStep 1 1 1 1 (-1) =
    none := by
  refine C71_hold_fails (3 / 2) 2 1 (by norm_num) (by norm_num) _ _ (by norm_num) ?_ 25 1000 0 1 1 (-1) ?_ (by norm_num)
    (by norm_num)
  · have : √2 ≤ 2 := by
      rw [show (2 : ℝ) = √(2 ^ 2) from (Real.sqrt_sq (by norm_num)).symm]
      exact Real.sqrt_le_sqrt (by norm_num)
    norm_num
    linarith
  · norm_num

/-- The tangent of the elastic material is right, from every driver state with it. -/
example (G K a : ℝ) (d : Driver Unit) (hd : d.model = expanding G K a) (t1 T1 : ℝ) : TangentRight d t1 T1 := by
  refine ⟨fun e => isoC G K *ᵥ (e - d.thermalNext T1), fun _ => isoC G K, fun e => ?_, ?_⟩
  · simp only [Driver.call, hd, expanding, Option.map_some]
  · intro X X' τ hX
    exact Neml.Damage.Moves.mulVec _ fun k => (hX k).sub_const _

/-- A run of two strain steps and a hold is recorded. -/
example : ∃ d, (Driver.new (expanding 1 1 1) 0 0 5 5 0 false).run
    [.strain ![1, 0, 0, 0, 0, 0] 1 2, .strain ![2, 0, 0, 0, 0, 0] 3 4] = some d ∧ d.t.toList = [0, 1, 3] ∧
    d.T.toList = [0, 2, 4] := by
  have : ∃ d, (Driver.new (expanding 1 1 1) 0 0 5 5 0 false).run
    [.strain ![1, 0, 0, 0, 0, 0] 1 2, .strain ![2, 0, 0, 0, 0, 0] 3 4] = some d := ⟨_, rfl⟩
  obtain ⟨d, hd⟩ := this
  obtain ⟨rows, -, -, -, -, hT, ht⟩ := C71_record _ _ _ _ _ _ _ _ d hd
  exact ⟨d, hd, ht [1, 3] rfl, hT⟩

end Neml.Driver
