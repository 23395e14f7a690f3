import Verif.Model.NumJac
import Mathlib.Analysis.Calculus.Deriv.Basic
import Mathlib.Analysis.Calculus.Deriv.Slope
import Mathlib.Analysis.Calculus.Deriv.Pow
import Mathlib.Data.Matrix.Mul
import Mathlib.Tactic.Linarith
import Mathlib.Tactic.FieldSimp
import Mathlib.Tactic.NormNum
import Mathlib.Tactic.Positivity
import Mathlib.Tactic.FinCases

/-!
# C170, C171: the numerical Jacobian, and verbose solves
-/

namespace Neml.NumJac

open Neml.Newton Matrix Filter Topology

variable {n : Nat}

theorem stepSize_pos {eps : ℝ} (h : 0 < eps) (a : ℝ) : 0 < stepSize eps a := by
  unfold stepSize
  split_ifs with hc
  · exact h
  · exact h.trans_le (not_lt.mp hc)

theorem stepSize_le {eps : ℝ} (h : 0 < eps) (a : ℝ) : stepSize eps a ≤ eps * (1 + |a|) := by
  unfold stepSize
  have := abs_nonneg a
  split_ifs <;> nlinarith

/-- The loop over the columns writes each listed column once and leaves the others. -/
theorem columns_eq {sys : System n} {x R0 : Fin n → ℝ} {eps : ℝ} {c : Fin n → Fin n → ℝ} (is : List (Fin n))
    (h : ∀ i ∈ is, column sys x R0 eps i = some (c i)) (nJ : Matrix (Fin n) (Fin n) ℝ) :
    columns sys x R0 eps is nJ = some (of fun j k => if k ∈ is then c k j else nJ j k) := by
  induction is generalizing nJ with
  | nil => simp only [columns, List.not_mem_nil, if_false]; rfl
  | cons i is ih =>
    rw [columns, h i (by simp)]
    simp only
    rw [ih fun k hk => h k (by simp [hk])]
    congr 1
    ext j k
    by_cases hk : k ∈ is
    · simp [hk]
    · by_cases hi : k = i <;> simp [hk, hi]

theorem diffJac_eq {sys : System n} {x R0 : Fin n → ℝ} {J : Matrix (Fin n) (Fin n) ℝ} {eps : ℝ}
    {c : Fin n → Fin n → ℝ} (h0 : sys.RJ x = some (R0, J)) (h : ∀ i, column sys x R0 eps i = some (c i))
    (nJ : Matrix (Fin n) (Fin n) ℝ) : diffJac sys x eps nJ = some (of fun j k => c k j) := by
  rw [diffJac, h0]
  simp only
  rw [columns_eq (c := c) _ fun i _ => h i]
  simp

/-- **C170** (affine systems). For a system whose residual is `A x + b` the numerical Jacobian is `A`, whatever the
point, the step and the former contents of the array. -/
theorem C170_affine (sys : System n) (A : Matrix (Fin n) (Fin n) ℝ) (b : Fin n → ℝ)
    (h : ∀ y, ∃ J, sys.RJ y = some (A *ᵥ y + b, J)) (x : Fin n → ℝ) {eps : ℝ} (he : 0 < eps)
    (nJ : Matrix (Fin n) (Fin n) ℝ) : diffJac sys x eps nJ = some A := by
  obtain ⟨J, hJ⟩ := h x
  rw [diffJac_eq (c := fun i j => A j i) hJ]
  · rfl
  intro i
  obtain ⟨J', hJ'⟩ := h (Function.update x i (x i + stepSize eps (x i)))
  have hp := (stepSize_pos he (x i)).ne'
  simp only [column, hJ', Option.map_some, Option.some.injEq]
  funext j
  have hu : Function.update x i (x i + stepSize eps (x i)) = x + stepSize eps (x i) • Pi.single i 1 := by
    funext k
    by_cases hk : k = i
    · subst hk; simp
    · simp [hk]
  rw [hu, mulVec_add, mulVec_smul]
  simp only [Pi.add_apply, Pi.smul_apply, mulVec_single_one, col_apply, smul_eq_mul]
  field_simp
  ring

/-- **C170** (smooth systems). If the residual is defined everywhere and has the partial derivatives `D` at the
point, the numerical Jacobian comes as close to `D` as one likes for all small enough steps. -/
theorem C170_limit (sys : System n) (F : (Fin n → ℝ) → Fin n → ℝ) (h : ∀ y, ∃ J, sys.RJ y = some (F y, J))
    (x : Fin n → ℝ) (D : Matrix (Fin n) (Fin n) ℝ)
    (hd : ∀ i j, HasDerivAt (fun a => F (Function.update x i a) j) (D j i) (x i)) {tol : ℝ} (ht : 0 < tol) :
    ∃ e0 > 0, ∀ eps, 0 < eps → eps < e0 → ∀ nJ, ∃ N, diffJac sys x eps nJ = some N ∧
      ∀ j i, |N j i - D j i| < tol := by
  have hone : ∀ i j, ∃ d > 0, ∀ s, 0 < s → s < d →
      |(F (Function.update x i (x i + s)) j - F x j) / s - D j i| < tol := by
    intro i j
    have h1 := (hasDerivAt_iff_tendsto_slope_zero.mp (hd i j))
    rw [Metric.tendsto_nhdsWithin_nhds] at h1
    obtain ⟨d, hdp, h2⟩ := h1 tol ht
    refine ⟨d, hdp, fun s hs hsd => ?_⟩
    have h3 := h2 (x := s) (by simpa using hs.ne') (by simpa [abs_of_pos hs] using hsd)
    rw [Real.dist_eq, Function.update_eq_self] at h3
    rwa [div_eq_inv_mul]
  choose d hdp hdd using hone
  have hfin : ∃ m > 0, ∀ i j, m ≤ d i j := by
    rcases isEmpty_or_nonempty (Fin n) with he | he
    · exact ⟨1, one_pos, fun i => (he.false i).elim⟩
    · obtain ⟨p, hp⟩ := Finite.exists_min (fun q : Fin n × Fin n => d q.1 q.2)
      exact ⟨d p.1 p.2, hdp _ _, fun i j => hp (i, j)⟩
  obtain ⟨m, hm, hmd⟩ := hfin
  have hB : ∃ B > 0, ∀ i, 1 + |x i| ≤ B := by
    refine ⟨1 + ∑ i, |x i|, by positivity, fun i => ?_⟩
    have := Finset.single_le_sum (f := fun i => |x i|) (fun i _ => abs_nonneg _) (Finset.mem_univ i)
    simpa using this
  obtain ⟨B, hB, hxB⟩ := hB
  refine ⟨m / B, by positivity, fun eps he hem nJ => ?_⟩
  obtain ⟨J, hJ⟩ := h x
  refine ⟨_, diffJac_eq (c := fun i j => (F (Function.update x i (x i + stepSize eps (x i))) j - F x j) /
    stepSize eps (x i)) hJ (fun i => ?_) nJ, fun j i => ?_⟩
  · obtain ⟨J', hJ'⟩ := h (Function.update x i (x i + stepSize eps (x i)))
    simp [column, hJ']
  · refine hdd i j _ (stepSize_pos he _) ?_
    calc stepSize eps (x i) ≤ eps * (1 + |x i|) := stepSize_le he _
      _ ≤ eps * B := by gcongr; exact hxB i
      _ < m := by rwa [lt_div_iff₀ hB] at hem
      _ ≤ d i j := hmd i j

theorem sum_sq_pos {J : Matrix (Fin n) (Fin n) ℝ} (h : J ≠ 0) : 0 < ∑ i, ∑ j, J i j ^ 2 := by
  have h0 : ∃ i j, J i j ≠ 0 := by
    by_contra hc
    push Not at hc
    exact h (Matrix.ext hc)
  obtain ⟨i, j, hij⟩ := h0
  refine Finset.sum_pos' (fun i _ => Finset.sum_nonneg fun j _ => sq_nonneg _) ⟨i, Finset.mem_univ _, ?_⟩
  exact Finset.sum_pos' (fun j _ => sq_nonneg _) ⟨j, Finset.mem_univ _, by positivity⟩

/-- **C170** (the check). The number printed for a Jacobian that is not zero is not negative, and it is zero only if
the Jacobian is the numerical one. -/
theorem C170_check (sys : System n) (x : Fin n → ℝ) (J : Matrix (Fin n) (Fin n) ℝ) (hJ : J ≠ 0) {c : ℝ}
    (h : diffJacCheck sys x J = some c) : 0 ≤ c ∧ (c = 0 ↔ diffJac sys x defaultEps 0 = some J) := by
  unfold diffJacCheck at h
  cases hN : diffJac sys x defaultEps 0 with
  | none => simp [hN] at h
  | some N =>
    rw [hN] at h
    simp only [Option.map_some, Option.some.injEq] at h
    subst h
    have hp := sum_sq_pos hJ
    refine ⟨div_nonneg (Finset.sum_nonneg fun i _ => Finset.sum_nonneg fun j _ => sq_nonneg _) hp.le, ?_⟩
    rw [relDiff, div_eq_zero_iff, or_iff_left hp.ne', Option.some.injEq]
    constructor
    · intro h
      by_contra hne
      exact (sum_sq_pos (J := J - N) fun h0 => hne (sub_eq_zero.mp h0).symm).ne' (by simpa using h)
    · rintro rfl
      simp

/-- **C170** (the check of an affine system). The check is zero exactly for the right Jacobian. -/
theorem C170_check_affine (sys : System n) (A : Matrix (Fin n) (Fin n) ℝ) (b : Fin n → ℝ)
    (h : ∀ y, ∃ J, sys.RJ y = some (A *ᵥ y + b, J)) (x : Fin n → ℝ) (J : Matrix (Fin n) (Fin n) ℝ) (hJ : J ≠ 0) :
    ∃ c, diffJacCheck sys x J = some c ∧ 0 ≤ c ∧ (c = 0 ↔ J = A) := by
  have hA := C170_affine sys A b h x (eps := defaultEps) (by unfold defaultEps; positivity) 0
  have hc : diffJacCheck sys x J = some (relDiff J A) := by rw [diffJacCheck, hA]; rfl
  obtain ⟨h1, h2⟩ := C170_check sys x J hJ hc
  refine ⟨_, hc, h1, h2.trans ?_⟩
  rw [hA, Option.some.injEq, eq_comm]

/-- An affine system of two equations that is not symmetric, and reports a wrong Jacobian. -/
noncomputable def exAffine : System 2 := ⟨0, fun y => some (!![1, 2; 0, 3] *ᵥ y + ![5, 7], 1)⟩

example (x : Fin 2 → ℝ) : diffJac exAffine x (1 / 2) 9 = some !![1, 2; 0, 3] :=
  C170_affine exAffine _ _ (fun _ => ⟨_, rfl⟩) x (by norm_num) _

example : ∃ c, diffJacCheck exAffine ![4, 5] 1 = some c ∧ 0 < c := by
  obtain ⟨c, h1, h2, h3⟩ := C170_check_affine exAffine _ _ (fun _ => ⟨_, rfl⟩) ![4, 5] 1 one_ne_zero
  refine ⟨c, h1, lt_of_le_of_ne h2 fun h => ?_⟩
  have := congrFun (congrFun (h3.mp h.symm) 0) 1
  norm_num at this

/-- A system that is not affine. -/
noncomputable def exSquare : System 1 := ⟨0, fun y => some (fun i => y i ^ 2, 0)⟩

example : ∃ e0 > 0, ∀ eps, 0 < eps → eps < e0 → ∀ nJ, ∃ N, diffJac exSquare ![3] eps nJ = some N ∧
    ∀ j i, |N j i - 6| < 1 / 100 := by
  refine C170_limit exSquare (fun y i => y i ^ 2) (fun _ => ⟨_, rfl⟩) ![3] (of fun _ _ => 6) (fun i j => ?_)
    (by norm_num)
  fin_cases i; fin_cases j
  simpa using (hasDerivAt_pow 2 (3 : ℝ)).congr_deriv (by norm_num)

/-! ## Verbose solves -/

variable {sys : System n} {solve : Matrix (Fin n) (Fin n) ℝ → (Fin n → ℝ) → Option (Fin n → ℝ)} {p : Params}

theorem loopV_ok {nR0 : ℝ} (fuel : Nat) (i : Int) (it : It n) {r : Int × It n}
    (h : loopV sys solve p nR0 fuel i it = some (.ok r)) : loop sys solve p nR0 fuel i it = some (.ok r) := by
  induction fuel generalizing i it with
  | zero => simp [loopV] at h
  | succ k ih =>
    unfold loopV at h
    unfold loop
    by_cases hc : Conv p nR0 it
    · simpa only [hc, if_true] using h
    · simp only [hc, if_false] at h ⊢
      cases hb : body sys solve p it with
      | error e => simp [hb] at h
      | ok it' =>
        simp only [hb] at h ⊢
        cases hj : diffJacCheck sys it'.x it'.J with
        | none => simp [hj] at h
        | some c =>
          simp only [hj] at h
          by_cases hm : i + 1 ≥ p.miter
          · simpa only [hm, if_true] using h
          · simp only [hm, if_false] at h ⊢
            exact ih _ _ h

theorem loopV_eq {nR0 : ℝ} (ht : ∀ y J, diffJacCheck sys y J ≠ none) (fuel : Nat) (i : Int) (it : It n) :
    loopV sys solve p nR0 fuel i it = loop sys solve p nR0 fuel i it := by
  induction fuel generalizing i it with
  | zero => rfl
  | succ k ih =>
    unfold loopV loop
    by_cases hc : Conv p nR0 it
    · simp only [hc, if_true]
    · simp only [hc, if_false]
      cases hb : body sys solve p it with
      | error e => rfl
      | ok it' =>
        simp only
        cases hj : diffJacCheck sys it'.x it'.J with
        | none => exact absurd hj (ht _ _)
        | some c => simp only [ih]

/-- The check throws only where the system does. -/
theorem check_total (ht : ∀ y, sys.RJ y ≠ none) (y : Fin n → ℝ) (J : Matrix (Fin n) (Fin n) ℝ) :
    diffJacCheck sys y J ≠ none := by
  have hc : ∀ R0 i, ∃ c, column sys y R0 defaultEps i = some c := by
    intro R0 i
    cases hR : sys.RJ (Function.update y i (y i + stepSize defaultEps (y i))) with
    | none => exact absurd hR (ht _)
    | some r => exact ⟨fun j => (r.1 j - R0 j) / stepSize defaultEps (y i), by simp [column, hR]⟩
  cases hR : sys.RJ y with
  | none => exact absurd hR (ht _)
  | some r =>
    choose c hc using hc r.1
    rw [diffJacCheck, diffJac_eq (R0 := r.1) (J := r.2) hR hc]
    simp

/-- **C171** (an answer is the answer). If a verbose solve succeeds, the silent one succeeds with the same point,
residual and Jacobian. -/
theorem C171_sound (fuel : Nat) {it : It n} (h : newtonV sys solve p fuel = some (.ok it)) :
    newton sys solve p fuel = some (.ok it) := by
  unfold newtonV at h
  unfold newton
  cases hR : sys.RJ sys.init with
  | none => simp [hR] at h
  | some r =>
    obtain ⟨R, J⟩ := r
    simp only [hR] at h ⊢
    cases hj : diffJacCheck sys sys.init J with
    | none => simp [hj] at h
    | some c =>
      simp only [hj] at h
      cases hl : loopV sys solve p (norm2 R) fuel 0 ⟨sys.init, R, J, norm2 R, 1⟩ with
      | none => simp [hl] at h
      | some e =>
        cases e with
        | error e => simp [hl] at h
        | ok q =>
          rw [loopV_ok _ _ _ hl]
          simpa only [hl] using h

/-- **C171** (the same outcome, part). For a system that never throws, the verbose solve and the silent solve have
the same outcome, success or exception.

The full claim has no condition on the system; see `C171_verbose_disagreement`. -/
theorem C171_verbose_partial (ht : ∀ y, sys.RJ y ≠ none) (fuel : Nat) :
    newtonV sys solve p fuel = newton sys solve p fuel := by
  unfold newtonV newton
  cases hR : sys.RJ sys.init with
  | none => exact absurd hR (ht _)
  | some r =>
    obtain ⟨R, J⟩ := r
    simp only
    cases hj : diffJacCheck sys sys.init J with
    | none => exact absurd hj (check_total ht _ _)
    | some c =>
      simp only [loopV_eq fun y J => check_total ht y J]
      cases loop sys solve p (norm2 R) fuel 0 ⟨sys.init, R, J, norm2 R, 1⟩ with
      | none => rfl
      | some e => cases e <;> rfl

open Classical in
/-- One equation whose residual cannot be computed for positive values. -/
noncomputable def exHalf : System 1 :=
  ⟨0, fun y => if 0 < y 0 then none else some (fun i => y i, 1)⟩

/-- **C171** (the code against the claim). A solve that succeeds, and throws when it is asked to report its
progress: the check of the Jacobian steps to where the residual cannot be computed. -/
theorem C171_verbose_disagreement :
    ∃ (sys : System 1) (solve : Matrix (Fin 1) (Fin 1) ℝ → (Fin 1 → ℝ) → Option (Fin 1 → ℝ)) (p : Params) (it : It 1),
      newton sys solve p 5 = some (.ok it) ∧ newtonV sys solve p 5 = some (.error .system) := by
  have h0 : exHalf.RJ exHalf.init = some (0, 1) := by
    simp only [exHalf]
    norm_num
  have hn : norm2 (0 : Fin 1 → ℝ) = 0 := by simp [norm2]
  refine ⟨exHalf, fun _ R => some R, ⟨1 / 2, 1 / 2, 5, false⟩, ⟨exHalf.init, 0, 1, 0, 1⟩, ?_, ?_⟩
  · unfold newton
    rw [h0]
    simp only [hn]
    unfold loop
    rw [if_pos (by left; norm_num)]
    norm_num
  · unfold newtonV
    rw [h0]
    have hcheck : diffJacCheck exHalf exHalf.init 1 = none := by
      unfold diffJacCheck diffJac
      rw [h0]
      have hc : column exHalf exHalf.init 0 defaultEps 0 = none := by
        have hp := stepSize_pos (eps := defaultEps) (by unfold defaultEps; positivity) 0
        simp [column, exHalf, hp]
      simp [columns, hc, List.finRange_succ]
    simp only [hcheck]

example : ∀ y, exAffine.RJ y ≠ none := fun y => by simp [exAffine]

/-- A verbose solve that succeeds. -/
example : ∃ it, newtonV exSquare (fun _ R => some R) ⟨1 / 2, 1 / 2, 5, false⟩ 5 = some (.ok it) ∧
    newton exSquare (fun _ R => some R) ⟨1 / 2, 1 / 2, 5, false⟩ 5 = some (.ok it) := by
  have hn : norm2 (fun i : Fin 1 => (0 : ℝ) ^ 2) = 0 := by simp [norm2]
  have h : newton exSquare (fun _ R => some R) ⟨1 / 2, 1 / 2, 5, false⟩ 5 =
      some (.ok ⟨0, fun _ => 0 ^ 2, 0, 0, 1⟩) := by
    unfold newton
    simp only [exSquare, Pi.zero_apply, hn]
    unfold loop
    rw [if_pos (by left; norm_num)]
    norm_num
  have h' := h
  rw [← C171_verbose_partial (fun y => by simp [exSquare])] at h'
  exact ⟨_, h', C171_sound _ h'⟩

end Neml.NumJac
