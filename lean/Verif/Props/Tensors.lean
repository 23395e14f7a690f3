import Verif.Model.Tensors
import Verif.Props.Mandel
import Mathlib.Tactic.FinCases
import Mathlib.Tactic.FieldSimp
import Mathlib.Tactic.LinearCombination
import Mathlib.Tactic.Module

/-!
# C164: the tensor classes compute with the tensors they stand for
-/

namespace Neml.Tensors

open Matrix Neml.Mandel

/-! ## Specification: tensors as components -/

/-- A tensor of order one, two or four in three dimensions. -/
inductive Full
  | one (x : Fin 3 → ℝ)
  | two (A : Fin 3 → Fin 3 → ℝ)
  | four (C : Fin 3 → Fin 3 → Fin 3 → Fin 3 → ℝ)

/-- Position of the component `i j` in Mandel notation: 11, 22, 33, 23, 13, 12. -/
def idx : Fin 3 → Fin 3 → Fin 6 := ![![0, 5, 4], ![5, 1, 3], ![4, 3, 2]]

/-- Components off the diagonal are stored times the square root of two. -/
noncomputable def wt (i j : Fin 3) : ℝ := if i = j then 1 else 1 / √2

/-- Permutation symbol. -/
noncomputable def eps (i j k : Fin 3) : ℝ := ((j : ℝ) - i) * ((k : ℝ) - i) * ((k : ℝ) - j) / 2

/-- Row-major position of `i j`. -/
def pos (i j : Fin 3) : Fin 9 := ⟨3 * i + j, by omega⟩

/-- What a tensor object stands for: a symmetric tensor in Mandel notation, a skew tensor by its axial vector, a fourth order
tensor pair by pair of indices. -/
noncomputable def mean : Ten → Full
  | .vec x => .one x
  | .two A => .two A
  | .sym s => .two fun i j => wt i j * s (idx i j)
  | .skw w => .two fun i j => -∑ k, eps i j k * w k
  | .four C => .four fun i j k l => C (pos i j) (pos k l)
  | .ss M => .four fun i j k l => wt i j * wt k l * M (idx i j) (idx k l)
  | .sw M => .four fun i j k l => -(wt i j * ∑ m, eps k l m * M (idx i j) m)
  | .ws M => .four fun i j k l => -((∑ m, eps i j m * M m (idx k l)) * wt k l)

/-- The product of tensors: neighbouring indices are summed over, in pairs after a tensor of order four. -/
def Full.mul : Full → Full → Option Full
  | .one x, .two A => some (.one fun j => ∑ i, x i * A i j)
  | .two A, .one x => some (.one fun i => ∑ j, A i j * x j)
  | .two A, .two B => some (.two fun i j => ∑ k, A i k * B k j)
  | .four C, .two A => some (.two fun i j => ∑ k, ∑ l, C i j k l * A k l)
  | .four C, .four D => some (.four fun i j k l => ∑ m, ∑ n, C i j m n * D m n k l)
  | _, _ => none

/-- Sum of tensors of the same order. -/
def Full.add : Full → Full → Option Full
  | .one x, .one y => some (.one fun i => x i + y i)
  | .two A, .two B => some (.two fun i j => A i j + B i j)
  | .four C, .four D => some (.four fun i j k l => C i j k l + D i j k l)
  | _, _ => none

/-- Multiple of a tensor. -/
def Full.smul (c : ℝ) : Full → Full
  | .one x => .one fun i => c * x i
  | .two A => .two fun i j => c * A i j
  | .four C => .four fun i j k l => c * C i j k l

/-- Full contraction of two tensors of order two. -/
def Full.contract : Full → Full → Option ℝ
  | .two A, .two B => some (∑ i, ∑ j, A i j * B i j)
  | _, _ => none

/-! ## Conversions -/

theorem inv_r2 : (1 : ℝ) / √2 = √2 / 2 := by rw [div_r2, one_mul]

theorem wt_self (i : Fin 3) : wt i i = 1 := if_pos rfl

theorem wt_sq {i j : Fin 3} (h : i ≠ j) : wt i j * wt i j = 1 / 2 := by
  rw [wt, if_neg h, inv_r2]
  linear_combination r2_sq / 4

theorem symFull_apply (s : Fin 6 → ℝ) (i j : Fin 3) : symFull s i j = wt i j * s (idx i j) := by
  fin_cases i <;> fin_cases j <;> simp [symFull, wt, idx] <;> ring

theorem skewFull_apply (w : Fin 3 → ℝ) (i j : Fin 3) : skewFull w i j = -∑ k, eps i j k * w k := by
  fin_cases i <;> fin_cases j <;> simp [skewFull, eps, Fin.sum_univ_three] <;> norm_num

theorem sum9 (f : Fin 9 → ℝ) : ∑ p, f p = ∑ i, ∑ j, f (pos i j) := by
  simp only [Fin.sum_univ_three, Fin.sum_univ_succ, Fin.sum_univ_zero]
  simp only [pos]
  norm_num
  ring_nf
  rfl

theorem vec9_pos (A : Matrix (Fin 3) (Fin 3) ℝ) (i j : Fin 3) : vec9 A (pos i j) = A i j := by
  fin_cases i <;> fin_cases j <;> rfl

theorem mat9_apply (v : Fin 9 → ℝ) (i j : Fin 3) : mat9 v i j = v (pos i j) := by
  fin_cases i <;> fin_cases j <;> rfl

theorem r2_inv : (√2 : ℝ)⁻¹ = √2 / 2 := by rw [← one_div, inv_r2]

theorem r2_half_sq : √2 / 2 * (√2 / 2) = (2 : ℝ)⁻¹ := by linear_combination r2_sq / 4

theorem mandel2full_pos (M : Matrix (Fin 6) (Fin 6) ℝ) (i j k l : Fin 3) :
    mandel2full M (pos i j) (pos k l) = wt i j * wt k l * M (idx i j) (idx k l) := by
  fin_cases i <;> fin_cases j <;> fin_cases k <;> fin_cases l <;>
    simp [mandel2full, wt, idx, pos, r2_inv, r2_half_sq] <;> ring

theorem skew2full_pos (M : Matrix (Fin 6) (Fin 3) ℝ) (i j k l : Fin 3) :
    skew2full M (pos i j) (pos k l) = -(wt i j * ∑ m, eps k l m * M (idx i j) m) := by
  fin_cases i <;> fin_cases j <;> fin_cases k <;> fin_cases l <;>
    simp [skew2full, wt, idx, pos, r2_inv, eps, Fin.sum_univ_three] <;> ring

theorem wws2full_pos (M : Matrix (Fin 3) (Fin 6) ℝ) (i j k l : Fin 3) :
    wws2full M (pos i j) (pos k l) = -((∑ m, eps i j m * M m (idx k l)) * wt k l) := by
  fin_cases i <;> fin_cases j <;> fin_cases k <;> fin_cases l <;>
    simp [wws2full, wt, idx, pos, r2_inv, eps, Fin.sum_univ_three] <;> ring

theorem sum6 (f : Fin 6 → ℝ) : ∑ a, f a = ∑ i, ∑ j, wt i j * wt i j * f (idx i j) := by
  have h : ∀ i j : Fin 3, i ≠ j → wt i j * wt i j = 1 / 2 := fun i j => wt_sq
  simp only [Fin.sum_univ_three, Fin.sum_univ_six, wt_self, h 0 1 (by decide), h 0 2 (by decide), h 1 0 (by decide),
    h 1 2 (by decide), h 2 0 (by decide), h 2 1 (by decide)]
  simp only [idx]
  simp
  ring

/-- What the `RankFour` of a fourth order tensor stands for. -/
theorem mean_full4 {a : Ten} {C : Matrix (Fin 9) (Fin 9) ℝ} (h : full4 a = some C) :
    mean a = .four fun i j k l => C (pos i j) (pos k l) := by
  cases a <;> simp only [full4, Option.some.injEq, reduceCtorEq] at h <;> subst h <;> simp only [mean]
  · simp only [mandel2full_pos]
  · simp only [skew2full_pos]
  · simp only [wws2full_pos]

theorem mean_full2 {a : Ten} {A : Matrix (Fin 3) (Fin 3) ℝ} (h : full2 a = some A) : mean a = .two A := by
  cases a <;> simp only [full2, Option.some.injEq, reduceCtorEq] at h <;> subst h <;> simp only [mean]
  · congr 1; funext i j; rw [symFull_apply]
  · congr 1; funext i j; rw [skewFull_apply]

theorem mean_sym (s : Fin 6 → ℝ) : mean (.sym s) = .two (symFull s) := mean_full2 rfl

theorem mean_skw (w : Fin 3 → ℝ) : mean (.skw w) = .two (skewFull w) := mean_full2 rfl

theorem mulVec_pos (C : Matrix (Fin 9) (Fin 9) ℝ) (B : Matrix (Fin 3) (Fin 3) ℝ) (i j : Fin 3) :
    mat9 (C *ᵥ vec9 B) i j = ∑ k, ∑ l, C (pos i j) (pos k l) * B k l := by
  rw [mat9_apply, mulVec, dotProduct, sum9]
  simp only [vec9_pos]

theorem mul_pos' (C D : Matrix (Fin 9) (Fin 9) ℝ) (i j k l : Fin 3) :
    (C * D) (pos i j) (pos k l) = ∑ m, ∑ n, C (pos i j) (pos m n) * D (pos m n) (pos k l) := by
  rw [Matrix.mul_apply, sum9]

theorem symFull_transpose (s : Fin 6 → ℝ) : (symFull s)ᵀ = symFull s := by
  ext i j
  fin_cases i <;> fin_cases j <;> rfl

theorem skewFull_transpose (w : Fin 3 → ℝ) : (skewFull w)ᵀ = -skewFull w := by
  ext i j
  fin_cases i <;> fin_cases j <;> simp [skewFull]

theorem skewFull_neg (w : Fin 3 → ℝ) : skewFull (-w) = -skewFull w := by
  ext i j
  fin_cases i <;> fin_cases j <;> simp [skewFull]

/-- The symmetric tensor made of a tensor is its symmetric part. -/
theorem symFull_symOf (A : Matrix (Fin 3) (Fin 3) ℝ) : symFull (symOf A) = (1 / 2 : ℝ) • (A + Aᵀ) := by
  ext i j
  fin_cases i <;> fin_cases j <;> simp [symFull, symOf] <;> ring

theorem skewFull_skewOf (A : Matrix (Fin 3) (Fin 3) ℝ) : skewFull (skewOf A) = (1 / 2 : ℝ) • (A - Aᵀ) := by
  ext i j
  fin_cases i <;> fin_cases j <;> simp [skewFull, skewOf] <;> ring

theorem two_inj (A B : Matrix (Fin 3) (Fin 3) ℝ) : Full.two A = Full.two B ↔ A = B :=
  ⟨fun h => by injection h, fun h => h ▸ rfl⟩

theorem mul_two (A B : Matrix (Fin 3) (Fin 3) ℝ) : (Full.two A).mul (.two B) = some (.two (A * B)) := rfl

/-! ## Products -/

/-- Both tensors symmetric, or both skew, of order two. -/
def Alike : Ten → Ten → Prop
  | .sym _, .sym _ => True
  | .skw _, .skw _ => True
  | _, _ => False

/-- **C164.** The product of two tensor objects stands for the product of the tensors they stand for, unless both are symmetric
or both skew of order two. -/
theorem C164_mul (a b c : Ten) (h : mul a b = some c) (hab : ¬ Alike a b) : (mean a).mul (mean b) = some (mean c) := by
  unfold mul at h
  cases h2 : dot2 a b with
  | some d =>
    rw [h2] at h
    cases h
    cases a <;> cases b <;> simp only [dot2, Option.some.injEq, reduceCtorEq] at h2 <;> subst h2 <;>
      simp only [Alike, not_true_eq_false, not_false_eq_true] at hab <;>
      simp only [mean, ← symFull_apply, ← skewFull_apply, Full.mul] <;> congr 2 <;> funext i
    · simp only [mulVec, dotProduct, transpose_apply, mul_comm]
    · simp only [mulVec, dotProduct]
      refine Finset.sum_congr rfl fun j _ => ?_
      rw [← congrFun (congrFun (symFull_transpose _) i) j, transpose_apply, mul_comm]
    · simp only [mulVec, dotProduct, skewFull_neg, ← skewFull_transpose, transpose_apply, mul_comm]
    all_goals first | (funext j; rfl) | rfl
  | none =>
    rw [h2] at h
    replace h : dot4 a b = some c := h
    unfold dot4 at h
    split at h
    · cases h
      simp only [mean, Full.mul]
      congr 2
      funext i j k l
      rw [Matrix.mul_apply, sum6, Finset.mul_sum]
      refine Finset.sum_congr rfl fun m _ => ?_
      rw [Finset.mul_sum]
      exact Finset.sum_congr rfl fun n _ => by ring
    · cases h
      simp only [mean, Full.mul]
      congr 2
      funext i j
      rw [mulVec, dotProduct, sum6, Finset.mul_sum]
      refine Finset.sum_congr rfl fun m _ => ?_
      rw [Finset.mul_sum]
      exact Finset.sum_congr rfl fun n _ => by ring
    · obtain ⟨C, hC, h⟩ := Option.bind_eq_some_iff.1 h
      cases hD : full4 b with
      | some D =>
        rw [hD] at h
        cases h
        rw [mean_full4 hC, mean_full4 hD]
        simp only [mean, Full.mul, mul_pos']
      | none =>
        rw [hD] at h
        obtain ⟨B, hB, h⟩ := Option.map_eq_some_iff.1 h
        subst h
        rw [mean_full4 hC, mean_full2 hB]
        simp only [mean, Full.mul]
        congr 2
        funext i j
        exact (mulVec_pos C B i j).symm

/-- **C164.** There is a product for every pair of tensors whose product is a tensor again, but for two vectors. -/
theorem C164_defined (a b : Ten) : (mul a b).isSome ↔ ((mean a).mul (mean b)).isSome := by
  cases a <;> cases b <;>
    simp [mul, dot2, dot4, full4, full2, mean, Full.mul]

/-- **C164, disagreement.** The product of two symmetric tensors is the symmetric part of the product only. It is the product
exactly if the tensors commute. -/
theorem C164_sym_disagreement (s t : Fin 6 → ℝ) : ∃ u, mul (.sym s) (.sym t) = some (.sym u) ∧
    symFull u = (1 / 2 : ℝ) • (symFull s * symFull t + symFull t * symFull s) ∧
    ((mean (.sym s)).mul (mean (.sym t)) = some (mean (.sym u)) ↔ symFull s * symFull t = symFull t * symFull s) := by
  have h : symFull (symOf (symFull s * symFull t)) = (1 / 2 : ℝ) • (symFull s * symFull t + symFull t * symFull s) := by
    rw [symFull_symOf, transpose_mul, symFull_transpose, symFull_transpose]
  refine ⟨_, rfl, h, ?_⟩
  rw [mean_sym, mean_sym, mean_sym, h]
  rw [mul_two, Option.some.injEq, two_inj]
  constructor
  · intro e
    have := congrArg (fun A => (2 : ℝ) • A) e
    simp only [smul_smul] at this
    norm_num [two_smul] at this
    exact this
  · intro e
    rw [← e]
    module

/-- **C164, disagreement.** The product of two skew tensors is the skew part of the product only. It is the product exactly if
one of the tensors vanishes. -/
theorem C164_skew_disagreement (w u : Fin 3 → ℝ) : ∃ v, mul (.skw w) (.skw u) = some (.skw v) ∧
    skewFull v = (1 / 2 : ℝ) • (skewFull w * skewFull u - skewFull u * skewFull w) ∧
    ((mean (.skw w)).mul (mean (.skw u)) = some (mean (.skw v)) ↔ w = 0 ∨ u = 0) := by
  have h : skewFull (skewOf (skewFull w * skewFull u)) = (1 / 2 : ℝ) • (skewFull w * skewFull u - skewFull u * skewFull w) := by
    rw [skewFull_skewOf, transpose_mul, skewFull_transpose, skewFull_transpose, neg_mul_neg]
  refine ⟨_, rfl, h, ?_⟩
  rw [mean_skw, mean_skw, mean_skw, h]
  rw [mul_two, Option.some.injEq, two_inj]
  constructor
  · intro e
    have e0 := fun i j => congrFun (congrFun e i) j
    have d0 := e0 0 0
    have d1 := e0 1 1
    have d2 := e0 2 2
    have d3 := e0 0 1
    have d4 := e0 0 2
    have d5 := e0 1 2
    simp [skewFull, Matrix.mul_apply, Fin.sum_univ_three] at d0 d1 d2 d3 d4 d5
    have z0 : w 0 * u 0 = 0 := by linarith
    have z1 : w 1 * u 1 = 0 := by linarith
    have z2 : w 2 * u 2 = 0 := by linarith
    have z3 : w 0 * u 1 + w 1 * u 0 = 0 := by linarith
    have z4 : w 0 * u 2 + w 2 * u 0 = 0 := by linarith
    have z5 : w 1 * u 2 + w 2 * u 1 = 0 := by linarith
    by_contra hn
    push Not at hn
    have sq : ∀ x y : ℝ, x * y = 0 → x = 0 ∨ y = 0 := fun x y => mul_eq_zero.1
    have hw : w 0 ≠ 0 ∨ w 1 ≠ 0 ∨ w 2 ≠ 0 := by
      by_contra hh
      push Not at hh
      exact hn.1 (by funext i; fin_cases i <;> simp [hh.1, hh.2.1, hh.2.2])
    refine hn.2 ?_
    rcases hw with hh | hh | hh
    · have a0 : u 0 = 0 := (sq _ _ z0).resolve_left hh
      rw [a0, mul_zero, add_zero] at z3 z4
      have a1 : u 1 = 0 := (sq _ _ z3).resolve_left hh
      have a2 : u 2 = 0 := (sq _ _ z4).resolve_left hh
      funext i; fin_cases i <;> simp [a0, a1, a2]
    · have a1 : u 1 = 0 := (sq _ _ z1).resolve_left hh
      rw [a1, mul_zero, zero_add] at z3
      rw [a1, mul_zero, add_zero] at z5
      have a0 : u 0 = 0 := (sq _ _ z3).resolve_left hh
      have a2 : u 2 = 0 := (sq _ _ z5).resolve_left hh
      funext i; fin_cases i <;> simp [a0, a1, a2]
    · have a2 : u 2 = 0 := (sq _ _ z2).resolve_left hh
      rw [a2, mul_zero, zero_add] at z4 z5
      have a0 : u 0 = 0 := (sq _ _ z4).resolve_left hh
      have a1 : u 1 = 0 := (sq _ _ z5).resolve_left hh
      funext i; fin_cases i <;> simp [a0, a1, a2]
  · have z : skewFull 0 = 0 := by ext i j; fin_cases i <;> fin_cases j <;> simp [skewFull]
    rintro (rfl | rfl) <;> simp [z]

/-! ## Linear combinations -/

theorem symFull_add (s t : Fin 6 → ℝ) : symFull (s + t) = symFull s + symFull t := by
  ext i j; rw [Matrix.add_apply, symFull_apply, symFull_apply, symFull_apply, Pi.add_apply]; ring

theorem symFull_smul (c : ℝ) (s : Fin 6 → ℝ) : symFull (c • s) = c • symFull s := by
  ext i j; rw [Matrix.smul_apply, symFull_apply, symFull_apply, Pi.smul_apply, smul_eq_mul, smul_eq_mul]; ring

theorem symFull_neg (s : Fin 6 → ℝ) : symFull (-s) = -symFull s := by
  rw [← neg_one_smul ℝ, symFull_smul, neg_one_smul]

theorem skewFull_add (s t : Fin 3 → ℝ) : skewFull (s + t) = skewFull s + skewFull t := by
  ext i j; fin_cases i <;> fin_cases j <;> simp [skewFull] <;> ring

theorem skewFull_smul (c : ℝ) (s : Fin 3 → ℝ) : skewFull (c • s) = c • skewFull s := by
  ext i j; fin_cases i <;> fin_cases j <;> simp [skewFull]

theorem mandel2full_lin (c : ℝ) (M N : Matrix (Fin 6) (Fin 6) ℝ) :
    mandel2full (c • M) = c • mandel2full M ∧ mandel2full (M + N) = mandel2full M + mandel2full N := by
  have h : ∀ p : Fin 9, ∃ i j, pos i j = p := by decide
  constructor <;> ext p q <;> obtain ⟨i, j, rfl⟩ := h p <;> obtain ⟨k, l, rfl⟩ := h q <;>
    simp only [Matrix.smul_apply, Matrix.add_apply, mandel2full_pos, smul_eq_mul] <;> ring

theorem skew2full_lin (c : ℝ) (M N : Matrix (Fin 6) (Fin 3) ℝ) :
    skew2full (c • M) = c • skew2full M ∧ skew2full (M + N) = skew2full M + skew2full N := by
  have h : ∀ p : Fin 9, ∃ i j, pos i j = p := by decide
  constructor <;> ext p q <;> obtain ⟨i, j, rfl⟩ := h p <;> obtain ⟨k, l, rfl⟩ := h q <;>
    simp only [Matrix.smul_apply, Matrix.add_apply, skew2full_pos, smul_eq_mul, Fin.sum_univ_three] <;> ring

theorem wws2full_lin (c : ℝ) (M N : Matrix (Fin 3) (Fin 6) ℝ) :
    wws2full (c • M) = c • wws2full M ∧ wws2full (M + N) = wws2full M + wws2full N := by
  have h : ∀ p : Fin 9, ∃ i j, pos i j = p := by decide
  constructor <;> ext p q <;> obtain ⟨i, j, rfl⟩ := h p <;> obtain ⟨k, l, rfl⟩ := h q <;>
    simp only [Matrix.smul_apply, Matrix.add_apply, wws2full_pos, smul_eq_mul, Fin.sum_univ_three] <;> ring

/-- What the classes stand for, through the full storage. -/
noncomputable def meanFull : Ten → Full
  | .vec x => .one x
  | .two A => .two A
  | .sym s => .two (symFull s)
  | .skw w => .two (skewFull w)
  | .four C => .four fun i j k l => C (pos i j) (pos k l)
  | .ss M => .four fun i j k l => mandel2full M (pos i j) (pos k l)
  | .sw M => .four fun i j k l => skew2full M (pos i j) (pos k l)
  | .ws M => .four fun i j k l => wws2full M (pos i j) (pos k l)

theorem mean_eq (a : Ten) : mean a = meanFull a := by
  cases a with
  | vec x => rfl
  | two A => rfl
  | sym s => exact mean_sym s
  | skw w => exact mean_skw w
  | four C => rfl
  | ss M => exact mean_full4 rfl
  | sw M => exact mean_full4 rfl
  | ws M => exact mean_full4 rfl

theorem smul_two (c : ℝ) (A : Matrix (Fin 3) (Fin 3) ℝ) : (Full.two A).smul c = .two (c • A) := rfl

theorem smul_four (c : ℝ) (C : Matrix (Fin 9) (Fin 9) ℝ) : (Full.four fun i j k l => C (pos i j) (pos k l)).smul c =
    .four fun i j k l => (c • C) (pos i j) (pos k l) := rfl

theorem add_two (A B : Matrix (Fin 3) (Fin 3) ℝ) : (Full.two A).add (.two B) = some (.two (A + B)) := rfl

theorem add_four (C D : Matrix (Fin 9) (Fin 9) ℝ) :
    (Full.four fun i j k l => C (pos i j) (pos k l)).add (.four fun i j k l => D (pos i j) (pos k l)) =
      some (.four fun i j k l => (C + D) (pos i j) (pos k l)) := rfl

/-- **C164.** Multiples of tensor objects stand for the multiples. -/
theorem C164_smul (c : ℝ) (a : Ten) : mean (smul c a) = (mean a).smul c := by
  rw [mean_eq, mean_eq]
  cases a with
  | vec x => rfl
  | two A => rfl
  | sym s => simp only [smul, meanFull, symFull_smul, smul_two]
  | skw w => simp only [smul, meanFull, skewFull_smul, smul_two]
  | four C => rfl
  | ss M => simp only [smul, meanFull, (mandel2full_lin c M 0).1, smul_four]
  | sw M => simp only [smul, meanFull, (skew2full_lin c M 0).1, smul_four]
  | ws M => simp only [smul, meanFull, (wws2full_lin c M 0).1, smul_four]

/-- **C164.** Division by a number other than zero undoes the multiple, and negation is the multiple by minus one. -/
theorem C164_sdiv (c : ℝ) (hc : c ≠ 0) (a : Ten) : (mean (sdiv a c)).smul c = mean a ∧ mean (neg a) = (mean a).smul (-1) := by
  constructor
  · rw [sdiv, C164_smul]
    cases mean a <;> simp [Full.smul, hc]
  · rw [← C164_smul]
    cases a <;> simp [neg, smul]

/-- **C164.** Sums of tensor objects stand for the sums. -/
theorem C164_add (a b c : Ten) (h : add a b = some c) : (mean a).add (mean b) = some (mean c) := by
  rw [mean_eq, mean_eq, mean_eq]
  cases a <;> cases b <;> simp only [add, Option.some.injEq, reduceCtorEq] at h <;> subst h <;> simp only [meanFull]
  · rfl
  · rfl
  · rfl
  · rfl
  · rw [add_two, add_comm]
  · rw [add_two, symFull_add]
  · rw [add_two, add_comm]
  · rw [add_two, skewFull_add]
  · rfl
  · rw [add_four, (mandel2full_lin 0 _ _).2]
  · rw [add_four, (skew2full_lin 0 _ _).2]
  · rw [add_four, (wws2full_lin 0 _ _).2]

/-- **C164.** Differences of tensor objects stand for the differences, and are there whenever the sums are. -/
theorem C164_sub (a b c : Ten) (h : sub a b = some c) :
    (mean a).add ((mean b).smul (-1)) = some (mean c) ∧ (add a b).isSome := by
  have hn : mean (neg b) = (mean b).smul (-1) := (C164_sdiv 1 one_ne_zero b).2
  constructor
  · unfold sub at h
    split at h
    · cases h
      rw [mean_sym]
      simp only [mean]
      rw [smul_two, add_two, neg_one_smul]
    · cases h
      rw [mean_skw]
      simp only [mean]
      rw [smul_two, add_two, neg_one_smul]
    · rw [← hn]
      exact C164_add _ _ _ h
  · cases a <;> cases b <;> simp [sub, neg, add] at h ⊢

/-! ## Contraction, transpose, inverse -/

theorem contract_vec9 (A B : Matrix (Fin 3) (Fin 3) ℝ) : vec9 A ⬝ᵥ vec9 B = ∑ i, ∑ j, A i j * B i j := by
  rw [dotProduct, sum9]
  simp only [vec9_pos]

/-- **C164.** Contractions of tensor objects of order two are the contractions of the tensors. -/
theorem C164_contract (a b : Ten) : contract a b = (mean a).contract (mean b) := by
  rw [mean_eq, mean_eq]
  cases a <;> cases b <;>
    simp only [contract, full2, meanFull, Full.contract, Option.bind_some, Option.bind_none, Option.map_some,
      Option.map_none, contract_vec9]
  rw [dotProduct, sum6]
  congr 1
  refine Finset.sum_congr rfl fun i _ => Finset.sum_congr rfl fun j _ => ?_
  rw [symFull_apply, symFull_apply]
  ring

/-- The transpose exchanges the indices, in pairs for order four. -/
def Full.transpose : Full → Full
  | .one x => .one x
  | .two A => .two fun i j => A j i
  | .four C => .four fun i j k l => C k l i j

/-- **C164.** Transposes of tensor objects stand for the transposes. -/
theorem C164_transpose (a b : Ten) (h : transpose a = some b) : mean b = (mean a).transpose := by
  cases a <;> simp only [transpose, Option.some.injEq, reduceCtorEq] at h <;> subst h
  · rfl
  · rw [mean_sym]
    exact congrArg Full.two (symFull_transpose _).symm
  · rw [mean_skw, mean_skw, skewFull_neg, ← skewFull_transpose]
    rfl
  · simp only [mean, Full.transpose, transpose_apply]
    congr 1
    funext i j k l
    ring

/-- The tensor of order two with ones on the diagonal. -/
def Full.unit2 : Full := .two fun i j => if i = j then 1 else 0

/-- The tensor of order four that gives the symmetric part. -/
noncomputable def Full.unit4 : Full :=
  .four fun i j k l => ((if i = k ∧ j = l then 1 else 0) + (if i = l ∧ j = k then 1 else 0)) / 2

theorem idx_eq : ∀ i j k l : Fin 3, idx i j = idx k l ↔ (i = k ∧ j = l) ∨ (i = l ∧ j = k) := by decide

theorem mean_one : mean (.ss 1) = Full.unit4 := by
  simp only [mean, Full.unit4]
  congr 1
  funext i j k l
  rw [Matrix.one_apply]
  simp only [idx_eq]
  have h2 : ∀ i j : Fin 3, i ≠ j → wt i j * wt i j = 1 / 2 := fun i j => wt_sq
  have hc : wt i j = wt j i := by simp only [wt, eq_comm]
  by_cases h : i = k ∧ j = l
  · obtain ⟨rfl, rfl⟩ := h
    by_cases h' : i = j
    · subst h'
      simp [wt_self]
    · simp [h2 i j h', h']
  · by_cases h' : i = l ∧ j = k
    · obtain ⟨rfl, rfl⟩ := h'
      have h3 : i ≠ j := fun e => h ⟨e, e.symm⟩
      rw [← hc]
      simp [h2 i j h3, h3, h]
    · simp [h, h']

/-- **C164.** Inverses of tensor objects stand for inverses on both sides. For a symmetric tensor this includes that the inverse
is symmetric; for a `SymSymR4` it is the inverse on symmetric tensors. -/
theorem C164_inverse (a b : Ten) (h : inverse a = some b) : ∃ u, (u = Full.unit2 ∨ u = Full.unit4) ∧
    (mean a).mul (mean b) = some u ∧ (mean b).mul (mean a) = some u := by
  have hinv : ∀ {n : ℕ} (A B : Matrix (Fin n) (Fin n) ℝ), invertMat A = some B → IsUnit A.det ∧ B = A⁻¹ := by
    intro n A B h
    unfold invertMat at h
    split_ifs at h with h0
    cases h
    exact ⟨isUnit_iff_ne_zero.2 h0, rfl⟩
  have h2 : ∀ A : Matrix (Fin 3) (Fin 3) ℝ, A = 1 → Full.two A = Full.unit2 := by
    rintro _ rfl
    rfl
  cases a <;> simp only [inverse, Option.map_eq_some_iff, reduceCtorEq] at h
  · obtain ⟨B, hB, rfl⟩ := h
    obtain ⟨hu, rfl⟩ := hinv _ _ hB
    refine ⟨_, Or.inl rfl, ?_, ?_⟩
    · simp only [mean]; rw [mul_two, h2 _ (mul_nonsing_inv _ hu)]
    · simp only [mean]; rw [mul_two, h2 _ (nonsing_inv_mul _ hu)]
  · obtain ⟨B, hB, rfl⟩ := h
    obtain ⟨hu, rfl⟩ := hinv _ _ hB
    rename_i s
    have hs : symFull (symOf (symFull s)⁻¹) = (symFull s)⁻¹ := by
      rw [symFull_symOf, transpose_nonsing_inv, symFull_transpose]
      module
    refine ⟨_, Or.inl rfl, ?_, ?_⟩
    · rw [mean_sym, mean_sym, hs, mul_two, h2 _ (mul_nonsing_inv _ hu)]
    · rw [mean_sym, mean_sym, hs, mul_two, h2 _ (nonsing_inv_mul _ hu)]
  · obtain ⟨B, hB, rfl⟩ := h
    obtain ⟨hu, rfl⟩ := hinv _ _ hB
    refine ⟨_, Or.inr rfl, ?_, ?_⟩
    · rw [C164_mul _ _ _ (show mul _ _ = some (.ss (_ * _)) from rfl) (by simp [Alike]), mul_nonsing_inv _ hu, mean_one]
    · rw [C164_mul _ _ _ (show mul _ _ = some (.ss (_ * _)) from rfl) (by simp [Alike]), nonsing_inv_mul _ hu, mean_one]

/-- **C164.** A second order tensor has an inverse object exactly if some tensor inverts it. -/
theorem C164_invertible (A : Matrix (Fin 3) (Fin 3) ℝ) : (inverse (.two A)).isSome ↔
    ∃ B, (Full.two A).mul (.two B) = some Full.unit2 := by
  have h1 : (inverse (.two A)).isSome ↔ IsUnit A.det := by
    rw [isUnit_iff_ne_zero]
    simp only [inverse, Option.isSome_map, invertMat]
    split_ifs with h <;> simp [h]
  rw [h1]
  constructor
  · intro hu
    refine ⟨(A⁻¹ : Matrix _ _ ℝ), ?_⟩
    rw [mul_two, mul_nonsing_inv _ hu]
    rfl
  · rintro ⟨B, hB⟩
    rw [mul_two A B, Option.some.injEq, show Full.unit2 = .two (1 : Matrix (Fin 3) (Fin 3) ℝ) from rfl, two_inj] at hB
    have := congrArg Matrix.det hB
    rw [det_one] at this
    exact IsUnit.of_mul_eq_one _ ((Matrix.det_mul A B).symm.trans this)

end Neml.Tensors
