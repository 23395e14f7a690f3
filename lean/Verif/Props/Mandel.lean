import Verif.Model.Mandel
import Mathlib.Data.Matrix.Mul
import Mathlib.LinearAlgebra.Matrix.Symmetric
import Mathlib.LinearAlgebra.Matrix.Trace
import Mathlib.Tactic.FinCases
import Mathlib.Tactic.LinearCombination
import Mathlib.Tactic.Linarith

/-!
# C47, C48, C77: tensor conversions

Specification: the index contraction of two second order tensors is `contract`. The action of a
fourth order tensor in flat form on a second order tensor is the product of its 9 by 9 matrix with
the flat form of the tensor, `(A X)_ij = A_ijkl X_kl`.
-/

namespace Neml.Mandel

open Matrix

/-- Index contraction `A_ij B_ij`. -/
def contract (A B : Matrix (Fin 3) (Fin 3) ℝ) : ℝ := ∑ i, ∑ j, A i j * B i j

theorem r2_sq : (√2 : ℝ) * √2 = 2 := Real.mul_self_sqrt (by norm_num)

theorem div_r2 (x : ℝ) : x / √2 = x * √2 / 2 := by
  have h : (√2 : ℝ) ≠ 0 := by positivity
  field_simp
  linear_combination (-x) * r2_sq

theorem r2_r2_half (x : ℝ) : √2 * (√2 * x) / 2 = x := by linear_combination (x / 2) * r2_sq

theorem r2_half_r2 (x : ℝ) : √2 * (√2 * x / 2) = x := by linear_combination (x / 2) * r2_sq

theorem two_half (x : ℝ) : 2 * (x / 2) = x := by ring

theorem half_two (x : ℝ) : 2 * x / 2 = x := by ring

theorem mat9_vec9 (A : Matrix (Fin 3) (Fin 3) ℝ) : mat9 (vec9 A) = A := by
  ext i j; fin_cases i <;> fin_cases j <;> rfl

theorem vec9_mat9 (v : Fin 9 → ℝ) : vec9 (mat9 v) = v := by
  ext i; fin_cases i <;> rfl

/-! ## C47: symmetric tensors -/

/-- Mandel to tensor and back loses nothing. -/
theorem C47_sym_usym (v : Fin 6 → ℝ) : sym (usym v) = v := by
  have h := r2_sq
  ext i; fin_cases i <;> simp [sym, usym, div_r2] <;> grind

/-- Tensor to Mandel and back loses nothing on symmetric tensors. -/
theorem C47_usym_sym (A : Matrix (Fin 3) (Fin 3) ℝ) (hA : Aᵀ = A) : usym (sym A) = A := by
  have h := r2_sq
  have e : ∀ i j, A i j = A j i := fun i j => congrFun (congrFun hA j) i
  have e1 := e 0 1; have e2 := e 0 2; have e3 := e 1 2
  ext i j; fin_cases i <;> fin_cases j <;> simp [sym, usym, div_r2] <;> grind

/-- The tensor of a Mandel vector is symmetric. -/
theorem C47_usym_symmetric (v : Fin 6 → ℝ) : (usym v)ᵀ = usym v := by
  ext i j; fin_cases i <;> fin_cases j <;> rfl

/-- Inner products are preserved. -/
theorem C47_isometry (v w : Fin 6 → ℝ) : contract (usym v) (usym w) = v ⬝ᵥ w := by
  have h := r2_sq
  simp [contract, usym, dotProduct, Fin.sum_univ_succ, div_r2]
  grind

/-- Contraction of a fourth order tensor in Mandel form is the index contraction. -/
theorem C47_contraction (M : Matrix (Fin 6) (Fin 6) ℝ) (v : Fin 6 → ℝ) :
    mandel2full M *ᵥ vec9 (usym v) = vec9 (usym (M *ᵥ v)) := by
  have h := r2_sq
  ext i; fin_cases i <;>
    simp [mandel2full, vec9, usym, mulVec, dotProduct, Fin.sum_univ_succ, div_r2] <;> grind

/-- Fourth order Mandel to full and back. -/
theorem C47_full2mandel_mandel2full (M : Matrix (Fin 6) (Fin 6) ℝ) :
    full2mandel (mandel2full M) = M := by
  ext i j; fin_cases i <;> fin_cases j <;>
    simp [full2mandel, mandel2full, r2_half_r2, two_half]

/-- The transpose `X_ij -> X_ji` on flat indices. -/
def flip9 : Fin 9 → Fin 9 := ![0, 3, 6, 1, 4, 7, 2, 5, 8]

theorem flip9_vec9 (A : Matrix (Fin 3) (Fin 3) ℝ) (k : Fin 9) : vec9 A (flip9 k) = vec9 Aᵀ k := by
  fin_cases k <;> simp [vec9, flip9]

set_option maxHeartbeats 1000000 in
-- 81 entries
/-- Fourth order full to Mandel and back, for tensors with both minor symmetries. -/
theorem C47_mandel2full_full2mandel (A : Matrix (Fin 9) (Fin 9) ℝ)
    (h1 : ∀ i j, A (flip9 i) j = A i j) (h2 : ∀ i j, A i (flip9 j) = A i j) :
    mandel2full (full2mandel A) = A := by
  have k1 : flip9 1 = 3 := by simp [flip9]
  have k2 : flip9 2 = 6 := by simp [flip9]
  have k5 : flip9 5 = 7 := by simp [flip9]
  have e1 : ∀ j, A 3 j = A 1 j := fun j => k1 ▸ h1 1 j
  have e2 : ∀ j, A 6 j = A 2 j := fun j => k2 ▸ h1 2 j
  have e3 : ∀ j, A 7 j = A 5 j := fun j => k5 ▸ h1 5 j
  have f1 : ∀ j, A j 3 = A j 1 := fun j => k1 ▸ h2 j 1
  have f2 : ∀ j, A j 6 = A j 2 := fun j => k2 ▸ h2 j 2
  have f3 : ∀ j, A j 7 = A j 5 := fun j => k5 ▸ h2 j 5
  ext i j; fin_cases i <;> fin_cases j <;>
    simp [full2mandel, mandel2full, e1, e2, e3, f1, f2, f3, r2_r2_half, half_two]

set_option maxHeartbeats 1000000 in
-- 162 entries
/-- The hypotheses are met by every tensor that comes from a Mandel matrix, for instance by the
stiffness of a solid with shear coupling. -/
example (M : Matrix (Fin 6) (Fin 6) ℝ) :
    (∀ i j, mandel2full M (flip9 i) j = mandel2full M i j) ∧
      ∀ i j, mandel2full M i (flip9 j) = mandel2full M i j := by
  constructor <;> intro i j <;> fin_cases i <;> fin_cases j <;> simp [mandel2full, flip9]

/-- A symmetric tensor with all entries different. -/
example : usym (sym !![1, 2, 3; 2, 4, 5; 3, 5, 6]) = !![1, 2, 3; 2, 4, 5; 3, 5, 6] :=
  C47_usym_sym _ (by ext i j; fin_cases i <;> fin_cases j <;> rfl)

/-- The deviator removes the trace and nothing else. -/
theorem C47_dev (v : Fin 6 → ℝ) :
    (usym (devVec v)).trace = 0 ∧ usym v = usym (devVec v) + ((usym v).trace / 3) • 1 := by
  constructor
  · simp [usym, devVec, trace, Fin.sum_univ_succ]; ring
  · ext i j; fin_cases i <;> fin_cases j <;>
      simp [usym, devVec, trace, Fin.sum_univ_succ] <;> ring

/-! ## C48: skew tensors -/

/-- Skew to tensor and back. -/
theorem C48_skew_uskew (v : Fin 3 → ℝ) : skew (uskew v) = v := by
  ext i; fin_cases i <;> simp [skew, uskew]

/-- Tensor to skew and back, for skew tensors. -/
theorem C48_uskew_skew (A : Matrix (Fin 3) (Fin 3) ℝ) (hA : Aᵀ = -A) : uskew (skew A) = A := by
  have e : ∀ i j, A j i = -A i j := fun i j => congrFun (congrFun hA i) j
  have e0 := e 0 0; have e1 := e 1 1; have e2 := e 2 2
  have e3 := e 0 1; have e4 := e 0 2; have e5 := e 1 2
  ext i j; fin_cases i <;> fin_cases j <;> simp [skew, uskew] <;> linarith

/-- A skew tensor with all entries different. -/
example : uskew (skew !![0, 1, 2; -1, 0, 3; -2, -3, 0]) = !![0, 1, 2; -1, 0, 3; -2, -3, 0] :=
  C48_uskew_skew _ (by ext i j; fin_cases i <;> fin_cases j <;> simp)

/-- The tensor of a 3-vector is skew. -/
theorem C48_uskew_skewsymmetric (v : Fin 3 → ℝ) : (uskew v)ᵀ = -uskew v := by
  ext i j; fin_cases i <;> fin_cases j <;> simp [uskew]

/-- The 3-vector is the axial vector: the tensor acts as the cross product. -/
theorem C48_axial (v x : Fin 3 → ℝ) :
    uskew v *ᵥ x = ![v 1 * x 2 - v 2 * x 1, v 2 * x 0 - v 0 * x 2, v 0 * x 1 - v 1 * x 0] := by
  ext i; fin_cases i <;> simp [uskew, mulVec, dotProduct, Fin.sum_univ_succ] <;> ring

/-- Symmetric and skew tensors are orthogonal. -/
theorem C48_orthogonal (v : Fin 6 → ℝ) (w : Fin 3 → ℝ) : contract (usym v) (uskew w) = 0 := by
  simp [contract, usym, uskew, Fin.sum_univ_succ]; ring

/-- Every tensor is the sum of the tensors of its symmetric and skew parts. -/
theorem C48_split (A : Matrix (Fin 3) (Fin 3) ℝ) :
    usym (sym ((1 / 2 : ℝ) • (A + Aᵀ))) + uskew (skew ((1 / 2 : ℝ) • (A - Aᵀ))) = A := by
  have h := r2_sq
  ext i j; fin_cases i <;> fin_cases j <;> simp [sym, usym, skew, uskew, div_r2] <;> grind

/-- Fourth order symmetric-by-skew form and back. -/
theorem C48_full2skew_skew2full (M : Matrix (Fin 6) (Fin 3) ℝ) : full2skew (skew2full M) = M := by
  ext i j; fin_cases i <;> fin_cases j <;> simp [full2skew, skew2full, r2_half_r2, neg_div]

/-- Fourth order skew-by-symmetric form and back. -/
theorem C48_full2wws_wws2full (M : Matrix (Fin 3) (Fin 6) ℝ) : full2wws (wws2full M) = M := by
  ext i j; fin_cases i <;> fin_cases j <;> simp [full2wws, wws2full, r2_half_r2, neg_div]

/-- The skew-by-symmetric form contracts like the index form. -/
theorem C48_wws_contraction (M : Matrix (Fin 3) (Fin 6) ℝ) (v : Fin 6 → ℝ) :
    wws2full M *ᵥ vec9 (usym v) = vec9 (uskew (M *ᵥ v)) := by
  have h := r2_sq
  ext i; fin_cases i <;>
    simp [wws2full, vec9, usym, uskew, mulVec, dotProduct, Fin.sum_univ_succ, div_r2] <;> grind

/-- The symmetric-by-skew form contracts to *twice* the compact product: its entries belong to
index pairs that the contraction visits twice. -/
theorem C48_skew_contraction (M : Matrix (Fin 6) (Fin 3) ℝ) (w : Fin 3 → ℝ) :
    skew2full M *ᵥ vec9 (uskew w) = (2 : ℝ) • vec9 (usym (M *ᵥ w)) := by
  have h := r2_sq
  ext i; fin_cases i <;>
    simp [skew2full, vec9, usym, uskew, mulVec, dotProduct, Fin.sum_univ_succ, div_r2] <;> grind

/-! ## C77: the special products -/

/-- `idsym` takes the symmetric part. -/
theorem C77_idsym (A : Matrix (Fin 3) (Fin 3) ℝ) :
    idsym *ᵥ vec9 A = vec9 ((1 / 2 : ℝ) • (A + Aᵀ)) := by
  ext i; fin_cases i <;> simp [idsym, vec9, mulVec, dotProduct, Fin.sum_univ_succ] <;> ring

/-- `idskew` takes the skew part. -/
theorem C77_idskew (A : Matrix (Fin 3) (Fin 3) ℝ) :
    idskew *ᵥ vec9 A = vec9 ((1 / 2 : ℝ) • (A - Aᵀ)) := by
  ext i; fin_cases i <;> simp [idskew, vec9, mulVec, dotProduct, Fin.sum_univ_succ] <;> ring

/-- Combining a symmetric and a skew tangent gives the tangent with respect to the full velocity
gradient. -/
theorem C77_transform_fourth (A : Matrix (Fin 6) (Fin 6) ℝ) (B : Matrix (Fin 6) (Fin 3) ℝ)
    (d : Fin 6 → ℝ) (w : Fin 3 → ℝ) :
    transformFourth A B *ᵥ vec9 (usym d + uskew w) = vec9 (usym (A *ᵥ d + B *ᵥ w)) := by
  have h := r2_sq
  ext i; fin_cases i <;>
    simp [transformFourth, vec9, usym, uskew, mulVec, dotProduct, Fin.sum_univ_succ, div_r2] <;>
    grind

/-- The first commutator product: with `S = M d`, the result is `S W - W S`. -/
theorem C77_symSymSkew (M : Matrix (Fin 6) (Fin 6) ℝ) (W : Fin 3 → ℝ) (d : Fin 6 → ℝ) :
    usym (symSymSkew M W *ᵥ d) = usym (M *ᵥ d) * uskew W - uskew W * usym (M *ᵥ d) := by
  have h := r2_sq
  ext i j; fin_cases i <;> fin_cases j <;>
    simp [symSymSkew, usym, uskew, mulVec, dotProduct, Fin.sum_univ_succ, div_r2,
      Matrix.mul_apply, vecMul] <;> grind

/-- The second: with `W = M d`, the result is `D W - W D`. -/
theorem C77_symSkewSym (D : Fin 6 → ℝ) (M : Matrix (Fin 3) (Fin 6) ℝ) (d : Fin 6 → ℝ) :
    usym (symSkewSym D M *ᵥ d) = usym D * uskew (M *ᵥ d) - uskew (M *ᵥ d) * usym D := by
  have h := r2_sq
  ext i j; fin_cases i <;> fin_cases j <;>
    simp [symSkewSym, usym, uskew, mulVec, dotProduct, Fin.sum_univ_succ, div_r2,
      Matrix.mul_apply, vecMul] <;> grind

/-- The third: *half* of `M : (D W - W D)`. -/
theorem C77_specialSymSym (D : Fin 6 → ℝ) (M : Matrix (Fin 6) (Fin 6) ℝ) (w : Fin 3 → ℝ) :
    specialSymSym D M *ᵥ w =
      (1 / 2 : ℝ) • (M *ᵥ sym (usym D * uskew w - uskew w * usym D)) := by
  have h := r2_sq
  ext i; fin_cases i <;>
    simp [specialSymSym, usym, sym, uskew, mulVec, dotProduct, Fin.sum_univ_succ, div_r2,
      Matrix.mul_apply, vecMul] <;> grind

end Neml.Mandel
