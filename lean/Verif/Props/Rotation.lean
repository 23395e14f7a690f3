import Verif.Model.Rotation
import Verif.Props.Isotropy
import Mathlib.Algebra.Quaternion
import Mathlib.LinearAlgebra.Matrix.NonsingularInverse
import Mathlib.LinearAlgebra.Matrix.Kronecker
import Mathlib.LinearAlgebra.Matrix.DotProduct

/-!
# C51, C52 (matrix part), C55: quaternions, rotation matrices and rotated tensors

Specification pieces, independent of the code's formulas: Mathlib's quaternion algebra `ℍ[ℝ]`, and
`SO3 M`, an orthogonal matrix of determinant one.
-/

namespace Neml.Rotation

open Matrix Neml.Mandel Neml.Elastic

/-- A proper rotation matrix. -/
def SO3 (M : Matrix (Fin 3) (Fin 3) ℝ) : Prop := M * Mᵀ = 1 ∧ M.det = 1

/-- Length one. -/
def Unit4 (q : Quat) : Prop := q.s ^ 2 + q.x ^ 2 + q.y ^ 2 + q.z ^ 2 = 1

/-- The identity rotation. -/
def one : Quat := ⟨1, 0, 0, 0⟩

/-- The Mathlib quaternion with the same four components. -/
def toH (q : Quat) : Quaternion ℝ := ⟨q.s, q.x, q.y, q.z⟩

/-! ## C51 -/

/-- The code's product is the Hamilton product, its conjugate the quaternion conjugate. -/
theorem C51_hamilton (p q : Quat) :
    toH (qmul p q) = toH p * toH q ∧ toH (conj q) = star (toH q) ∧ toH (opposite q) = -toH q := by
  refine ⟨?_, ?_, ?_⟩
  · ext
    · rw [Quaternion.re_mul]; simp only [toH, qmul]; ring
    · rw [Quaternion.imI_mul]; simp only [toH, qmul]
    · rw [Quaternion.imJ_mul]; simp only [toH, qmul]; ring
    · rw [Quaternion.imK_mul]; simp only [toH, qmul]; ring
  · ext
    · rw [Quaternion.re_star]; rfl
    · rw [Quaternion.imI_star]; rfl
    · rw [Quaternion.imJ_star]; rfl
    · rw [Quaternion.imK_star]; rfl
  · apply Quaternion.ext <;> rfl

/-- The four by four product matrix represents left multiplication. -/
theorem C51_product_matrix (p q : Quat) : productMatrix p *ᵥ toVec q = toVec (qmul p q) := by
  ext i
  fin_cases i <;> simp [productMatrix, toVec, qmul, mulVec, dotProduct, Fin.sum_univ_succ] <;> ring

theorem sumsq_nonneg (q : Quat) : 0 ≤ q.s * q.s + q.x * q.x + q.y * q.y + q.z * q.z := by
  linarith [mul_self_nonneg q.s, mul_self_nonneg q.x, mul_self_nonneg q.y, mul_self_nonneg q.z]

theorem qnorm_sq (q : Quat) : qnorm q * qnorm q = q.s * q.s + q.x * q.x + q.y * q.y + q.z * q.z :=
  Real.mul_self_sqrt (sumsq_nonneg q)

/-- Lengths multiply. -/
theorem qnorm_mul (p q : Quat) : qnorm (qmul p q) = qnorm p * qnorm q := by
  rw [qnorm, qnorm, qnorm, ← Real.sqrt_mul (sumsq_nonneg p)]
  congr 1
  simp only [qmul]; ring

theorem unit_iff (q : Quat) : Unit4 q ↔ qnorm q = 1 := by
  rw [qnorm, Real.sqrt_eq_one, Unit4]
  constructor <;> intro h <;> linarith [h]

theorem Unit4.mul {p q : Quat} (hp : Unit4 p) (hq : Unit4 q) : Unit4 (qmul p q) := by
  rw [unit_iff] at *
  rw [qnorm_mul, hp, hq, mul_one]

theorem Unit4.conj {q : Quat} (hq : Unit4 q) : Unit4 (conj q) := by
  simpa [Unit4, Rotation.conj] using hq

theorem Unit4.opposite {q : Quat} (hq : Unit4 q) : Unit4 (opposite q) := by
  simpa [Unit4, Rotation.opposite] using hq

/-- The matrix of a unit quaternion in its homogeneous form. -/
theorem toMatrix_hom {q : Quat} (hq : Unit4 q) : toMatrix q =
    !![q.s ^ 2 + q.x ^ 2 - q.y ^ 2 - q.z ^ 2, 2 * (q.x * q.y - q.z * q.s), 2 * (q.x * q.z + q.y * q.s);
       2 * (q.x * q.y + q.z * q.s), q.s ^ 2 - q.x ^ 2 + q.y ^ 2 - q.z ^ 2, 2 * (q.y * q.z - q.x * q.s);
       2 * (q.x * q.z - q.y * q.s), 2 * (q.y * q.z + q.x * q.s), q.s ^ 2 - q.x ^ 2 - q.y ^ 2 + q.z ^ 2] := by
  have h : q.s ^ 2 = 1 - q.x ^ 2 - q.y ^ 2 - q.z ^ 2 := by unfold Unit4 at hq; linarith
  rw [h]
  ext i j
  fin_cases i <;> fin_cases j <;> simp [toMatrix] <;> ring

theorem toMatrix_mul {p q : Quat} (hp : Unit4 p) (hq : Unit4 q) :
    toMatrix (qmul p q) = toMatrix p * toMatrix q := by
  rw [toMatrix_hom hp, toMatrix_hom hq, toMatrix_hom (hp.mul hq)]
  ext i j
  fin_cases i <;> fin_cases j <;> simp [qmul, Matrix.mul_apply, Fin.sum_univ_succ] <;> ring

theorem toMatrix_conj (q : Quat) : toMatrix (conj q) = (toMatrix q)ᵀ := by
  ext i j
  fin_cases i <;> fin_cases j <;> simp [toMatrix, conj] <;> ring

theorem toMatrix_opposite (q : Quat) : toMatrix (opposite q) = toMatrix q := by
  ext i j
  fin_cases i <;> fin_cases j <;> simp [toMatrix, opposite]

theorem toMatrix_one : toMatrix one = 1 := by
  ext i j
  fin_cases i <;> fin_cases j <;> simp [toMatrix, one]

theorem qmul_conj {q : Quat} (hq : Unit4 q) : qmul q (conj q) = one := by
  unfold Unit4 at hq
  ext <;> simp [qmul, conj, one] <;> linarith

theorem conj_qmul {q : Quat} (hq : Unit4 q) : qmul (conj q) q = one := by
  unfold Unit4 at hq
  ext <;> simp [qmul, conj, one] <;> linarith

theorem qmul_assoc (p q r : Quat) : qmul (qmul p q) r = qmul p (qmul q r) := by
  ext <;> simp [qmul] <;> ring

theorem one_qmul (q : Quat) : qmul one q = q := by ext <;> simp [qmul, one]

theorem qmul_one (q : Quat) : qmul q one = q := by ext <;> simp [qmul, one]

theorem toMatrix_SO3 {q : Quat} (hq : Unit4 q) : SO3 (toMatrix q) := by
  have h1 : toMatrix q * (toMatrix q)ᵀ = 1 := by
    rw [← toMatrix_conj, ← toMatrix_mul hq hq.conj, qmul_conj hq, toMatrix_one]
  refine ⟨h1, ?_⟩
  rw [toMatrix_hom hq, det_fin_three]
  unfold Unit4 at hq
  simp
  have : ∀ s x y z : ℝ, s ^ 2 + x ^ 2 + y ^ 2 + z ^ 2 = 1 → (s ^ 2 + x ^ 2 + y ^ 2 + z ^ 2) ^ 3 = 1 := by
    intro s x y z h; rw [h]; norm_num
  linear_combination this _ _ _ _ hq

/-- Unit quaternions multiply to unit quaternions; the matrix of one is a proper rotation; products go
to products, the inverse to the transpose, minus the quaternion to the same matrix; and turning a
vector with the quaternion is multiplying it by the matrix. -/
theorem C51_faithful {p q : Quat} (hp : Unit4 p) (hq : Unit4 q) (v : Fin 3 → ℝ) :
    Unit4 (qmul p q) ∧ SO3 (toMatrix q) ∧ toMatrix (qmul p q) = toMatrix p * toMatrix q ∧
      toMatrix (conj q) = (toMatrix q)ᵀ ∧ toMatrix (conj q) = (toMatrix q)⁻¹ ∧
      toMatrix (opposite q) = toMatrix q ∧ applyVec q v = toMatrix q *ᵥ v := by
  refine ⟨hp.mul hq, toMatrix_SO3 hq, toMatrix_mul hp hq, toMatrix_conj q, ?_, toMatrix_opposite q, ?_⟩
  · rw [toMatrix_conj]
    exact (inv_eq_right_inv (toMatrix_SO3 hq).1).symm
  · rw [toMatrix_hom hq]
    ext i
    fin_cases i <;> simp [applyVec, qmul, conj, mulVec, dotProduct, Fin.sum_univ_succ] <;> ring

/-- The inverse of any non-zero quaternion undoes it from both sides. -/
theorem C51_inverse {q : Quat} (h : qnorm q ≠ 0) : qmul q (inverse q) = one ∧ qmul (inverse q) q = one := by
  have h2 := qnorm_sq q
  have h3 : q.s * q.s + q.x * q.x + q.y * q.y + q.z * q.z ≠ 0 := h2 ▸ mul_ne_zero h h
  simp only [inverse, h2]
  generalize hN : q.s * q.s + q.x * q.x + q.y * q.y + q.z * q.z = N at *
  constructor <;> ext <;> simp only [qmul, one] <;> field_simp <;> linarith

/-- Normalizing anything but zero gives a unit quaternion on the same ray. -/
theorem normalize_unit (q : Quat) : Unit4 (normalize q) := by
  unfold normalize
  split
  · simp [Unit4]
  · rename_i h
    have h2 := qnorm_sq q
    simp only [Unit4]
    field_simp
    linarith [h2]

theorem normalize_of_unit {q : Quat} (h : Unit4 q) : normalize q = q := by
  have := (unit_iff q).mp h
  ext <;> simp [normalize, this]

/-- A unit quaternion that is not trivial, satisfying the hypotheses above. -/
example : Unit4 ⟨3 / 5, 0, 4 / 5, 0⟩ ∧ Unit4 ⟨1 / 2, 1 / 2, -1 / 2, 1 / 2⟩ := by
  constructor <;> norm_num [Unit4]

/-! ## Two quaternions have the same matrix exactly when they agree up to sign -/

theorem toMatrix_eq_one {q : Quat} (hq : Unit4 q) (h : toMatrix q = 1) : q = one ∨ q = opposite one := by
  have h0 := congrFun (congrFun h 0) 0
  have h1 := congrFun (congrFun h 1) 1
  have h2 := congrFun (congrFun h 2) 2
  simp [toMatrix] at h0 h1 h2
  unfold Unit4 at hq
  have hx : q.x = 0 := by nlinarith [mul_self_nonneg q.x, mul_self_nonneg q.y, mul_self_nonneg q.z]
  have hy : q.y = 0 := by nlinarith [mul_self_nonneg q.x, mul_self_nonneg q.y, mul_self_nonneg q.z]
  have hz : q.z = 0 := by nlinarith [mul_self_nonneg q.x, mul_self_nonneg q.y, mul_self_nonneg q.z]
  rw [hx, hy, hz] at hq
  have hs : (q.s - 1) * (q.s + 1) = 0 := by linarith
  rcases mul_eq_zero.mp hs with h | h
  · left; ext <;> simp [one, hx, hy, hz]; linarith
  · right; ext <;> simp [one, opposite, hx, hy, hz]; linarith

theorem toMatrix_inj {p q : Quat} (hp : Unit4 p) (hq : Unit4 q) :
    toMatrix p = toMatrix q ↔ p = q ∨ p = opposite q := by
  constructor
  · intro h
    have h1 : toMatrix (qmul (conj q) p) = 1 := by
      rw [toMatrix_mul hq.conj hp, toMatrix_conj, h]
      exact mul_eq_one_comm.mp (toMatrix_SO3 hq).1
    have hu := hq.conj.mul hp
    have key : p = qmul q (qmul (conj q) p) := by
      rw [← qmul_assoc, qmul_conj hq, one_qmul]
    rcases toMatrix_eq_one hu h1 with h2 | h2
    · left; rw [key, h2, qmul_one]
    · right; rw [key, h2]; ext <;> simp [qmul, opposite, one]
  · rintro (rfl | rfl)
    · rfl
    · exact toMatrix_opposite q

/-! ## C52: matrix to quaternion -/

/-- The nine cofactor equations of a proper rotation. -/
theorem SO3.cof {M : Matrix (Fin 3) (Fin 3) ℝ} (h : SO3 M) : M.adjugate = Mᵀ := by
  have h1 : Mᵀ * M = 1 := mul_eq_one_comm.mp h.1
  calc M.adjugate = Mᵀ * (M * M.adjugate) := by rw [← Matrix.mul_assoc, h1, Matrix.one_mul]
    _ = Mᵀ := by rw [mul_adjugate, h.2, one_smul, Matrix.mul_one]

/-- All the polynomial relations between the entries of a proper rotation. -/
structure Rel (a b c d e f g h i : ℝ) : Prop where
  r00 : a * a + b * b + c * c = 1
  r11 : d * d + e * e + f * f = 1
  r22 : g * g + h * h + i * i = 1
  c00 : a * a + d * d + g * g = 1
  c11 : b * b + e * e + h * h = 1
  c22 : c * c + f * f + i * i = 1
  r01 : a * d + b * e + c * f = 0
  r02 : a * g + b * h + c * i = 0
  r12 : d * g + e * h + f * i = 0
  c01 : a * b + d * e + g * h = 0
  c02 : a * c + d * f + g * i = 0
  c12 : b * c + e * f + h * i = 0
  k0 : e * i - f * h = a
  k1 : c * h - b * i = d
  k2 : b * f - c * e = g
  k3 : f * g - d * i = b
  k4 : a * i - c * g = e
  k5 : c * d - a * f = h
  k6 : d * h - e * g = c
  k7 : b * g - a * h = f
  k8 : a * e - b * d = i

theorem SO3.rel {M : Matrix (Fin 3) (Fin 3) ℝ} (h : SO3 M) :
    Rel (M 0 0) (M 0 1) (M 0 2) (M 1 0) (M 1 1) (M 1 2) (M 2 0) (M 2 1) (M 2 2) := by
  have h1 : Mᵀ * M = 1 := mul_eq_one_comm.mp h.1
  have r := fun i j => congrFun (congrFun h.1 i) j
  have c := fun i j => congrFun (congrFun h1 i) j
  have k := fun i j => congrFun (congrFun h.cof i) j
  simp only [Matrix.mul_apply, transpose_apply, Fin.sum_univ_three] at r c
  rw [adjugate_fin_three] at k
  simp only [transpose_apply] at k
  constructor
  · simpa using r 0 0
  · simpa using r 1 1
  · simpa using r 2 2
  · simpa using c 0 0
  · simpa using c 1 1
  · simpa using c 2 2
  · simpa using r 0 1
  · simpa using r 0 2
  · simpa using r 1 2
  · simpa using c 0 1
  · simpa using c 0 2
  · simpa using c 1 2
  · have := k 0 0; simp at this; linarith
  · have := k 0 1; simp at this; linarith
  · have := k 0 2; simp at this; linarith
  · have := k 1 0; simp at this; linarith
  · have := k 1 1; simp at this; linarith
  · have := k 1 2; simp at this; linarith
  · have := k 2 0; simp at this; linarith
  · have := k 2 1; simp at this; linarith
  · have := k 2 2; simp at this; linarith

/-- First branch: the real part is the pivot. -/
theorem branch_s {M : Matrix (Fin 3) (Fin 3) ℝ} (hM : SO3 M) (q : Quat) (h0 : q.s ≠ 0)
    (hs : 4 * (q.s * q.s) = 1 + (M 0 0 + M 1 1 + M 2 2)) (hx : 4 * (q.s * q.x) = M 2 1 - M 1 2)
    (hy : 4 * (q.s * q.y) = M 0 2 - M 2 0) (hz : 4 * (q.s * q.z) = M 1 0 - M 0 1) :
    toMatrix q = M := by
  have R := hM.rel
  obtain ⟨r00, r11, r22, c00, c11, c22, r01, r02, r12, c01, c02, c12, k0, k1, k2, k3, k4, k5, k6, k7, k8⟩ := R
  have hss : q.s * q.s ≠ 0 := mul_ne_zero h0 h0
  ext i j
  apply mul_left_cancel₀ hss
  fin_cases i <;> fin_cases j <;> simp [toMatrix]
  all_goals grind

/-- Second branch. -/
theorem branch_x {M : Matrix (Fin 3) (Fin 3) ℝ} (hM : SO3 M) (q : Quat) (h0 : q.x ≠ 0)
    (hx : 4 * (q.x * q.x) = 1 + M 0 0 - M 1 1 - M 2 2) (hs : 4 * (q.x * q.s) = M 2 1 - M 1 2)
    (hy : 4 * (q.x * q.y) = M 0 1 + M 1 0) (hz : 4 * (q.x * q.z) = M 0 2 + M 2 0) :
    toMatrix q = M := by
  have R := hM.rel
  obtain ⟨r00, r11, r22, c00, c11, c22, r01, r02, r12, c01, c02, c12, k0, k1, k2, k3, k4, k5, k6, k7, k8⟩ := R
  have hss : q.x * q.x ≠ 0 := mul_ne_zero h0 h0
  ext i j
  apply mul_left_cancel₀ hss
  fin_cases i <;> fin_cases j <;> simp [toMatrix]
  all_goals grind

/-- Third branch. -/
theorem branch_y {M : Matrix (Fin 3) (Fin 3) ℝ} (hM : SO3 M) (q : Quat) (h0 : q.y ≠ 0)
    (hy : 4 * (q.y * q.y) = 1 + M 1 1 - M 0 0 - M 2 2) (hs : 4 * (q.y * q.s) = M 0 2 - M 2 0)
    (hx : 4 * (q.y * q.x) = M 0 1 + M 1 0) (hz : 4 * (q.y * q.z) = M 1 2 + M 2 1) :
    toMatrix q = M := by
  have R := hM.rel
  obtain ⟨r00, r11, r22, c00, c11, c22, r01, r02, r12, c01, c02, c12, k0, k1, k2, k3, k4, k5, k6, k7, k8⟩ := R
  have hss : q.y * q.y ≠ 0 := mul_ne_zero h0 h0
  ext i j
  apply mul_left_cancel₀ hss
  fin_cases i <;> fin_cases j <;> simp [toMatrix]
  all_goals grind

/-- Fourth branch. -/
theorem branch_z {M : Matrix (Fin 3) (Fin 3) ℝ} (hM : SO3 M) (q : Quat) (h0 : q.z ≠ 0)
    (hz : 4 * (q.z * q.z) = 1 + M 2 2 - M 0 0 - M 1 1) (hs : 4 * (q.z * q.s) = M 1 0 - M 0 1)
    (hx : 4 * (q.z * q.x) = M 0 2 + M 2 0) (hy : 4 * (q.z * q.y) = M 1 2 + M 2 1) :
    toMatrix q = M := by
  have R := hM.rel
  obtain ⟨r00, r11, r22, c00, c11, c22, r01, r02, r12, c01, c02, c12, k0, k1, k2, k3, k4, k5, k6, k7, k8⟩ := R
  have hss : q.z * q.z ≠ 0 := mul_ne_zero h0 h0
  ext i j
  apply mul_left_cancel₀ hss
  fin_cases i <;> fin_cases j <;> simp [toMatrix]
  all_goals grind

theorem pivot_facts {t : ℝ} (ht : 0 < t) :
    0.25 * (√t * 2) ≠ 0 ∧ 4 * (0.25 * (√t * 2) * (0.25 * (√t * 2))) = t ∧
      ∀ d, 4 * (0.25 * (√t * 2) * (d / (√t * 2))) = d := by
  have h1 : 0 < √t := Real.sqrt_pos.mpr ht
  have h2 : √t * √t = t := Real.mul_self_sqrt ht.le
  refine ⟨by positivity, by linarith, fun d => ?_⟩
  field_simp
  norm_num

theorem diag_le {M : Matrix (Fin 3) (Fin 3) ℝ} (hM : SO3 M) : M 0 0 ≤ 1 ∧ M 1 1 ≤ 1 ∧ M 2 2 ≤ 1 := by
  have R := hM.rel
  refine ⟨?_, ?_, ?_⟩
  · nlinarith [R.r00, mul_self_nonneg (M 0 1), mul_self_nonneg (M 0 2)]
  · nlinarith [R.r11, mul_self_nonneg (M 1 0), mul_self_nonneg (M 1 2)]
  · nlinarith [R.r22, mul_self_nonneg (M 2 0), mul_self_nonneg (M 2 1)]

/-- If the matrix is a rotation and the vector part is not zero, the quaternion is a unit one. -/
theorem unit_of_SO3 {q : Quat} (h : SO3 (toMatrix q)) (hv : q.x ≠ 0 ∨ q.y ≠ 0 ∨ q.z ≠ 0) : Unit4 q := by
  have R := h.rel
  have h0 := R.c00
  have h1 := R.c11
  have h2 := R.c22
  simp [toMatrix] at h0 h1 h2
  have key : (q.x * q.x + q.y * q.y + q.z * q.z) * (q.s ^ 2 + q.x ^ 2 + q.y ^ 2 + q.z ^ 2 - 1) = 0 := by
    linear_combination (1 / 8) * h0 + (1 / 8) * h1 + (1 / 8) * h2
  rcases mul_eq_zero.mp key with h3 | h3
  · exfalso
    have hx := mul_self_nonneg q.x
    have hy := mul_self_nonneg q.y
    have hz := mul_self_nonneg q.z
    rcases hv with hv | hv | hv
    · exact hv (mul_self_eq_zero.mp (by linarith))
    · exact hv (mul_self_eq_zero.mp (by linarith))
    · exact hv (mul_self_eq_zero.mp (by linarith))
  · unfold Unit4; linarith

/-- Matrix to quaternion to matrix is the identity on every proper rotation, whichever of the four
branches is taken, and the quaternion in between is a unit one. -/
theorem C52_matrix {M : Matrix (Fin 3) (Fin 3) ℝ} (hM : SO3 M) :
    toMatrix (setMatrix M) = M ∧ Unit4 (setMatrix M) := by
  unfold setMatrix
  simp only
  split
  · rename_i h
    obtain ⟨h0, h1, h2⟩ := pivot_facts (t := 1 + (M 0 0 + M 1 1 + M 2 2)) (by linarith)
    have key := branch_s hM ⟨_, _, _, _⟩ h0 h1 (h2 _) (h2 _) (h2 _)
    refine ⟨key, ?_⟩
    have k0 := congrFun (congrFun key 0) 0
    have k1 := congrFun (congrFun key 1) 1
    have k2 := congrFun (congrFun key 2) 2
    unfold Unit4
    simp only [toMatrix, of_apply, cons_val', cons_val_zero, cons_val_one, cons_val] at k0 k1 k2
    linarith
  · split
    · rename_i h h'
      obtain ⟨h0, h1, h2⟩ := pivot_facts (t := 1 + M 0 0 - M 1 1 - M 2 2) (by linarith [h'.1, h'.2])
      have key := branch_x hM ⟨_, _, _, _⟩ h0 h1 (h2 _) (h2 _) (h2 _)
      exact ⟨key, unit_of_SO3 (key.symm ▸ hM) (Or.inl h0)⟩
    · split
      · rename_i h h' h''
        have h3 : M 0 0 ≤ M 1 1 := by
          by_contra hc
          exact h' ⟨by linarith, by linarith⟩
        obtain ⟨h0, h1, h2⟩ := pivot_facts (t := 1 + M 1 1 - M 0 0 - M 2 2) (by linarith)
        have key := branch_y hM ⟨_, _, _, _⟩ h0 h1 (h2 _) (h2 _) (h2 _)
        exact ⟨key, unit_of_SO3 (key.symm ▸ hM) (Or.inr (Or.inl h0))⟩
      · rename_i h h' h''
        have h3 : M 0 0 ≤ M 2 2 := by
          by_contra hc
          exact h' ⟨by linarith, by linarith⟩
        obtain ⟨h0, h1, h2⟩ := pivot_facts (t := 1 + M 2 2 - M 0 0 - M 1 1) (by linarith)
        have key := branch_z hM ⟨_, _, _, _⟩ h0 h1 (h2 _) (h2 _) (h2 _)
        exact ⟨key, unit_of_SO3 (key.symm ▸ hM) (Or.inr (Or.inr h0))⟩

/-- Quaternion to matrix to quaternion gives the quaternion back up to its sign. -/
theorem C52_matrix_back {q : Quat} (hq : Unit4 q) :
    setMatrix (toMatrix q) = q ∨ setMatrix (toMatrix q) = opposite q := by
  obtain ⟨h1, h2⟩ := C52_matrix (toMatrix_SO3 hq)
  exact (toMatrix_inj h2 hq).mp h1

/-! ## C55 -/

theorem symOfFull_eq (a : Matrix (Fin 3) (Fin 3) ℝ) (h : aᵀ = a) : symOfFull a = sym a := by
  have h' := fun i j => congrFun (congrFun h i) j
  simp only [transpose_apply] at h'
  ext i
  fin_cases i <;> simp [symOfFull, sym, h'] <;> ring

/-- The compact symmetric rotation is the full one. -/
theorem applySym_eq (q : Quat) (a : Fin 6 → ℝ) : applySym q a = rot (toMatrix q) a := by
  rw [applySym, symOfFull_eq, applyR2, rot, Matrix.mul_assoc]
  rw [applyR2, transpose_mul, transpose_mul, transpose_transpose, C47_usym_symmetric, Matrix.mul_assoc]

theorem mandelRot_mulVec (q : Quat) (b : Fin 6 → ℝ) : mandelRot (toMatrix q) *ᵥ b = applySym q b := by
  rw [applySym_eq, rot]
  generalize toMatrix q = M
  have h2 := r2_sq
  ext i
  fin_cases i <;>
    simp [mandelRot, sym, usym, mulVec, dotProduct, Fin.sum_univ_succ, Matrix.mul_apply, div_r2] <;> grind

theorem applySkew_eq {q : Quat} (hq : Unit4 q) (w : Fin 3 → ℝ) : applySkew q w = toMatrix q *ᵥ w := by
  unfold Unit4 at hq
  ext i
  fin_cases i <;> simp [applySkew, toMatrix, mulVec, dotProduct, Fin.sum_univ_succ] <;> grind

/-- Turning the axis of a skew tensor turns the tensor. -/
theorem uskew_mulVec {M : Matrix (Fin 3) (Fin 3) ℝ} (hM : SO3 M) (w : Fin 3 → ℝ) :
    uskew (M *ᵥ w) = M * uskew w * Mᵀ := by
  obtain ⟨r00, r11, r22, c00, c11, c22, r01, r02, r12, c01, c02, c12, k0, k1, k2, k3, k4, k5, k6, k7, k8⟩ :=
    hM.rel
  ext i j
  fin_cases i <;> fin_cases j <;>
    simp [uskew, mulVec, dotProduct, Fin.sum_univ_succ, Matrix.mul_apply] <;> grind

theorem mandelRot_orth {q : Quat} (hq : Unit4 q) :
    (mandelRot (toMatrix q))ᵀ * mandelRot (toMatrix q) = 1 := by
  apply Matrix.ext_of_mulVec_single
  intro j
  rw [one_mulVec]
  apply dotProduct_eq
  intro u
  rw [dotProduct_comm, ← mulVec_mulVec, dotProduct_mulVec, vecMul_transpose, mandelRot_mulVec,
    mandelRot_mulVec, applySym_eq, applySym_eq, Flow.rot_dot (toMatrix_SO3 hq).1, dotProduct_comm]

/-- Compact and full forms of the rotated tensors agree: symmetric, skew (whose axis turns as a vector),
and the 6 by 6 matrix of a fourth order tensor, which sends turned tensors to turned images. -/
theorem C55_compact {q : Quat} (hq : Unit4 q) (a : Fin 6 → ℝ) (w : Fin 3 → ℝ) (C : Matrix (Fin 6) (Fin 6) ℝ) :
    usym (applySym q a) = applyR2 q (usym a) ∧ applyR2 q (usym a) = toMatrix q * usym a * (toMatrix q)ᵀ ∧
      uskew (applySkew q w) = applyR2 q (uskew w) ∧ applySkew q w = applyVec q w ∧
      applySymSym q C *ᵥ applySym q a = applySym q (C *ᵥ a) := by
  refine ⟨?_, ?_, ?_, ?_, ?_⟩
  · rw [applySym_eq, Flow.usym_rot, applyR2, Matrix.mul_assoc]
  · rw [applyR2, Matrix.mul_assoc]
  · rw [applySkew_eq hq, uskew_mulVec (toMatrix_SO3 hq), applyR2, Matrix.mul_assoc]
  · rw [applySkew_eq hq, (C51_faithful hq hq w).2.2.2.2.2.2]
  · rw [applySymSym, ← mandelRot_mulVec, mulVec_mulVec, Matrix.mul_assoc, mandelRot_orth hq, Matrix.mul_one,
      ← mulVec_mulVec, mandelRot_mulVec]

/-- Inner products and traces survive the rotation. -/
theorem C55_invariants {q : Quat} (hq : Unit4 q) (a b : Fin 6 → ℝ) (v w : Fin 3 → ℝ)
    (A B : Matrix (Fin 3) (Fin 3) ℝ) :
    applySym q a ⬝ᵥ applySym q b = a ⬝ᵥ b ∧
      (applySym q a) 0 + (applySym q a) 1 + (applySym q a) 2 = a 0 + a 1 + a 2 ∧
      applySkew q v ⬝ᵥ applySkew q w = v ⬝ᵥ w ∧ applyVec q v ⬝ᵥ applyVec q w = v ⬝ᵥ w ∧
      trace (applyR2 q A) = trace A ∧ trace ((applyR2 q A)ᵀ * applyR2 q B) = trace (Aᵀ * B) ∧
      det (applyR2 q A) = det A ∧ applyR2 q (A * B) = applyR2 q A * applyR2 q B := by
  have ho := (toMatrix_SO3 hq).1
  have ho' : (toMatrix q)ᵀ * toMatrix q = 1 := mul_eq_one_comm.mp ho
  have hv : ∀ v, applyVec q v = toMatrix q *ᵥ v := fun v => (C51_faithful hq hq v).2.2.2.2.2.2
  have hdot : (toMatrix q *ᵥ v) ⬝ᵥ (toMatrix q *ᵥ w) = v ⬝ᵥ w := by
    rw [dotProduct_mulVec, ← mulVec_transpose, mulVec_mulVec, ho', one_mulVec]
  have hmul : ∀ A B, applyR2 q (A * B) = applyR2 q A * applyR2 q B := by
    intro A B
    simp only [applyR2]
    calc _ = toMatrix q * (A * ((toMatrix q)ᵀ * toMatrix q) * B * (toMatrix q)ᵀ) := by
          rw [ho', Matrix.mul_one]
      _ = _ := by simp only [Matrix.mul_assoc]
  have htr : ∀ A, trace (applyR2 q A) = trace A := by
    intro A
    rw [applyR2, trace_mul_comm, Matrix.mul_assoc, ho', Matrix.mul_one]
  refine ⟨?_, ?_, ?_, ?_, htr A, ?_, ?_, hmul A B⟩
  · rw [applySym_eq, applySym_eq, Flow.rot_dot ho]
  · rw [applySym_eq]; exact rot_trace _ ho a
  · rw [applySkew_eq hq, applySkew_eq hq, hdot]
  · rw [hv, hv, hdot]
  · have : (applyR2 q A)ᵀ = applyR2 q Aᵀ := by
      simp only [applyR2, transpose_mul, transpose_transpose, Matrix.mul_assoc]
    rw [this, ← hmul, htr]
  · rw [applyR2, det_mul, det_mul, det_transpose, (toMatrix_SO3 hq).2, one_mul, mul_one]

/-- Contraction of a fourth order tensor with a second order one. -/
def contract4 (C : Fin 3 → Fin 3 → Fin 3 → Fin 3 → ℝ) (A : Matrix (Fin 3) (Fin 3) ℝ) :
    Matrix (Fin 3) (Fin 3) ℝ := of fun i j => ∑ k, ∑ l, C i j k l * A k l

/-- A fourth order tensor as a matrix over pairs of indices. -/
def flat4 (C : Fin 3 → Fin 3 → Fin 3 → Fin 3 → ℝ) : Matrix (Fin 3 × Fin 3) (Fin 3 × Fin 3) ℝ :=
  of fun i k => C i.1 i.2 k.1 k.2

/-- A second order tensor as a vector over pairs of indices. -/
def flat2 (A : Matrix (Fin 3) (Fin 3) ℝ) : Fin 3 × Fin 3 → ℝ := fun i => A i.1 i.2

theorem flat4_inj {C D : Fin 3 → Fin 3 → Fin 3 → Fin 3 → ℝ} (h : flat4 C = flat4 D) : C = D := by
  funext i j k l
  exact congrFun (congrFun h (i, j)) (k, l)

theorem flat2_inj {A B : Matrix (Fin 3) (Fin 3) ℝ} (h : flat2 A = flat2 B) : A = B := by
  ext i j
  exact congrFun h (i, j)

open Kronecker in
theorem flat4_apply (q : Quat) (C : Fin 3 → Fin 3 → Fin 3 → Fin 3 → ℝ) :
    flat4 (applyR4 q C) = (toMatrix q ⊗ₖ toMatrix q) * flat4 C * (toMatrix q ⊗ₖ toMatrix q)ᵀ := by
  generalize hM : toMatrix q = M
  ext ⟨i, j⟩ ⟨k, l⟩
  simp only [flat4, applyR4, hM, of_apply, Matrix.mul_apply, transpose_apply, kronecker_apply,
    Fintype.sum_prod_type, Finset.sum_mul]
  rw [Finset.sum_congr rfl fun m _ => Finset.sum_comm]
  rw [Finset.sum_comm]
  refine Finset.sum_congr rfl fun o _ => ?_
  rw [Finset.sum_congr rfl fun m _ => Finset.sum_comm]
  rw [Finset.sum_comm]
  refine Finset.sum_congr rfl fun p _ => Finset.sum_congr rfl fun m _ => Finset.sum_congr rfl fun n _ => ?_
  ring

open Kronecker in
theorem flat2_apply (q : Quat) (A : Matrix (Fin 3) (Fin 3) ℝ) :
    flat2 (applyR2 q A) = (toMatrix q ⊗ₖ toMatrix q) *ᵥ flat2 A := by
  generalize hM : toMatrix q = M
  ext ⟨i, j⟩
  simp only [flat2, applyR2, hM, Matrix.mul_apply, transpose_apply, kronecker_apply, mulVec, dotProduct,
    Fintype.sum_prod_type, Finset.mul_sum]
  refine Finset.sum_congr rfl fun o _ => Finset.sum_congr rfl fun p _ => ?_
  ring

theorem flat2_contract (C : Fin 3 → Fin 3 → Fin 3 → Fin 3 → ℝ) (A : Matrix (Fin 3) (Fin 3) ℝ) :
    flat2 (contract4 C A) = flat4 C *ᵥ flat2 A := by
  ext ⟨i, j⟩
  simp only [flat2, flat4, contract4, of_apply, mulVec, dotProduct, Fintype.sum_prod_type]

open Kronecker in
theorem kron_orth {q : Quat} (hq : Unit4 q) :
    (toMatrix q ⊗ₖ toMatrix q)ᵀ * (toMatrix q ⊗ₖ toMatrix q) = 1 := by
  have ho' : (toMatrix q)ᵀ * toMatrix q = 1 := mul_eq_one_comm.mp (toMatrix_SO3 hq).1
  rw [← kroneckerMap_transpose, ← mul_kronecker_mul, ho', one_kronecker_one]

/-- The rotated fourth order tensor sends rotated second order tensors to rotated images. -/
theorem C55_rank_four {q : Quat} (hq : Unit4 q) (C : Fin 3 → Fin 3 → Fin 3 → Fin 3 → ℝ)
    (A : Matrix (Fin 3) (Fin 3) ℝ) :
    contract4 (applyR4 q C) (applyR2 q A) = applyR2 q (contract4 C A) := by
  apply flat2_inj
  rw [flat2_contract, flat4_apply, flat2_apply, flat2_apply, flat2_contract, mulVec_mulVec, Matrix.mul_assoc,
    kron_orth hq, Matrix.mul_one, mulVec_mulVec]

/-- Rotating twice is rotating by the product. -/
theorem C55_compose {p q : Quat} (hp : Unit4 p) (hq : Unit4 q) (v w : Fin 3 → ℝ) (a : Fin 6 → ℝ)
    (A : Matrix (Fin 3) (Fin 3) ℝ) (C : Matrix (Fin 6) (Fin 6) ℝ) (D : Fin 3 → Fin 3 → Fin 3 → Fin 3 → ℝ) :
    applyVec (qmul p q) v = applyVec p (applyVec q v) ∧
      applyR2 (qmul p q) A = applyR2 p (applyR2 q A) ∧
      applySym (qmul p q) a = applySym p (applySym q a) ∧
      applySkew (qmul p q) w = applySkew p (applySkew q w) ∧
      applySymSym (qmul p q) C = applySymSym p (applySymSym q C) ∧
      applyR4 (qmul p q) D = applyR4 p (applyR4 q D) := by
  have hpq := hp.mul hq
  have hm := toMatrix_mul hp hq
  have hv : ∀ q, Unit4 q → ∀ v, applyVec q v = toMatrix q *ᵥ v :=
    fun q hq v => (C51_faithful hq hq v).2.2.2.2.2.2
  have hs : ∀ a, applySym (qmul p q) a = applySym p (applySym q a) := by
    intro a
    rw [applySym_eq, applySym_eq, applySym_eq, hm, rot_mul]
  have hR : mandelRot (toMatrix (qmul p q)) = mandelRot (toMatrix p) * mandelRot (toMatrix q) := by
    apply Matrix.ext_of_mulVec_single
    intro j
    rw [← mulVec_mulVec, mandelRot_mulVec, mandelRot_mulVec, mandelRot_mulVec, hs]
  refine ⟨?_, ?_, hs a, ?_, ?_, ?_⟩
  · rw [hv _ hpq, hv _ hp, hv _ hq, hm, mulVec_mulVec]
  · simp only [applyR2, hm, transpose_mul, Matrix.mul_assoc]
  · rw [applySkew_eq hpq, applySkew_eq hp, applySkew_eq hq, hm, mulVec_mulVec]
  · simp only [applySymSym, hR, transpose_mul, Matrix.mul_assoc]
  · apply flat4_inj
    rw [flat4_apply, flat4_apply, flat4_apply, hm, mul_kronecker_mul, transpose_mul]
    simp only [Matrix.mul_assoc]

end Neml.Rotation
