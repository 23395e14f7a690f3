import Verif.Model.ShearModulus
import Verif.Props.Tensors
import Verif.Props.CrystalDamageOrder

/-!
# C173: the shear modulus along a direction and the rotated elastic tensors

Specification: the shear modulus of a solid along the direction `b` in the plane with normal `n` is twice the energy stored by a
unit shear in that plane, `e · C e` with the strain `e` the symmetric part of the dyad of the two unit vectors.
-/

namespace Neml.ShearModulus

open Matrix Neml.Rotation Neml.Tensors Neml.Mandel Neml.Elastic

/-- The strain of the shear `b ⊗ n`, before the vectors are brought to unit length. -/
noncomputable def strain (b n : Fin 3 → ℝ) : Fin 6 → ℝ := sym ((1 / 2 : ℝ) • (vecMulVec b n + vecMulVec n b))

theorem strain_eq (b n : Fin 3 → ℝ) : strain b n = ![b 0 * n 0, b 1 * n 1, b 2 * n 2, √2 / 2 * (b 1 * n 2 + b 2 * n 1),
    √2 / 2 * (b 0 * n 2 + b 2 * n 0), √2 / 2 * (b 0 * n 1 + b 1 * n 0)] := by
  ext i
  fin_cases i <;> simp [strain, sym, vecMulVec_apply] <;> ring

theorem full_energy (M : Matrix (Fin 6) (Fin 6) ℝ) (b n : Fin 3 → ℝ) :
    vec9 (outer b n) ⬝ᵥ (mandel2full M *ᵥ vec9 (outer b n)) = strain b n ⬝ᵥ (M *ᵥ strain b n) := by
  have h2 := r2_sq
  rw [strain_eq]
  simp [mandel2full, vec9, outer, mulVec, dotProduct, Fin.sum_univ_succ]
  grind

theorem vec9_smul (c : ℝ) (A : Matrix (Fin 3) (Fin 3) ℝ) : vec9 (c • A) = c • vec9 A := by
  ext i
  fin_cases i <;> simp [vec9]

theorem mat9_vec9 (v : Fin 9 → ℝ) : vec9 (mat9 v) = v := by
  ext i
  fin_cases i <;> rfl

theorem along_eq (C : Matrix (Fin 6) (Fin 6) ℝ) (q : Quat) (b n : Fin 3 → ℝ) : shearAlong C q b n =
    some ((1 / (norm3 b * norm3 n)) ^ 2 * (strain b n ⬝ᵥ (applySymSym q C *ᵥ strain b n))) := by
  rw [← full_energy]
  show some (vec9 ((1 / (norm3 b * norm3 n)) • outer b n) ⬝ᵥ
    vec9 (mat9 (mandel2full (applySymSym q C) *ᵥ vec9 ((1 / (norm3 b * norm3 n)) • outer b n)))) = _
  rw [mat9_vec9, vec9_smul, mulVec_smul, smul_dotProduct, dotProduct_smul]
  simp only [smul_eq_mul]
  congr 1
  ring

theorem norm3_sq (v : Fin 3 → ℝ) : norm3 v ^ 2 = v ⬝ᵥ v := by
  rw [norm3, Real.sq_sqrt (by nlinarith [mul_self_nonneg (v 0), mul_self_nonneg (v 1), mul_self_nonneg (v 2)])]
  simp [dotProduct, Fin.sum_univ_succ]
  ring

theorem self_pos {v : Fin 3 → ℝ} (h : v ≠ 0) : 0 < v ⬝ᵥ v := by
  have : 0 ≤ v ⬝ᵥ v := by rw [← norm3_sq]; positivity
  refine lt_of_le_of_ne this fun h0 => h ?_
  exact dotProduct_self_eq_zero.mp h0.symm

theorem along_eq' (C : Matrix (Fin 6) (Fin 6) ℝ) (q : Quat) (b n : Fin 3 → ℝ) : shearAlong C q b n =
    some (strain b n ⬝ᵥ (applySymSym q C *ᵥ strain b n) / ((b ⬝ᵥ b) * (n ⬝ᵥ n))) := by
  rw [along_eq, ← norm3_sq, ← norm3_sq, ← mul_pow, one_div, inv_pow, mul_comm, div_eq_mul_inv]

/-- C173: the shear modulus along `b` on the plane normal to `n` is the energy of that shear, for any length of the vectors. -/
theorem C173_energy (C : Matrix (Fin 6) (Fin 6) ℝ) (q : Quat) (b n : Fin 3 → ℝ) (hb : b ≠ 0) (hn : n ≠ 0) :
    ∃ g, shearAlong C q b n = some g ∧
      g * ((b ⬝ᵥ b) * (n ⬝ᵥ n)) = strain b n ⬝ᵥ (applySymSym q C *ᵥ strain b n) := by
  refine ⟨_, along_eq' C q b n, div_mul_cancel₀ _ (mul_pos (self_pos hb) (self_pos hn)).ne'⟩

theorem strain_smul (s t : ℝ) (b n : Fin 3 → ℝ) : strain (s • b) (t • n) = (s * t) • strain b n := by
  rw [strain_eq, strain_eq]
  ext i
  fin_cases i <;> simp <;> ring

theorem strain_comm (b n : Fin 3 → ℝ) : strain n b = strain b n := by
  rw [strain, strain, add_comm]

/-- C173: neither the length nor the sign of the two vectors matters, and they may be exchanged. -/
theorem C173_direction (C : Matrix (Fin 6) (Fin 6) ℝ) (q : Quat) (b n : Fin 3 → ℝ) (s t : ℝ) (hs : s ≠ 0) (ht : t ≠ 0) :
    shearAlong C q (s • b) (t • n) = shearAlong C q b n ∧ shearAlong C q n b = shearAlong C q b n := by
  constructor
  · rw [along_eq', along_eq', strain_smul, mulVec_smul, smul_dotProduct, dotProduct_smul]
    simp only [smul_dotProduct, dotProduct_smul, smul_eq_mul]
    congr 1
    rw [show s * t * (s * t * (strain b n ⬝ᵥ applySymSym q C *ᵥ strain b n)) =
      (s ^ 2 * t ^ 2) * (strain b n ⬝ᵥ applySymSym q C *ᵥ strain b n) by ring,
      show s * (s * (b ⬝ᵥ b)) * (t * (t * (n ⬝ᵥ n))) = (s ^ 2 * t ^ 2) * ((b ⬝ᵥ b) * (n ⬝ᵥ n)) by ring]
    exact mul_div_mul_left _ _ (by positivity)
  · rw [along_eq', along_eq', strain_comm, mul_comm]

theorem strain_turn {q : Quat} (hq : Unit4 q) (b n : Fin 3 → ℝ) :
    strain (applyVec q b) (applyVec q n) = applySym q (strain b n) := by
  have hv : ∀ v, applyVec q v = toMatrix q *ᵥ v := fun v => (C51_faithful hq hq v).2.2.2.2.2.2
  rw [applySym_eq, hv, hv, strain_eq, rot, strain_eq]
  generalize toMatrix q = M
  have h2 := r2_sq
  ext i
  fin_cases i <;>
    simp [sym, usym, mulVec, dotProduct, Fin.sum_univ_succ, Matrix.mul_apply, div_r2] <;> grind

/-- C173: turning the solid and the two directions together leaves the shear modulus unchanged. -/
theorem C173_frame {p q : Quat} (hp : Unit4 p) (hq : Unit4 q) (C : Matrix (Fin 6) (Fin 6) ℝ) (b n : Fin 3 → ℝ) :
    shearAlong C (qmul p q) (applyVec p b) (applyVec p n) = shearAlong C q b n := by
  have i := C55_invariants hp (strain b n) (applySymSym q C *ᵥ strain b n) b n 0 0
  have i' := C55_invariants hp (strain b n) (applySymSym q C *ᵥ strain b n) n b 0 0
  have hb := (C55_invariants hp 0 0 b b 0 0).2.2.2.1
  have hn := (C55_invariants hp 0 0 n n 0 0).2.2.2.1
  rw [along_eq', along_eq', strain_turn hp, (C55_compose hp hq b b 0 0 C fun _ _ _ _ => 0).2.2.2.2.1,
    (C55_compact hp (strain b n) 0 (applySymSym q C)).2.2.2.2, i.1, hb, hn]

theorem iso_turned {q : Quat} (hq : Unit4 q) (G K : ℝ) : applySymSym q (isoC G K) = isoC G K := by
  refine CrystalDamage.turned_ext hq fun s => ?_
  rw [(C55_compact hq s 0 _).2.2.2.2, applySym_eq, applySym_eq, C37_isotropic _ _ _ (toMatrix_SO3 hq).1]

theorem strain_dot (b n : Fin 3 → ℝ) : strain b n ⬝ᵥ strain b n = ((b ⬝ᵥ b) * (n ⬝ᵥ n) + (b ⬝ᵥ n) ^ 2) / 2 := by
  have h2 := r2_sq
  rw [strain_eq]
  simp [dotProduct, Fin.sum_univ_succ]
  grind

theorem strain_trace (b n : Fin 3 → ℝ) : strain b n 0 + strain b n 1 + strain b n 2 = b ⬝ᵥ n := by
  rw [strain_eq]
  simp [dotProduct, Fin.sum_univ_succ]
  ring

/-- C173: an isotropic solid has its shear modulus along every direction of every plane, however it is oriented. -/
theorem C173_isotropic {q : Quat} (hq : Unit4 q) (G K : ℝ) (b n : Fin 3 → ℝ) (hb : b ≠ 0) (hn : n ≠ 0)
    (h : b ⬝ᵥ n = 0) : shearAlong (isoC G K) q b n = some G := by
  have p := mul_pos (self_pos hb) (self_pos hn)
  rw [along_eq', iso_turned hq, isoC_apply, strain_trace, h, mul_zero, zero_smul, add_zero, dotProduct_smul, strain_dot, h]
  congr 1
  rw [smul_eq_mul, div_eq_iff p.ne']
  ring

theorem euler_zero : ∃ q, setEuler "radians" "kocks" 0 0 0 = some q ∧ Unit4 q ∧ toMatrix q = !![-1, 0, 0; 0, -1, 0; 0, 0, 1] := by
  have hk : kocksMatrix 0 0 0 = !![-1, 0, 0; 0, -1, 0; 0, 0, 1] := by
    simp [kocksMatrix]
  have hs : SO3 (!![-1, 0, 0; 0, -1, 0; 0, 0, 1] : Matrix (Fin 3) (Fin 3) ℝ) := by
    constructor
    · ext i j
      fin_cases i <;> fin_cases j <;> simp [Matrix.mul_apply, Fin.sum_univ_succ]
    · simp [det_fin_three]
  refine ⟨setMatrix (kocksMatrix 0 0 0), by simp [setEuler, convertAngle, toKocks], ?_⟩
  rw [hk]
  exact ⟨(C52_matrix hs).2, (C52_matrix hs).1⟩

/-- C173: the modulus without a direction is half the last diagonal entry of the stiffness, for every stiffness: the angles zero
are half a turn about the third axis, which does not change this entry. -/
theorem C173_default (C : Matrix (Fin 6) (Fin 6) ℝ) : shear C = some (C 5 5 / 2) := by
  have h2 := r2_sq
  obtain ⟨q, h1, -, h3⟩ := euler_zero
  rw [shear, h1]
  show shearAlong C q ![1, 0, 0] ![0, 1, 0] = _
  rw [along_eq', strain_eq, applySymSym, h3]
  congr 1
  simp [mandelRot, mulVec, vecMul, dotProduct, Fin.sum_univ_succ, Matrix.mul_apply]
  linear_combination C 5 5 / 4 * h2

/-- C173: what this is for the three kinds of solid: the shear modulus of the isotropic solid, `C3 / 2` for the cubic solid
(`mu` if it is given by moduli) and half of the last entry for the transversely isotropic one. -/
theorem C173_solids_partial (G K C1 C2 C3 E nu mu C11 C33 C12 C13 C44 C66 : ℝ) : shear (isoC G K) = some G ∧
    shear (cubicC C1 C2 C3) = some (C3 / 2) ∧
    (∃ c, cubicComponents "moduli" E nu mu = some c ∧ shear (cubicC c.1 c.2.1 c.2.2) = some mu) ∧
    shear (hexC C11 C33 C12 C13 C44 C66) = some (C66 / 2) := by
  refine ⟨?_, ?_, ⟨_, rfl, ?_⟩, ?_⟩ <;> rw [C173_default] <;> simp [isoC, cubicC, hexC]

/-- C173: a solid that stores energy in every strain has a positive shear modulus along every direction. -/
theorem C173_positive {q : Quat} (hq : Unit4 q) (C : Matrix (Fin 6) (Fin 6) ℝ)
    (hC : ∀ e : Fin 6 → ℝ, e ≠ 0 → 0 < e ⬝ᵥ (C *ᵥ e)) (b n : Fin 3 → ℝ) (hb : b ≠ 0) (hn : n ≠ 0) :
    ∃ g, shearAlong C q b n = some g ∧ 0 < g := by
  have p := mul_pos (self_pos hb) (self_pos hn)
  refine ⟨_, along_eq' C q b n, div_pos ?_ p⟩
  have hs : strain b n ⬝ᵥ strain b n ≠ 0 := by
    rw [strain_dot]
    positivity
  obtain ⟨e, he⟩ : ∃ e, applySym q e = strain b n := by
    refine ⟨(mandelRot (toMatrix q))ᵀ *ᵥ strain b n, ?_⟩
    rw [← mandelRot_mulVec, mulVec_mulVec, mul_eq_one_comm.mp (mandelRot_orth hq), one_mulVec]
  rw [← he, (C55_compact hq e 0 C).2.2.2.2, (C55_invariants hq e (C *ᵥ e) 0 0 0 0).1]
  refine hC e fun h0 => hs ?_
  rw [← he, (C55_invariants hq e e 0 0 0 0).1, h0, dotProduct_zero]

/-- C173: the turned compliance undoes the turned stiffness. -/
theorem C173_compliance {q : Quat} (hq : Unit4 q) (C S : Matrix (Fin 6) (Fin 6) ℝ) (h : S * C = 1) :
    rotated S q * rotated C q = 1 ∧ rotated C q * rotated S q = 1 := by
  rw [rotated, rotated, ← CrystalDamage.symSym_mul hq, ← CrystalDamage.symSym_mul hq, h, mul_eq_one_comm.mp h,
    CrystalDamage.symSym_one hq]
  exact ⟨rfl, rfl⟩

/-- C173, what is not so: a transversely isotropic solid has one shear modulus in its basal plane, `(C11 - C12) / 2`. The modulus
the code reports is half of it, while the shear along the diagonals of the same plane gives the right value. -/
theorem C173_transverse_disagreement (C11 C33 C12 C13 C44 : ℝ) :
    shear (transC C11 C33 C12 C13 C44) = some ((C11 - C12) / 4) ∧
      shearAlong (transC C11 C33 C12 C13 C44) ⟨1, 0, 0, 0⟩ ![1, 1, 0] ![1, -1, 0] = some ((C11 - C12) / 2) := by
  constructor
  · rw [C173_default]
    simp [transC, hexC]
    ring
  · rw [along_eq', strain_eq, applySymSym]
    congr 1
    simp [mandelRot, toMatrix, transC, hexC, mulVec, dotProduct, Fin.sum_univ_succ, Matrix.mul_apply]
    ring

example : shearAlong (isoC 3 5) ⟨3 / 5, 4 / 5, 0, 0⟩ ![1, 2, 0] ![2, -1, 7] = some 3 :=
  C173_isotropic (by norm_num [Unit4]) 3 5 _ _ (fun h => by simpa using congrFun h 0) (fun h => by simpa using congrFun h 0)
    (by simp [dotProduct, Fin.sum_univ_succ])

example : ∃ g, shearAlong (isoC 3 5) ⟨3 / 5, 4 / 5, 0, 0⟩ ![1, 2, 0] ![2, -1, 7] = some g ∧ 0 < g :=
  C173_positive (by norm_num [Unit4]) _ ((C36_iso_positive 3 5).mpr ⟨by norm_num, by norm_num⟩) _ _
    (fun h => by simpa using congrFun h 0) (fun h => by simpa using congrFun h 0)

example : shear (transC 10 8 4 3 2) = some (3 / 2) := by
  rw [(C173_transverse_disagreement 10 8 4 3 2).1]
  norm_num

end Neml.ShearModulus
