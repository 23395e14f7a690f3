import Verif.Props.AxisymResidual
import Mathlib.LinearAlgebra.Matrix.SchurComplement
import Mathlib.LinearAlgebra.Matrix.NonsingularInverse
import Mathlib.Tactic.LinearCombination

/-!
# C137: the condensed solution of the equations of the axisymmetric problem
-/

namespace Neml.Axisym

open Matrix Neml.PySolve Neml.Uniaxial Neml.Driver

variable {m g : ℕ} {H : Type}

/-- The matrix of all equations: those of the nodes and the axial one. -/
def Jac.full (J : Jac m) : Matrix (Fin (m + 1) ⊕ Unit) (Fin (m + 1) ⊕ Unit) ℝ :=
  fromBlocks (tri J.du J.d J.dl) (of fun k _ => J.J12 k) (of fun _ k => J.J21 k) (of fun _ _ => J.J22)

theorem full_mulVec (J : Jac m) (x1 : Fin (m + 1) → ℝ) (x2 : ℝ) :
    J.full *ᵥ Sum.elim x1 (fun _ => x2) =
      Sum.elim (tri J.du J.d J.dl *ᵥ x1 + x2 • J.J12) (fun _ => J.J21 ⬝ᵥ x1 + J.J22 * x2) := by
  rw [Jac.full, fromBlocks_mulVec]
  congr 1
  · funext k
    simp [mulVec, dotProduct, mul_comm]
  · funext k
    simp [mulVec, dotProduct]

/-- **C137.** If a correction is computed it solves all equations, those of the nodes and the axial one. -/
theorem C137_solves (raises : Err) (J : Jac m) (R1 x1 : Fin (m + 1) → ℝ) (R2 x2 : ℝ)
    (h : condensed raises J R1 R2 = .ok (x1, x2)) :
    J.full *ᵥ Sum.elim x1 (fun _ => x2) = Sum.elim R1 (fun _ => R2) := by
  rw [full_mulVec]
  unfold condensed at h
  by_cases h22 : J.J22 = 0
  · rw [if_pos h22] at h; cases h
  rw [if_neg h22] at h
  unfold cuteSolve triSolve linSolve at h
  by_cases hd : (tri J.du J.d J.dl).det = 0
  · simp only [if_pos hd] at h; cases h
  simp only [if_neg hd] at h
  set M := tri J.du J.d J.dl with hM
  set x := M⁻¹ *ᵥ (R1 - (R2 / J.J22) • J.J12) with hx
  set y := M⁻¹ *ᵥ (-(J.J22⁻¹ • J.J12)) with hy
  by_cases h1 : 1 + J.J21 ⬝ᵥ y = 0
  · rw [if_pos h1] at h; cases h
  rw [if_neg h1] at h
  injection h with h
  injection h with e1 e2
  have hu : IsUnit M.det := isUnit_iff_ne_zero.2 hd
  have mx : M *ᵥ x = R1 - (R2 / J.J22) • J.J12 := by
    rw [hx, mulVec_mulVec, mul_nonsing_inv _ hu, one_mulVec]
  have my : M *ᵥ y = -(J.J22⁻¹ • J.J12) := by
    rw [hy, mulVec_mulVec, mul_nonsing_inv _ hu, one_mulVec]
  set γ := J.J21 ⬝ᵥ x / (1 + J.J21 ⬝ᵥ y) with hγ
  have hv : J.J21 ⬝ᵥ x1 = γ := by
    rw [← e1, dotProduct_sub, dotProduct_smul, smul_eq_mul, hγ]
    field_simp
    ring
  have hx2 : x2 = (R2 - γ) / J.J22 := by rw [← e2, e1, hv]
  congr 1
  · rw [← e1, mulVec_sub, mulVec_smul, mx, my, hx2]
    funext k
    simp only [Pi.add_apply, Pi.sub_apply, Pi.smul_apply, Pi.neg_apply, smul_eq_mul]
    ring
  · funext _
    rw [hv, hx2]
    field_simp
    ring

/-- The determinant of all equations, with the number that is divided by in the code. -/
theorem full_det (J : Jac m) (h : (tri J.du J.d J.dl).det ≠ 0) (h22 : J.J22 ≠ 0) :
    J.full.det = (tri J.du J.d J.dl).det * J.J22 *
      (1 + J.J21 ⬝ᵥ ((tri J.du J.d J.dl)⁻¹ *ᵥ (-(J.J22⁻¹ • J.J12)))) := by
  haveI : Invertible (tri J.du J.d J.dl) := invertibleOfIsUnitDet _ (isUnit_iff_ne_zero.2 h)
  rw [Jac.full, det_fromBlocks₁₁, invOf_eq_nonsing_inv, mul_assoc]
  congr 1
  rw [det_unique, mulVec_neg, dotProduct_neg, mulVec_smul, dotProduct_smul, smul_eq_mul]
  have : ((of fun _ k => J.J21 k : Matrix Unit (Fin (m + 1)) ℝ) * (tri J.du J.d J.dl)⁻¹ *
      (of fun k _ => J.J12 k : Matrix (Fin (m + 1)) Unit ℝ)) default default =
      J.J21 ⬝ᵥ ((tri J.du J.d J.dl)⁻¹ *ᵥ J.J12) := by
    rw [Matrix.mul_assoc, mul_apply]
    rfl
  rw [Matrix.sub_apply, this]
  simp only [of_apply]
  field_simp
  ring

/-- **C137.** A correction is computed if and only if the three diagonals are a regular matrix, the axial stiffness is not
zero, and the equations are regular. -/
theorem C137_defined (raises : Err) (J : Jac m) (R1 : Fin (m + 1) → ℝ) (R2 : ℝ) :
    (∃ x, condensed raises J R1 R2 = .ok x) ↔
      (tri J.du J.d J.dl).det ≠ 0 ∧ J.J22 ≠ 0 ∧ J.full.det ≠ 0 := by
  unfold condensed cuteSolve triSolve linSolve
  by_cases h22 : J.J22 = 0
  · rw [if_pos h22]
    exact ⟨fun ⟨_, h⟩ => (by cases h), fun h => absurd h22 h.2.1⟩
  rw [if_neg h22]
  by_cases hd : (tri J.du J.d J.dl).det = 0
  · simp only [if_pos hd]
    exact ⟨fun ⟨_, h⟩ => (by cases h), fun h => absurd hd h.1⟩
  simp only [if_neg hd]
  rw [full_det J hd h22]
  by_cases h1 : 1 + J.J21 ⬝ᵥ ((tri J.du J.d J.dl)⁻¹ *ᵥ (-(J.J22⁻¹ • J.J12))) = 0
  · rw [if_pos h1]
    exact ⟨fun ⟨_, h⟩ => (by cases h), fun h => h.2.2 (by rw [h1, mul_zero]) |>.elim⟩
  · rw [if_neg h1]
    exact ⟨fun _ => ⟨hd, h22, mul_ne_zero (mul_ne_zero hd h22) h1⟩, fun _ => ⟨_, rfl⟩⟩

/-- **C137.** The correction is the only solution. -/
theorem C137_unique (raises : Err) (J : Jac m) (R1 x1 z1 : Fin (m + 1) → ℝ) (R2 x2 z2 : ℝ)
    (h : condensed raises J R1 R2 = .ok (x1, x2))
    (hz : J.full *ᵥ Sum.elim z1 (fun _ => z2) = Sum.elim R1 (fun _ => R2)) : z1 = x1 ∧ z2 = x2 := by
  have hx := C137_solves raises J R1 x1 R2 x2 h
  have hd := ((C137_defined raises J R1 R2).1 ⟨_, h⟩).2.2
  have hu : IsUnit J.full.det := isUnit_iff_ne_zero.2 hd
  have e : Sum.elim z1 (fun _ : Unit => z2) = Sum.elim x1 (fun _ => x2) := by
    have := congrArg (J.full⁻¹ *ᵥ ·) (hz.trans hx.symm)
    simpa only [mulVec_mulVec, nonsing_inv_mul _ hu, one_mulVec] using this
  exact ⟨funext fun k => congrFun e (Sum.inl k), congrFun e (Sum.inr ())⟩

/-- **C137.** The same for the constrained problem, without the axial equation. -/
theorem C137_constrained (du : Fin m → ℝ) (d : Fin (m + 1) → ℝ) (dl : Fin m → ℝ) (c : Fin (m + 1) → ℝ) :
    ((tri du d dl).det ≠ 0 → ∃ x, triSolve du d dl c = some x ∧ ∀ z, tri du d dl *ᵥ z = c ↔ z = x) ∧
      ((tri du d dl).det = 0 → triSolve du d dl c = none) := by
  constructor
  · intro hd
    have hu : IsUnit (tri du d dl).det := isUnit_iff_ne_zero.2 hd
    refine ⟨_, by rw [triSolve, linSolve, if_neg hd], fun z => ⟨?_, ?_⟩⟩
    · intro h
      rw [← h, mulVec_mulVec, nonsing_inv_mul _ hu, one_mulVec]
    · intro h
      rw [h, mulVec_mulVec, mul_nonsing_inv _ hu, one_mulVec]
  · intro hd
    rw [triSolve, linSolve, if_pos hd]

/-- **C137, disagreement.** Regular equations that are not solved: the three diagonals alone are singular, or the axial
stiffness is zero. In the second case the code divides by zero and does not raise. -/
theorem C137_regular_disagreement (raises : Err) :
    (∃ J : Jac 0, J.full.det ≠ 0 ∧ ∀ R1 R2, condensed raises J R1 R2 = .error raises) ∧
      ∃ J : Jac 0, J.full.det ≠ 0 ∧ ∀ R1 R2, condensed raises J R1 R2 = .error .nan := by
  have key : ∀ a b c d : ℝ, (Jac.full (m := 0) ⟨Fin.elim0, fun _ => a, Fin.elim0, fun _ => b, fun _ => c, d⟩).det =
      a * d - b * c := by
    intro a b c d
    rw [← det_reindex_self (finSumFinEquiv.symm.trans (Equiv.sumCongr (Equiv.refl (Fin 1))
      (Equiv.ofUnique (Fin 1) Unit))).symm, det_fin_two]
    simp only [reindex_apply, submatrix_apply, Equiv.symm_symm]
    have e0 : (finSumFinEquiv.symm.trans (Equiv.sumCongr (Equiv.refl (Fin 1)) (Equiv.ofUnique (Fin 1) Unit)))
      (0 : Fin (1 + 1)) = Sum.inl 0 := rfl
    have e1 : (finSumFinEquiv.symm.trans (Equiv.sumCongr (Equiv.refl (Fin 1)) (Equiv.ofUnique (Fin 1) Unit)))
      (1 : Fin (1 + 1)) = Sum.inr () := rfl
    erw [e0, e1]
    simp [Jac.full, tri]
  refine ⟨⟨⟨Fin.elim0, fun _ => 0, Fin.elim0, fun _ => 1, fun _ => 1, 1⟩, ?_, ?_⟩,
    ⟨⟨Fin.elim0, fun _ => 1, Fin.elim0, fun _ => 1, fun _ => 1, 0⟩, ?_, ?_⟩⟩
  · rw [key]; norm_num
  · intro R1 R2
    have hd : (tri (m := 0) Fin.elim0 (fun _ => (0 : ℝ)) Fin.elim0).det = 0 := by
      rw [show tri (m := 0) Fin.elim0 (fun _ => (0 : ℝ)) Fin.elim0 = 0 by
        funext r c; simp [tri]]
      exact det_zero
    unfold condensed cuteSolve triSolve linSolve
    rw [if_neg one_ne_zero, if_pos hd, if_pos hd]
  · rw [key]; norm_num
  · intro R1 R2
    simp [condensed]

theorem det_one' (M : Matrix (Fin (0 + 1)) (Fin (0 + 1)) ℝ) : M.det = M 0 0 := det_fin_one M

/-- Beside C137: a correction that is computed. -/
example : ∃ x, condensed .runtime (⟨Fin.elim0, fun _ => 2, Fin.elim0, fun _ => 1, fun _ => 1, 3⟩ : Jac 0) (fun _ => 5) 7 =
    .ok x := by
  refine (C137_defined _ _ _ _).2 ⟨?_, by norm_num, ?_⟩
  · rw [det_one']; simp [tri]
  · rw [full_det]
    · rw [det_one']
      have : (tri (m := 0) Fin.elim0 (fun _ => (2 : ℝ)) Fin.elim0)⁻¹ = of fun _ _ => 1 / 2 := by
        apply inv_eq_right_inv
        funext r c
        fin_cases r; fin_cases c
        simp [tri, mul_apply]
      rw [this]
      simp [tri, dotProduct, mulVec]
      norm_num
    · rw [det_one']; simp [tri]
    · norm_num

end Neml.Axisym
