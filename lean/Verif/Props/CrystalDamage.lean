import Verif.Model.CrystalDamage
import Verif.Props.Kinematics
import Verif.Props.KinematicsFrame

/-!
# C67, C106: projections on the planes of a crystal
-/

namespace Neml.CrystalDamage

open Matrix Neml.Mandel Neml.Rotation Neml.Slip Neml.Kinematics

/-! ## Specification

The traction of a stress `A` on the plane with the unit normal `n` is `A n`. Its normal part is `(n · A n) n`, its shear
part the rest. -/

/-- The traction on a plane. -/
def traction (A : Matrix (Fin 3) (Fin 3) ℝ) (n : Fin 3 → ℝ) : Fin 3 → ℝ := A *ᵥ n

/-- The part of the traction along the normal. -/
def normalTraction (A : Matrix (Fin 3) (Fin 3) ℝ) (n : Fin 3 → ℝ) : Fin 3 → ℝ := (n ⬝ᵥ traction A n) • n

/-- The part of the traction in the plane. -/
def shearTraction (A : Matrix (Fin 3) (Fin 3) ℝ) (n : Fin 3 → ℝ) : Fin 3 → ℝ := traction A n - normalTraction A n

/-- The symmetric stress that has the normal traction of `A` and nothing else. -/
def normalPart (n : Fin 3 → ℝ) (A : Matrix (Fin 3) (Fin 3) ℝ) : Matrix (Fin 3) (Fin 3) ℝ :=
  vecMulVec (normalTraction A n) n

/-- The symmetric stress that has the shear traction of `A` and nothing else. -/
def shearPart (n : Fin 3 → ℝ) (A : Matrix (Fin 3) (Fin 3) ℝ) : Matrix (Fin 3) (Fin 3) ℝ :=
  vecMulVec (shearTraction A n) n + vecMulVec n (shearTraction A n)

/-- A rank four tensor applied to a rank two tensor. -/
def apply4 (S : Fin 3 → Fin 3 → Fin 3 → Fin 3 → ℝ) (A : Matrix (Fin 3) (Fin 3) ℝ) : Matrix (Fin 3) (Fin 3) ℝ :=
  of fun i j => ∑ k, ∑ l, S i j k l * A k l

/-! ## The matrices as written -/

set_option maxHeartbeats 1000000 in
theorem usym_normalSS (n : Fin 3 → ℝ) (s : Fin 6 → ℝ) : usym (normalSS n *ᵥ s) = normalPart n (usym s) := by
  have h := r2_sq
  ext i j
  fin_cases i <;> fin_cases j <;>
    simp [normalSS, usym, normalPart, normalTraction, traction, mulVec, dotProduct, vecMulVec, Fin.sum_univ_succ,
      div_r2] <;> grind

set_option maxHeartbeats 1000000 in
theorem usym_shearSS (n : Fin 3 → ℝ) (s : Fin 6 → ℝ) : usym (shearSS n *ᵥ s) = shearPart n (usym s) := by
  have h := r2_sq
  ext i j
  fin_cases i <;> fin_cases j <;>
    simp [shearSS, usym, shearPart, shearTraction, normalTraction, traction, mulVec, dotProduct, vecMulVec,
      Fin.sum_univ_succ, div_r2] <;> grind

/-! ## Algebra of the parts -/

variable {n : Fin 3 → ℝ}

theorem vmv (a b c : Fin 3 → ℝ) : vecMulVec a b *ᵥ c = (b ⬝ᵥ c) • a := by
  ext i
  simp only [mulVec, dotProduct, vecMulVec_apply, Fin.sum_univ_three, Pi.smul_apply, smul_eq_mul]
  ring

theorem normal_dot (hn : n ⬝ᵥ n = 1) (A : Matrix (Fin 3) (Fin 3) ℝ) : n ⬝ᵥ normalTraction A n = n ⬝ᵥ traction A n := by
  rw [normalTraction, dotProduct_smul, hn, smul_eq_mul, mul_one]

theorem shear_dot (hn : n ⬝ᵥ n = 1) (A : Matrix (Fin 3) (Fin 3) ℝ) : n ⬝ᵥ shearTraction A n = 0 := by
  rw [shearTraction, dotProduct_sub, normal_dot hn, sub_self]

theorem traction_normalPart (hn : n ⬝ᵥ n = 1) (A : Matrix (Fin 3) (Fin 3) ℝ) :
    traction (normalPart n A) n = normalTraction A n := by rw [traction, normalPart, vmv, hn, one_smul]

theorem traction_shearPart (hn : n ⬝ᵥ n = 1) (A : Matrix (Fin 3) (Fin 3) ℝ) :
    traction (shearPart n A) n = shearTraction A n := by
  rw [traction, shearPart, add_mulVec, vmv, vmv, hn, dotProduct_comm, shear_dot hn, one_smul, zero_smul, add_zero]

theorem mat_ext {A B : Matrix (Fin 6) (Fin 6) ℝ} (h : ∀ s, usym (A *ᵥ s) = usym (B *ᵥ s)) : A = B :=
  Matrix.mulVec_injective (funext fun s => usym_inj (h s))

/-! ## C67 -/

/-- C67, meaning: the two matrices select the stresses that carry the normal and the shear part of the traction. -/
theorem C67_meaning (n : Fin 3 → ℝ) (s : Fin 6 → ℝ) :
    usym (normalSS n *ᵥ s) = normalPart n (usym s) ∧ usym (shearSS n *ᵥ s) = shearPart n (usym s) :=
  ⟨usym_normalSS n s, usym_shearSS n s⟩

/-- C67, tractions: on a plane with a unit normal the first has the normal traction of the stress, the second its shear
traction, and their sum its traction. -/
theorem C67_tractions (hn : n ⬝ᵥ n = 1) (s : Fin 6 → ℝ) :
    traction (usym (normalSS n *ᵥ s)) n = normalTraction (usym s) n ∧
    traction (usym (shearSS n *ᵥ s)) n = shearTraction (usym s) n ∧
    traction (usym ((normalSS n + shearSS n) *ᵥ s)) n = traction (usym s) n := by
  have h1 := traction_normalPart hn (usym s)
  have h2 := traction_shearPart hn (usym s)
  rw [← usym_normalSS] at h1
  rw [← usym_shearSS] at h2
  refine ⟨h1, h2, ?_⟩
  rw [add_mulVec, LargeDef.usym_add, traction, add_mulVec]
  rw [traction] at h1 h2
  rw [h1, h2, shearTraction, add_sub_cancel]

/-- C67, projections: for a unit normal both matrices are idempotent and symmetric, and they annihilate each other. -/
theorem C67_projections (hn : n ⬝ᵥ n = 1) :
    normalSS n * normalSS n = normalSS n ∧ shearSS n * shearSS n = shearSS n ∧
    normalSS n * shearSS n = 0 ∧ shearSS n * normalSS n = 0 ∧
    (normalSS n)ᵀ = normalSS n ∧ (shearSS n)ᵀ = shearSS n := by
  refine ⟨mat_ext fun s => ?_, mat_ext fun s => ?_, mat_ext fun s => ?_, mat_ext fun s => ?_, ?_, ?_⟩
  · rw [← mulVec_mulVec, usym_normalSS, normalPart, normalTraction, (C67_tractions hn s).1, normal_dot hn,
      ← normalTraction, ← normalPart, ← usym_normalSS]
  · rw [← mulVec_mulVec, usym_shearSS, shearPart, shearTraction, normalTraction, (C67_tractions hn s).2.1, shear_dot hn,
      zero_smul, sub_zero, ← shearPart, ← usym_shearSS]
  · rw [← mulVec_mulVec, usym_normalSS, normalPart, normalTraction, (C67_tractions hn s).2.1, shear_dot hn, zero_smul,
      zero_mulVec]
    ext i j
    fin_cases i <;> fin_cases j <;> simp [usym]
  · rw [← mulVec_mulVec, usym_shearSS, shearPart, shearTraction, normalTraction, (C67_tractions hn s).1, normal_dot hn,
      ← normalTraction, sub_self, zero_mulVec]
    ext i j
    fin_cases i <;> fin_cases j <;> simp [usym]
  · ext i j
    fin_cases i <;> fin_cases j <;> rfl
  · ext i j
    fin_cases i <;> fin_cases j <;> rfl

/-- C67, full tensors: the normal projection of rank four does the same for every tensor. The one for the shear gives
half of the symmetric stress: the traction times the normal, without the transpose. -/
theorem C67_full (n : Fin 3 → ℝ) (A : Matrix (Fin 3) (Fin 3) ℝ) :
    apply4 (normalFull n) A = normalPart n A ∧ apply4 (shearFull n) A = vecMulVec (shearTraction A n) n ∧
    shearPart n A = apply4 (shearFull n) A + (apply4 (shearFull n) A)ᵀ := by
  have h2 : apply4 (shearFull n) A = vecMulVec (shearTraction A n) n := by
    ext i j
    simp only [apply4, shearFull, of_apply, Fin.sum_univ_three, vecMulVec_apply, shearTraction, normalTraction, traction,
      Pi.sub_apply, Pi.smul_apply, smul_eq_mul, mulVec, dotProduct]
    fin_cases i <;> simp <;> ring
  refine ⟨?_, h2, ?_⟩
  · ext i j
    simp only [apply4, normalFull, of_apply, Fin.sum_univ_three, vecMulVec_apply, normalPart, normalTraction, traction,
      Pi.smul_apply, smul_eq_mul, mulVec, dotProduct]
    ring
  · rw [h2, shearPart]
    congr 1
    ext i j
    simp [vecMulVec_apply, mul_comm]

/-- A plane that is not aligned with the axes. -/
example : (![3 / 5, 0, 4 / 5] : Fin 3 → ℝ) ⬝ᵥ ![3 / 5, 0, 4 / 5] = 1 := by
  simp [dotProduct, Fin.sum_univ_three]
  norm_num

/-! ## Zero damage -/

theorem foldl_prod {α : Type} (l : List α) (F : α → Matrix (Fin 6) (Fin 6) ℝ) (P : Matrix (Fin 6) (Fin 6) ℝ) :
    l.foldl (fun P i => P * F i) P = P * (l.map F).prod := by
  induction l generalizing P with
  | nil => simp
  | cons a l ih => rw [List.foldl_cons, ih, List.map_cons, List.prod_cons, Matrix.mul_assoc]

/-- The fraction of a damage variable that a transformation reports is zero without damage. -/
def Transform.Fresh (t : Transform) (d0 : ℝ) : Prop := ∀ ns, t.map d0 ns = 0

theorem factor_zero (n : Fin 3 → ℝ) : factor 0 0 n = 1 := by simp [factor]

section planar

variable {N : Type} [DecidableEq N] {m p : Nat} (c : Crys) (r : Rule N m) (pl : Planes p) (shear normal : Transform)
  (rule : PlaneRule)

/-- What plane `i` contributes to the product. -/
noncomputable def planeFactor (s : Fin 6 → ℝ) (d : Fin p → ℝ) (i : Fin p) : Matrix (Fin 6) (Fin 6) ℝ :=
  factor (shear.map (d i) (normalStress s (pl.normal i))) (normal.map (d i) (normalStress s (pl.normal i))) (pl.normal i)

theorem proj_eq (s : Fin 6 → ℝ) (d : Fin p → ℝ) :
    (planar c r pl shear normal rule).proj s d = ((List.finRange p).map (planeFactor pl shear normal s d)).prod := by
  have := foldl_prod (List.finRange p) (planeFactor pl shear normal s d) 1
  rw [Matrix.one_mul] at this
  exact this

/-- C67, zero damage: a crystal whose damage variables are those of the start, with transformations that are zero there,
has the identity as its projection, at every stress. -/
theorem C67_zero (hs : shear.Fresh rule.setup) (hn : normal.Fresh rule.setup) (s v : Fin 6 → ℝ) :
    (planar c r pl shear normal rule).proj s (planar c r pl shear normal rule).init *ᵥ v = v := by
  have : (planar c r pl shear normal rule).proj s (planar c r pl shear normal rule).init = 1 := by
    rw [proj_eq]
    apply List.prod_eq_one
    intro F hF
    obtain ⟨i, -, rfl⟩ := List.mem_map.1 hF
    rw [planeFactor]
    have h1 := hs (normalStress s (pl.normal i))
    have h2 := hn (normalStress s (pl.normal i))
    change factor (shear.map rule.setup _) (normal.map rule.setup _) _ = 1
    rw [h1, h2, factor_zero]
  rw [this, one_mulVec]

/-- The given transformations are zero without damage, for sensible constants. -/
theorem C67_transforms {c β cut : ℝ} (hc : 0 < c) (hβ : 0 < β) (hcut : 0 ≤ cut) :
    (sigmoid c β cut).Fresh workPlane.setup ∧ ∀ t : Transform, t.Fresh workPlane.setup → (switch t).Fresh workPlane.setup := by
  refine ⟨fun ns => ?_, fun t ht ns => ?_⟩
  · have h1 : ¬ cut < 0 := not_lt.2 hcut
    simp [sigmoid, workPlane, sigTrial, hc, hβ, h1]
  · simp only [switch]
    split_ifs
    · exact ht ns
    · rfl

/-- With a critical value that is not positive a fresh crystal counts as damaged. -/
theorem C67_critical {c β cut : ℝ} (hc : c ≤ 0) (ns : ℝ) : (sigmoid c β cut).map workPlane.setup ns = cut := by
  simp [sigmoid, workPlane, not_lt.2 hc]

end planar

/-! ## C106 -/

/-- C106, one plane: the normal traction on the plane is scaled by one minus the normal fraction, the shear traction by
one minus the shear fraction, and the stress between directions in the plane is left alone. -/
theorem C106_plane (hn : n ⬝ᵥ n = 1) (ds dn : ℝ) (s : Fin 6 → ℝ) :
    normalTraction (usym (factor ds dn n *ᵥ s)) n = (1 - dn) • normalTraction (usym s) n ∧
    shearTraction (usym (factor ds dn n *ᵥ s)) n = (1 - ds) • shearTraction (usym s) n ∧
    ∀ u v : Fin 3 → ℝ, u ⬝ᵥ n = 0 → v ⬝ᵥ n = 0 → u ⬝ᵥ usym (factor ds dn n *ᵥ s) *ᵥ v = u ⬝ᵥ usym s *ᵥ v := by
  have e : usym (factor ds dn n *ᵥ s) = usym s - ds • shearPart n (usym s) - dn • normalPart n (usym s) := by
    rw [factor, sub_mulVec, sub_mulVec, one_mulVec, smul_mulVec, smul_mulVec, ← usym_shearSS, ← usym_normalSS,
      ← LargeDef.usym_smul, ← LargeDef.usym_smul, LargeDef.usym_sub, LargeDef.usym_sub]
  have ht : traction (usym (factor ds dn n *ᵥ s)) n =
      traction (usym s) n - ds • shearTraction (usym s) n - dn • normalTraction (usym s) n := by
    rw [e, traction, sub_mulVec, sub_mulVec, smul_mulVec, smul_mulVec]
    have h1 := traction_normalPart hn (usym s)
    have h2 := traction_shearPart hn (usym s)
    rw [traction] at h1 h2
    rw [h1, h2]
    rfl
  have hN : normalTraction (usym (factor ds dn n *ᵥ s)) n = (1 - dn) • normalTraction (usym s) n := by
    rw [normalTraction, ht, dotProduct_sub, dotProduct_sub, dotProduct_smul, dotProduct_smul, shear_dot hn, normal_dot hn,
      normalTraction, smul_smul]
    congr 1
    simp only [smul_eq_mul]
    ring
  refine ⟨hN, ?_, fun u v hu hv => ?_⟩
  · rw [shearTraction, hN, ht, shearTraction]
    module
  · rw [e, sub_mulVec, sub_mulVec, smul_mulVec, smul_mulVec, shearPart, normalPart, add_mulVec, vmv, vmv, vmv,
      dotProduct_comm n v, hv, dotProduct_sub, dotProduct_sub, dotProduct_smul, dotProduct_smul, dotProduct_add,
      dotProduct_smul, dotProduct_smul, dotProduct_smul, hu]
    simp

/-- The size of a stress after the factor of one plane. -/
theorem factor_norm (hn : n ⬝ᵥ n = 1) {ds dn : ℝ} (h1 : 0 ≤ ds ∧ ds ≤ 1) (h2 : 0 ≤ dn ∧ dn ≤ 1) (v : Fin 6 → ℝ) :
    (factor ds dn n *ᵥ v) ⬝ᵥ (factor ds dn n *ᵥ v) ≤ v ⬝ᵥ v := by
  obtain ⟨pn, ps, pns, psn, tn, ts⟩ := C67_projections hn
  set a := shearSS n *ᵥ v with ha
  set b := normalSS n *ᵥ v with hb
  have dotT : ∀ (A : Matrix (Fin 6) (Fin 6) ℝ) (x y : Fin 6 → ℝ), Aᵀ = A → (A *ᵥ x) ⬝ᵥ y = x ⬝ᵥ (A *ᵥ y) := by
    intro A x y hA
    rw [dotProduct_mulVec, ← mulVec_transpose, hA]
  have ea : a ⬝ᵥ v = a ⬝ᵥ a := by
    nth_rewrite 2 [ha]
    rw [← dotT _ a v ts, ha, mulVec_mulVec, ps]
  have eb : b ⬝ᵥ v = b ⬝ᵥ b := by
    nth_rewrite 2 [hb]
    rw [← dotT _ b v tn, hb, mulVec_mulVec, pn]
  have eab : a ⬝ᵥ b = 0 := by
    rw [hb, ← dotT _ a v tn, ha, mulVec_mulVec, pns]
    simp
  have e : factor ds dn n *ᵥ v = v - ds • a - dn • b := by
    rw [factor, sub_mulVec, sub_mulVec, one_mulVec, smul_mulVec, smul_mulVec]
  have na : 0 ≤ a ⬝ᵥ a := by rw [dotProduct]; exact Finset.sum_nonneg fun i _ => mul_self_nonneg _
  have nb : 0 ≤ b ⬝ᵥ b := by rw [dotProduct]; exact Finset.sum_nonneg fun i _ => mul_self_nonneg _
  have : (factor ds dn n *ᵥ v) ⬝ᵥ (factor ds dn n *ᵥ v) =
      v ⬝ᵥ v - ds * (2 - ds) * (a ⬝ᵥ a) - dn * (2 - dn) * (b ⬝ᵥ b) := by
    rw [e]
    simp only [dotProduct_sub, sub_dotProduct, dotProduct_smul, smul_dotProduct, smul_eq_mul]
    rw [dotProduct_comm v a, dotProduct_comm v b, dotProduct_comm b a, ea, eb, eab]
    ring
  rw [this]
  have t1 : 0 ≤ ds * (2 - ds) * (a ⬝ᵥ a) := mul_nonneg (mul_nonneg h1.1 (by linarith [h1.2])) na
  have t2 : 0 ≤ dn * (2 - dn) * (b ⬝ᵥ b) := mul_nonneg (mul_nonneg h2.1 (by linarith [h2.2])) nb
  linarith

/-- The inverse of the factor of one plane. -/
theorem factor_inv (hn : n ⬝ᵥ n = 1) {ds dn : ℝ} (h1 : ds ≠ 1) (h2 : dn ≠ 1) :
    factor ds dn n * (1 + (ds / (1 - ds)) • shearSS n + (dn / (1 - dn)) • normalSS n) = 1 := by
  obtain ⟨pn, ps, pns, psn, -, -⟩ := C67_projections hn
  have e1 : 1 - ds ≠ 0 := sub_ne_zero.2 (Ne.symm h1)
  have e2 : 1 - dn ≠ 0 := sub_ne_zero.2 (Ne.symm h2)
  have k1 : ds / (1 - ds) - ds - ds * (ds / (1 - ds)) = 0 := by field_simp; ring
  have k2 : dn / (1 - dn) - dn - dn * (dn / (1 - dn)) = 0 := by field_simp; ring
  rw [factor]
  simp only [Matrix.sub_mul, Matrix.mul_add, Matrix.smul_mul, Matrix.mul_smul, Matrix.one_mul, Matrix.mul_one, pn, ps, pns,
    psn, smul_zero, add_zero, zero_add, smul_smul]
  calc _ = 1 + (ds / (1 - ds) - ds - ds * (ds / (1 - ds))) • shearSS n +
        (dn / (1 - dn) - dn - dn * (dn / (1 - dn))) • normalSS n := by module
    _ = 1 := by rw [k1, k2]; simp

theorem exists_perp (hn : n ⬝ᵥ n = 1) : ∃ u : Fin 3 → ℝ, u ⬝ᵥ n = 0 ∧ u ⬝ᵥ u ≠ 0 := by
  by_cases h : n 0 = 0 ∧ n 1 = 0
  · exact ⟨![1, 0, 0], by simp [dotProduct, Fin.sum_univ_three, h.1], by simp [dotProduct, Fin.sum_univ_three]⟩
  · refine ⟨![n 1, -n 0, 0], by simp [dotProduct, Fin.sum_univ_three]; ring, ?_⟩
    simp only [dotProduct, Fin.sum_univ_three, cons_val_zero, cons_val_one, cons_val_two, tail_cons, head_cons]
    intro hz
    apply h
    constructor <;> nlinarith [mul_self_nonneg (n 0), mul_self_nonneg (n 1)]

theorem sym_usym_of (A : Matrix (Fin 3) (Fin 3) ℝ) (hA : Aᵀ = A) : usym (sym A) = A := by
  have h := r2_sq
  have e := fun i j => congrFun (congrFun hA i) j
  simp only [transpose_apply] at e
  have h0 : √2 ≠ 0 := by positivity
  ext i j
  fin_cases i <;> fin_cases j <;> simp [usym, sym, h0, e] <;> exact e _ _

/-- C106, inverse: the factor of one plane can be inverted just if neither fraction is one. -/
theorem C106_factor (hn : n ⬝ᵥ n = 1) (ds dn : ℝ) : (factor ds dn n).det ≠ 0 ↔ ds ≠ 1 ∧ dn ≠ 1 := by
  constructor
  · intro hd
    have inj : ∀ v, factor ds dn n *ᵥ v = 0 → v = 0 := by
      intro v hv
      have : (factor ds dn n)⁻¹ * factor ds dn n = 1 := nonsing_inv_mul _ (isUnit_iff_ne_zero.2 hd)
      rw [← one_mulVec v, ← this, ← mulVec_mulVec, hv, mulVec_zero]
    obtain ⟨pn, ps, pns, psn, -, -⟩ := C67_projections hn
    constructor
    · rintro rfl
      obtain ⟨u, hu, hu0⟩ := exists_perp hn
      set A := vecMulVec u n + vecMulVec n u with hA
      have hAt : Aᵀ = A := by
        ext i j
        simp only [hA, transpose_apply, Matrix.add_apply, vecMulVec_apply]
        ring
      have hv : factor 1 dn n *ᵥ (shearSS n *ᵥ sym A) = 0 := by
        rw [mulVec_mulVec, factor]
        simp [Matrix.sub_mul, ps, pns]
      have hz := inj _ hv
      have h1 := (C67_tractions hn (sym A)).2.1
      have ht : traction A n = u := by
        rw [traction, hA, add_mulVec, vmv, vmv, hn, hu, one_smul, zero_smul, add_zero]
      rw [hz, sym_usym_of A hAt, shearTraction, normalTraction, ht, dotProduct_comm, hu, zero_smul, sub_zero] at h1
      apply hu0
      rw [← h1]
      simp [traction, usym, dotProduct, Fin.sum_univ_three, mulVec]
    · rintro rfl
      set A := vecMulVec n n with hA
      have hAt : Aᵀ = A := by
        ext i j
        simp only [hA, transpose_apply, vecMulVec_apply]
        ring
      have hv : factor ds 1 n *ᵥ (normalSS n *ᵥ sym A) = 0 := by
        rw [mulVec_mulVec, factor]
        simp [Matrix.sub_mul, pn, psn]
      have hz := inj _ hv
      have h1 := (C67_tractions hn (sym A)).1
      have ht : traction A n = n := by rw [traction, hA, vmv, hn, one_smul]
      rw [hz, sym_usym_of A hAt, normalTraction, ht, hn, one_smul] at h1
      have : n ⬝ᵥ n = 0 := by
        nth_rewrite 1 [← h1]
        simp [traction, usym, dotProduct, Fin.sum_univ_three, mulVec]
      rw [hn] at this
      exact one_ne_zero this
  · rintro ⟨h1, h2⟩ hd
    have := congrArg Matrix.det (factor_inv hn h1 h2)
    rw [det_mul, hd, zero_mul, det_one] at this
    exact zero_ne_one this

section planar

variable {N : Type} [DecidableEq N] {m p : Nat} (c : Crys) (r : Rule N m) (pl : Planes p) (shear normal : Transform)
  (rule : PlaneRule)

/-- C106, size: while all fractions lie between zero and one, the stress of the damaged crystal is not larger than the
stress of its material. -/
theorem C106_size (hpl : ∀ i, pl.normal i ⬝ᵥ pl.normal i = 1) (s : Fin 6 → ℝ) (d : Fin p → ℝ)
    (h : ∀ i ns, (0 ≤ shear.map (d i) ns ∧ shear.map (d i) ns ≤ 1) ∧ 0 ≤ normal.map (d i) ns ∧ normal.map (d i) ns ≤ 1)
    (v : Fin 6 → ℝ) :
    ((planar c r pl shear normal rule).proj s d *ᵥ v) ⬝ᵥ ((planar c r pl shear normal rule).proj s d *ᵥ v) ≤ v ⬝ᵥ v := by
  rw [proj_eq]
  have : ∀ l : List (Fin p), ((l.map (planeFactor pl shear normal s d)).prod *ᵥ v) ⬝ᵥ
      ((l.map (planeFactor pl shear normal s d)).prod *ᵥ v) ≤ v ⬝ᵥ v := by
    intro l
    induction l with
    | nil => simp
    | cons i l ih =>
      rw [List.map_cons, List.prod_cons, ← mulVec_mulVec]
      exact (factor_norm (hpl i) (h i _).1 (h i _).2 _).trans ih
  exact this _

theorem det_prod {α : Type} (l : List α) (F : α → Matrix (Fin 6) (Fin 6) ℝ) :
    (l.map F).prod.det ≠ 0 ↔ ∀ a ∈ l, (F a).det ≠ 0 := by
  induction l with
  | nil => simp
  | cons a l ih =>
    rw [List.map_cons, List.prod_cons, det_mul, mul_ne_zero_iff, ih]
    simp

/-- C106, invertible: the projection of a crystal can be inverted just if no fraction is one. -/
theorem C106_invertible (hpl : ∀ i, pl.normal i ⬝ᵥ pl.normal i = 1) (s : Fin 6 → ℝ) (d : Fin p → ℝ) :
    ((planar c r pl shear normal rule).proj s d).det ≠ 0 ↔
      ∀ i, shear.map (d i) (normalStress s (pl.normal i)) ≠ 1 ∧ normal.map (d i) (normalStress s (pl.normal i)) ≠ 1 := by
  rw [proj_eq, det_prod]
  exact ⟨fun h i => (C106_factor (hpl i) _ _).1 (h i (List.mem_finRange i)), fun h i _ => (C106_factor (hpl i) _ _).2 (h i)⟩

end planar

end Neml.CrystalDamage
