import Verif.Model.SolveStep
import Verif.Props.Newton
import Verif.Props.SmallStrain
import Verif.Props.Surface
import Verif.Props.Elastic
import Mathlib.LinearAlgebra.Matrix.ToLinearEquiv

/-!
# C178: perfect J2 plasticity is radial return
-/

namespace Neml.SolveStep

open Matrix Neml.SmallStrain Neml.Flow Neml.Mandel Neml.Elastic

variable {P : Type} {n : Nat}

/-! ## The Newton iteration when the first step is exact -/

/-- A linear solver that solves every nonsingular system. -/
def ExactSolve (lin : Matrix (Fin n) (Fin n) ℝ → (Fin n → ℝ) → Option (Fin n → ℝ)) : Prop :=
  ∀ (J : Matrix (Fin n) (Fin n) ℝ) (d : Fin n → ℝ), J.det ≠ 0 → lin J (J *ᵥ d) = some d

/-- An inversion that inverts every nonsingular matrix. -/
def ExactInv [Fintype P] [DecidableEq P] (inv : Matrix P P ℝ → Option (Matrix P P ℝ)) : Prop :=
  ∀ J : Matrix P P ℝ, J.det ≠ 0 → inv J = some J⁻¹

theorem newton_at_once (sys : Newton.System n) (lin) (p : Newton.Params) (fuel : Nat)
    {R J} (h0 : sys.RJ sys.init = some (R, J)) (hc : Newton.norm2 R < p.atol) (hm : p.miter ≠ 0)
    (hf : 1 ≤ fuel) :
    Newton.newton sys lin p fuel = some (.ok ⟨sys.init, R, J, Newton.norm2 R, 1⟩) := by
  obtain ⟨g, rfl⟩ : ∃ g, fuel = g + 1 := ⟨fuel - 1, by omega⟩
  unfold Newton.newton
  rw [h0]
  simp only
  rw [Newton.loop_of_conv (Or.inl hc)]
  simp only
  rw [if_neg (Ne.symm hm)]

theorem newton_zero_norm : Newton.norm2 (0 : Fin n → ℝ) = 0 := by
  simp [Newton.norm2]

/-- If the first Newton step lands on a root the iteration takes exactly that step. -/
theorem newton_one (sys : Newton.System n) (lin) (p : Newton.Params) (fuel : Nat)
    {R J} (h0 : sys.RJ sys.init = some (R, J)) (hc : p.atol ≤ Newton.norm2 R) (ha : 0 < p.atol)
    (hr : p.rtol ≤ 1) (hm : 2 ≤ p.miter) (hf : 2 ≤ fuel) {d : Fin n → ℝ} (hd : lin J R = some d)
    {J1} (h1 : sys.RJ (sys.init - d) = some (0, J1)) :
    Newton.newton sys lin p fuel = some (.ok ⟨sys.init - d, 0, J1, 0, 2⟩) := by
  obtain ⟨g, rfl⟩ : ∃ g, fuel = g + 2 := ⟨fuel - 2, by omega⟩
  have hpos : 0 < Newton.norm2 R := ha.trans_le hc
  have hnc : ¬ Newton.Conv p (Newton.norm2 R) (⟨sys.init, R, J, Newton.norm2 R, 1⟩ : Newton.It n) := by
    rintro (h | ⟨_, h⟩)
    · exact absurd h (not_lt.mpr hc)
    · simp only at h
      rw [div_self hpos.ne'] at h
      linarith
  have hb : Newton.body sys lin p ⟨sys.init, R, J, Newton.norm2 R, 1⟩ =
      .ok ⟨sys.init - d, 0, J1, 0, 2⟩ := by
    unfold Newton.body
    simp only [hd]
    split_ifs
    · show Newton.lineSearch sys sys.init d _ (9 + 1) 1 _ = _
      rw [Newton.lineSearch]
      have e1 : (fun j => sys.init j - 1 * d j) = sys.init - d := by ext j; simp
      simp only [e1, h1, newton_zero_norm, if_pos hpos]
    · have e1 : (fun j => sys.init j - d j) = sys.init - d := rfl
      simp only [e1, h1, newton_zero_norm]
  unfold Newton.newton
  rw [h0]
  simp only
  rw [Newton.loop_of_step hnc hb, if_neg (by omega), Newton.loop_of_conv (Or.inl ha)]
  simp only
  rw [if_neg (by omega)]

variable [Fintype P] [DecidableEq P]

theorem submatrix_mulVec (e : P ≃ Fin n) (J : Matrix P P ℝ) (v : P → ℝ) :
    J.submatrix e.symm e.symm *ᵥ (fun i => v (e.symm i)) = fun i => (J *ᵥ v) (e.symm i) := by
  ext i
  exact Fintype.sum_equiv e.symm _ _ fun j => rfl

theorem norm2_flat (e : P ≃ Fin n) (R : P → ℝ) :
    Newton.norm2 (fun i => R (e.symm i)) = √(∑ a, R a * R a) := by
  unfold Newton.norm2
  congr 1
  exact Fintype.sum_equiv e.symm _ _ fun j => rfl

theorem solveWith_at_once (e : P ≃ Fin n) (z0 : P → ℝ) (R J lin) (p : Newton.Params) (fuel : Nat)
    (hc : √(∑ a, R z0 a * R z0 a) < p.atol) (hm : p.miter ≠ 0) (hf : 1 ≤ fuel) :
    solveWith e z0 R J lin p fuel = some (z0, J z0) := by
  have hz : (fun a => (system e z0 R J).init (e a)) = z0 := by ext a; simp [system]
  have h0 : (system e z0 R J).RJ (system e z0 R J).init =
      some (fun i => R z0 (e.symm i), (J z0).submatrix e.symm e.symm) := by
    show some (_, _) = _
    rw [hz]
  unfold solveWith
  rw [newton_at_once _ lin p fuel h0 (by rw [norm2_flat]; exact hc) hm hf]
  simp only [hz]
  simp

theorem solveWith_one (e : P ≃ Fin n) (z0 z1 : P → ℝ) (R J) {lin} (hl : ExactSolve lin)
    (p : Newton.Params) (fuel : Nat) (hc : p.atol ≤ √(∑ a, R z0 a * R z0 a)) (ha : 0 < p.atol)
    (hr : p.rtol ≤ 1) (hm : 2 ≤ p.miter) (hf : 2 ≤ fuel) (hJ : (J z0).det ≠ 0)
    (hs : J z0 *ᵥ (z0 - z1) = R z0) (h1 : R z1 = 0) :
    solveWith e z0 R J lin p fuel = some (z1, J z1) := by
  have hz : (fun a => (system e z0 R J).init (e a)) = z0 := by ext a; simp [system]
  have h0 : (system e z0 R J).RJ (system e z0 R J).init =
      some (fun i => R z0 (e.symm i), (J z0).submatrix e.symm e.symm) := by
    show some (_, _) = _
    rw [hz]
  have hd : lin ((J z0).submatrix e.symm e.symm) (fun i => R z0 (e.symm i)) =
      some fun i => (z0 - z1) (e.symm i) := by
    have := hl ((J z0).submatrix e.symm e.symm) (fun i => (z0 - z1) (e.symm i))
      (by rwa [det_submatrix_equiv_self])
    rwa [submatrix_mulVec, hs] at this
  have hz1 : (fun a => ((system e z0 R J).init - fun i => (z0 - z1) (e.symm i)) (e a)) = z1 := by
    ext a; simp [system]
  have h1' : (system e z0 R J).RJ ((system e z0 R J).init - fun i => (z0 - z1) (e.symm i)) =
      some (0, (J z1).submatrix e.symm e.symm) := by
    show some (_, _) = _
    rw [hz1, h1]
    rfl
  unfold solveWith
  rw [newton_one _ lin p fuel h0 (by rw [norm2_flat]; exact hc) ha hr hm hf hd h1']
  simp only [hz1]
  simp

/-! ## Deviators -/

theorem isoC_dev (G K : ℝ) {v : Fin 6 → ℝ} (h : tr3 v = 0) : isoC G K *ᵥ v = (2 * G) • v := by
  rw [isoC_apply]
  have : v 0 + v 1 + v 2 = 0 := h
  rw [this]
  simp

theorem isoC_symm (G K : ℝ) : (isoC G K)ᵀ = isoC G K := by
  ext i j
  fin_cases i <;> fin_cases j <;> rfl

theorem dot_isoC (G K : ℝ) {v : Fin 6 → ℝ} (h : tr3 v = 0) (w : Fin 6 → ℝ) :
    v ⬝ᵥ (isoC G K *ᵥ w) = 2 * G * (v ⬝ᵥ w) := by
  rw [dotProduct_comm, sym_dot (isoC_symm G K), isoC_dev G K h, smul_dotProduct, smul_eq_mul]

theorem devProj_isoC (G K : ℝ) (w : Fin 6 → ℝ) :
    devProj *ᵥ (isoC G K *ᵥ w) = (2 * G) • (devProj *ᵥ w) := by
  rw [isoC_apply, mulVec_add, mulVec_smul, mulVec_smul]
  have : devProj *ᵥ delta = 0 := by
    rw [← devVec_eq]
    ext i
    fin_cases i <;> simp [devVec, delta] <;> norm_num
  rw [this]
  simp

theorem tr3_smul (c : ℝ) (v : Fin 6 → ℝ) : tr3 (c • v) = c * tr3 v := by
  simp [tr3]; ring

theorem tr3_add (v w : Fin 6 → ℝ) : tr3 (v + w) = tr3 v + tr3 w := by
  simp [tr3]; ring

theorem tr3_sub (v w : Fin 6 → ℝ) : tr3 (v - w) = tr3 v - tr3 w := by
  simp [tr3]; ring

theorem dot_devProj {v : Fin 6 → ℝ} (h : tr3 v = 0) (w : Fin 6 → ℝ) :
    v ⬝ᵥ (devProj *ᵥ w) = v ⬝ᵥ w := by
  rw [dotProduct_comm, sym_dot devProj_symm, devProj_of_tr3 h]

/-! ## The J2 surface -/

theorem shifted_expand (s : Fin 6 → ℝ) (q : Unit → ℝ) : shifted s (expandHist q) = devVec s := by
  ext i
  simp [shifted, expandHist]

theorem j2_f (eps : ℝ) (s : Fin 6 → ℝ) (q T : ℝ) :
    (j2 eps).f s q T = norm2 (devVec s) + √(2 / 3) * q := by
  show norm2 (shifted s (expandHist fun _ => q)) + √(2 / 3) * q = _
  rw [shifted_expand]

theorem j2_df (eps : ℝ) (s : Fin 6 → ℝ) (q T : ℝ) :
    (j2 eps).df s q T = normalize eps (devVec s) := by
  show normalize eps (shifted s (expandHist fun _ => q)) = _
  rw [shifted_expand]

theorem j2_ddf {eps : ℝ} {s : Fin 6 → ℝ} (h : 0 < norm2 (devVec s)) (q T : ℝ) :
    (j2 eps).ddf s q T = (1 / norm2 (devVec s)) •
      (devProj - vecMulVec (normalize eps (devVec s)) (normalize eps (devVec s))) := by
  show (let n := normalize eps (shifted s (expandHist fun _ => q))
    if norm2 (shifted s (expandHist fun _ => q)) > 0 then
      (1 / norm2 (shifted s (expandHist fun _ => q))) • (devProj - vecMulVec n n) else 0) = _
  simp only [shifted_expand]
  rw [if_pos h]

/-- The direction of a vector that is long enough. -/
theorem normalize_smul {eps c : ℝ} {m : Fin 6 → ℝ} (hm : m ⬝ᵥ m = 1) (he : 0 < eps) (hc : eps ≤ c) :
    normalize eps (c • m) = m := by
  have h1 : norm2 m = 1 := by simp [norm2, hm]
  have h2 : norm2 (c • m) = c := by
    rw [norm2_smul, h1, mul_one, abs_of_pos (he.trans_le hc)]
  rw [normalize_of_le (by rw [h2]; exact hc), h2]
  have : 0 < c := he.trans_le hc
  ext i
  simp only [Pi.smul_apply, smul_eq_mul]
  field_simp

/-- A vector is its length times its direction. -/
theorem unit_of {eps : ℝ} {v : Fin 6 → ℝ} (he : 0 < eps) (h : eps ≤ norm2 v) :
    normalize eps v ⬝ᵥ normalize eps v = 1 ∧ v = norm2 v • normalize eps v := by
  have hp : 0 < norm2 v := he.trans_le h
  have e1 : normalize eps v = (1 / norm2 v) • v := by
    rw [normalize_of_le h]
    ext i
    simp only [Pi.smul_apply, smul_eq_mul]
    ring
  constructor
  · rw [e1, smul_dotProduct, dotProduct_smul, ← norm2_sq]
    simp only [smul_eq_mul]
    field_simp
  · rw [e1, smul_smul]
    field_simp
    simp

theorem norm2_unit {m : Fin 6 → ℝ} (hm : m ⬝ᵥ m = 1) (c : ℝ) : norm2 (c • m) = |c| := by
  have h1 : norm2 m = 1 := by simp [norm2, hm]
  rw [norm2_smul, h1, mul_one]

theorem devVec_add (v w : Fin 6 → ℝ) : devVec (v + w) = devVec v + devVec w := by
  simp only [devVec_eq, mulVec_add]

theorem devVec_of_tr3 {v : Fin 6 → ℝ} (h : tr3 v = 0) : devVec v = v := by
  rw [devVec_eq, devProj_of_tr3 h]

/-! ## The system of perfect plasticity -/

/-- Action of the Jacobian. -/
theorem ppJ_mulVec (sf : PPSurface ℝ (Fin 6)) (ts : PPTrial ℝ (Fin 6)) (s : Fin 6 → ℝ) (dg : ℝ)
    (v : Fin 6 → ℝ) (l : ℝ) :
    ppJ sf ts (Sum.elim s fun _ => dg) *ᵥ (Sum.elim v fun _ => l) =
      Sum.elim (v + dg • (ts.C *ᵥ (sf.ddf s ts.ys ts.T *ᵥ v)) + l • (ts.C *ᵥ sf.df s ts.ys ts.T))
        (fun _ => sf.df s ts.ys ts.T ⬝ᵥ v) := by
  have h1 : (of fun i j => (ts.C * sf.ddf s ts.ys ts.T) i j * dg + if i = j then 1 else 0) =
      dg • (ts.C * sf.ddf s ts.ys ts.T) + (1 : Matrix (Fin 6) (Fin 6) ℝ) := by
    ext i j
    simp only [of_apply, Matrix.add_apply, Matrix.smul_apply, smul_eq_mul, Matrix.one_apply]
    ring
  show fromBlocks (of fun i j => (ts.C * sf.ddf s ts.ys ts.T) i j * dg + if i = j then 1 else 0)
    (of fun i _ => (ts.C *ᵥ sf.df s ts.ys ts.T) i) (of fun _ j => sf.df s ts.ys ts.T j)
    (of fun _ _ => 0) *ᵥ _ = _
  rw [fromBlocks_mulVec, h1]
  ext a
  rcases a with i | a
  · simp only [Sum.elim_inl, Pi.add_apply, Sum.elim_comp_inl, Sum.elim_comp_inr, Matrix.add_mulVec,
      Matrix.smul_mulVec, Matrix.one_mulVec, Matrix.mulVec_mulVec, Pi.smul_apply, smul_eq_mul]
    simp [mulVec, dotProduct]
    ring
  · simp [mulVec, dotProduct]

theorem Q_mulVec (m v : Fin 6 → ℝ) (c : ℝ) :
    (c • (devProj - vecMulVec m m)) *ᵥ v = c • (devProj *ᵥ v - (m ⬝ᵥ v) • m) := by
  rw [Matrix.smul_mulVec, Matrix.sub_mulVec]
  congr 2
  ext i
  simp [mulVec, dotProduct, vecMulVec_apply, Finset.mul_sum, mul_comm, mul_assoc, mul_left_comm]

/-- The Jacobian is regular wherever the deviator is long enough and the multiplier is not
negative. -/
theorem pp_det {eps : ℝ} (he : 0 < eps) {G Kb : ℝ} (hG : 0 < G) (ts : PPTrial ℝ (Fin 6))
    (hC : ts.C = isoC G Kb) {s : Fin 6 → ℝ} (hs : eps ≤ norm2 (devVec s)) {dg : ℝ} (hd : 0 ≤ dg) :
    (ppJ (j2 eps) ts (Sum.elim s fun _ => dg)).det ≠ 0 := by
  intro h0
  obtain ⟨z, hz, h⟩ := exists_mulVec_eq_zero_iff.mpr h0
  apply hz
  have hN : 0 < norm2 (devVec s) := he.trans_le hs
  obtain ⟨hm, -⟩ := unit_of he hs
  have htr : tr3 (normalize eps (devVec s)) = 0 := tr3_normalize (tr3_devVec s)
  set m := normalize eps (devVec s) with hmdef
  set N := norm2 (devVec s)
  obtain ⟨v, l, rfl⟩ : ∃ v l, z = Sum.elim v fun _ => l :=
    ⟨fun i => z (.inl i), z (.inr ()), by ext a; rcases a with i | a <;> rfl⟩
  rw [ppJ_mulVec, j2_df, j2_ddf hN, hC, ← hmdef, isoC_dev G Kb htr, Q_mulVec] at h
  have hv : m ⬝ᵥ v = 0 := congrFun h (.inr ())
  have h1 : v + dg • (isoC G Kb *ᵥ ((1 / N) • (devProj *ᵥ v - (m ⬝ᵥ v) • m))) +
      l • ((2 * G) • m) = 0 := by
    ext i; exact congrFun h (.inl i)
  rw [hv, zero_smul, sub_zero] at h1
  have hl : l = 0 := by
    have h2 := congrArg (fun w => m ⬝ᵥ w) h1
    simp only [dotProduct_add, dotProduct_smul, dot_isoC G Kb htr, dot_devProj htr, hv, hm,
      dotProduct_zero, smul_eq_mul] at h2
    nlinarith
  have hw : devProj *ᵥ v = 0 := by
    have h2 := congrArg (fun w => devProj *ᵥ w) h1
    simp only [hl, zero_smul, add_zero, mulVec_add, mulVec_smul, devProj_isoC, mulVec_zero] at h2
    have h3 : devProj *ᵥ (devProj *ᵥ v) = devProj *ᵥ v := by
      rw [← devVec_eq v, devProj_of_tr3 (tr3_devVec v)]
    rw [h3] at h2
    have h4 : (1 + dg * ((1 / N) * (2 * G))) • (devProj *ᵥ v) = 0 := by
      rw [← h2]; module
    have h5 : 0 < 1 + dg * ((1 / N) * (2 * G)) := by positivity
    exact (smul_eq_zero.mp h4).resolve_left h5.ne'
  rw [hw, hl] at h1
  simp at h1
  rw [h1, hl]
  ext a
  rcases a with i | a <;> rfl

/-! ## Radial return -/

/-- Direction of the deviator of a stress. -/
noncomputable def dir (s : Fin 6 → ℝ) : Fin 6 → ℝ := (1 / norm2 (devVec s)) • devVec s

/-- The stress with the same mean stress and the same deviatoric direction as `s` whose deviator has
length `k`. -/
noncomputable def radial (k : ℝ) (s : Fin 6 → ℝ) : Fin 6 → ℝ := s - devVec s + k • dir s

/-- Solver settings of the theorems below: positive absolute tolerance, relative tolerance at most
one, at least two iterations. -/
structure Standard (p : Newton.Params) (fuel : Nat) : Prop where
  atol : 0 < p.atol
  rtol : p.rtol ≤ 1
  miter : 2 ≤ p.miter
  fuel : 2 ≤ fuel

/-- Isotropic elasticity with the same constants at the start and the end of the step. -/
structure IsoStep (el : Elastic ℝ (Fin 6)) (G Kb T0 T1 : ℝ) : Prop where
  shear : 0 < G
  stiff : el.C T1 = isoC G Kb
  back : el.C T1 * el.S T0 = 1

/-- Elastic trial stress of a step. -/
def trial {H : Type} (el : Elastic ℝ (Fin 6)) (x : Substep.Point ℝ (Fin 6 → ℝ) (Fin 6 → ℝ) H)
    (e1 : Fin 6 → ℝ) (T1 : ℝ) : Fin 6 → ℝ := x.s + el.C T1 *ᵥ (e1 - x.e)

theorem norm2_dir {s : Fin 6 → ℝ} (h : 0 < norm2 (devVec s)) : dir s ⬝ᵥ dir s = 1 := by
  unfold dir
  rw [smul_dotProduct, dotProduct_smul, ← norm2_sq]
  simp only [smul_eq_mul]
  field_simp

theorem tr3_dir (s : Fin 6 → ℝ) : tr3 (dir s) = 0 := by
  rw [dir, tr3_smul, tr3_devVec, mul_zero]

theorem devVec_dir {s : Fin 6 → ℝ} (h : 0 < norm2 (devVec s)) :
    devVec s = norm2 (devVec s) • dir s := by
  unfold dir
  rw [smul_smul]
  field_simp
  simp

theorem normalize_dir {eps : ℝ} {s : Fin 6 → ℝ} (h : eps ≤ norm2 (devVec s)) :
    normalize eps (devVec s) = dir s := by
  rw [normalize_of_le h]
  ext i
  simp only [dir, Pi.smul_apply, smul_eq_mul]
  ring

theorem radial_eq {s : Fin 6 → ℝ} (h : 0 < norm2 (devVec s)) (k : ℝ) :
    radial k s = s - (norm2 (devVec s) - k) • dir s := by
  unfold radial
  nth_rewrite 1 [devVec_dir h]
  module

theorem devVec_sub' (v w : Fin 6 → ℝ) : devVec (v - w) = devVec v - devVec w := by
  simp only [devVec_eq, mulVec_sub]

theorem devVec_radial (k : ℝ) (s : Fin 6 → ℝ) : devVec (radial k s) = k • dir s := by
  unfold radial
  rw [devVec_add, devVec_sub', devVec_of_tr3 (tr3_devVec s),
    devVec_of_tr3 (v := k • dir s) (by rw [tr3_smul, tr3_dir, mul_zero]), sub_self, zero_add]

/-- The stress of the specification lies on the surface and has the mean stress of the trial. -/
theorem radial_spec {s : Fin 6 → ℝ} (h : 0 < norm2 (devVec s)) {k : ℝ} (hk : 0 ≤ k) :
    norm2 (devVec (radial k s)) = k ∧ tr3 (radial k s) = tr3 s ∧
      devVec (radial k s) = (k / norm2 (devVec s)) • devVec s := by
  refine ⟨?_, ?_, ?_⟩
  · rw [devVec_radial, norm2_unit (norm2_dir h), abs_of_nonneg hk]
  · unfold radial
    rw [tr3_add, tr3_sub, tr3_devVec, tr3_smul, tr3_dir]
    ring
  · rw [devVec_radial, dir, smul_smul]
    congr 1
    ring

section steps

variable {el : Elastic ℝ (Fin 6)} {ys : ℝ → ℝ} {eps G Kb : ℝ}
  {lin : Matrix (Fin 7) (Fin 7) ℝ → (Fin 7 → ℝ) → Option (Fin 7 → ℝ)} {p : Newton.Params}
  {fuel : Nat}
  {inv : Matrix (Fin 6 ⊕ Unit) (Fin 6 ⊕ Unit) ℝ → Option (Matrix (Fin 6 ⊕ Unit) (Fin 6 ⊕ Unit) ℝ)}
  {x : Substep.Point ℝ (Fin 6 → ℝ) (Fin 6 → ℝ) Unit} {e1 : Fin 6 → ℝ} {T1 t1 : ℝ}

theorem str_eq : (ppTrial el ys x e1 T1).str = trial el x e1 T1 := rfl

theorem elastic_iff : (perfect el (j2 eps) ys lin p fuel inv).elasticStep
      (ppTrial el ys x e1 T1) x e1 T1 t1 ↔
    norm2 (devVec (trial el x e1 T1)) ≤ √(2 / 3) * ys T1 := by
  show (j2 eps).f (trial el x e1 T1) (-ys T1) T1 ≤ 0 ↔ _
  rw [j2_f]
  constructor <;> intro h <;> linarith

theorem back_strain (hi : IsoStep el G Kb x.T T1) :
    el.C T1 *ᵥ (fun i => e1 i - (ppTrial el ys x e1 T1).ep i) = trial el x e1 T1 := by
  have h1 : (fun i => e1 i - (ppTrial el ys x e1 T1).ep i) = (e1 - x.e) + el.S x.T *ᵥ x.s := by
    ext i
    show e1 i - (x.e i - (el.S x.T *ᵥ x.s) i) = _
    simp only [Pi.add_apply, Pi.sub_apply]
    ring
  rw [h1, mulVec_add, mulVec_mulVec, hi.back, one_mulVec, trial]
  abel

/-- The residual in terms of the trial stress. -/
theorem ppR_eq (hi : IsoStep el G Kb x.T T1) (s : Fin 6 → ℝ) (dg : ℝ) :
    ppR (j2 eps) (ppTrial el ys x e1 T1) (Sum.elim s fun _ => dg) =
      Sum.elim (s - trial el x e1 T1 + dg • (isoC G Kb *ᵥ normalize eps (devVec s)))
        (fun _ => norm2 (devVec s) - √(2 / 3) * ys T1) := by
  ext a
  rcases a with i | a
  · show s i - (el.C T1 *ᵥ fun i => e1 i - (ppTrial el ys x e1 T1).ep i -
      (j2 eps).df s (-ys T1) T1 i * dg) i = _
    rw [j2_df]
    have h1 : (fun i => e1 i - (ppTrial el ys x e1 T1).ep i - normalize eps (devVec s) i * dg) =
        (fun i => e1 i - (ppTrial el ys x e1 T1).ep i) - dg • normalize eps (devVec s) := by
      ext i
      simp only [Pi.sub_apply, Pi.smul_apply, smul_eq_mul]
      ring
    rw [h1, mulVec_sub, back_strain hi, mulVec_smul, hi.stiff]
    simp only [Sum.elim_inl, Pi.sub_apply, Pi.add_apply]
    ring
  · show (j2 eps).f s (-ys T1) T1 = _
    rw [j2_f, Sum.elim_inr]
    ring

theorem init_eq : ppInit (ppTrial el ys x e1 T1) = Sum.elim (trial el x e1 T1) fun _ => 0 := rfl

theorem norm_start (hi : IsoStep el G Kb x.T T1)
    (hf : √(2 / 3) * ys T1 ≤ norm2 (devVec (trial el x e1 T1))) :
    √(∑ a, ppR (j2 eps) (ppTrial el ys x e1 T1) (ppInit (ppTrial el ys x e1 T1)) a *
        ppR (j2 eps) (ppTrial el ys x e1 T1) (ppInit (ppTrial el ys x e1 T1)) a) =
      norm2 (devVec (trial el x e1 T1)) - √(2 / 3) * ys T1 := by
  rw [init_eq, ppR_eq hi]
  rw [Fintype.sum_sum_type]
  simp only [Sum.elim_inl, Sum.elim_inr, sub_self, zero_add, zero_smul, Pi.zero_apply, mul_zero,
    Finset.sum_const_zero, Finset.univ_unique, Finset.sum_singleton]
  rw [Real.sqrt_mul_self (by linarith)]

/-- C178. A step whose trial stress lies within the surface is elastic. -/
theorem C178_elastic (h : norm2 (devVec (trial el x e1 T1)) ≤ √(2 / 3) * ys T1) :
    ∃ inc, updateStep (perfect el (j2 eps) ys lin p fuel inv) x e1 T1 t1 = some inc ∧
      inc.s = trial el x e1 T1 := by
  obtain ⟨inc, h1, h2, -⟩ := updateStep_elastic (perfect el (j2 eps) ys lin p fuel inv) x e1 T1 t1
    (elastic_iff.mpr h)
  refine ⟨inc, h1, ?_⟩
  rw [h2, trial, add_comm]
  rfl

theorem update_of {z J A} (h : ¬ norm2 (devVec (trial el x e1 T1)) ≤ √(2 / 3) * ys T1)
    (hs : solveWith ppIndex (ppInit (ppTrial el ys x e1 T1)) (ppR (j2 eps) (ppTrial el ys x e1 T1))
      (ppJ (j2 eps) (ppTrial el ys x e1 T1)) lin p fuel = some (z, J)) (hA : inv J = some A) :
    ∃ inc, updateStep (perfect el (j2 eps) ys lin p fuel inv) x e1 T1 t1 = some inc ∧
      inc.s = (fun i => z (.inl i)) ∧ inc.A = A ∧ inc.E = ppStrainPartial (ppTrial el ys x e1 T1) ∧
      (inc.u, inc.p) = ripWork el (ppTrial el ys x e1 T1).ep x e1 T1 (fun i => z (.inl i)) := by
  unfold updateStep
  simp only
  have hne : ¬ (perfect el (j2 eps) ys lin p fuel inv).elasticStep
      ((perfect el (j2 eps) ys lin p fuel inv).setup x e1 T1 t1) x e1 T1 t1 :=
    fun hh => h (elastic_iff.mp hh)
  rw [if_neg hne]
  have h1 : (perfect el (j2 eps) ys lin p fuel inv).solve
      ((perfect el (j2 eps) ys lin p fuel inv).setup x e1 T1 t1) = some (z, J) := hs
  have h2 : (perfect el (j2 eps) ys lin p fuel inv).inv J = some A := hA
  rw [h1]
  simp only [h2]
  exact ⟨_, rfl, rfl, rfl, rfl, rfl⟩

theorem E_mulVec (hi : IsoStep el G Kb x.T T1) (v : Fin 6 → ℝ) :
    ppStrainPartial (ppTrial el ys x e1 T1) *ᵥ v = Sum.elim (isoC G Kb *ᵥ v) fun _ => 0 := by
  ext a
  rcases a with i | a
  · show (fun j => el.C T1 i j) ⬝ᵥ v = _
    rw [hi.stiff]
    rfl
  · show (fun _ => (0 : ℝ)) ⬝ᵥ v = 0
    exact zero_dotProduct v

/-- If the Jacobian takes `z` to the strain partial of `v`, the tangent takes `v` to `z`. -/
theorem tangent_of {Q : Type} [Fintype Q] {J : Matrix P P ℝ} (hJ : J.det ≠ 0) (E : Matrix P Q ℝ)
    (v : Q → ℝ) {z : P → ℝ} (h : J *ᵥ z = E *ᵥ v) : (J⁻¹ * E) *ᵥ v = z := by
  rw [← mulVec_mulVec, ← h, mulVec_mulVec, nonsing_inv_mul _ (isUnit_iff_ne_zero.mpr hJ),
    one_mulVec]

/-- C178. A trial stress outside the surface by no less than the tolerance is returned radially, in
one iteration; the tangent is the one of the return map. -/
theorem return_step (he : 0 < eps) (hs : Standard p fuel) (hl : ExactSolve lin) (hv : ExactInv inv)
    (hi : IsoStep el G Kb x.T T1) (hk : eps ≤ √(2 / 3) * ys T1)
    (h : p.atol ≤ norm2 (devVec (trial el x e1 T1)) - √(2 / 3) * ys T1) :
    ∃ inc, updateStep (perfect el (j2 eps) ys lin p fuel inv) x e1 T1 t1 = some inc ∧
      inc.s = radial (√(2 / 3) * ys T1) (trial el x e1 T1) ∧
      (inc.u, inc.p) = ripWork el (ppTrial el ys x e1 T1).ep x e1 T1 inc.s ∧
      ∀ v, (inc.A * inc.E) *ᵥ v = Sum.elim
        (isoC G Kb *ᵥ v - devProj *ᵥ (isoC G Kb *ᵥ v) +
          (√(2 / 3) * ys T1 / norm2 (devVec (trial el x e1 T1))) •
            (devProj *ᵥ (isoC G Kb *ᵥ v) -
              (dir (trial el x e1 T1) ⬝ᵥ (isoC G Kb *ᵥ v)) • dir (trial el x e1 T1)))
        (fun _ => dir (trial el x e1 T1) ⬝ᵥ v) := by
  set str := trial el x e1 T1 with hstr
  set k := √(2 / 3) * ys T1 with hkdef
  have hk0 : 0 < k := he.trans_le hk
  have hN : k < norm2 (devVec str) := by linarith [hs.atol]
  have hN0 : 0 < norm2 (devVec str) := hk0.trans hN
  have heN : eps ≤ norm2 (devVec str) := hk.trans hN.le
  have hG := hi.shear
  set m := dir str with hmdef
  have hm : m ⬝ᵥ m = 1 := norm2_dir hN0
  have htr : tr3 m = 0 := tr3_dir str
  set N := norm2 (devVec str) with hNdef
  set f := N - k with hfdef
  have hd0 : 0 ≤ f / (2 * G) := by
    have : 0 < f := by linarith
    positivity
  have hdev1 : devVec (radial k str) = k • m := devVec_radial k str
  have hnrm1 : norm2 (devVec (radial k str)) = k := by
    rw [hdev1, norm2_unit hm, abs_of_pos hk0]
  have hdir1 : normalize eps (devVec (radial k str)) = m := by
    rw [hdev1, normalize_smul hm he hk]
  have hrad : radial k str = str - f • m := radial_eq hN0 k
  have hJ0 : (ppJ (j2 eps) (ppTrial el ys x e1 T1) (ppInit (ppTrial el ys x e1 T1))).det ≠ 0 := by
    rw [init_eq]
    exact pp_det he hG _ hi.stiff heN le_rfl
  have hJ1 : (ppJ (j2 eps) (ppTrial el ys x e1 T1)
      (Sum.elim (radial k str) fun _ => f / (2 * G))).det ≠ 0 :=
    pp_det he hG _ hi.stiff (by rw [hnrm1]; exact hk) hd0
  have hstep : ppJ (j2 eps) (ppTrial el ys x e1 T1) (ppInit (ppTrial el ys x e1 T1)) *ᵥ
      (ppInit (ppTrial el ys x e1 T1) - Sum.elim (radial k str) fun _ => f / (2 * G)) =
      ppR (j2 eps) (ppTrial el ys x e1 T1) (ppInit (ppTrial el ys x e1 T1)) := by
    have hd : (ppInit (ppTrial el ys x e1 T1) - Sum.elim (radial k str) fun _ => f / (2 * G)) =
        Sum.elim (f • m) fun _ => -(f / (2 * G)) := by
      rw [init_eq, hrad, ← hstr]
      ext a
      rcases a with i | a <;> simp
    rw [hd, init_eq, ppJ_mulVec, ppR_eq hi, j2_df, normalize_dir heN, ← hstr, ← hmdef]
    have hc : (ppTrial el ys x e1 T1).C = isoC G Kb := hi.stiff
    rw [hc, isoC_dev G Kb htr, zero_smul, zero_smul]
    ext a
    rcases a with i | a
    · simp only [Sum.elim_inl, Pi.add_apply, Pi.smul_apply, smul_eq_mul, Pi.zero_apply, Pi.sub_apply]
      field_simp
      ring
    · simp only [Sum.elim_inr, dotProduct_smul, hm, smul_eq_mul, mul_one]
      rfl
  have hroot : ppR (j2 eps) (ppTrial el ys x e1 T1)
      (Sum.elim (radial k str) fun _ => f / (2 * G)) = 0 := by
    rw [ppR_eq hi, hdir1, hnrm1, isoC_dev G Kb htr, hrad, ← hstr, ← hkdef]
    ext a
    rcases a with i | a
    · simp only [Sum.elim_inl, Pi.add_apply, Pi.smul_apply, smul_eq_mul, Pi.zero_apply, Pi.sub_apply]
      field_simp
      ring
    · simp
  have hsolve := solveWith_one ppIndex _ _ _ _ hl p fuel
    (by rw [norm_start hi hN.le]; exact h) hs.atol hs.rtol hs.miter hs.fuel hJ0 hstep hroot
  obtain ⟨inc, h1, h2, h3, h4, h5⟩ := update_of (t1 := t1) (not_le.mpr hN) hsolve (hv _ hJ1)
  have h2' : inc.s = radial k str := by rw [h2]; rfl
  refine ⟨inc, h1, h2', by rw [h5, h2], fun v => ?_⟩
  rw [h3, h4]
  refine tangent_of hJ1 _ v ?_
  rw [E_mulVec hi, ppJ_mulVec, j2_df, j2_ddf (by rw [hnrm1]; exact hk0), hdir1, hnrm1]
  have hc : (ppTrial el ys x e1 T1).C = isoC G Kb := hi.stiff
  have hmw : m ⬝ᵥ v = (m ⬝ᵥ (isoC G Kb *ᵥ v)) / (2 * G) := by
    rw [dot_isoC G Kb htr]
    field_simp
  set w := isoC G Kb *ᵥ v with hw
  have hmP : m ⬝ᵥ (devProj *ᵥ w) = m ⬝ᵥ w := dot_devProj htr w
  have hPP : devProj *ᵥ (devProj *ᵥ w) = devProj *ᵥ w := by
    rw [← devVec_eq w, devProj_of_tr3 (tr3_devVec w)]
  have hPm : devProj *ᵥ m = m := devProj_of_tr3 htr
  set q := devProj *ᵥ w - (m ⬝ᵥ w) • m with hq
  have htrq : tr3 q = 0 := by
    rw [hq, tr3_sub, tr3_smul, htr, ← devVec_eq, tr3_devVec]
    ring
  have hmq : m ⬝ᵥ q = 0 := by
    rw [hq, dotProduct_sub, hmP, dotProduct_smul, hm]
    simp
  have hmD : m ⬝ᵥ (w - devProj *ᵥ w + (k / N) • q) = 0 := by
    rw [dotProduct_add, dotProduct_sub, hmP, dotProduct_smul, hmq]
    simp
  have hPD : devProj *ᵥ (w - devProj *ᵥ w + (k / N) • q) = (k / N) • q := by
    rw [mulVec_add, mulVec_sub, hPP, mulVec_smul, devProj_of_tr3 htrq]
    simp
  rw [Q_mulVec, hmD, hPD, hc, isoC_dev G Kb htr, zero_smul, sub_zero, mulVec_smul, mulVec_smul,
    isoC_dev G Kb htrq, hmw]
  ext a
  rcases a with i | a
  · simp only [Sum.elim_inl, Pi.add_apply, Pi.smul_apply, smul_eq_mul, Pi.sub_apply, hq]
    field_simp
    ring
  · rfl

/-- C178. A trial stress outside the surface by less than the tolerance is accepted as it is. The
tangent is the one of continued plastic flow. -/
theorem band_step (he : 0 < eps) (hs : Standard p fuel) (hv : ExactInv inv)
    (hi : IsoStep el G Kb x.T T1) (hk : eps ≤ √(2 / 3) * ys T1)
    (h0 : √(2 / 3) * ys T1 < norm2 (devVec (trial el x e1 T1)))
    (h : norm2 (devVec (trial el x e1 T1)) - √(2 / 3) * ys T1 < p.atol) :
    ∃ inc, updateStep (perfect el (j2 eps) ys lin p fuel inv) x e1 T1 t1 = some inc ∧
      inc.s = trial el x e1 T1 ∧
      (inc.u, inc.p) = ripWork el (ppTrial el ys x e1 T1).ep x e1 T1 inc.s ∧
      ∀ v, (inc.A * inc.E) *ᵥ v = Sum.elim (isoC G Kb *ᵥ v -
          (dir (trial el x e1 T1) ⬝ᵥ (isoC G Kb *ᵥ v)) • dir (trial el x e1 T1))
        (fun _ => dir (trial el x e1 T1) ⬝ᵥ v) := by
  have heN : eps ≤ norm2 (devVec (trial el x e1 T1)) := hk.trans h0.le
  have hN0 : 0 < norm2 (devVec (trial el x e1 T1)) := he.trans_le heN
  have hG := hi.shear
  have hJ0 : (ppJ (j2 eps) (ppTrial el ys x e1 T1) (ppInit (ppTrial el ys x e1 T1))).det ≠ 0 := by
    rw [init_eq]
    exact pp_det he hG _ hi.stiff heN le_rfl
  have hsolve := solveWith_at_once ppIndex (ppInit (ppTrial el ys x e1 T1))
    (ppR (j2 eps) (ppTrial el ys x e1 T1)) (ppJ (j2 eps) (ppTrial el ys x e1 T1)) lin p fuel
    (by rw [norm_start hi h0.le]; exact h) (by have := hs.miter; omega) (by have := hs.fuel; omega)
  obtain ⟨inc, h1, h2, h3, h4, h5⟩ := update_of (t1 := t1) (not_le.mpr h0) hsolve (hv _ hJ0)
  have h2' : inc.s = trial el x e1 T1 := by rw [h2]; rfl
  refine ⟨inc, h1, h2', by rw [h5, h2], fun v => ?_⟩
  rw [h3, h4]
  refine tangent_of hJ0 _ v ?_
  have htr : tr3 (dir (trial el x e1 T1)) = 0 := tr3_dir _
  have hm := norm2_dir hN0
  have hc : (ppTrial el ys x e1 T1).C = isoC G Kb := hi.stiff
  rw [E_mulVec hi, init_eq, ppJ_mulVec, j2_df, normalize_dir heN, hc, isoC_dev G Kb htr, zero_smul,
    dotProduct_sub, dotProduct_smul, hm, dot_isoC G Kb htr]
  ext a
  rcases a with i | a
  · simp only [Sum.elim_inl, Pi.add_apply, Pi.smul_apply, smul_eq_mul, Pi.sub_apply, Pi.zero_apply]
    ring
  · simp

end steps

/-! ## The derivative of the return map -/

theorem hasDerivAt_norm2 {a b : Fin 6 → ℝ} (h : 0 < norm2 a) :
    HasDerivAt (fun t : ℝ => norm2 (a + t • b)) ((1 / norm2 a) * (a ⬝ᵥ b)) 0 := by
  have h1 : (fun t : ℝ => norm2 (a + t • b)) =
      fun t => √(a ⬝ᵥ a + t * (2 * (a ⬝ᵥ b)) + t ^ 2 * (b ⬝ᵥ b)) := by
    ext t
    unfold norm2
    congr 1
    rw [dotProduct_add, add_dotProduct, add_dotProduct, dotProduct_smul, smul_dotProduct,
      dotProduct_smul, smul_dotProduct, dotProduct_comm b a]
    simp only [smul_eq_mul]
    ring
  rw [h1]
  have h2 : HasDerivAt (fun t : ℝ => a ⬝ᵥ a + t * (2 * (a ⬝ᵥ b)) + t ^ 2 * (b ⬝ᵥ b))
      (2 * (a ⬝ᵥ b)) 0 := by
    refine ((((hasDerivAt_id' (0 : ℝ)).mul_const (2 * (a ⬝ᵥ b))).const_add (a ⬝ᵥ a)).fun_add
      (((hasDerivAt_id' (0 : ℝ)).fun_pow 2).mul_const (b ⬝ᵥ b))).congr_deriv ?_
    simp
  have hne : a ⬝ᵥ a + 0 * (2 * (a ⬝ᵥ b)) + 0 ^ 2 * (b ⬝ᵥ b) ≠ 0 := by
    have : 0 < a ⬝ᵥ a := by rw [← norm2_sq]; exact mul_pos h h
    simpa using this.ne'
  refine (h2.sqrt hne).congr_deriv ?_
  have h3 : √(a ⬝ᵥ a + 0 * (2 * (a ⬝ᵥ b)) + 0 ^ 2 * (b ⬝ᵥ b)) = norm2 a := by
    unfold norm2; congr 1; ring
  rw [h3]
  field_simp

/-- Derivative of the radial return along a line of trial stresses. -/
theorem hasDerivAt_radial (k : ℝ) {s w : Fin 6 → ℝ} (h : 0 < norm2 (devVec s)) :
    HasDerivAt (fun t : ℝ => radial k (s + t • w))
      (w - devProj *ᵥ w + (k / norm2 (devVec s)) • (devProj *ᵥ w - (dir s ⬝ᵥ w) • dir s)) 0 := by
  rw [hasDerivAt_pi]
  intro i
  have hdev : ∀ t : ℝ, devVec (s + t • w) = devVec s + t • devVec w := by
    intro t
    simp only [devVec_eq, mulVec_add, mulVec_smul]
  have hdot : devVec s ⬝ᵥ devVec w = norm2 (devVec s) * (dir s ⬝ᵥ w) := by
    rw [devVec_eq w, dot_devProj (tr3_devVec s)]
    nth_rewrite 1 [devVec_dir h]
    rw [smul_dotProduct, smul_eq_mul]
  have h1 : (fun t : ℝ => radial k (s + t • w) i) = fun t => s i + t * w i -
      (devVec s i + t * devVec w i) +
      k * ((devVec s i + t * devVec w i) / norm2 (devVec s + t • devVec w)) := by
    ext t
    simp only [radial, dir, hdev, Pi.add_apply, Pi.sub_apply, Pi.smul_apply, smul_eq_mul]
    ring
  rw [h1]
  have hlin : ∀ a b : ℝ, HasDerivAt (fun t : ℝ => a + t * b) b 0 := fun a b => by
    simpa using ((hasDerivAt_id' (0 : ℝ)).mul_const b).const_add a
  have hN := hasDerivAt_norm2 (b := devVec w) h
  have hne : norm2 (devVec s + (0 : ℝ) • devVec w) ≠ 0 := by simpa using h.ne'
  refine (((hlin _ _).fun_sub (hlin _ _)).fun_add
    (((hlin _ _).fun_div hN hne).const_mul k)).congr_deriv ?_
  have e0 : norm2 (devVec s + (0 : ℝ) • devVec w) = norm2 (devVec s) := by simp
  rw [e0, hdot]
  simp only [Pi.add_apply, Pi.sub_apply, Pi.smul_apply, smul_eq_mul, ← devVec_eq]
  have e1 : dir s i = devVec s i / norm2 (devVec s) := by simp [dir]; ring
  rw [e1]
  field_simp
  ring

/-! ## C178 -/

section claims

variable {el : Elastic ℝ (Fin 6)} {ys : ℝ → ℝ} {eps G Kb : ℝ}
  {lin : Matrix (Fin 7) (Fin 7) ℝ → (Fin 7 → ℝ) → Option (Fin 7 → ℝ)} {p : Newton.Params}
  {fuel : Nat}
  {inv : Matrix (Fin 6 ⊕ Unit) (Fin 6 ⊕ Unit) ℝ → Option (Matrix (Fin 6 ⊕ Unit) (Fin 6 ⊕ Unit) ℝ)}
  {x : Substep.Point ℝ (Fin 6 → ℝ) (Fin 6 → ℝ) Unit} {e1 : Fin 6 → ℝ} {T1 t1 : ℝ}

theorem trial_line (el : Elastic ℝ (Fin 6)) (x : Substep.Point ℝ (Fin 6 → ℝ) (Fin 6 → ℝ) Unit)
    (e1 v : Fin 6 → ℝ) (T1 t : ℝ) :
    trial el x (e1 + t • v) T1 = trial el x e1 T1 + t • (el.C T1 *ᵥ v) := by
  unfold trial
  rw [show e1 + t • v - x.e = (e1 - x.e) + t • v by abel, mulVec_add, mulVec_smul, add_assoc]

/-- C178. If the elastic trial stress lies outside the surface by the tolerance or more, the update
returns the stress on the surface with the mean stress and the deviatoric direction of the trial
stress, and the tangent is the derivative of that stress with respect to the strain. -/
theorem C178_return (he : 0 < eps) (hs : Standard p fuel) (hl : ExactSolve lin) (hv : ExactInv inv)
    (hi : IsoStep el G Kb x.T T1) (hk : eps ≤ √(2 / 3) * ys T1)
    (h : p.atol ≤ norm2 (devVec (trial el x e1 T1)) - √(2 / 3) * ys T1) :
    ∃ inc, updateStep (perfect el (j2 eps) ys lin p fuel inv) x e1 T1 t1 = some inc ∧
      norm2 (devVec inc.s) = √(2 / 3) * ys T1 ∧ tr3 inc.s = tr3 (trial el x e1 T1) ∧
      devVec inc.s = (√(2 / 3) * ys T1 / norm2 (devVec (trial el x e1 T1))) •
        devVec (trial el x e1 T1) ∧
      inc.s = radial (√(2 / 3) * ys T1) (trial el x e1 T1) ∧
      ∀ v, HasDerivAt (fun t : ℝ => radial (√(2 / 3) * ys T1) (trial el x (e1 + t • v) T1))
        (fun i => ((inc.A * inc.E) *ᵥ v) (.inl i)) 0 := by
  have hk0 : 0 < √(2 / 3) * ys T1 := he.trans_le hk
  have hN : 0 < norm2 (devVec (trial el x e1 T1)) := by linarith [hs.atol]
  obtain ⟨inc, h1, h2, -, h3⟩ := return_step (t1 := t1) he hs hl hv hi hk h
  obtain ⟨g1, g2, g3⟩ := radial_spec hN hk0.le
  refine ⟨inc, h1, by rw [h2, g1], by rw [h2, g2], by rw [h2, g3], h2, fun v => ?_⟩
  simp only [trial_line, h3, hi.stiff]
  exact hasDerivAt_radial _ hN

/-- C178. The whole update, divided or not, is this one increment when no division is forced. -/
theorem C178_update (he : 0 < eps) (hs : Standard p fuel) (hl : ExactSolve lin) (hv : ExactInv inv)
    (hi : IsoStep el G Kb x.T T1) (hk : eps ≤ √(2 / 3) * ys T1)
    (h : p.atol ≤ norm2 (devVec (trial el x e1 T1)) - √(2 / 3) * ys T1) {md : Int} (hm : 0 ≤ md)
    {fu : Nat} (hf : 1 ≤ fu) :
    ∃ st inc, Substep.update (updateStep (perfect el (j2 eps) ys lin p fuel inv)) md false
        ⟨x, e1, T1, t1⟩ fu = some (some st) ∧ st.out = some inc ∧ st.calls = 1 ∧
      inc.s = radial (√(2 / 3) * ys T1) (trial el x e1 T1) := by
  obtain ⟨inc, h1, h2, -⟩ := return_step (t1 := t1) he hs hl hv hi hk h
  obtain ⟨st, g1, g2, -, g4⟩ := Substep.C20_one_increment
    (base := updateStep (perfect el (j2 eps) ys lin p fuel inv)) (a := ⟨x, e1, T1, t1⟩) hm fu hf inc h1
  exact ⟨st, inc, g1, g2, g4, h2⟩

/-- C178. Every step returns, within the tolerance of the surface, with the mean stress of the trial
stress; a stress inside the surface is never produced by plastic flow. -/
theorem C178_every_step (he : 0 < eps) (hs : Standard p fuel) (hl : ExactSolve lin)
    (hv : ExactInv inv) (hi : IsoStep el G Kb x.T T1) (hk : eps ≤ √(2 / 3) * ys T1) :
    ∃ inc, updateStep (perfect el (j2 eps) ys lin p fuel inv) x e1 T1 t1 = some inc ∧
      norm2 (devVec inc.s) < √(2 / 3) * ys T1 + p.atol ∧ tr3 inc.s = tr3 (trial el x e1 T1) ∧
      (inc.s = trial el x e1 T1 ∨ norm2 (devVec inc.s) = √(2 / 3) * ys T1) := by
  have ha := hs.atol
  by_cases h0 : norm2 (devVec (trial el x e1 T1)) ≤ √(2 / 3) * ys T1
  · obtain ⟨inc, h1, h2⟩ := C178_elastic (eps := eps) (lin := lin) (p := p) (fuel := fuel)
      (inv := inv) (t1 := t1) h0
    exact ⟨inc, h1, by rw [h2]; linarith, by rw [h2], Or.inl h2⟩
  · by_cases h : norm2 (devVec (trial el x e1 T1)) - √(2 / 3) * ys T1 < p.atol
    · obtain ⟨inc, h1, h2, -⟩ := band_step (lin := lin) (t1 := t1) he hs hv hi hk (not_le.mp h0) h
      exact ⟨inc, h1, by rw [h2]; linarith, by rw [h2], Or.inl h2⟩
    · obtain ⟨inc, h1, h2, h3, -⟩ := C178_return (t1 := t1) he hs hl hv hi hk (not_lt.mp h)
      exact ⟨inc, h1, by rw [h2]; linarith, h3, Or.inr h2⟩

/-- C178. The return is the only solution of the equations of the step with a multiplier that is not
negative. -/
theorem C178_unique (he : 0 < eps) (hi : IsoStep el G Kb x.T T1) (hk : eps ≤ √(2 / 3) * ys T1)
    {s : Fin 6 → ℝ} {dg : ℝ} (hd : 0 ≤ dg)
    (h : ppR (j2 eps) (ppTrial el ys x e1 T1) (Sum.elim s fun _ => dg) = 0) :
    s = radial (√(2 / 3) * ys T1) (trial el x e1 T1) ∧
      2 * G * dg = norm2 (devVec (trial el x e1 T1)) - √(2 / 3) * ys T1 := by
  have hk0 : 0 < √(2 / 3) * ys T1 := he.trans_le hk
  rw [ppR_eq hi] at h
  have hn : norm2 (devVec s) = √(2 / 3) * ys T1 := by
    have := congrFun h (.inr ())
    simp only [Sum.elim_inr, Pi.zero_apply] at this
    linarith
  have hle : eps ≤ norm2 (devVec s) := by rw [hn]; exact hk
  obtain ⟨hm, hdev⟩ := unit_of he hle
  have htr : tr3 (normalize eps (devVec s)) = 0 := tr3_normalize (tr3_devVec s)
  rw [isoC_dev G Kb htr] at h
  set m := normalize eps (devVec s)
  rw [hn] at hdev
  set k := √(2 / 3) * ys T1
  have hst : trial el x e1 T1 = s + (2 * G * dg) • m := by
    have h1 : s - trial el x e1 T1 + dg • (2 * G) • m = 0 := by
      ext i; exact congrFun h (.inl i)
    have h2 : s + dg • (2 * G) • m = trial el x e1 T1 := by
      rw [← sub_eq_zero, ← h1]; abel
    rw [← h2]
    module
  have hG := hi.shear
  have hc : 0 < k + 2 * G * dg := by positivity
  have hdst : devVec (trial el x e1 T1) = (k + 2 * G * dg) • m := by
    rw [hst, devVec_add, hdev, devVec_of_tr3 (v := (2 * G * dg) • m)
      (by rw [tr3_smul, htr, mul_zero])]
    module
  have hN : norm2 (devVec (trial el x e1 T1)) = k + 2 * G * dg := by
    rw [hdst, norm2_unit hm, abs_of_pos hc]
  have hdir : dir (trial el x e1 T1) = m := by
    rw [dir, hN, hdst, smul_smul]
    field_simp
    simp
  refine ⟨?_, by rw [hN]; ring⟩
  rw [radial_eq (by rw [hN]; exact hc), hdir, hN, hst]
  module

/-- C178, negation of uniqueness without the sign: the equations the solver sees have a second exact
solution on the opposite side of the surface, with negative plastic flow. -/
theorem C178_second_root (he : 0 < eps) (hi : IsoStep el G Kb x.T T1) (hk : eps ≤ √(2 / 3) * ys T1)
    (hN : 0 < norm2 (devVec (trial el x e1 T1))) :
    ∃ dg < 0, ppR (j2 eps) (ppTrial el ys x e1 T1)
      (Sum.elim (radial (-(√(2 / 3) * ys T1)) (trial el x e1 T1)) fun _ => dg) = 0 := by
  have hk0 : 0 < √(2 / 3) * ys T1 := he.trans_le hk
  have hG := hi.shear
  set k := √(2 / 3) * ys T1 with hkd
  refine ⟨-((norm2 (devVec (trial el x e1 T1)) + k) / (2 * G)), ?_, ?_⟩
  · have : 0 < (norm2 (devVec (trial el x e1 T1)) + k) / (2 * G) := by positivity
    linarith
  · set m := dir (trial el x e1 T1) with hmd
    have hm : m ⬝ᵥ m = 1 := norm2_dir hN
    have htr : tr3 m = 0 := tr3_dir _
    have hdev : devVec (radial (-k) (trial el x e1 T1)) = k • (-m) := by
      rw [devVec_radial]; module
    have hm' : (-m) ⬝ᵥ (-m) = 1 := by simpa using hm
    have htr' : tr3 (-m) = 0 := by
      have := tr3_smul (-1) m
      rw [htr] at this
      simpa using this
    rw [ppR_eq hi, hdev, normalize_smul hm' he hk, norm2_unit hm', abs_of_pos hk0,
      isoC_dev G Kb htr', radial_eq hN, ← hkd, ← hmd]
    ext a
    rcases a with i | a
    · simp only [Sum.elim_inl, Pi.add_apply, Pi.smul_apply, smul_eq_mul, Pi.zero_apply,
        Pi.sub_apply, Pi.neg_apply]
      field_simp
      ring
    · simp

/-- C178, disagreement: a trial stress outside the surface by less than the tolerance is returned
unchanged, so the stress still follows the strain elastically, but the tangent says that it does not
change along the direction of the deviator. -/
theorem C178_band_disagreement (he : 0 < eps) (hs : Standard p fuel) (hv : ExactInv inv)
    (hi : IsoStep el G Kb x.T T1) (hk : eps ≤ √(2 / 3) * ys T1)
    (h0 : √(2 / 3) * ys T1 < norm2 (devVec (trial el x e1 T1)))
    (h : norm2 (devVec (trial el x e1 T1)) - √(2 / 3) * ys T1 < p.atol) :
    ∃ inc, updateStep (perfect el (j2 eps) ys lin p fuel inv) x e1 T1 t1 = some inc ∧
      inc.s = trial el x e1 T1 ∧
      (fun i => ((inc.A * inc.E) *ᵥ dir (trial el x e1 T1)) (.inl i)) = 0 ∧
      el.C T1 *ᵥ dir (trial el x e1 T1) ≠ 0 := by
  have hN : 0 < norm2 (devVec (trial el x e1 T1)) := (he.trans_le hk).trans h0
  obtain ⟨inc, h1, h2, -, h3⟩ := band_step (lin := lin) (t1 := t1) he hs hv hi hk h0 h
  have hm := norm2_dir hN
  have htr := tr3_dir (trial el x e1 T1)
  refine ⟨inc, h1, h2, ?_, ?_⟩
  · rw [h3, isoC_dev G Kb htr, dotProduct_smul, hm]
    ext i
    simp
  · rw [hi.stiff, isoC_dev G Kb htr]
    intro hc
    rcases smul_eq_zero.mp hc with h4 | h4
    · have := hi.shear; linarith
    · rw [h4] at hm; simp at hm

end claims

/-! ### The hypotheses can be met -/

open Classical in
/-- An exact linear solver. -/
noncomputable def exactLin (J : Matrix (Fin n) (Fin n) ℝ) (b : Fin n → ℝ) : Option (Fin n → ℝ) :=
  if J.det = 0 then none else some (J⁻¹ *ᵥ b)

open Classical in
/-- An exact inverse. -/
noncomputable def exactInv [Fintype P] [DecidableEq P] (J : Matrix P P ℝ) : Option (Matrix P P ℝ) :=
  if J.det = 0 then none else some J⁻¹

omit [Fintype P] [DecidableEq P] in
theorem exactLin_exact : ExactSolve (n := n) exactLin := by
  intro J d hJ
  unfold exactLin
  rw [if_neg hJ, mulVec_mulVec, nonsing_inv_mul _ (isUnit_iff_ne_zero.mpr hJ), one_mulVec]

theorem exactInv_exact : ExactInv (P := P) exactInv := fun J hJ => by
  unfold exactInv
  rw [if_neg hJ]

/-- Isotropic elasticity with constants that do not depend on temperature. -/
noncomputable def isoElastic (G Kb : ℝ) : Elastic ℝ (Fin 6) := ⟨fun _ => isoC G Kb, fun _ => isoS G Kb⟩

theorem isoElastic_step {G Kb : ℝ} (hG : 0 < G) (hK : 0 < Kb) (T0 T1 : ℝ) :
    IsoStep (isoElastic G Kb) G Kb T0 T1 := ⟨hG, rfl, (C36_iso_inverse G Kb hG hK).2⟩

/-- The shear direction used in the examples. -/
def shear : Fin 6 → ℝ := ![0, 0, 0, 1, 0, 0]

theorem devVec_shear (c : ℝ) : devVec (c • shear) = c • shear :=
  devVec_of_tr3 (by simp [tr3, shear])

theorem shear_unit : shear ⬝ᵥ shear = 1 := by
  simp [shear, dotProduct, Fin.sum_univ_succ]

theorem sqrt_cancel : √(2 / 3) * √(3 / 2) = 1 := by
  rw [← Real.sqrt_mul (by norm_num)]
  norm_num

/-- Shearing an unstressed material with shear modulus one half and `√(2/3)` times the yield stress
one to a trial stress of three: all hypotheses of `C178_return` are met and the stress is one. -/
example : ∃ inc, updateStep (perfect (isoElastic (1 / 2) 1) (j2 1) (fun _ => √(3 / 2)) exactLin
      ⟨1 / 10, 1 / 10, 5, true⟩ 5 exactInv) ⟨0, 0, 0, 0, (), 0, 0⟩ ((3 : ℝ) • shear) 0 1 = some inc ∧
    inc.s = shear := by
  have htr : trial (isoElastic (1 / 2) 1)
      (⟨0, 0, 0, 0, (), 0, 0⟩ : Substep.Point ℝ (Fin 6 → ℝ) (Fin 6 → ℝ) Unit) ((3 : ℝ) • shear) 0 =
      (3 : ℝ) • shear := by
    have h3 : tr3 ((3 : ℝ) • shear) = 0 := by simp [tr3, shear]
    show (0 : Fin 6 → ℝ) + isoC (1 / 2) 1 *ᵥ ((3 : ℝ) • shear - 0) = _
    rw [sub_zero, isoC_dev _ _ h3]
    simp
  have hN : norm2 (devVec ((3 : ℝ) • shear)) = 3 := by
    rw [devVec_shear, norm2_unit shear_unit]
    norm_num
  obtain ⟨inc, h1, -, -, h2, h3, -⟩ := C178_return (el := isoElastic (1 / 2) 1) (G := 1 / 2) (Kb := 1)
    (ys := fun _ => √(3 / 2)) (x := ⟨0, 0, 0, 0, (), 0, 0⟩) (e1 := (3 : ℝ) • shear) (T1 := 0) (t1 := 1)
    one_pos (p := ⟨1 / 10, 1 / 10, 5, true⟩) (fuel := 5)
    ⟨by norm_num, by norm_num, by norm_num, by norm_num⟩ exactLin_exact exactInv_exact
    (isoElastic_step (by norm_num) (by norm_num) _ _) (by rw [sqrt_cancel])
    (by rw [htr, hN, sqrt_cancel]; norm_num)
  refine ⟨inc, h1, ?_⟩
  rw [h3, htr, sqrt_cancel, radial, dir, hN, devVec_shear]
  simp

end Neml.SolveStep
