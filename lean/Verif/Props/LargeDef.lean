import Verif.Model.LargeDef
import Verif.Props.Mandel
import Mathlib.LinearAlgebra.Matrix.NonsingularInverse
import Mathlib.LinearAlgebra.Matrix.ToLin
import Mathlib.Tactic.NoncommRing

/-!
# C30: the large deformation update solves the objective rate equation
-/

namespace Neml.LargeDef

open Matrix Neml.Mandel

/-- The contract of `solve_mat`: a returned vector solves the system, and the matrix was not
singular. -/
def Solves (solve : Matrix (Fin 9) (Fin 9) ℝ → (Fin 9 → ℝ) → Option (Fin 9 → ℝ)) : Prop :=
  ∀ M b x, solve M b = some x → M *ᵥ x = b ∧ IsUnit M.det

/-- Left side of the backward Euler objective rate equation:
`X + tr(D) X - L X - X Lᵀ`, `L = D + W`. -/
def objective (D W X : Matrix (Fin 3) (Fin 3) ℝ) : Matrix (Fin 3) (Fin 3) ℝ :=
  X + D.trace • X - (D + W) * X - X * (D + W)ᵀ

theorem mul3 (A B : Matrix (Fin 3) (Fin 3) ℝ) (i j : Fin 3) :
    (A * B) i j = A i 0 * B 0 j + A i 1 * B 1 j + A i 2 * B 2 j := by
  rw [Matrix.mul_apply, Fin.sum_univ_three]

theorem trace3 (A : Matrix (Fin 3) (Fin 3) ℝ) : A.trace = A 0 0 + A 1 1 + A 2 2 := by
  rw [trace, Fin.sum_univ_three]; rfl

theorem truesdellMat_apply (D : Fin 6 → ℝ) (W : Fin 3 → ℝ) (X : Matrix (Fin 3) (Fin 3) ℝ) :
    truesdellMat D W *ᵥ vec9 X = vec9 (objective (usym D) (uskew W) X) := by
  have h := r2_sq
  ext i; fin_cases i <;>
    simp only [objective, vec9, mul3, trace3, Matrix.add_apply, Matrix.sub_apply,
      transpose_apply, Matrix.smul_apply] <;>
    simp [truesdellMat, usym, uskew, mulVec, dotProduct, Fin.sum_univ_succ, div_r2] <;> grind

theorem truesdellRhs_eq (D : Fin 6 → ℝ) (W : Fin 3 → ℝ) (Sn So : Fin 6 → ℝ) :
    usym (truesdellRhs D W Sn So) =
      usym So + usym Sn - objective (usym D) (uskew W) (usym Sn) := by
  have h := r2_sq
  ext i j
  simp only [objective, mul3, trace3, Matrix.add_apply, Matrix.sub_apply,
      transpose_apply, Matrix.smul_apply]
  fin_cases i <;> fin_cases j <;>
    simp [truesdellRhs, usym, uskew, div_r2] <;> grind

theorem objective_transpose (D : Fin 6 → ℝ) (W : Fin 3 → ℝ) (X : Matrix (Fin 3) (Fin 3) ℝ) :
    (objective (usym D) (uskew W) X)ᵀ = objective (usym D) (uskew W) Xᵀ := by
  simp only [objective, transpose_sub, transpose_add, transpose_smul, transpose_mul,
    transpose_transpose]
  abel

theorem vec9_inj {A B : Matrix (Fin 3) (Fin 3) ℝ} (h : vec9 A = vec9 B) : A = B := by
  rw [← mat9_vec9 A, h, mat9_vec9]

theorem objective_inj (D : Fin 6 → ℝ) (W : Fin 3 → ℝ) (hM : IsUnit (truesdellMat D W).det)
    {X Y : Matrix (Fin 3) (Fin 3) ℝ}
    (h : objective (usym D) (uskew W) X = objective (usym D) (uskew W) Y) : X = Y := by
  have h1 : truesdellMat D W *ᵥ vec9 X = truesdellMat D W *ᵥ vec9 Y := by
    rw [truesdellMat_apply, truesdellMat_apply, h]
  apply vec9_inj
  have := congrArg (fun v => (truesdellMat D W)⁻¹ *ᵥ v) h1
  simpa [mulVec_mulVec, nonsing_inv_mul _ hM] using this

theorem usym_add (a b : Fin 6 → ℝ) : usym (a + b) = usym a + usym b := by
  ext i j; fin_cases i <;> fin_cases j <;> simp [usym, add_div]

theorem usym_sub (a b : Fin 6 → ℝ) : usym (a - b) = usym a - usym b := by
  ext i j; fin_cases i <;> fin_cases j <;> simp [usym, sub_div]

theorem usym_inj {a b : Fin 6 → ℝ} (h : usym a = usym b) : a = b := by
  rw [← C47_sym_usym a, h, C47_sym_usym]

theorem objective_add (D W X Y : Matrix (Fin 3) (Fin 3) ℝ) :
    objective D W (X + Y) = objective D W X + objective D W Y := by
  simp only [objective, mul_add, add_mul, smul_add]; abel

/-- The objective update, for any solver that meets its contract: the new stress solves
`S1 + tr(D) S1 - L S1 - S1 Lᵀ = S0 + dS`. -/
theorem truesdellUpdate_spec {solve} (hs : Solves solve) {D : Fin 6 → ℝ} {W : Fin 3 → ℝ}
    {Sn So s1 : Fin 6 → ℝ} (h : truesdellUpdate solve D W Sn So = some s1) :
    objective (usym D) (uskew W) (usym s1) = usym Sn + usym So ∧
      IsUnit (truesdellMat D W).det := by
  unfold truesdellUpdate at h
  obtain ⟨x, hx, rfl⟩ := Option.map_eq_some_iff.mp h
  obtain ⟨h1, h2⟩ := hs _ _ _ hx
  refine ⟨?_, h2⟩
  set X := mat9 x with hX
  have hx9 : x = vec9 X := (vec9_mat9 x).symm
  rw [hx9, truesdellMat_apply] at h1
  have h3 := vec9_inj h1
  have hsymm : Xᵀ = X := by
    apply objective_inj D W h2
    rw [← objective_transpose, h3, C47_usym_symmetric]
  rw [usym_add, C47_usym_sym X hsymm, objective_add, h3, truesdellRhs_eq]
  abel

/-- The strain increment the objective rate uses: all of it for the Truesdell rate, none for the
Jaumann rate. -/
def rateD (truesdell : Bool) (d1 d0 : Fin 6 → ℝ) : Fin 6 → ℝ := if truesdell then d1 - d0 else 0

/-- C30, the discretized objective rate equation. Whenever the update returns, the stress change is
the small strain stress change plus `L S1 + S1 Lᵀ - tr(D) S1` (Truesdell; `D = 0` and so
`W S1 - S1 W` for Jaumann). -/
theorem C30_objective_rate {H : Type} (truesdell : Bool) (sd : SmallUpdate H) {solve} (inv)
    (hs : Solves solve) (d1 d0 : Fin 6 → ℝ) (w1 w0 : Fin 3 → ℝ) (x y : State H) (A B)
    (h : ldUpdate truesdell sd solve inv d1 d0 w1 w0 x = some (y, A, B)) :
    let D := usym (rateD truesdell d1 d0)
    let L := D + uskew (w1 - w0)
    usym y.s - usym x.s = (usym y.small - usym x.small) + L * usym y.s + usym y.s * Lᵀ
        - D.trace • usym y.s ∧
      ∃ C, sd d1 d0 x.small x.h = some (y.small, y.h, C) := by
  have hdef : (if truesdell = true then d1 - d0 else 0) = rateD truesdell d1 d0 := rfl
  rcases hsd : sd d1 d0 x.small x.h with _ | ⟨small1, h1, C⟩ <;> simp only [ldUpdate, hsd] at h
  · cases h
  rw [hdef] at h
  rcases hup : truesdellUpdate solve (rateD truesdell d1 d0) (w1 - w0) x.s (small1 - x.small)
    with _ | s1 <;> simp only [hup] at h
  · cases h
  rcases ht : calcTangent inv (rateD truesdell d1 d0) (w1 - w0) C s1 with _ | ⟨A', B'⟩ <;>
    simp only [ht] at h
  · cases h
  cases h
  obtain ⟨he, -⟩ := truesdellUpdate_spec hs hup
  refine ⟨?_, C, rfl⟩
  rw [usym_sub] at he
  simp only [objective] at he
  have := eq_sub_of_add_eq he.symm
  rw [this]
  abel

/-- With no spin the Jaumann update adds the small strain stress change. -/
theorem C30_zero_spin_step {H : Type} (sd : SmallUpdate H) {solve} (inv) (hs : Solves solve)
    (d1 d0 : Fin 6 → ℝ) (w : Fin 3 → ℝ) (x y : State H) (A B)
    (h : ldUpdate false sd solve inv d1 d0 w w x = some (y, A, B)) :
    y.s = x.s + (y.small - x.small) := by
  have h1 := (C30_objective_rate false sd inv hs d1 d0 w w x y A B h).1
  have z6 : usym (0 : Fin 6 → ℝ) = 0 := by
    ext i j; fin_cases i <;> fin_cases j <;> simp [usym]
  have z3 : uskew (0 : Fin 3 → ℝ) = 0 := by
    ext i j; fin_cases i <;> fin_cases j <;> simp [uskew]
  simp only [rateD, sub_self, z3, Bool.false_eq_true, if_false, z6, add_zero, zero_mul,
    transpose_zero, mul_zero, trace_zero, zero_smul, sub_zero] at h1
  apply usym_inj
  rw [usym_add, usym_sub, ← h1]; abel

/-- A run of large deformation steps through the strains `ds` at constant vorticity. -/
noncomputable def ldRun {H : Type} (truesdell : Bool) (sd : SmallUpdate H)
    (solve : Matrix (Fin 9) (Fin 9) ℝ → (Fin 9 → ℝ) → Option (Fin 9 → ℝ))
    (inv : Matrix (Fin 9) (Fin 9) ℝ → Option (Matrix (Fin 9) (Fin 9) ℝ))
    (w : Fin 3 → ℝ) : (Fin 6 → ℝ) → State H → List (Fin 6 → ℝ) → Option (State H)
  | _, x, [] => some x
  | d0, x, d :: ds =>
    match ldUpdate truesdell sd solve inv d d0 w w x with
    | none => none
    | some (y, _, _) => ldRun truesdell sd solve inv w d y ds

/-- The same strains through the small strain model alone. -/
noncomputable def sdRun {H : Type} (sd : SmallUpdate H) :
    (Fin 6 → ℝ) → (Fin 6 → ℝ) × H → List (Fin 6 → ℝ) → Option ((Fin 6 → ℝ) × H)
  | _, x, [] => some x
  | d0, x, d :: ds =>
    match sd d d0 x.1 x.2 with
    | none => none
    | some (s, h, _) => sdRun sd d (s, h) ds

/-- C30, no spin: over any strain path at constant vorticity, the Jaumann large deformation stress
is the small strain stress. -/
theorem C30_zero_spin_path {H : Type} (sd : SmallUpdate H) {solve} (inv) (hs : Solves solve)
    (w : Fin 3 → ℝ) (ds : List (Fin 6 → ℝ)) (d0 : Fin 6 → ℝ) (x y : State H) (hx : x.s = x.small)
    (h : ldRun false sd solve inv w d0 x ds = some y) :
    sdRun sd d0 (x.s, x.h) ds = some (y.s, y.h) ∧ y.s = y.small := by
  induction ds generalizing d0 x with
  | nil => cases h; exact ⟨rfl, hx⟩
  | cons d ds ih =>
    simp only [ldRun] at h
    split at h
    · cases h
    · rename_i z A B hz
      have h1 := C30_zero_spin_step sd inv hs d d0 w x z A B hz
      obtain ⟨C, hC⟩ := (C30_objective_rate false sd inv hs d d0 w w x z A B hz).2
      have hzs : z.s = z.small := by rw [h1, hx]; abel
      have h2 := ih d z hzs h
      refine ⟨?_, h2.2⟩
      simp only [sdRun, hx, hC]
      rw [← hzs]; exact h2.1

/-! ### A case meeting the hypotheses -/

open Classical in
/-- An exact linear solver. -/
noncomputable def exactSolve (M : Matrix (Fin 9) (Fin 9) ℝ) (b : Fin 9 → ℝ) :
    Option (Fin 9 → ℝ) := if IsUnit M.det then some (M⁻¹ *ᵥ b) else none

open Classical in
/-- An exact matrix inverse. -/
noncomputable def exactInv (M : Matrix (Fin 9) (Fin 9) ℝ) : Option (Matrix (Fin 9) (Fin 9) ℝ) :=
  if IsUnit M.det then some M⁻¹ else none

theorem exactSolve_solves : Solves exactSolve := by
  intro M b x h
  unfold exactSolve at h
  split_ifs at h with hd
  cases h
  refine ⟨?_, hd⟩
  rw [mulVec_mulVec, mul_nonsing_inv _ hd, one_mulVec]

/-- Where the matrix is regular, the update with exact linear algebra returns. -/
theorem ldUpdate_returns {H : Type} (truesdell : Bool) (sd : SmallUpdate H) (d1 d0 : Fin 6 → ℝ)
    (w1 w0 : Fin 3 → ℝ) (x : State H) (small1 h1 C) (hsd : sd d1 d0 x.small x.h = some (small1, h1, C))
    (hd : IsUnit (truesdellMat (rateD truesdell d1 d0) (w1 - w0)).det) :
    ∃ y A B, ldUpdate truesdell sd exactSolve exactInv d1 d0 w1 w0 x = some (y, A, B) := by
  unfold rateD at hd
  simp only [ldUpdate, hsd, truesdellUpdate, exactSolve, if_pos hd, Option.map_some,
    calcTangent, exactInv]
  exact ⟨_, _, _, rfl⟩

theorem truesdellMat_zero : truesdellMat 0 0 = 1 := by
  ext i j
  fin_cases i <;> fin_cases j <;> simp [truesdellMat, Matrix.one_apply]

/-- The linear elastic model with unit stiffness under a two step strain path without spin. -/
example : ∃ y : State Unit, ldRun false (fun d1 _ _ _ => some (d1, (), 1)) exactSolve exactInv
    ![1, 2, 3] 0 ⟨0, 0, ()⟩ [![1, 0, 0, 2, 0, 0], ![0, 3, 0, 0, 1, 0]] = some y ∧
    y.s = ![0, 3, 0, 0, 1, 0] := by
  have step : ∀ (d d0 : Fin 6 → ℝ) (x : State Unit), ∃ y A B,
      ldUpdate false (fun d1 _ _ _ => some (d1, (), 1)) exactSolve exactInv d d0 ![1, 2, 3]
        ![1, 2, 3] x = some (y, A, B) := fun d d0 x =>
    ldUpdate_returns false _ d d0 _ _ x d () 1 rfl (by
      simp [rateD, truesdellMat_zero])
  obtain ⟨y1, A1, B1, e1⟩ := step ![1, 0, 0, 2, 0, 0] 0 ⟨0, 0, ()⟩
  obtain ⟨y2, A2, B2, e2⟩ := step ![0, 3, 0, 0, 1, 0] ![1, 0, 0, 2, 0, 0] y1
  have hrun : ldRun false (fun d1 _ _ _ => some (d1, (), 1)) exactSolve exactInv
      ![1, 2, 3] 0 ⟨0, 0, ()⟩ [![1, 0, 0, 2, 0, 0], ![0, 3, 0, 0, 1, 0]] = some y2 := by
    simp only [ldRun, e1, e2]
  refine ⟨y2, hrun, ?_⟩
  have := (C30_zero_spin_path _ _ exactSolve_solves _ _ _ _ _ rfl hrun).1
  simpa [sdRun] using this.symm

/-- The Truesdell rate does not have the no-spin property: a spin-free stretch changes the stress by
something else than the small strain model does. -/
theorem C30_truesdell_differs : ∃ (sd : SmallUpdate Unit) (d1 d0 : Fin 6 → ℝ) (x y : State Unit)
    (A : _) (B : _), ldUpdate true sd exactSolve exactInv d1 d0 0 0 x = some (y, A, B) ∧
    y.s ≠ x.s + (y.small - x.small) := by
  have hM : truesdellMat (rateD true ![1 / 4, 0, 0, 0, 0, 0] 0) (0 - 0) =
      diagonal ![3 / 4, 1, 1, 1, 5 / 4, 5 / 4, 1, 5 / 4, 5 / 4] := by
    ext i j
    fin_cases i <;> fin_cases j <;> simp [truesdellMat, rateD, diagonal] <;> norm_num
  have hd : IsUnit (truesdellMat (rateD true ![1 / 4, 0, 0, 0, 0, 0] 0) (0 - 0)).det := by
    rw [hM, det_diagonal, isUnit_iff_ne_zero, Finset.prod_ne_zero_iff]
    intro i _
    fin_cases i <;> norm_num
  obtain ⟨y, A, B, h⟩ := ldUpdate_returns true (fun d1 _ _ _ => some (d1, (), 1))
    ![1 / 4, 0, 0, 0, 0, 0] 0 0 0 ⟨0, 0, ()⟩ _ _ _ rfl hd
  refine ⟨_, _, _, _, y, A, B, h, ?_⟩
  have h1 := C30_objective_rate true _ exactInv exactSolve_solves _ _ _ _ _ _ _ _ h
  intro hy
  obtain ⟨h1, C, hC⟩ := h1
  have hsm : y.small = ![1 / 4, 0, 0, 0, 0, 0] := by
    simp only [Option.some.injEq, Prod.mk.injEq] at hC
    exact hC.1.symm
  have hys : y.s = ![1 / 4, 0, 0, 0, 0, 0] := by rw [hy, hsm]; simp
  have h2 := congrFun (congrFun h1 0) 0
  simp only [hys, hsm, mul3, trace3, Matrix.add_apply, Matrix.sub_apply, transpose_apply,
    Matrix.smul_apply] at h2
  simp [rateD, usym, uskew] at h2

end Neml.LargeDef
