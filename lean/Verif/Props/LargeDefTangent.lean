import Verif.Props.LargeDef
import Mathlib.Analysis.Calculus.Deriv.Add
import Mathlib.Analysis.Calculus.Deriv.Mul
import Mathlib.Analysis.Calculus.Deriv.Inv
import Mathlib.Analysis.Calculus.Deriv.Pi
import Mathlib.Analysis.Calculus.FDeriv.Mul
import Mathlib.Analysis.Normed.Module.FiniteDimension

/-!
# C76: the large deformation tangents

For the Truesdell rate the two returned tangents are the derivatives of the returned stress with
respect to the strain increment and the spin increment, for any small strain model whose own tangent
is right. For the Jaumann rate only the spin tangent is.
-/

namespace Neml.LargeDef

open Matrix Neml.Mandel

/-- The contract of `invert_mat`. -/
def Inverts (inv : Matrix (Fin 9) (Fin 9) ℝ → Option (Matrix (Fin 9) (Fin 9) ℝ)) : Prop :=
  ∀ M J, inv M = some J → M * J = 1

theorem exactInv_inverts : Inverts exactInv := by
  intro M J h
  unfold exactInv at h
  split_ifs at h with hd
  cases h
  exact mul_nonsing_inv _ hd

theorem outer_apply (S : Fin 6 → ℝ) (L : Matrix (Fin 3) (Fin 3) ℝ) :
    truesdellTangentOuter S *ᵥ vec9 L =
      vec9 (L * usym S + usym S * Lᵀ - L.trace • usym S) := by
  have h := r2_sq
  ext i; fin_cases i <;>
    simp only [vec9, mul3, trace3, Matrix.add_apply, Matrix.sub_apply,
      transpose_apply, Matrix.smul_apply] <;>
    simp [truesdellTangentOuter, usym, mulVec, dotProduct, Fin.sum_univ_succ, div_r2] <;> grind

theorem full2mandel_mulVec (A : Matrix (Fin 9) (Fin 9) ℝ) (hA : ∀ i j, A i (flip9 j) = A i j)
    (d : Fin 6 → ℝ) : full2mandel A *ᵥ d = sym (mat9 (A *ᵥ vec9 (usym d))) := by
  have h := r2_sq
  have k1 : flip9 1 = 3 := by simp [flip9]
  have k2 : flip9 2 = 6 := by simp [flip9]
  have k5 : flip9 5 = 7 := by simp [flip9]
  have f1 : ∀ j, A j 3 = A j 1 := fun j => k1 ▸ hA j 1
  have f2 : ∀ j, A j 6 = A j 2 := fun j => k2 ▸ hA j 2
  have f3 : ∀ j, A j 7 = A j 5 := fun j => k5 ▸ hA j 5
  ext i; fin_cases i <;>
    simp [full2mandel, sym, mat9, vec9, usym, mulVec, dotProduct, Fin.sum_univ_succ, div_r2,
      f1, f2, f3] <;> grind

theorem full2skew_mulVec (A : Matrix (Fin 9) (Fin 9) ℝ) (hA : ∀ i j, A i (flip9 j) = -A i j)
    (w : Fin 3 → ℝ) : ((2 : ℝ) • full2skew A) *ᵥ w = sym (mat9 (A *ᵥ vec9 (uskew w))) := by
  have k1 : flip9 1 = 3 := by simp [flip9]
  have k2 : flip9 2 = 6 := by simp [flip9]
  have k5 : flip9 5 = 7 := by simp [flip9]
  have f1 : ∀ j, A j 3 = -A j 1 := fun j => k1 ▸ hA j 1
  have f2 : ∀ j, A j 6 = -A j 2 := fun j => k2 ▸ hA j 2
  have f3 : ∀ j, A j 7 = -A j 5 := fun j => k5 ▸ hA j 5
  ext i; fin_cases i <;>
    simp [full2skew, sym, mat9, vec9, uskew, mulVec, dotProduct, Fin.sum_univ_succ,
      f1, f2, f3] <;> ring

theorem idsym_flip (i j : Fin 9) : idsym i (flip9 j) = idsym i j := by
  fin_cases i <;> fin_cases j <;> simp [idsym, flip9]

theorem idskew_flip (i j : Fin 9) : idskew i (flip9 j) = -idskew i j := by
  fin_cases i <;> fin_cases j <;> simp [idskew, flip9, neg_div]

theorem mul_idsym_flip (A : Matrix (Fin 9) (Fin 9) ℝ) (i j : Fin 9) :
    (A * idsym) i (flip9 j) = (A * idsym) i j := by
  simp only [Matrix.mul_apply, idsym_flip]

theorem mul_idskew_flip (A : Matrix (Fin 9) (Fin 9) ℝ) (i j : Fin 9) :
    (A * idskew) i (flip9 j) = -(A * idskew) i j := by
  simp only [Matrix.mul_apply, idskew_flip, mul_neg, Finset.sum_neg_distrib]

theorem idsym_usym (d : Fin 6 → ℝ) : idsym *ᵥ vec9 (usym d) = vec9 (usym d) := by
  rw [C77_idsym, C47_usym_symmetric, ← two_smul ℝ, smul_smul]; norm_num

theorem idskew_uskew (w : Fin 3 → ℝ) : idskew *ᵥ vec9 (uskew w) = vec9 (uskew w) := by
  rw [C77_idskew, C48_uskew_skewsymmetric, sub_neg_eq_add, ← two_smul ℝ, smul_smul]; norm_num

theorem idsym_uskew (w : Fin 3 → ℝ) : idsym *ᵥ vec9 (uskew w) = 0 := by
  rw [C77_idsym, C48_uskew_skewsymmetric, add_neg_cancel, smul_zero]
  ext i; fin_cases i <;> simp [vec9]

theorem vec9_add (A B : Matrix (Fin 3) (Fin 3) ℝ) : vec9 (A + B) = vec9 A + vec9 B := by
  ext i; fin_cases i <;> simp [vec9]

theorem mat9_add (a b : Fin 9 → ℝ) : mat9 (a + b) = mat9 a + mat9 b := by
  ext i j; fin_cases i <;> fin_cases j <;> simp [mat9]

theorem sym_add (A B : Matrix (Fin 3) (Fin 3) ℝ) : sym (A + B) = sym A + sym B := by
  ext i; fin_cases i <;> simp [sym, mul_add]

theorem trace_uskew (w : Fin 3 → ℝ) : (uskew w).trace = 0 := by
  simp [trace3, uskew]

theorem uskew_sub (a b : Fin 3 → ℝ) : uskew (a - b) = uskew a - uskew b := by
  ext i j; fin_cases i <;> fin_cases j <;> simp [uskew] <;> ring

/-- Change of the objective equation's left side when the velocity gradient changes by `L`. -/
def convect (L S : Matrix (Fin 3) (Fin 3) ℝ) : Matrix (Fin 3) (Fin 3) ℝ :=
  L * S + S * Lᵀ - L.trace • S

/-- The returned tangents applied to a strain and a spin increment solve the linearised rate
equation. -/
theorem calcTangent_spec {inv} (hi : Inverts inv) {D : Fin 6 → ℝ} {W : Fin 3 → ℝ}
    {C : Matrix (Fin 6) (Fin 6) ℝ} {S : Fin 6 → ℝ} {A B}
    (h : calcTangent inv D W C S = some (A, B)) (d : Fin 6 → ℝ) (w : Fin 3 → ℝ) :
    objective (usym D) (uskew W) (usym (A *ᵥ d + B *ᵥ w)) =
      usym (C *ᵥ d) + convect (usym d + uskew w) (usym S) := by
  rcases hJ : inv (truesdellMat D W) with _ | J <;> simp only [calcTangent, hJ] at h
  · cases h
  cases h
  have hMJ := hi _ _ hJ
  have hdet : IsUnit (truesdellMat D W).det :=
    (isUnit_iff_isUnit_det _).mp (IsUnit.of_mul_eq_one _ hMJ)
  set T1 := mandel2full C * idsym + truesdellTangentOuter S with hT1
  set Y := mat9 (J *ᵥ (T1 *ᵥ vec9 (usym d + uskew w))) with hY
  have hAB : full2mandel (J * T1 * idsym) *ᵥ d + ((2 : ℝ) • full2skew (J * T1 * idskew)) *ᵥ w =
      sym Y := by
    rw [full2mandel_mulVec _ (mul_idsym_flip _), full2skew_mulVec _ (mul_idskew_flip _), hY]
    simp only [← mulVec_mulVec, idsym_usym, idskew_uskew, vec9_add, mulVec_add, mat9_add, sym_add]
  have hobj : objective (usym D) (uskew W) Y =
      usym (C *ᵥ d) + convect (usym d + uskew w) (usym S) := by
    apply vec9_inj
    rw [← truesdellMat_apply, hY, vec9_mat9, mulVec_mulVec, hMJ, one_mulVec, hT1, add_mulVec,
      outer_apply, ← mulVec_mulVec, vec9_add, mulVec_add, idsym_usym, idsym_uskew, add_zero,
      C47_contraction, ← vec9_add, convect]
  have hsymm : Yᵀ = Y := by
    apply objective_inj D W hdet
    rw [← objective_transpose, hobj]
    simp only [convect, transpose_add, transpose_sub, transpose_smul, transpose_mul,
      transpose_transpose, C47_usym_symmetric]
    abel
  rw [hAB, C47_usym_sym Y hsymm, hobj]

theorem det_differentiable {n : ℕ} {M : ℝ → Matrix (Fin n) (Fin n) ℝ} {t0 : ℝ}
    (h : ∀ i j, DifferentiableAt ℝ (fun t => M t i j) t0) :
    DifferentiableAt ℝ (fun t => (M t).det) t0 := by
  simp only [det_apply']
  refine DifferentiableAt.fun_sum fun σ _ => DifferentiableAt.const_mul ?_ _
  exact DifferentiableAt.fun_finsetProd fun i _ => h _ _

/-- The solution of a linear system with differentiable data is differentiable where the matrix is
regular. -/
theorem solution_differentiable {n : ℕ} {M : ℝ → Matrix (Fin n) (Fin n) ℝ} {b x : ℝ → Fin n → ℝ}
    {t0 : ℝ} (hM : ∀ i j, DifferentiableAt ℝ (fun t => M t i j) t0)
    (hb : ∀ i, DifferentiableAt ℝ (fun t => b t i) t0) (hdet : IsUnit (M t0).det)
    (hx : ∀ᶠ t in nhds t0, M t *ᵥ x t = b t) (i : Fin n) :
    DifferentiableAt ℝ (fun t => x t i) t0 := by
  have hd := det_differentiable hM
  have hc : DifferentiableAt ℝ (fun t => cramer (M t) (b t) i) t0 := by
    simp only [cramer_apply]
    apply det_differentiable
    intro a c
    simp only [updateCol_apply]
    by_cases hci : c = i
    · simpa [hci] using hb a
    · simpa [hci] using hM a c
  have hne : ∀ᶠ t in nhds t0, (M t).det ≠ 0 :=
    hd.continuousAt.eventually_ne hdet.ne_zero
  have : (fun t => x t i) =ᶠ[nhds t0] fun t => ((M t).det)⁻¹ * cramer (M t) (b t) i := by
    filter_upwards [hx, hne] with t h1 h2
    have h3 : cramer (M t) (M t *ᵥ x t) = (M t).det • x t := by
      rw [cramer_eq_adjugate_mulVec, mulVec_mulVec, adjugate_mul, smul_mulVec, one_mulVec]
    rw [← h1, h3]
    simp [h2]
  exact ((hd.inv hdet.ne_zero).mul hc).congr_of_eventuallyEq this

theorem usym_smul (c : ℝ) (a : Fin 6 → ℝ) : usym (c • a) = c • usym a := by
  ext i j; fin_cases i <;> fin_cases j <;> simp [usym, mul_div_assoc]

theorem uskew_add (a b : Fin 3 → ℝ) : uskew (a + b) = uskew a + uskew b := by
  ext i j; fin_cases i <;> fin_cases j <;> simp [uskew] <;> ring

theorem uskew_smul (c : ℝ) (a : Fin 3 → ℝ) : uskew (c • a) = c • uskew a := by
  ext i j; fin_cases i <;> fin_cases j <;> simp [uskew]

theorem linear_deriv {n : ℕ} (f : (Fin n → ℝ) →ₗ[ℝ] ℝ) {v : ℝ → Fin n → ℝ} {v' : Fin n → ℝ}
    {t0 : ℝ} (hv : HasDerivAt v v' t0) : HasDerivAt (fun t => f (v t)) (f v') t0 :=
  (LinearMap.toContinuousLinearMap f).hasFDerivAt.comp_hasDerivAt t0 hv

theorem usym_deriv {v : ℝ → Fin 6 → ℝ} {v' : Fin 6 → ℝ} {t0 : ℝ} (hv : HasDerivAt v v' t0)
    (i j : Fin 3) : HasDerivAt (fun t => usym (v t) i j) (usym v' i j) t0 :=
  linear_deriv { toFun := fun a => usym a i j
                 map_add' := fun a b => by rw [usym_add]; rfl
                 map_smul' := fun c a => by rw [usym_smul]; rfl } hv

theorem uskew_deriv {v : ℝ → Fin 3 → ℝ} {v' : Fin 3 → ℝ} {t0 : ℝ} (hv : HasDerivAt v v' t0)
    (i j : Fin 3) : HasDerivAt (fun t => uskew (v t) i j) (uskew v' i j) t0 :=
  linear_deriv { toFun := fun a => uskew a i j
                 map_add' := fun a b => by rw [uskew_add]; rfl
                 map_smul' := fun c a => by rw [uskew_smul]; rfl } hv

/-- Product rule for the left side of the rate equation. -/
theorem objective_deriv {D W X : ℝ → Matrix (Fin 3) (Fin 3) ℝ} {D' W' X' : Matrix (Fin 3) (Fin 3) ℝ}
    {t0 : ℝ} (hD : ∀ i j, HasDerivAt (fun t => D t i j) (D' i j) t0)
    (hW : ∀ i j, HasDerivAt (fun t => W t i j) (W' i j) t0)
    (hX : ∀ i j, HasDerivAt (fun t => X t i j) (X' i j) t0) (i j : Fin 3) :
    HasDerivAt (fun t => objective (D t) (W t) (X t) i j)
      ((objective (D t0) (W t0) X' + D'.trace • X t0 - (D' + W') * X t0
        - X t0 * (D' + W')ᵀ) i j) t0 := by
  have h := ((hX i j).add ((((hD 0 0).add (hD 1 1)).add (hD 2 2)).mul (hX i j))).sub
    (((((hD i 0).add (hW i 0)).mul (hX 0 j)).add (((hD i 1).add (hW i 1)).mul (hX 1 j))).add
      (((hD i 2).add (hW i 2)).mul (hX 2 j))) |>.sub
    ((((hX i 0).mul ((hD j 0).add (hW j 0))).add ((hX i 1).mul ((hD j 1).add (hW j 1)))).add
      ((hX i 2).mul ((hD j 2).add (hW j 2))))
  refine (h.congr_deriv ?_).congr_of_eventuallyEq (Filter.Eventually.of_forall fun t => ?_)
  · simp only [objective, mul3, trace3, Matrix.add_apply, Matrix.sub_apply, transpose_apply,
      Matrix.smul_apply, smul_eq_mul, Pi.add_apply]
    ring
  · simp only [objective, mul3, trace3, Matrix.add_apply, Matrix.sub_apply, transpose_apply,
      Matrix.smul_apply, smul_eq_mul, Pi.add_apply, Pi.sub_apply, Pi.mul_apply]

theorem truesdellMat_differentiable {D : ℝ → Fin 6 → ℝ} {W : ℝ → Fin 3 → ℝ} {D' W'} {t0 : ℝ}
    (hD : HasDerivAt D D' t0) (hW : HasDerivAt W W' t0) (i j : Fin 9) :
    DifferentiableAt ℝ (fun t => truesdellMat (D t) (W t) i j) t0 := by
  have hX : ∀ a b : Fin 3, HasDerivAt (fun _ : ℝ => mat9 (Pi.single j 1) a b)
      ((0 : Matrix (Fin 3) (Fin 3) ℝ) a b) t0 := fun a b => hasDerivAt_const _ _
  have h := objective_deriv (fun a b => usym_deriv hD a b) (fun a b => uskew_deriv hW a b) hX
  have e : ∀ t, truesdellMat (D t) (W t) i j =
      vec9 (objective (usym (D t)) (uskew (W t)) (mat9 (Pi.single j 1))) i := by
    intro t
    rw [← truesdellMat_apply, vec9_mat9, mulVec_single_one]; rfl
  simp only [e]
  fin_cases i
  exacts [(h 0 0).differentiableAt, (h 0 1).differentiableAt, (h 0 2).differentiableAt,
    (h 1 0).differentiableAt, (h 1 1).differentiableAt, (h 1 2).differentiableAt,
    (h 2 0).differentiableAt, (h 2 1).differentiableAt, (h 2 2).differentiableAt]

/-- Derivative of a stress that solves the rate equation along a path. -/
theorem rate_solution_deriv {D : ℝ → Fin 6 → ℝ} {W : ℝ → Fin 3 → ℝ} {D' W'} {s r : ℝ → Fin 6 → ℝ}
    {r' : Fin 6 → ℝ} {t0 : ℝ} (hD : HasDerivAt D D' t0) (hW : HasDerivAt W W' t0)
    (hr : HasDerivAt r r' t0) (hdet : IsUnit (truesdellMat (D t0) (W t0)).det)
    (h : ∀ᶠ t in nhds t0, objective (usym (D t)) (uskew (W t)) (usym (s t)) = usym (r t)) :
    ∃ s', HasDerivAt s s' t0 ∧ objective (usym (D t0)) (uskew (W t0)) (usym s') =
      usym r' + convect (usym D' + uskew W') (usym (s t0)) := by
  have hb : ∀ i, DifferentiableAt ℝ (fun t => vec9 (usym (r t)) i) t0 := by
    intro i
    have h := usym_deriv hr
    fin_cases i
    exacts [(h 0 0).differentiableAt, (h 0 1).differentiableAt, (h 0 2).differentiableAt,
      (h 1 0).differentiableAt, (h 1 1).differentiableAt, (h 1 2).differentiableAt,
      (h 2 0).differentiableAt, (h 2 1).differentiableAt, (h 2 2).differentiableAt]
  have hx := solution_differentiable (x := fun t => vec9 (usym (s t)))
    (truesdellMat_differentiable hD hW) hb hdet (by
      filter_upwards [h] with t ht
      rw [truesdellMat_apply, ht])
  have hs : DifferentiableAt ℝ s t0 := by
    rw [differentiableAt_pi]
    intro k
    have e : ∀ t, s t k = sym (usym (s t)) k := fun t => by rw [C47_sym_usym]
    simp only [e]
    fin_cases k
    exacts [hx 0, hx 4, hx 8, (hx 5).const_mul _, (hx 2).const_mul _, (hx 1).const_mul _]
  refine ⟨deriv s t0, hs.hasDerivAt, ?_⟩
  have hd := objective_deriv (fun a b => usym_deriv hD a b) (fun a b => uskew_deriv hW a b)
    (fun a b => usym_deriv hs.hasDerivAt a b)
  have hr2 := usym_deriv hr
  have key : ∀ i j, (objective (usym (D t0)) (uskew (W t0)) (usym (deriv s t0))
      + (usym D').trace • usym (s t0) - (usym D' + uskew W') * usym (s t0)
      - usym (s t0) * (usym D' + uskew W')ᵀ) i j = usym r' i j := by
    intro i j
    refine (hd i j).unique ((hr2 i j).congr_of_eventuallyEq ?_)
    filter_upwards [h] with t ht
    rw [ht]
  have key2 := Matrix.ext key
  rw [← key2, convect, trace_add, trace_uskew, add_zero]
  abel

/-- The pieces of a completed large deformation step. -/
theorem ldUpdate_inv {H : Type} {truesdell : Bool} {sd : SmallUpdate H} {solve} {inv}
    {d1 d0 : Fin 6 → ℝ} {w1 w0 : Fin 3 → ℝ} {x y : State H} {A B}
    (h : ldUpdate truesdell sd solve inv d1 d0 w1 w0 x = some (y, A, B)) :
    ∃ C, sd d1 d0 x.small x.h = some (y.small, y.h, C) ∧
      truesdellUpdate solve (rateD truesdell d1 d0) (w1 - w0) x.s (y.small - x.small) = some y.s ∧
      calcTangent inv (rateD truesdell d1 d0) (w1 - w0) C y.s = some (A, B) := by
  have hdef : (if truesdell = true then d1 - d0 else 0) = rateD truesdell d1 d0 := rfl
  rcases hsd : sd d1 d0 x.small x.h with _ | ⟨small1, h1, C⟩ <;> simp only [ldUpdate, hsd] at h
  · cases h
  rw [hdef] at h
  rcases hup : truesdellUpdate solve (rateD truesdell d1 d0) (w1 - w0) x.s (small1 - x.small)
    with _ | s1 <;> simp only [hup] at h
  · cases h
  rcases ht : calcTangent inv (rateD truesdell d1 d0) (w1 - w0) C s1 with _ | ⟨A', B'⟩ <;>
    simp only [ht] at h
  · cases h
  cases h
  exact ⟨C, rfl, hup, ht⟩

/-- Along any path of strains and spins for which the update returns, the stress is differentiable
and its derivative solves the linearised rate equation. -/
theorem ld_deriv {H : Type} (truesdell : Bool) {sd : SmallUpdate H} {solve inv}
    (hs : Solves solve) {d : ℝ → Fin 6 → ℝ} {w : ℝ → Fin 3 → ℝ} {d0 : Fin 6 → ℝ} {w0 : Fin 3 → ℝ}
    {x : State H} {y : ℝ → State H} {A : ℝ → Matrix (Fin 6) (Fin 6) ℝ}
    {B : ℝ → Matrix (Fin 6) (Fin 3) ℝ} {t0 : ℝ} {d' : Fin 6 → ℝ} {w' : Fin 3 → ℝ}
    {C : Matrix (Fin 6) (Fin 6) ℝ}
    (h : ∀ᶠ t in nhds t0, ldUpdate truesdell sd solve inv (d t) d0 (w t) w0 x =
      some (y t, A t, B t))
    (hd : HasDerivAt d d' t0) (hw : HasDerivAt w w' t0)
    (hsmall : HasDerivAt (fun t => (y t).small) (C *ᵥ d') t0) :
    ∃ s', HasDerivAt (fun t => (y t).s) s' t0 ∧
      objective (usym (rateD truesdell (d t0) d0)) (uskew (w t0 - w0)) (usym s') =
        usym (C *ᵥ d') + convect (usym (rateD truesdell d' 0) + uskew w') (usym (y t0).s) := by
  have hD : HasDerivAt (fun t => rateD truesdell (d t) d0) (rateD truesdell d' 0) t0 := by
    cases truesdell
    · simpa [rateD] using hasDerivAt_const t0 (0 : Fin 6 → ℝ)
    · simpa [rateD] using hd.sub_const d0
  have hW : HasDerivAt (fun t => w t - w0) w' t0 := hw.sub_const w0
  have hr : HasDerivAt (fun t => x.s + ((y t).small - x.small)) (C *ᵥ d') t0 :=
    (hsmall.sub_const x.small).const_add x.s
  have hdet : IsUnit (truesdellMat (rateD truesdell (d t0) d0) (w t0 - w0)).det := by
    obtain ⟨C0, -, hup, -⟩ := ldUpdate_inv h.self_of_nhds
    exact (truesdellUpdate_spec hs hup).2
  have hobj : ∀ᶠ t in nhds t0, objective (usym (rateD truesdell (d t) d0)) (uskew (w t - w0))
      (usym (y t).s) = usym (x.s + ((y t).small - x.small)) := by
    filter_upwards [h] with t ht
    obtain ⟨C1, -, hup, -⟩ := ldUpdate_inv ht
    rw [(truesdellUpdate_spec hs hup).1, usym_add]
  obtain ⟨s', h1, h2⟩ := rate_solution_deriv (D := fun t => rateD truesdell (d t) d0)
    (W := fun t => w t - w0) (s := fun t => (y t).s)
    (r := fun t => x.s + ((y t).small - x.small)) hD hW hr hdet hobj
  exact ⟨s', h1, h2⟩

/-- C76, Truesdell rate: along any differentiable path of strains and spins for which the update
returns, if the small strain tangent is the derivative of the small strain stress, then the returned
stress has derivative `A d' + B w'`, with `A` and `B` the returned tangents. Missing: the Jaumann rate,
whose strain tangent is wrong (`C76_jaumann_strain_tangent_wrong`). -/
theorem C76_truesdell_tangent_partial {H : Type} (sd : SmallUpdate H) {solve inv}
    (hs : Solves solve) (hi : Inverts inv) (d : ℝ → Fin 6 → ℝ) (w : ℝ → Fin 3 → ℝ)
    (d0 : Fin 6 → ℝ) (w0 : Fin 3 → ℝ) (x : State H) (y : ℝ → State H)
    (A : ℝ → Matrix (Fin 6) (Fin 6) ℝ) (B : ℝ → Matrix (Fin 6) (Fin 3) ℝ) (t0 : ℝ) (d' w' h1 s1 C)
    (h : ∀ᶠ t in nhds t0, ldUpdate true sd solve inv (d t) d0 (w t) w0 x = some (y t, A t, B t))
    (hd : HasDerivAt d d' t0) (hw : HasDerivAt w w' t0)
    (hC : sd (d t0) d0 x.small x.h = some (s1, h1, C))
    (hsmall : HasDerivAt (fun t => (y t).small) (C *ᵥ d') t0) :
    HasDerivAt (fun t => (y t).s) (A t0 *ᵥ d' + B t0 *ᵥ w') t0 := by
  obtain ⟨s', hs', he⟩ := ld_deriv true hs h hd hw hsmall
  obtain ⟨C0, hC0, hup, ht⟩ := ldUpdate_inv h.self_of_nhds
  rw [hC] at hC0
  cases hC0
  have hsp := calcTangent_spec hi ht d' w'
  have : s' = A t0 *ᵥ d' + B t0 *ᵥ w' := by
    apply usym_inj
    apply objective_inj _ _ (truesdellUpdate_spec hs hup).2
    rw [he, hsp]
    simp [rateD]
  rwa [this] at hs'

/-- C76, Jaumann rate, the spin tangent: at fixed strain the returned stress has derivative
`B w'`. -/
theorem C76_jaumann_spin_tangent_partial {H : Type} (sd : SmallUpdate H) {solve inv}
    (hs : Solves solve) (hi : Inverts inv) (d : Fin 6 → ℝ) (w : ℝ → Fin 3 → ℝ)
    (d0 : Fin 6 → ℝ) (w0 : Fin 3 → ℝ) (x : State H) (y : ℝ → State H)
    (A : ℝ → Matrix (Fin 6) (Fin 6) ℝ) (B : ℝ → Matrix (Fin 6) (Fin 3) ℝ) (t0 : ℝ) (w')
    (h : ∀ᶠ t in nhds t0, ldUpdate false sd solve inv d d0 (w t) w0 x = some (y t, A t, B t))
    (hw : HasDerivAt w w' t0) :
    HasDerivAt (fun t => (y t).s) (B t0 *ᵥ w') t0 := by
  obtain ⟨C, hC, hup, ht⟩ := ldUpdate_inv h.self_of_nhds
  have hsmall : HasDerivAt (fun t => (y t).small) (C *ᵥ (0 : Fin 6 → ℝ)) t0 := by
    rw [mulVec_zero]
    refine (hasDerivAt_const t0 (y t0).small).congr_of_eventuallyEq ?_
    filter_upwards [h] with t ht'
    obtain ⟨C1, hC1, -, -⟩ := ldUpdate_inv ht'
    rw [hC] at hC1
    simp only [Option.some.injEq, Prod.mk.injEq] at hC1
    exact hC1.1.symm
  obtain ⟨s', hs', he⟩ := ld_deriv false hs h (hasDerivAt_const t0 d) hw hsmall
  have hsp := calcTangent_spec hi ht 0 w'
  have : s' = B t0 *ᵥ w' := by
    apply usym_inj
    apply objective_inj _ _ (truesdellUpdate_spec hs hup).2
    rw [mulVec_zero, zero_add] at hsp
    rw [he, hsp]
    simp [rateD, mulVec_zero]
  rwa [this] at hs'

/-- What the Jaumann rate's strain tangent is when there is no spin: the small strain tangent *plus*
the convective terms that the Jaumann stress does not have. The stress itself moves with the small
strain tangent alone (`C30_zero_spin_step`), so the tangent is wrong by `L S + S L - tr(L) S`. -/
theorem C76_jaumann_strain_tangent_excess {H : Type} (sd : SmallUpdate H) {solve inv}
    (hi : Inverts inv) (d1 d0 : Fin 6 → ℝ) (w : Fin 3 → ℝ) (x y : State H) (A B h1 s1 C)
    (h : ldUpdate false sd solve inv d1 d0 w w x = some (y, A, B))
    (hC : sd d1 d0 x.small x.h = some (s1, h1, C)) (v : Fin 6 → ℝ) :
    usym (A *ᵥ v) = usym (C *ᵥ v) + (usym v * usym y.s + usym y.s * usym v
      - (usym v).trace • usym y.s) := by
  obtain ⟨C0, hC0, -, ht⟩ := ldUpdate_inv h
  rw [hC] at hC0
  cases hC0
  have hsp := calcTangent_spec hi ht v 0
  have z6 : usym (0 : Fin 6 → ℝ) = 0 := by
    ext i j; fin_cases i <;> fin_cases j <;> simp [usym]
  have z3 : uskew (0 : Fin 3 → ℝ) = 0 := by
    ext i j; fin_cases i <;> fin_cases j <;> simp [uskew]
  simpa [rateD, z6, z3, objective, convect, C47_usym_symmetric] using hsp

/-! ### Cases meeting the hypotheses -/

/-- A stressed elastic material stretched and spun at once: the Truesdell tangents describe the
stress. -/
example (S v : Fin 6 → ℝ) (ω : Fin 3 → ℝ) : ∃ (y : ℝ → State Unit)
    (A : ℝ → Matrix (Fin 6) (Fin 6) ℝ) (B : ℝ → Matrix (Fin 6) (Fin 3) ℝ),
    HasDerivAt (fun t => (y t).s) (A 0 *ᵥ v + B 0 *ᵥ ω) 0 := by
  have hlin : ∀ {n : ℕ} (u : Fin n → ℝ), HasDerivAt (fun t : ℝ => t • u) u 0 := fun u => by
    simpa using (hasDerivAt_id (0 : ℝ)).smul_const u
  have hD : HasDerivAt (fun t : ℝ => rateD true (t • v) 0) v 0 := by
    simpa [rateD] using hlin v
  have hW : HasDerivAt (fun t : ℝ => t • ω - 0) ω 0 := by simpa using hlin ω
  have hdet : ∀ᶠ t in nhds (0 : ℝ),
      IsUnit (truesdellMat (rateD true (t • v) 0) (t • ω - 0)).det := by
    have hc := (det_differentiable (truesdellMat_differentiable hD hW)).continuousAt
    have h0 : (truesdellMat (rateD true ((0 : ℝ) • v) 0) ((0 : ℝ) • ω - 0)).det ≠ 0 := by
      simp [rateD, truesdellMat_zero]
    filter_upwards [hc.eventually_ne h0] with t ht
    exact isUnit_iff_ne_zero.mpr ht
  have hex : ∀ t : ℝ, ∃ r : State Unit × Matrix (Fin 6) (Fin 6) ℝ × Matrix (Fin 6) (Fin 3) ℝ,
      IsUnit (truesdellMat (rateD true (t • v) 0) (t • ω - 0)).det →
      ldUpdate true (fun d1 _ _ _ => some (d1, (), 1)) exactSolve exactInv (t • v) 0 (t • ω) 0
        ⟨S, 0, ()⟩ = some r := by
    intro t
    by_cases h : IsUnit (truesdellMat (rateD true (t • v) 0) (t • ω - 0)).det
    · obtain ⟨y, A, B, hy⟩ := ldUpdate_returns true (fun d1 _ _ _ => some (d1, (), 1)) (t • v) 0
        (t • ω) 0 ⟨S, 0, ()⟩ _ _ _ rfl h
      exact ⟨(y, A, B), fun _ => hy⟩
    · exact ⟨(⟨0, 0, ()⟩, 0, 0), fun h' => absurd h' h⟩
  choose r hr using hex
  refine ⟨fun t => (r t).1, fun t => (r t).2.1, fun t => (r t).2.2, ?_⟩
  have hall : ∀ᶠ t in nhds (0 : ℝ), ldUpdate true (fun d1 _ _ _ => some (d1, (), 1)) exactSolve
      exactInv (t • v) 0 (t • ω) 0 ⟨S, 0, ()⟩ = some ((r t).1, (r t).2.1, (r t).2.2) := by
    filter_upwards [hdet] with t ht using hr t ht
  refine C76_truesdell_tangent_partial (fun d1 _ _ _ => some (d1, (), 1)) exactSolve_solves
    exactInv_inverts (fun t => t • v) (fun t => t • ω) 0 0 ⟨S, 0, ()⟩ _ _ _ 0 v ω () _ 1 hall
    (hlin v) (hlin ω) rfl ?_
  rw [one_mulVec]
  refine (hlin v).congr_of_eventuallyEq ?_
  filter_upwards [hall] with t ht
  obtain ⟨C, hC, -, -⟩ := ldUpdate_inv ht
  simp only [Option.some.injEq, Prod.mk.injEq] at hC
  exact hC.1.symm

/-- The Jaumann strain tangent is not the derivative of the stress: a stressed elastic material,
stretched without spin. -/
theorem C76_jaumann_strain_tangent_wrong : ∃ (sd : SmallUpdate Unit) (x : State Unit)
    (y : ℝ → State Unit) (A : ℝ → Matrix (Fin 6) (Fin 6) ℝ) (B : ℝ → Matrix (Fin 6) (Fin 3) ℝ)
    (v : Fin 6 → ℝ),
    (∀ t : ℝ, ldUpdate false sd exactSolve exactInv (t • v) 0 0 0 x = some (y t, A t, B t)) ∧
    (∀ t : ℝ, sd (t • v) 0 x.small x.h = some ((y t).small, (), 1)) ∧
    HasDerivAt (fun t => (y t).small) v 0 ∧
    ¬ HasDerivAt (fun t => (y t).s) (A 0 *ᵥ v) 0 := by
  have hex : ∀ t : ℝ, ∃ r : State Unit × Matrix (Fin 6) (Fin 6) ℝ × Matrix (Fin 6) (Fin 3) ℝ,
      ldUpdate false (fun d1 _ _ _ => some (d1, (), 1)) exactSolve exactInv
        (t • ![1, 0, 0, 0, 0, 0]) 0 0 0 ⟨![1, 0, 0, 0, 0, 0], 0, ()⟩ = some r := by
    intro t
    obtain ⟨y, A, B, hy⟩ := ldUpdate_returns false (fun d1 _ _ _ => some (d1, (), 1))
      (t • ![1, 0, 0, 0, 0, 0]) 0 0 0 ⟨![1, 0, 0, 0, 0, 0], 0, ()⟩ _ _ _ rfl
      (by simp [rateD, truesdellMat_zero])
    exact ⟨(y, A, B), hy⟩
  choose r hr using hex
  have hsm : ∀ t, (r t).1.small = t • ![1, 0, 0, 0, 0, 0] := by
    intro t
    obtain ⟨C, hC, -, -⟩ := ldUpdate_inv (hr t)
    simp only [Option.some.injEq, Prod.mk.injEq] at hC
    exact hC.1.symm
  have hst : ∀ t, (r t).1.s = ![1, 0, 0, 0, 0, 0] + t • ![1, 0, 0, 0, 0, 0] := by
    intro t
    rw [C30_zero_spin_step _ _ exactSolve_solves _ _ _ _ _ _ _ (hr t), hsm]
    simp
  have hlin : HasDerivAt (fun t : ℝ => t • (![1, 0, 0, 0, 0, 0] : Fin 6 → ℝ))
      ![1, 0, 0, 0, 0, 0] 0 := by
    simpa using (hasDerivAt_id (0 : ℝ)).smul_const (![1, 0, 0, 0, 0, 0] : Fin 6 → ℝ)
  refine ⟨_, _, fun t => (r t).1, fun t => (r t).2.1, fun t => (r t).2.2, ![1, 0, 0, 0, 0, 0], hr,
    fun t => by simp [hsm], by simpa [hsm] using hlin, ?_⟩
  intro hA
  have htrue : HasDerivAt (fun t => (r t).1.s) (![1, 0, 0, 0, 0, 0] : Fin 6 → ℝ) 0 := by
    simp only [hst]
    exact hlin.const_add _
  have heq := hA.unique htrue
  have hx := C76_jaumann_strain_tangent_excess _ exactInv_inverts _ _ _ _ _ _ _ () _ 1 (hr 0) rfl
    ![1, 0, 0, 0, 0, 0]
  rw [heq, one_mulVec, hst 0] at hx
  have h2 := congrFun (congrFun hx 0) 0
  simp only [mul3, trace3, Matrix.add_apply, Matrix.sub_apply, Matrix.smul_apply] at h2
  simp [usym] at h2

end Neml.LargeDef
