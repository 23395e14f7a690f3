import Verif.Model.Kinematics
import Verif.Props.SlipTangent
import Verif.Props.Mandel
import Verif.Props.Rotation
import Verif.Props.LargeDefTangent
import Mathlib.LinearAlgebra.Matrix.NonsingularInverse

/-!
# C102: the Jacobian and the tangent of a crystal substep
-/

namespace Neml.Kinematics

open Matrix Filter Topology Neml.Mandel Neml.Rotation Neml.Slip
open Neml.Damage (Moves)

variable {N : Type}

/-! ## Specification -/

/-- The reported derivatives of an inelastic model are right at a point: along every differentiable path through the
point the rates of deformation, of the history and of spin change as the derivatives say. -/
def Inel.Right [Fintype N] (m : Inel N) (s : Fin 6 → ℝ) (h : N → ℝ) : Prop :=
  ∀ (x : ℝ → Fin 6 → ℝ) (x' : Fin 6 → ℝ) (y : ℝ → N → ℝ) (y' : N → ℝ) (t0 : ℝ), Moves x x' t0 → Moves y y' t0 →
    x t0 = s → y t0 = h →
    Moves (fun t => m.dp (x t) (y t)) (m.dpS s h *ᵥ x' + m.dpH s h *ᵥ y') t0 ∧
    Moves (fun t => m.rate (x t) (y t)) (m.rateS s h *ᵥ x' + m.rateH s h *ᵥ y') t0 ∧
    Moves (fun t => m.wp (x t) (y t)) (m.wpS s h *ᵥ x' + m.wpH s h *ᵥ y') t0

/-- The stress and the history after a substep are those at which both parts of the residual vanish. -/
def Solution (k : Kin N) (st : Step N) (s : Fin 6 → ℝ) (h : N → ℝ) : Prop := resS k st s h = 0 ∧ resH k st s h = 0

/-! ## Products of symmetric and skew tensors -/

theorem symComm_sym (e : Fin 6 → ℝ) (O : Fin 3 → ℝ) : symComm e O = sym (usym e * uskew O - uskew O * usym e) := by
  rw [symComm, symOfFull_eq]
  rw [transpose_sub, transpose_mul, transpose_mul]
  have h1 : (usym e)ᵀ = usym e := by ext i j; fin_cases i <;> fin_cases j <;> rfl
  have h2 : (uskew O)ᵀ = -uskew O := by ext i j; fin_cases i <;> fin_cases j <;> simp [uskew]
  rw [h1, h2]
  simp [sub_eq_add_neg, add_comm]

theorem usym_symComm (e : Fin 6 → ℝ) (O : Fin 3 → ℝ) :
    usym (symComm e O) = usym e * uskew O - uskew O * usym e := by
  have h := r2_sq
  rw [symComm_sym]
  ext i j
  fin_cases i <;> fin_cases j <;> simp [usym, sym, uskew, Matrix.mul_apply, Fin.sum_univ_three, div_r2] <;> grind

theorem usym_inj {a b : Fin 6 → ℝ} (h : usym a = usym b) : a = b := by
  have e : ∀ v : Fin 6 → ℝ, sym (usym v) = v := by
    intro v
    have h := r2_sq
    ext i
    fin_cases i <;> simp [sym, usym, div_r2] <;> grind
  rw [← e a, ← e b, h]

theorem symSymSkew_mulVec (M : Matrix (Fin 6) (Fin 6) ℝ) (O : Fin 3 → ℝ) (d : Fin 6 → ℝ) :
    symSymSkew M O *ᵥ d = symComm (M *ᵥ d) O := usym_inj (by rw [C77_symSymSkew, usym_symComm])

theorem symSkewSym_mulVec (e : Fin 6 → ℝ) (M : Matrix (Fin 3) (Fin 6) ℝ) (d : Fin 6 → ℝ) :
    symSkewSym e M *ᵥ d = symComm e (M *ᵥ d) := usym_inj (by rw [C77_symSkewSym, usym_symComm])

theorem specialSymSym_mulVec (e : Fin 6 → ℝ) (M : Matrix (Fin 6) (Fin 6) ℝ) (w : Fin 3 → ℝ) :
    specialSymSym e M *ᵥ w = (1 / 2 : ℝ) • (M *ᵥ symComm e w) := by rw [C77_specialSymSym, symComm_sym]

theorem symComm_add_right (e : Fin 6 → ℝ) (a b : Fin 3 → ℝ) : symComm e (a + b) = symComm e a + symComm e b := by
  apply usym_inj
  rw [LargeDef.usym_add, usym_symComm, usym_symComm, usym_symComm, LargeDef.uskew_add]
  noncomm_ring

theorem symComm_smul_right (e : Fin 6 → ℝ) (c : ℝ) (a : Fin 3 → ℝ) : symComm e (c • a) = c • symComm e a := by
  apply usym_inj
  rw [LargeDef.usym_smul, usym_symComm, usym_symComm, LargeDef.uskew_smul, Matrix.mul_smul, Matrix.smul_mul, smul_sub]

theorem symComm_zero_right (e : Fin 6 → ℝ) : symComm e 0 = 0 := by
  simpa using symComm_smul_right e 0 0

theorem symComm_deriv {e : ℝ → Fin 6 → ℝ} {e' : Fin 6 → ℝ} {O : ℝ → Fin 3 → ℝ} {O' : Fin 3 → ℝ} {t0 : ℝ}
    (he : Moves e e' t0) (hO : Moves O O' t0) :
    Moves (fun t => symComm (e t) (O t)) (symComm e' (O t0) + symComm (e t0) O') t0 := by
  have hu := fun i j => LargeDef.usym_deriv (hasDerivAt_pi.2 he) i j
  have hw := fun i j => LargeDef.uskew_deriv (hasDerivAt_pi.2 hO) i j
  have hX : ∀ i j, HasDerivAt (fun t => (usym (e t) * uskew (O t) - uskew (O t) * usym (e t)) i j)
      ((usym e' * uskew (O t0) - uskew (O t0) * usym e') i j + (usym (e t0) * uskew O' - uskew O' * usym (e t0)) i j)
      t0 := by
    intro i j
    simp only [Matrix.sub_apply, Matrix.mul_apply, Fin.sum_univ_three]
    refine (((((hu i 0).fun_mul (hw 0 j)).fun_add ((hu i 1).fun_mul (hw 1 j))).fun_add ((hu i 2).fun_mul (hw 2 j))).fun_sub
      ((((hw i 0).fun_mul (hu 0 j)).fun_add ((hw i 1).fun_mul (hu 1 j))).fun_add
        ((hw i 2).fun_mul (hu 2 j)))).congr_deriv ?_
    ring
  have hsym : ∀ (A : ℝ → Matrix (Fin 3) (Fin 3) ℝ) (P Q : Matrix (Fin 3) (Fin 3) ℝ),
      (∀ i j, HasDerivAt (fun t => A t i j) (P i j + Q i j) t0) → Moves (fun t => sym (A t)) (sym P + sym Q) t0 := by
    intro A P Q hA i
    fin_cases i
    · exact hA 0 0
    · exact hA 1 1
    · exact hA 2 2
    · exact ((hA 1 2).const_mul _).congr_deriv (mul_add _ _ _)
    · exact ((hA 0 2).const_mul _).congr_deriv (mul_add _ _ _)
    · exact ((hA 0 1).const_mul _).congr_deriv (mul_add _ _ _)
  simp only [symComm_sym]
  exact hsym _ _ _ hX

/-! ## Jacobian -/

theorem moves_const {κ : Type} (v : κ → ℝ) (t0 : ℝ) : Moves (fun _ => v) 0 t0 := fun i => hasDerivAt_const t0 (v i)

theorem moves_add {κ : Type} {u v : ℝ → κ → ℝ} {u' v' : κ → ℝ} {t0 : ℝ} (hu : Moves u u' t0) (hv : Moves v v' t0) :
    Moves (fun t => u t + v t) (u' + v') t0 := fun i => (hu i).fun_add (hv i)

theorem moves_sub {κ : Type} {u v : ℝ → κ → ℝ} {u' v' : κ → ℝ} {t0 : ℝ} (hu : Moves u u' t0) (hv : Moves v v' t0) :
    Moves (fun t => u t - v t) (u' - v') t0 := fun i => (hu i).fun_sub (hv i)

theorem moves_smul {κ : Type} {v : ℝ → κ → ℝ} {v' : κ → ℝ} {t0 : ℝ} (c : ℝ) (hv : Moves v v' t0) :
    Moves (fun t => c • v t) (c • v') t0 := fun i => (hv i).const_mul c

theorem moves_unique {κ : Type} {v : ℝ → κ → ℝ} {a b : κ → ℝ} {t0 : ℝ} (ha : Moves v a t0) (hb : Moves v b t0) :
    a = b := funext fun i => (ha i).unique (hb i)

theorem moves_eventually {κ : Type} {u v : ℝ → κ → ℝ} {v' : κ → ℝ} {t0 : ℝ} (hv : Moves v v' t0)
    (h : ∀ᶠ t in 𝓝 t0, u t = v t) : Moves u v' t0 := fun i =>
  (hv i).congr_of_eventuallyEq (h.mono fun t ht => by simp only [ht])

theorem symComm_sum (e : Fin 6 → ℝ) {κ : Type} (S : Finset κ) (f : κ → Fin 3 → ℝ) :
    symComm e (∑ a ∈ S, f a) = ∑ a ∈ S, symComm e (f a) := by
  classical
  induction S using Finset.induction_on with
  | empty => simp [symComm_zero_right]
  | insert a S ha ih => rw [Finset.sum_insert ha, Finset.sum_insert ha, symComm_add_right, ih]

theorem mulVec_cols {m : Type} [Fintype N] (A : Matrix m N ℝ) (y : N → ℝ) :
    A *ᵥ y = ∑ a, y a • fun i => A i a := by
  ext i
  simp [mulVec, dotProduct, mul_comm]

theorem stressRateH_mulVec [Fintype N] (k : Kin N) (s : Fin 6 → ℝ) (h : N → ℝ) (y : N → ℝ) :
    k.stressRateH s h *ᵥ y =
      -(k.C *ᵥ (k.inel.dpH s h *ᵥ y + symComm (k.S *ᵥ s) (k.inel.wpH s h *ᵥ y))) := by
  rw [mulVec_cols, mulVec_cols (k.inel.dpH s h), mulVec_cols (k.inel.wpH s h), symComm_sum, ← Finset.sum_add_distrib,
    ← neg_mulVec, mulVec_sum]
  refine Finset.sum_congr rfl fun a _ => ?_
  rw [symComm_smul_right, ← smul_add, mulVec_smul]
  rfl

theorem stressRateS_mulVec (k : Kin N) (w : Fin 3 → ℝ) (s : Fin 6 → ℝ) (h : N → ℝ) (x : Fin 6 → ℝ) :
    k.stressRateS w s h *ᵥ x = -(k.C *ᵥ (k.inel.dpS s h *ᵥ x + symComm (k.S *ᵥ x) (w + k.inel.wp s h) +
      symComm (k.S *ᵥ s) (k.inel.wpS s h *ᵥ x))) := by
  rw [Kin.stressRateS, ← mulVec_mulVec, add_mulVec, add_mulVec, symSymSkew_mulVec, symSkewSym_mulVec, neg_mulVec]

/-- The stress rate along a path of stresses, histories, strain rates and stored spins. -/
theorem stressRate_deriv [Fintype N] (k : Kin N) {s : Fin 6 → ℝ} {h : N → ℝ} (hr : k.inel.Right s h)
    {x : ℝ → Fin 6 → ℝ} {x' : Fin 6 → ℝ} {y : ℝ → N → ℝ} {y' : N → ℝ} {d : ℝ → Fin 6 → ℝ} {d' : Fin 6 → ℝ}
    {w : ℝ → Fin 3 → ℝ} {w' : Fin 3 → ℝ} {t0 : ℝ} (hx : Moves x x' t0) (hy : Moves y y' t0) (hd : Moves d d' t0)
    (hw : Moves w w' t0) (ex : x t0 = s) (ey : y t0 = h) :
    Moves (fun t => k.stressRate (w t) (x t) (d t) (y t))
      (k.stressRateS (w t0) s h *ᵥ x' + k.stressRateH s h *ᵥ y' + k.stressRateD *ᵥ d' + k.stressRateW s *ᵥ w') t0 := by
  obtain ⟨h1, -, h3⟩ := hr x x' y y' t0 hx hy ex ey
  have hS : Moves (fun t => k.S *ᵥ x t) (k.S *ᵥ x') t0 := Damage.Moves.mulVec k.S hx
  have := Damage.Moves.mulVec k.C (moves_sub (moves_sub hd h1) (symComm_deriv hS (moves_add hw h3)))
  simp only [ex, ey] at this
  refine fun i => (this i).congr_deriv ?_
  rw [stressRateS_mulVec, stressRateH_mulVec, Kin.stressRateD, Kin.stressRateW, smul_mulVec, specialSymSym_mulVec]
  simp only [symComm_add_right, mulVec_sub, mulVec_add, Pi.add_apply, Pi.sub_apply, Pi.neg_apply, Pi.smul_apply,
    smul_eq_mul]
  ring

/-- C102, Jacobian: where the derivatives of the inelastic model are right, the matrix handed to the solver is the
derivative of the residual, along every path of stress and history. -/
theorem C102_jacobian [Fintype N] [DecidableEq N] (k : Kin N) (st : Step N) (s : Fin 6 → ℝ) (h : N → ℝ)
    (hr : k.inel.Right s h) (x : ℝ → Fin 6 → ℝ) (x' : Fin 6 → ℝ) (y : ℝ → N → ℝ) (y' : N → ℝ) (t0 : ℝ)
    (hx : Moves x x' t0) (hy : Moves y y' t0) (ex : x t0 = s) (ey : y t0 = h) :
    Moves (fun t => resS k st (x t) (y t)) (J11 k st s h *ᵥ x' + J12 k st s h *ᵥ y') t0 ∧
    Moves (fun t => resH k st (x t) (y t)) (J21 k st s h *ᵥ x' + J22 k st s h *ᵥ y') t0 := by
  constructor
  · have := moves_sub (moves_sub hx (moves_const st.Sn t0)) (moves_smul st.dt
      (stressRate_deriv k hr hx hy (moves_const st.d t0) (moves_const st.espin t0) ex ey))
    refine fun i => (this i).congr_deriv ?_
    simp only [J11, J12, add_mulVec, neg_mulVec, smul_mulVec, one_mulVec, Pi.add_apply, Pi.sub_apply, Pi.neg_apply,
      Pi.smul_apply, mulVec_zero, Pi.zero_apply, smul_eq_mul]
    ring
  · obtain ⟨-, h2, -⟩ := hr x x' y y' t0 hx hy ex ey
    intro a
    refine (((hy a).sub_const (st.hn a)).fun_sub ((h2 a).mul_const st.dt)).congr_deriv ?_
    simp only [J21, J22, add_mulVec, neg_mulVec, smul_mulVec, one_mulVec, Pi.add_apply, Pi.neg_apply,
      Pi.smul_apply, smul_eq_mul]
    ring

/-- C102, tangent of a substep: along a path of strain and spin increments, with the returned values differentiable,
the stress after a substep that covers the fraction `f` of the step changes by `f` times what the reported tangent
says. -/
theorem C102_substep [Fintype N] [DecidableEq N] (k : Kin N) (D : ℝ → Fin 6 → ℝ) (W : ℝ → Fin 3 → ℝ) (D0 : Fin 6 → ℝ)
    (W0 : Fin 3 → ℝ) (dt f : ℝ) (hdt : dt ≠ 0) (Sn s0 : Fin 6 → ℝ) (hn : N → ℝ) (s : ℝ → Fin 6 → ℝ) (h : ℝ → N → ℝ)
    (t0 : ℝ) (hsol : ∀ᶠ t in 𝓝 t0, Solution k (substep k (D t) D0 (W t) W0 dt f Sn hn s0) (s t) (h t))
    (D' s' : Fin 6 → ℝ) (W' : Fin 3 → ℝ) (h' : N → ℝ) (hD : Moves D D' t0) (hW : Moves W W' t0) (hs : Moves s s' t0)
    (hh : Moves h h' t0) (hr : k.inel.Right (s t0) (h t0))
    (h22 : (J22 k (substep k (D t0) D0 (W t0) W0 dt f Sn hn s0) (s t0) (h t0)).det ≠ 0)
    (hsc : (schur k (substep k (D t0) D0 (W t0) W0 dt f Sn hn s0) (s t0) (h t0)).det ≠ 0) :
    s' = f • (tangentA k (substep k (D t0) D0 (W t0) W0 dt f Sn hn s0) (s t0) (h t0) *ᵥ D' +
      tangentB k (substep k (D t0) D0 (W t0) W0 dt f Sn hn s0) (s t0) (h t0) *ᵥ W') := by
  set st := substep k (D t0) D0 (W t0) W0 dt f Sn hn s0 with hst
  have hd : Moves (fun t => dt⁻¹ • (D t - D0)) (dt⁻¹ • D') t0 := by
    simpa using moves_smul dt⁻¹ (moves_sub hD (moves_const D0 t0))
  have hw : Moves (fun t => k.spin s0 (dt⁻¹ • (W t - W0)) hn) (dt⁻¹ • W') t0 := by
    have := moves_sub (moves_sub (moves_smul dt⁻¹ (moves_sub hW (moves_const W0 t0)))
      (moves_const (k.inel.wp s0 hn) t0)) (moves_const (skewComm (k.S *ᵥ s0) (k.inel.dp s0 hn)) t0)
    simpa [Kin.spin] using this
  -- the equations, differentiated
  have e1 := moves_sub (moves_sub hs (moves_const Sn t0)) (moves_smul (dt * f) (stressRate_deriv k hr hs hh hd hw rfl rfl))
  have z1 : Moves (fun t => s t - Sn - (dt * f) • k.stressRate (k.spin s0 (dt⁻¹ • (W t - W0)) hn) (s t)
      (dt⁻¹ • (D t - D0)) (h t)) 0 t0 :=
    moves_eventually (moves_const 0 t0) (hsol.mono fun t ht => ht.1)
  have E1 := moves_unique e1 z1
  have e2 : Moves (fun t => resH k st (s t) (h t)) _ t0 := (C102_jacobian k st _ _ hr s s' h h' t0 hs hh rfl rfl).2
  have E2 := moves_unique e2 (moves_eventually (moves_const 0 t0) (hsol.mono fun t ht => ht.2))
  have I22 : (J22 k st (s t0) (h t0))⁻¹ * J22 k st (s t0) (h t0) = 1 := nonsing_inv_mul _ (isUnit_iff_ne_zero.2 h22)
  have Isc : (schur k st (s t0) (h t0))⁻¹ * schur k st (s t0) (h t0) = 1 := nonsing_inv_mul _ (isUnit_iff_ne_zero.2 hsc)
  have hh' : h' = -((J22 k st (s t0) (h t0))⁻¹ *ᵥ (J21 k st (s t0) (h t0) *ᵥ s')) := by
    have : J22 k st (s t0) (h t0) *ᵥ h' = -(J21 k st (s t0) (h t0) *ᵥ s') := eq_neg_of_add_eq_zero_right E2
    rw [← mulVec_neg, ← this, mulVec_mulVec, I22, one_mulVec]
  have key : J11 k st (s t0) (h t0) *ᵥ s' + J12 k st (s t0) (h t0) *ᵥ h' =
      f • (k.stressRateD *ᵥ D' + k.stressRateW (s t0) *ᵥ W') := by
    have hf : (dt * f) * dt⁻¹ = f := by field_simp
    rw [J11, J12, add_mulVec, neg_mulVec, neg_mulVec, smul_mulVec, smul_mulVec, one_mulVec]
    have hdtst : st.dt = dt * f := rfl
    have hesp : st.espin = k.spin s0 (dt⁻¹ • (W t0 - W0)) hn := rfl
    rw [hdtst, hesp]
    simp only [sub_zero, smul_add, mulVec_smul, smul_smul, hf] at E1 ⊢
    rw [sub_eq_zero] at E1
    nth_rewrite 2 [E1]
    abel
  have : schur k st (s t0) (h t0) *ᵥ s' = f • (k.stressRateD *ᵥ D' + k.stressRateW (s t0) *ᵥ W') := by
    rw [← key, schur, sub_mulVec, ← mulVec_mulVec, ← mulVec_mulVec, hh', mulVec_neg, sub_eq_add_neg]
  rw [tangentA, tangentB, ← mulVec_mulVec, ← mulVec_mulVec, ← mulVec_add, ← mulVec_smul, ← this, mulVec_mulVec, Isc,
    one_mulVec]

/-- C102, tangent: the tangent of a step taken without division is the derivative of the stress by the strain and
spin increments. -/
theorem C102_tangent [Fintype N] [DecidableEq N] (k : Kin N) (D : ℝ → Fin 6 → ℝ) (W : ℝ → Fin 3 → ℝ) (D0 : Fin 6 → ℝ)
    (W0 : Fin 3 → ℝ) (dt : ℝ) (hdt : dt ≠ 0) (Sn : Fin 6 → ℝ) (hn : N → ℝ) (s : ℝ → Fin 6 → ℝ) (h : ℝ → N → ℝ)
    (t0 : ℝ) (hsol : ∀ᶠ t in 𝓝 t0, Solution k (substep k (D t) D0 (W t) W0 dt 1 Sn hn Sn) (s t) (h t))
    (D' s' : Fin 6 → ℝ) (W' : Fin 3 → ℝ) (h' : N → ℝ) (hD : Moves D D' t0) (hW : Moves W W' t0) (hs : Moves s s' t0)
    (hh : Moves h h' t0) (hr : k.inel.Right (s t0) (h t0))
    (h22 : (J22 k (substep k (D t0) D0 (W t0) W0 dt 1 Sn hn Sn) (s t0) (h t0)).det ≠ 0)
    (hsc : (schur k (substep k (D t0) D0 (W t0) W0 dt 1 Sn hn Sn) (s t0) (h t0)).det ≠ 0) :
    s' = tangentA k (substep k (D t0) D0 (W t0) W0 dt 1 Sn hn Sn) (s t0) (h t0) *ᵥ D' +
      tangentB k (substep k (D t0) D0 (W t0) W0 dt 1 Sn hn Sn) (s t0) (h t0) *ᵥ W' := by
  have := C102_substep k D W D0 W0 dt 1 hdt Sn Sn hn s h t0 hsol D' s' W' h' hD hW hs hh hr h22 hsc
  rwa [one_smul] at this

end Neml.Kinematics
