import Verif.Props.SmallStrainTangent
import Verif.Model.FlowRule
import Mathlib.Analysis.Calculus.Deriv.Comp
import Mathlib.Analysis.Calculus.Deriv.Inv
import Mathlib.Analysis.Calculus.Deriv.Pow
import Mathlib.Analysis.Calculus.Deriv.Abs
import Mathlib.Analysis.Calculus.Deriv.Prod
import Mathlib.Analysis.Calculus.FDeriv.Mul
import Mathlib.Analysis.Normed.Module.FiniteDimension
import Mathlib.Analysis.SpecialFunctions.ExpDeriv
import Mathlib.Analysis.SpecialFunctions.Log.Deriv
import Mathlib.Analysis.SpecialFunctions.Sqrt
import Mathlib.Analysis.SpecialFunctions.Pow.Deriv
import Mathlib.Tactic.FieldSimp

/-!
# Specification of reported derivatives, and the calculus of it

`D1 f ds da s a`: the number `f` is differentiable in stress and history at `(s, a)`, with gradients
`ds` and `da`. `DV` is the same for vectors, with two matrices of derivatives. `DH` is the same for a
function of the history alone.
-/

namespace Neml.Flow

open Matrix Neml.SmallStrain

variable {ι κ μ : Type} [Fintype ι] [DecidableEq ι] [Fintype κ] [DecidableEq κ] [Fintype μ]
  [DecidableEq μ]

/-- The linear map `(x, y) ↦ ds · x + da · y`. -/
noncomputable def grad (ds : ι → ℝ) (da : κ → ℝ) : (ι → ℝ) × (κ → ℝ) →L[ℝ] ℝ :=
  LinearMap.toContinuousLinearMap
    { toFun := fun p => ds ⬝ᵥ p.1 + da ⬝ᵥ p.2
      map_add' := fun p q => by simp only [Prod.fst_add, Prod.snd_add, dotProduct_add]; ring
      map_smul' := fun c p => by
        simp only [Prod.smul_fst, Prod.smul_snd, dotProduct_smul, smul_eq_mul, RingHom.id_apply]
        ring }

omit [DecidableEq ι] [DecidableEq κ] in
@[simp] theorem grad_apply (ds : ι → ℝ) (da : κ → ℝ) (p : (ι → ℝ) × (κ → ℝ)) :
    grad ds da p = ds ⬝ᵥ p.1 + da ⬝ᵥ p.2 := rfl

/-- `f` has the gradients `ds` and `da` at `(s1, a1)`. -/
def D1 (f : (ι → ℝ) → (κ → ℝ) → ℝ) (ds : ι → ℝ) (da : κ → ℝ) (s1 : ι → ℝ) (a1 : κ → ℝ) : Prop :=
  HasFDerivAt (fun p : (ι → ℝ) × (κ → ℝ) => f p.1 p.2) (grad ds da) (s1, a1)

/-- The same for a vector, with the rows of two matrices as gradients. -/
def DV {ν : Type} (F : (ι → ℝ) → (κ → ℝ) → ν → ℝ) (Ds : Matrix ν ι ℝ) (Da : Matrix ν κ ℝ)
    (s1 : ι → ℝ) (a1 : κ → ℝ) : Prop :=
  ∀ i, D1 (fun s a => F s a i) (Ds i) (Da i) s1 a1

section rules

variable {f g : (ι → ℝ) → (κ → ℝ) → ℝ} {fs gs : ι → ℝ} {fa ga : κ → ℝ} {s1 : ι → ℝ} {a1 : κ → ℝ}

omit [DecidableEq ι] [DecidableEq κ] in
theorem D1.congr (h : D1 f fs fa s1 a1) (h1 : fs = gs) (h2 : fa = ga) : D1 f gs ga s1 a1 :=
  h1 ▸ h2 ▸ h

omit [DecidableEq ι] [DecidableEq κ] in
theorem D1.const (c : ℝ) : D1 (fun (_ : ι → ℝ) (_ : κ → ℝ) => c) 0 0 s1 a1 :=
  (hasFDerivAt_const c (s1, a1)).congr_fderiv (by ext p <;> simp)

omit [DecidableEq κ] in
/-- A component of the stress. -/
theorem D1.coord_s (i : ι) : D1 (fun (s : ι → ℝ) (_ : κ → ℝ) => s i) (Pi.single i 1) 0 s1 a1 := by
  have h := (grad (Pi.single i 1) (0 : κ → ℝ)).hasFDerivAt (x := (s1, a1))
  refine h.congr_of_eventuallyEq (Filter.Eventually.of_forall fun p => ?_)
  simp

omit [DecidableEq ι] in
/-- A component of the history. -/
theorem D1.coord_a (j : κ) : D1 (fun (_ : ι → ℝ) (a : κ → ℝ) => a j) 0 (Pi.single j 1) s1 a1 := by
  have h := (grad (0 : ι → ℝ) (Pi.single j 1)).hasFDerivAt (x := (s1, a1))
  refine h.congr_of_eventuallyEq (Filter.Eventually.of_forall fun p => ?_)
  simp

omit [DecidableEq ι] [DecidableEq κ] in
theorem D1.add (hf : D1 f fs fa s1 a1) (hg : D1 g gs ga s1 a1) :
    D1 (fun s a => f s a + g s a) (fs + gs) (fa + ga) s1 a1 := by
  refine (HasFDerivAt.fun_add hf hg).congr_fderiv (ContinuousLinearMap.ext fun p => ?_)
  simp only [grad_apply, ContinuousLinearMap.add_apply, add_dotProduct]
  ring

omit [DecidableEq ι] [DecidableEq κ] in
theorem D1.sub (hf : D1 f fs fa s1 a1) (hg : D1 g gs ga s1 a1) :
    D1 (fun s a => f s a - g s a) (fs - gs) (fa - ga) s1 a1 := by
  refine (HasFDerivAt.fun_sub hf hg).congr_fderiv (ContinuousLinearMap.ext fun p => ?_)
  simp only [grad_apply, ContinuousLinearMap.sub_apply, sub_dotProduct]
  ring

omit [DecidableEq ι] [DecidableEq κ] in
theorem D1.mul (hf : D1 f fs fa s1 a1) (hg : D1 g gs ga s1 a1) :
    D1 (fun s a => f s a * g s a) (g s1 a1 • fs + f s1 a1 • gs) (g s1 a1 • fa + f s1 a1 • ga)
      s1 a1 := by
  refine (HasFDerivAt.fun_mul hf hg).congr_fderiv (ContinuousLinearMap.ext fun p => ?_)
  simp only [grad_apply, ContinuousLinearMap.add_apply, ContinuousLinearMap.smul_apply,
    add_dotProduct, smul_dotProduct, smul_eq_mul]
  ring

omit [DecidableEq ι] [DecidableEq κ] in
theorem D1.smul (c : ℝ) (hf : D1 f fs fa s1 a1) :
    D1 (fun s a => c * f s a) (c • fs) (c • fa) s1 a1 :=
  ((D1.const c).mul hf).congr (by simp) (by simp)

omit [DecidableEq ι] [DecidableEq κ] in
/-- Chain rule with a function of one variable. -/
theorem D1.scalar {φ : ℝ → ℝ} {φ' : ℝ} (hf : D1 f fs fa s1 a1) (hφ : HasDerivAt φ φ' (f s1 a1)) :
    D1 (fun s a => φ (f s a)) (φ' • fs) (φ' • fa) s1 a1 := by
  refine (hφ.comp_hasFDerivAt (f := fun p : (ι → ℝ) × (κ → ℝ) => f p.1 p.2) (s1, a1)
    hf).congr_fderiv (ContinuousLinearMap.ext fun p => ?_)
  simp only [grad_apply, ContinuousLinearMap.smul_apply, smul_dotProduct, smul_eq_mul]
  ring

omit [DecidableEq ι] [DecidableEq κ] in
theorem D1.div (hf : D1 f fs fa s1 a1) (hg : D1 g gs ga s1 a1) (h0 : g s1 a1 ≠ 0) :
    D1 (fun s a => f s a / g s a)
      ((1 / g s1 a1) • fs - (f s1 a1 / g s1 a1 / g s1 a1) • gs)
      ((1 / g s1 a1) • fa - (f s1 a1 / g s1 a1 / g s1 a1) • ga) s1 a1 := by
  have h := hf.mul (hg.scalar (hasDerivAt_inv h0))
  simp only [← div_eq_mul_inv] at h
  refine h.congr ?_ ?_ <;>
  · ext i
    simp only [Pi.add_apply, Pi.sub_apply, Pi.smul_apply, smul_eq_mul]
    field_simp
    ring

omit [DecidableEq ι] [DecidableEq κ] in
theorem D1.sum {ν : Type} (S : Finset ν) {f : ν → (ι → ℝ) → (κ → ℝ) → ℝ} {fs : ν → ι → ℝ}
    {fa : ν → κ → ℝ} (h : ∀ i ∈ S, D1 (f i) (fs i) (fa i) s1 a1) :
    D1 (fun s a => ∑ i ∈ S, f i s a) (∑ i ∈ S, fs i) (∑ i ∈ S, fa i) s1 a1 := by
  refine (HasFDerivAt.fun_sum h).congr_fderiv (ContinuousLinearMap.ext fun p => ?_)
  simp only [grad_apply, ContinuousLinearMap.sum_apply, sum_dotProduct, Finset.sum_add_distrib]

omit [DecidableEq ι] [DecidableEq κ] in
/-- A function that agrees with `f` wherever `p` is positive has the same derivatives where `p` is
positive. -/
theorem D1.congr_near {p : (ι → ℝ) → (κ → ℝ) → ℝ} {ps : ι → ℝ} {pa : κ → ℝ}
    (hp : D1 p ps pa s1 a1) (hpos : 0 < p s1 a1)
    (heq : ∀ s a, 0 < p s a → g s a = f s a) (hf : D1 f fs fa s1 a1) : D1 g fs fa s1 a1 := by
  refine HasFDerivAt.congr_of_eventuallyEq hf ?_
  have hc : ContinuousAt (fun p' : (ι → ℝ) × (κ → ℝ) => p p'.1 p'.2) (s1, a1) :=
    HasFDerivAt.continuousAt hp
  filter_upwards [hc.eventually_const_lt (u := 0) hpos] with t ht
  exact heq _ _ ht

omit [DecidableEq κ] in
/-- The gradient with respect to stress gives the partial derivatives. -/
theorem D1.partial_s (h : D1 f fs fa s1 a1) (j : ι) :
    HasDerivAt (fun t => f (Function.update s1 j t) a1) (fs j) (s1 j) := by
  have hc : HasDerivAt (fun t : ℝ => (Function.update s1 j t, a1)) (Pi.single j 1, 0) (s1 j) :=
    (hasDerivAt_pi.mpr fun i => (hasDerivAt_coord s1 i j).congr_deriv
      (by simp [Pi.single_apply])).prodMk (hasDerivAt_const _ _)
  have h' : HasFDerivAt (fun p : (ι → ℝ) × (κ → ℝ) => f p.1 p.2) (grad fs fa)
      (Function.update s1 j (s1 j), a1) := by rw [Function.update_eq_self]; exact h
  have := h'.comp_hasDerivAt (s1 j) hc
  simpa [Function.comp_def] using this

omit [DecidableEq ι] in
/-- The gradient with respect to history gives the partial derivatives. -/
theorem D1.partial_a (h : D1 f fs fa s1 a1) (j : κ) :
    HasDerivAt (fun t => f s1 (Function.update a1 j t)) (fa j) (a1 j) := by
  have hc : HasDerivAt (fun t : ℝ => (s1, Function.update a1 j t)) (0, Pi.single j 1) (a1 j) :=
    (hasDerivAt_const _ _).prodMk (hasDerivAt_pi.mpr fun i =>
      (hasDerivAt_coord a1 i j).congr_deriv (by simp [Pi.single_apply]))
  have h' : HasFDerivAt (fun p : (ι → ℝ) × (κ → ℝ) => f p.1 p.2) (grad fs fa)
      (s1, Function.update a1 j (a1 j)) := by rw [Function.update_eq_self]; exact h
  have := h'.comp_hasDerivAt (a1 j) hc
  simpa [Function.comp_def] using this

end rules

/-- A function of the history alone with derivative matrix `J`. -/
def DH {ν : Type} (F : (κ → ℝ) → ν → ℝ) (J : Matrix ν κ ℝ) (a1 : κ → ℝ) : Prop :=
  ∀ i, D1 (fun (_ : Empty → ℝ) a => F a i) 0 (J i) 0 a1

omit [DecidableEq κ] in
theorem DH.hasFDerivAt {ν : Type} [Fintype ν] {F : (κ → ℝ) → ν → ℝ} {J : Matrix ν κ ℝ} {a1 : κ → ℝ}
    (h : DH F J a1) : HasFDerivAt F (LinearMap.toContinuousLinearMap J.mulVecLin) a1 := by
  rw [hasFDerivAt_pi']
  intro i
  have h1 : HasFDerivAt (fun a : κ → ℝ => ((0 : Empty → ℝ), a)) (ContinuousLinearMap.inr ℝ _ _) a1 :=
    (ContinuousLinearMap.inr ℝ (Empty → ℝ) (κ → ℝ)).hasFDerivAt
  refine (HasFDerivAt.comp a1 (h i) h1).congr_fderiv (ContinuousLinearMap.ext fun p => ?_)
  simp [mulVec]

omit [DecidableEq ι] [DecidableEq κ] [DecidableEq μ] in
/-- Chain rule with hardening variables computed from the history. -/
theorem D1.hist {f : (ι → ℝ) → (μ → ℝ) → ℝ} {fs : ι → ℝ} {fq : μ → ℝ} {s1 : ι → ℝ} {a1 : κ → ℝ}
    {q : (κ → ℝ) → μ → ℝ} {J : Matrix μ κ ℝ} (hq : DH q J a1) (hf : D1 f fs fq s1 (q a1)) :
    D1 (fun s a => f s (q a)) fs (Jᵀ *ᵥ fq) s1 a1 := by
  have h1 : HasFDerivAt (fun p : (ι → ℝ) × (κ → ℝ) => (p.1, q p.2))
      ((ContinuousLinearMap.fst ℝ _ _).prod
        ((LinearMap.toContinuousLinearMap J.mulVecLin).comp (ContinuousLinearMap.snd ℝ _ _)))
      (s1, a1) :=
    (hasFDerivAt_fst).prodMk (HasFDerivAt.comp (s1, a1) (hq.hasFDerivAt) hasFDerivAt_snd)
  have hf' : HasFDerivAt (fun p : (ι → ℝ) × (μ → ℝ) => f p.1 p.2) (grad fs fq)
      ((fun p : (ι → ℝ) × (κ → ℝ) => (p.1, q p.2)) (s1, a1)) := hf
  refine (HasFDerivAt.comp (s1, a1) hf' h1).congr_fderiv (ContinuousLinearMap.ext fun p => ?_)
  simp only [ContinuousLinearMap.comp_apply, grad_apply, ContinuousLinearMap.prod_apply,
    ContinuousLinearMap.coe_fst', ContinuousLinearMap.coe_snd', LinearMap.coe_toContinuousLinearMap',
    Matrix.mulVecLin_apply]
  rw [dotProduct_mulVec, mulVec_transpose]

omit [DecidableEq ι] [DecidableEq κ] [DecidableEq μ] in
theorem DV.hist {ν : Type} {F : (ι → ℝ) → (μ → ℝ) → ν → ℝ} {Fs : Matrix ν ι ℝ} {Fq : Matrix ν μ ℝ}
    {s1 : ι → ℝ} {a1 : κ → ℝ} {q : (κ → ℝ) → μ → ℝ} {J : Matrix μ κ ℝ} (hq : DH q J a1)
    (hF : DV F Fs Fq s1 (q a1)) : DV (fun s a => F s (q a)) Fs (Fq * J) s1 a1 := fun i =>
  (D1.hist hq (hF i)).congr rfl (by
    ext j
    simp [Matrix.mul_apply, mulVec, dotProduct, mul_comm])

omit [DecidableEq ι] [DecidableEq κ] in
/-- A constant matrix applied to a vector. -/
theorem DV.mulVec {ν ν' : Type} [Fintype ν] (C : Matrix ν' ν ℝ) {F : (ι → ℝ) → (κ → ℝ) → ν → ℝ}
    {Fs : Matrix ν ι ℝ} {Fa : Matrix ν κ ℝ} {s1 : ι → ℝ} {a1 : κ → ℝ} (h : DV F Fs Fa s1 a1) :
    DV (fun s a => C *ᵥ F s a) (C * Fs) (C * Fa) s1 a1 := fun i => by
  refine (D1.sum Finset.univ (f := fun j s a => C i j * F s a j) fun j _ =>
    (h j).smul (C i j)).congr ?_ ?_ <;>
  · ext k
    simp [Matrix.mul_apply, Finset.sum_apply]

/-- A part of a flow rule with right derivatives at a point. -/
def Part.CorrectAt {ν : Type} (p : Part ι κ ν) (s : ι → ℝ) (a : κ → ℝ) (T : ℝ) : Prop :=
  DV (fun s a => p.v s a T) (p.ds s a T) (p.da s a T) s a

/-- A surface with right first and second derivatives at a point. -/
structure Surface.CorrectAt (sf : Surface ι κ) (s : ι → ℝ) (q : κ → ℝ) (T : ℝ) : Prop where
  f : D1 (fun s q => sf.f s q T) (sf.df_ds s q T) (sf.df_dq s q T) s q
  df_ds : DV (fun s q => sf.df_ds s q T) (sf.df_dsds s q T) (sf.df_dsdq s q T) s q
  df_dq : DV (fun s q => sf.df_dq s q T) (sf.df_dqds s q T) (sf.df_dqdq s q T) s q

/-- A hardening rule with the right derivative at a point. -/
def Hardening.CorrectAt (hd : Hardening κ μ) (a : κ → ℝ) (T : ℝ) : Prop :=
  DH (fun a => hd.q a T) (hd.dq_da a T) a

/-- A viscoplastic rule with right derivatives at a point. -/
structure Visco.CorrectAt (fl : Visco ι κ) (s : ι → ℝ) (a : κ → ℝ) (T : ℝ) : Prop where
  y : D1 (fun s a => fl.y s a T) (fl.dy_ds s a T) (fl.dy_da s a T) s a
  g : fl.g.CorrectAt s a T
  g_time : fl.g_time.CorrectAt s a T
  g_temp : fl.g_temp.CorrectAt s a T
  h : fl.h.CorrectAt s a T
  h_time : fl.h_time.CorrectAt s a T
  h_temp : fl.h_temp.CorrectAt s a T

omit [DecidableEq ι] [DecidableEq κ] in
theorem Part.zero_correct {ν : Type} (s : ι → ℝ) (a : κ → ℝ) (T : ℝ) :
    (Part.zero : Part ι κ ν).CorrectAt s a T := fun _ => D1.const 0

end Neml.Flow
