import Verif.Props.SmallStrain
import Mathlib.Analysis.Calculus.Deriv.Basic
import Mathlib.Analysis.Calculus.Deriv.Add
import Mathlib.Analysis.Calculus.Deriv.Mul
import Mathlib.Analysis.Calculus.Deriv.Pi
import Mathlib.Analysis.Calculus.FDeriv.Prod
import Mathlib.Analysis.Calculus.FDeriv.Add
import Mathlib.Analysis.Calculus.FDeriv.Pi
import Mathlib.Topology.Algebra.Module.FiniteDimension

/-!
# C74: Jacobians of the implicit updates; C21: the substepped tangent
-/

namespace Neml.SmallStrain

open Matrix

variable {ι κ : Type} [Fintype ι] [DecidableEq ι] [Fintype κ] [DecidableEq κ]

/-! ## C74: the Jacobian is the derivative of the residual -/

/-- `D` is the matrix of partial derivatives of `F` at `x`. -/
def IsJacobian {P Q : Type} [DecidableEq Q] (F : (Q → ℝ) → P → ℝ) (D : Matrix P Q ℝ)
    (x : Q → ℝ) : Prop :=
  ∀ a b, HasDerivAt (fun t => F (Function.update x b t) a) (D a b) (x b)

/-- A perfect plasticity surface whose derivative functions are right at a point. -/
structure PPSurface.CorrectAt (sf : PPSurface ℝ ι) (s : ι → ℝ) (q T : ℝ) : Prop where
  f_s : ∀ j, HasDerivAt (fun t => sf.f (Function.update s j t) q T) (sf.df s q T j) (s j)
  df_s : ∀ i j,
    HasDerivAt (fun t => sf.df (Function.update s j t) q T i) (sf.ddf s q T i j) (s j)

/-- A rate independent flow rule whose derivative functions are right at a point. -/
structure RIFlow.CorrectAt (fl : RIFlow ℝ ι κ) (s : ι → ℝ) (a : κ → ℝ) (T : ℝ) : Prop where
  f_s : ∀ j, HasDerivAt (fun t => fl.f (Function.update s j t) a T) (fl.df_ds s a T j) (s j)
  f_a : ∀ j, HasDerivAt (fun t => fl.f s (Function.update a j t) T) (fl.df_da s a T j) (a j)
  g_s : ∀ i j,
    HasDerivAt (fun t => fl.g (Function.update s j t) a T i) (fl.dg_ds s a T i j) (s j)
  g_a : ∀ i j,
    HasDerivAt (fun t => fl.g s (Function.update a j t) T i) (fl.dg_da s a T i j) (a j)
  h_s : ∀ i j,
    HasDerivAt (fun t => fl.h (Function.update s j t) a T i) (fl.dh_ds s a T i j) (s j)
  h_a : ∀ i j,
    HasDerivAt (fun t => fl.h s (Function.update a j t) T i) (fl.dh_da s a T i j) (a j)

/-- A general flow rule whose derivative functions are right at a point (the strain rate derivatives
are not needed here). -/
structure GenFlow.CorrectAt (fl : GenFlow ℝ ι κ) (s : ι → ℝ) (a : κ → ℝ) (e : ι → ℝ) (T Td : ℝ) :
    Prop where
  s_s : ∀ i j,
    HasDerivAt (fun t => fl.s (Function.update s j t) a e T Td i) (fl.ds_ds s a e T Td i j) (s j)
  s_a : ∀ i j,
    HasDerivAt (fun t => fl.s s (Function.update a j t) e T Td i) (fl.ds_da s a e T Td i j) (a j)
  a_s : ∀ i j,
    HasDerivAt (fun t => fl.a (Function.update s j t) a e T Td i) (fl.da_ds s a e T Td i j) (s j)
  a_a : ∀ i j,
    HasDerivAt (fun t => fl.a s (Function.update a j t) e T Td i) (fl.da_da s a e T Td i j) (a j)

theorem hasDerivAt_mulVec (C : Matrix ι ι ℝ) (v : ℝ → ι → ℝ) (v' : ι → ℝ) (t0 : ℝ) (i : ι)
    (h : ∀ j, HasDerivAt (fun t => v t j) (v' j) t0) :
    HasDerivAt (fun t => (C *ᵥ v t) i) ((C *ᵥ v') i) t0 := by
  simp only [mulVec, dotProduct]
  exact HasDerivAt.fun_sum fun j _ => (h j).const_mul _

theorem hasDerivAt_coord {Q : Type} [DecidableEq Q] (x : Q → ℝ) (i j : Q) :
    HasDerivAt (fun t => Function.update x j t i) (if i = j then 1 else 0) (x j) := by
  by_cases h : i = j
  · subst h
    simp only [Function.update_self, if_true]
    exact hasDerivAt_id _
  · simp only [Function.update_of_ne h, if_neg h]
    exact hasDerivAt_const _ _

section sum
variable {α β : Type} [DecidableEq α] [DecidableEq β]

theorem upd_inl_inl (x : α ⊕ β → ℝ) (j : α) (t : ℝ) :
    (fun i => Function.update x (.inl j) t (.inl i)) = Function.update (fun i => x (.inl i)) j t := by
  funext i
  by_cases h : i = j
  · subst h; simp
  · rw [Function.update_of_ne h, Function.update_of_ne (by simpa using h)]

theorem upd_inr_inr (x : α ⊕ β → ℝ) (j : β) (t : ℝ) :
    (fun i => Function.update x (.inr j) t (.inr i)) = Function.update (fun i => x (.inr i)) j t := by
  funext i
  by_cases h : i = j
  · subst h; simp
  · rw [Function.update_of_ne h, Function.update_of_ne (by simpa using h)]

theorem upd_inl_inr (x : α ⊕ β → ℝ) (j : α) (t : ℝ) (i : β) :
    Function.update x (.inl j) t (.inr i) = x (.inr i) := Function.update_of_ne (by simp) _ _

theorem upd_inr_inl (x : α ⊕ β → ℝ) (j : β) (t : ℝ) (i : α) :
    Function.update x (.inr j) t (.inl i) = x (.inl i) := Function.update_of_ne (by simp) _ _

theorem upd_inl_apply (x : α ⊕ β → ℝ) (j : α) (t : ℝ) (i : α) :
    Function.update x (.inl j) t (.inl i) = Function.update (fun i => x (.inl i)) j t i :=
  congrFun (upd_inl_inl x j t) i

theorem upd_inr_apply (x : α ⊕ β → ℝ) (j : β) (t : ℝ) (i : β) :
    Function.update x (.inr j) t (.inr i) = Function.update (fun i => x (.inr i)) j t i :=
  congrFun (upd_inr_inr x j t) i

end sum

set_option hygiene false in
local notation "𝔰" => (fun i => x (Sum.inl i))
set_option hygiene false in
local notation "𝔥" => (fun i => x (Sum.inr i))
set_option hygiene false in
local notation "𝔞" => (fun i => x (Sum.inr (Sum.inl i)))

/-- C74, general integrator. -/
theorem C74_general_integrator (fl : GenFlow ℝ ι κ) (ts : GITrial ℝ ι κ) (x : ι ⊕ κ → ℝ)
    (hfl : fl.CorrectAt (fun i => x (.inl i)) (fun i => x (.inr i)) ts.edot ts.T ts.Tdot) : IsJacobian (giR fl ts) (giJ fl ts x) x := by
  intro a b
  rcases a with i | i <;> rcases b with j | j
  · simp only [giR, giJ, Sum.elim_inl, upd_inl_inl, upd_inl_apply, upd_inl_inr, fromBlocks_apply₁₁, of_apply]
    have h1 := ((hasDerivAt_coord 𝔰 i j).sub_const (ts.s0 i)).sub
      ((hfl.s_s i j).mul_const ts.dt)
    exact h1.congr_deriv (by ring)
  · simp only [giR, giJ, Sum.elim_inl, upd_inr_inl, upd_inr_inr, upd_inr_apply, fromBlocks_apply₁₂, of_apply]
    have h1 := ((hasDerivAt_const (𝔥 j) (𝔰 i - ts.s0 i))).sub
      ((hfl.s_a i j).mul_const ts.dt)
    exact h1.congr_deriv (by ring)
  · simp only [giR, giJ, Sum.elim_inr, upd_inl_inl, upd_inl_apply, upd_inl_inr, fromBlocks_apply₂₁, of_apply]
    have h1 := ((hasDerivAt_const (𝔰 j) (𝔥 i - ts.h0 i))).sub
      ((hfl.a_s i j).mul_const ts.dt)
    exact h1.congr_deriv (by ring)
  · simp only [giR, giJ, Sum.elim_inr, upd_inr_inl, upd_inr_inr, upd_inr_apply, fromBlocks_apply₂₂, of_apply]
    have h1 := ((hasDerivAt_coord 𝔥 i j).sub_const (ts.h0 i)).sub
      ((hfl.a_a i j).mul_const ts.dt)
    exact h1.congr_deriv (by ring)

/-- C74, perfect plasticity. -/
theorem C74_perfect_plasticity (sf : PPSurface ℝ ι) (ts : PPTrial ℝ ι) (x : ι ⊕ Unit → ℝ)
    (hsf : sf.CorrectAt (fun i => x (.inl i)) ts.ys ts.T) : IsJacobian (ppR sf ts) (ppJ sf ts x) x := by
  intro a b
  rcases a with i | i <;> rcases b with j | j
  · simp only [ppR, ppJ, Sum.elim_inl, upd_inl_inl, upd_inl_apply, upd_inl_inr, fromBlocks_apply₁₁, of_apply]
    have h1 := (hasDerivAt_coord 𝔰 i j).sub (hasDerivAt_mulVec ts.C
      (fun t k => ts.e1 k - ts.ep k - sf.df (Function.update 𝔰 j t) ts.ys ts.T k * x (.inr ()))
      (fun k => - (sf.ddf 𝔰 ts.ys ts.T k j * x (.inr ()))) (𝔰 j) i
      (fun k => (((hsf.df_s k j).mul_const _).const_sub _)))
    refine h1.congr_deriv ?_
    simp only [mulVec, dotProduct, Matrix.mul_apply, Finset.sum_mul, mul_neg, Finset.sum_neg_distrib,
      mul_assoc]
    ring
  · simp only [ppR, ppJ, Sum.elim_inl, upd_inr_inl, fromBlocks_apply₁₂, of_apply]
    have h1 := (hasDerivAt_const (x (.inr j)) (𝔰 i)).sub (hasDerivAt_mulVec ts.C
      (fun t k => ts.e1 k - ts.ep k - sf.df 𝔰 ts.ys ts.T k * Function.update x (.inr j) t (.inr ()))
      (fun k => - (sf.df 𝔰 ts.ys ts.T k * 1)) (x (.inr j)) i
      (fun k => ((((hasDerivAt_coord x (.inr ()) (.inr j)).congr_deriv
        (by simp)).const_mul _).const_sub _)))
    refine h1.congr_deriv ?_
    simp only [mulVec, dotProduct, mul_neg, Finset.sum_neg_distrib, mul_one]
    ring
  · simp only [ppR, ppJ, Sum.elim_inr, upd_inl_inl, upd_inl_apply, fromBlocks_apply₂₁, of_apply]
    exact hsf.f_s j
  · simp only [ppR, ppJ, Sum.elim_inr, upd_inr_inl, fromBlocks_apply₂₂, of_apply]
    exact hasDerivAt_const _ _

/-- C74, rate independent plasticity. -/
theorem C74_rate_independent (fl : RIFlow ℝ ι κ) (ts : RITrial ℝ ι κ) (x : RIx ι κ → ℝ)
    (hfl : fl.CorrectAt (fun i => x (.inl i)) (fun i => x (.inr (.inl i))) ts.T) : IsJacobian (riR fl ts) (riJ fl ts x) x := by
  intro a b
  have u1 : ∀ j t, (fun i => Function.update x (.inr (.inl j)) t (.inr (.inl i))) =
      Function.update 𝔞 j t := by
    intro j t; funext i
    by_cases h : i = j
    · subst h; simp
    · rw [Function.update_of_ne h, Function.update_of_ne (by simpa using h)]
  have u1' : ∀ j t i, Function.update x (.inr (.inl j)) t (.inr (.inl i)) =
      Function.update 𝔞 j t i := fun j t i => congrFun (u1 j t) i
  have u2 : ∀ j t, Function.update x (.inr (.inl j)) t (.inr (.inr ())) = x (.inr (.inr ())) :=
    fun j t => Function.update_of_ne (by simp) _ _
  have u3 : ∀ j t i, Function.update x (.inr (.inr j)) t (.inr (.inl i)) = x (.inr (.inl i)) :=
    fun j t i => Function.update_of_ne (by simp) _ _
  have u4 : ∀ j t, Function.update x (.inr (.inr j)) t (.inr (.inr ())) = t := by
    intro j t; simp
  rcases a with i | i | i <;> rcases b with j | j | j
  · simp only [riR, riJ, Sum.elim_inl, upd_inl_inl, upd_inl_apply, upd_inl_inr]
    have h1 := (hasDerivAt_coord 𝔰 i j).sub (hasDerivAt_mulVec ts.C
      (fun t k => ts.e1 k - ts.ep k - fl.g (Function.update 𝔰 j t) 𝔞 ts.T k * x (.inr (.inr ())))
      (fun k => - (fl.dg_ds 𝔰 𝔞 ts.T k j * x (.inr (.inr ())))) (𝔰 j) i
      (fun k => (((hfl.g_s k j).mul_const _).const_sub _)))
    refine h1.congr_deriv ?_
    simp only [mulVec, dotProduct, Matrix.mul_apply, Finset.sum_mul, mul_neg, Finset.sum_neg_distrib,
      mul_assoc]
    ring
  · simp only [riR, riJ, Sum.elim_inl, upd_inr_inl, u1, u1', u2]
    have h1 := (hasDerivAt_const (𝔞 j) (𝔰 i)).sub (hasDerivAt_mulVec ts.C
      (fun t k => ts.e1 k - ts.ep k - fl.g 𝔰 (Function.update 𝔞 j t) ts.T k * x (.inr (.inr ())))
      (fun k => - (fl.dg_da 𝔰 𝔞 ts.T k j * x (.inr (.inr ())))) (𝔞 j) i
      (fun k => (((hfl.g_a k j).mul_const _).const_sub _)))
    refine h1.congr_deriv ?_
    simp only [mulVec, dotProduct, Matrix.mul_apply, Finset.sum_mul, mul_neg, Finset.sum_neg_distrib,
      mul_assoc]
    ring
  · simp only [riR, riJ, Sum.elim_inl, upd_inr_inl, u3, u4]
    have h1 := (hasDerivAt_const (x (.inr (.inr j))) (𝔰 i)).sub (hasDerivAt_mulVec ts.C
      (fun t k => ts.e1 k - ts.ep k - fl.g 𝔰 𝔞 ts.T k * t)
      (fun k => - (fl.g 𝔰 𝔞 ts.T k * 1)) (x (.inr (.inr j))) i
      (fun k => (((hasDerivAt_id _).const_mul _).const_sub _)))
    refine h1.congr_deriv ?_
    simp only [mulVec, dotProduct, mul_neg, Finset.sum_neg_distrib, mul_one]
    ring
  · simp only [riR, riJ, Sum.elim_inr, Sum.elim_inl, upd_inl_inl, upd_inl_apply, upd_inl_inr]
    have h1 := (hasDerivAt_const (𝔰 j) (𝔞 i - ts.h i)).sub
      ((hfl.h_s i j).mul_const (x (.inr (.inr ()))))
    exact h1.congr_deriv (by ring)
  · simp only [riR, riJ, Sum.elim_inr, Sum.elim_inl, upd_inr_inl, u1, u1', u2]
    have h1 := ((hasDerivAt_coord 𝔞 i j).sub_const (ts.h i)).sub
      ((hfl.h_a i j).mul_const (x (.inr (.inr ()))))
    exact h1.congr_deriv (by ring)
  · simp only [riR, riJ, Sum.elim_inr, Sum.elim_inl, upd_inr_inl, u3, u4]
    have h1 := (hasDerivAt_const (x (.inr (.inr j))) (𝔞 i - ts.h i)).sub
      ((hasDerivAt_id (x (.inr (.inr j)))).const_mul (fl.h 𝔰 𝔞 ts.T i))
    exact h1.congr_deriv (by ring)
  · simp only [riR, riJ, Sum.elim_inr, upd_inl_inl, upd_inl_apply, upd_inl_inr]
    exact hfl.f_s j
  · simp only [riR, riJ, Sum.elim_inr, upd_inr_inl, u1, u1']
    exact hfl.f_a j
  · simp only [riR, riJ, Sum.elim_inr, upd_inr_inl, u3]
    exact hasDerivAt_const _ _

/-- Concrete case for C74: a flow rule with a nonlinear coupling meets `CorrectAt`. -/
example (s a : Unit → ℝ) (T : ℝ) : (RIFlow.mk (ι := Unit) (κ := Unit) (fun s a _ => s () * s () + a () - 1)
    (fun s _ _ _ => 2 * s ()) (fun _ _ _ _ => 1) (fun s a _ _ => s () * a ())
    (fun _ a _ => Matrix.of fun _ _ => a ()) (fun s _ _ => Matrix.of fun _ _ => s ())
    (fun s _ _ _ => s ()) (fun _ _ _ => Matrix.of fun _ _ => 1)
    (fun _ _ _ => Matrix.of fun _ _ => 0) : RIFlow ℝ Unit Unit).CorrectAt s a T := by
  constructor
  · intro j
    simp only [Function.update_self]
    exact (((hasDerivAt_id (s ())).mul (hasDerivAt_id (s ()))).add_const _ |>.sub_const _).congr_deriv
      (by simp; ring)
  · intro j
    simp only [Function.update_self]
    exact ((hasDerivAt_id (a ())).const_add _).sub_const _
  · intro i j
    simp only [Function.update_self]
    exact ((hasDerivAt_id (s ())).mul_const _).congr_deriv (by simp)
  · intro i j
    simp only [Function.update_self]
    exact ((hasDerivAt_id (a ())).const_mul _).congr_deriv (by simp)
  · intro i j
    simp only [Function.update_self]
    exact hasDerivAt_id _
  · intro i j
    exact hasDerivAt_const _ _

end Neml.SmallStrain
