import Verif.Props.Damage
import Mathlib.Analysis.Calculus.Deriv.Basic
import Mathlib.Analysis.Calculus.Deriv.Add
import Mathlib.Analysis.Calculus.Deriv.Mul
import Mathlib.Analysis.Calculus.Deriv.Comp
import Mathlib.Analysis.Calculus.Deriv.Inv
import Mathlib.Analysis.Calculus.Deriv.Pow
import Mathlib.Analysis.Calculus.Deriv.Abs
import Mathlib.Analysis.Calculus.Deriv.Prod
import Mathlib.Analysis.SpecialFunctions.Sqrt
import Mathlib.Analysis.SpecialFunctions.Pow.Deriv

/-!
# C78 and C79: the derivatives in the damage models

A reported derivative is right at a point if the chain rule holds with it along every differentiable
curve through the point (this is total differentiability in finite dimension).
-/

namespace Neml.Damage

open Matrix Neml.SmallStrain Neml.Mandel

section Frame

variable {ι : Type} [Fintype ι] [DecidableEq ι] {H : Type}

/-- The curve `v` has derivative `v'` at `t0`, component by component. -/
def Moves {κ : Type} (v : ℝ → κ → ℝ) (v' : κ → ℝ) (t0 : ℝ) : Prop :=
  ∀ i, HasDerivAt (fun t => v t i) (v' i) t0

/-- The three reported derivatives of a damage rule are right at a point. -/
def Rule.Correct (dm : Rule ι) (d1 d0 : ℝ) (e1 e0 s1 s0 : ι → ℝ) : Prop :=
  ∀ (d : ℝ → ℝ) (e s : ℝ → ι → ℝ) (d' : ℝ) (e' s' : ι → ℝ) (t0 : ℝ), HasDerivAt d d' t0 →
    Moves e e' t0 → Moves s s' t0 → d t0 = d1 → e t0 = e1 → s t0 = s1 →
    HasDerivAt (fun t => dm.damage (d t) d0 (e t) e0 (s t) s0)
      (dm.dd d1 d0 e1 e0 s1 s0 * d' + dm.de d1 d0 e1 e0 s1 s0 ⬝ᵥ e' +
        dm.ds d1 d0 e1 e0 s1 s0 ⬝ᵥ s') t0

theorem Moves.dot {u v : ℝ → ι → ℝ} {u' v' : ι → ℝ} {t0 : ℝ} (hu : Moves u u' t0)
    (hv : Moves v v' t0) :
    HasDerivAt (fun t => u t ⬝ᵥ v t) (u' ⬝ᵥ v t0 + u t0 ⬝ᵥ v') t0 := by
  simp only [dotProduct, ← Finset.sum_add_distrib]
  exact HasDerivAt.fun_sum fun i _ => (hu i).mul (hv i)

theorem Moves.mulVec (A : Matrix ι ι ℝ) {v : ℝ → ι → ℝ} {v' : ι → ℝ} {t0 : ℝ}
    (hv : Moves v v' t0) : Moves (fun t => A *ᵥ v t) (A *ᵥ v') t0 := fun i => by
  simp only [Matrix.mulVec, dotProduct]
  exact HasDerivAt.fun_sum fun j _ => (hv j).const_mul _

/-- The derivative of `s / (1 - w)`. -/
theorem effective_moves {s : ℝ → ι → ℝ} {s' : ι → ℝ} {w : ℝ → ℝ} {w' t0 : ℝ}
    (hs : Moves s s' t0) (hw : HasDerivAt w w' t0) (h1 : w t0 ≠ 1) :
    Moves (fun t => effective (w t) (s t))
      (fun i => s' i / (1 - w t0) + s t0 i * w' / (1 - w t0) ^ 2) t0 := fun i => by
  have hne : (1 : ℝ) - w t0 ≠ 0 := sub_ne_zero.mpr (Ne.symm h1)
  have := (hs i).fun_div (hw.const_sub 1) hne
  refine this.congr_deriv ?_
  field_simp
  ring

/-! ## C78 -/

/-- C78, Jacobian: if the derivatives of the damage rule are right, the matrix handed to the solver
is the derivative of the residual, at every iterate with damage different from one. -/
theorem C78_jacobian (base : Model ℝ ι H) (dm : Rule ι) (e1 e0 s0 : ι → ℝ) (w0 : ℝ) (h0 : H)
    (u0 p0 : ℝ) (up) (hup : base e1 e0 (effective w0 s0) h0 u0 p0 = some up)
    (x : ι ⊕ Unit → ℝ) (hx : x (Sum.inr ()) ≠ 1)
    (hc : dm.Correct (x (Sum.inr ())) w0 e1 e0
      (effective (x (Sum.inr ())) fun i => x (Sum.inl i)) (effective w0 s0)) :
    ∃ (R : (ι ⊕ Unit → ℝ) → ι ⊕ Unit → ℝ) (J : (ι ⊕ Unit → ℝ) → Matrix (ι ⊕ Unit) (ι ⊕ Unit) ℝ),
      (∀ y, damRJ base dm e1 e0 s0 w0 h0 u0 p0 y = some (R y, J y)) ∧
      ∀ (y : ℝ → ι ⊕ Unit → ℝ) (y' : ι ⊕ Unit → ℝ) (t0 : ℝ), Moves y y' t0 → y t0 = x →
        Moves (fun t => R (y t)) (J x *ᵥ y') t0 := by
  refine ⟨fun y => Sum.elim (fun i => y (Sum.inl i) - (1 - y (Sum.inr ())) * up.s i)
      fun _ => y (Sum.inr ()) - dm.damage (y (Sum.inr ())) w0 e1 e0
        (effective (y (Sum.inr ())) fun i => y (Sum.inl i)) (effective w0 s0),
    fun y => _, fun y => by simp only [damRJ, hup]; rfl, ?_⟩
  intro y y' t0 hy hyx
  have hw : HasDerivAt (fun t => y t (Sum.inr ())) (y' (Sum.inr ())) t0 := hy _
  have hs : Moves (fun t i => y t (Sum.inl i)) (fun i => y' (Sum.inl i)) t0 := fun i => hy _
  intro a
  rcases a with i | u
  · have h1 := (hs i).sub ((hw.const_sub 1).mul_const (up.s i))
    refine h1.congr_deriv ?_
    simp only [mulVec, dotProduct, Fintype.sum_sum_type, fromBlocks_apply₁₁, fromBlocks_apply₁₂,
      of_apply, Finset.univ_unique, Finset.sum_singleton, one_apply, ite_mul, one_mul, zero_mul,
      Finset.sum_ite_eq, Finset.mem_univ, if_true]
    simp only [PUnit.default_eq_unit]
    ring
  · have he : Moves (fun _ : ℝ => e1) 0 t0 := fun i => hasDerivAt_const _ _
    have h2 := hc (fun t => y t (Sum.inr ())) (fun _ => e1) _ _ 0 _ t0 hw he
      (effective_moves hs hw (by rw [hyx]; exact hx)) (by rw [hyx]) rfl (by rw [hyx])
    have h1 := hw.sub h2
    refine h1.congr_deriv ?_
    simp only [mulVec, dotProduct, Fintype.sum_sum_type, fromBlocks_apply₂₁, fromBlocks_apply₂₂,
      of_apply, Finset.univ_unique, Finset.sum_singleton, Pi.zero_apply, mul_zero,
      Finset.sum_const_zero, add_zero, hyx]
    simp only [PUnit.default_eq_unit]
    simp only [mul_add, Finset.sum_add_distrib, sub_mul, one_mul, Finset.sum_div, Finset.sum_mul,
      neg_div, neg_mul, Finset.sum_neg_distrib]
    have e1 : ∀ (f : ι → ℝ) (c : ℝ), ∑ i, f i * (y' (Sum.inl i) / c) =
        ∑ i, f i / c * y' (Sum.inl i) := fun f c =>
      Finset.sum_congr rfl fun i _ => by ring
    have e2 : ∀ (f : ι → ℝ) (c : ℝ), ∑ i, f i * (x (Sum.inl i) * y' (Sum.inr ()) / c) =
        ∑ i, f i * x (Sum.inl i) / c * y' (Sum.inr ()) := fun f c =>
      Finset.sum_congr rfl fun i _ => by ring
    rw [e1, e2]
    ring

/-- C78, tangent: along any differentiable strain path on which the update succeeds without killing,
the returned tangent maps the strain rate to the stress rate. -/
theorem C78_tangent (op : Options ι) (base : Model ℝ ι H) (dm : Rule ι) (solve) (inv)
    (hs : Solves base dm solve) (hinv : ∀ M N, inv M = some N → M * N = 1)
    (e : ℝ → ι → ℝ) (e' : ι → ℝ) (t0 : ℝ) (he : Moves e e' t0) (e0 s0 : ι → ℝ) (h0 : ℝ × H)
    (u0 p0 : ℝ) (r : ℝ → Update ℝ ι (ℝ × H))
    (hr : ∀ᶠ t in nhds t0, damUpdate op base dm solve inv (e t) e0 s0 h0 u0 p0 = some (r t))
    (hop : op.ekill = false) (up : (ι → ℝ) → Update ℝ ι H)
    (hup : ∀ x, base x e0 (effective h0.1 s0) h0.2 u0 p0 = some (up x))
    (hA : Moves (fun t => (up (e t)).s) ((up (e t0)).A *ᵥ e') t0)
    (w' : ℝ) (hw : HasDerivAt (fun t => (r t).h.1) w' t0) (hw1 : (r t0).h.1 ≠ 1)
    (hc : dm.Correct (r t0).h.1 h0.1 (e t0) e0 (effective (r t0).h.1 (r t0).s) (effective h0.1 s0))
    (hk : 1 - 1 / (1 - (r t0).h.1) * (dm.ds (r t0).h.1 h0.1 (e t0) e0
        (effective (r t0).h.1 (r t0).s) (effective h0.1 s0) ⬝ᵥ effective (r t0).h.1 (r t0).s) -
      dm.dd (r t0).h.1 h0.1 (e t0) e0 (effective (r t0).h.1 (r t0).s) (effective h0.1 s0) ≠ 0) :
    Moves (fun t => (r t).s) ((r t0).A *ᵥ e') t0 := by
  have step : ∀ t, damUpdate op base dm solve inv (e t) e0 s0 h0 u0 p0 = some (r t) →
      (r t).s = (1 - (r t).h.1) • (up (e t)).s ∧
      (r t).h.1 = dm.damage (r t).h.1 h0.1 (e t) e0 (effective (r t).h.1 (r t).s)
        (effective h0.1 s0) ∧
      damTangent dm inv (e t) e0 (r t).s s0 (r t).h.1 h0.1 (up (e t)).A = some (r t).A := by
    intro t ht
    rcases C31_step op base dm solve inv hs _ _ _ _ _ _ _ ht with
      ⟨hk, -⟩ | ⟨⟨up1, a1, a2, a3, a4, a5, a6, a7⟩, -⟩
    · rw [hop] at hk; cases hk
    · have : some (up (e t)) = some up1 := (hup (e t)).symm.trans a1
      cases this
      exact ⟨a2, a6, a7⟩
  obtain ⟨hs0, hw0, hT⟩ := step t0 hr.self_of_nhds
  have hne : (1 : ℝ) - (r t0).h.1 ≠ 0 := sub_ne_zero.mpr (Ne.symm hw1)
  have heff0 : effective (r t0).h.1 (r t0).s = (up (e t0)).s := by
    funext i
    rw [effective, hs0, Pi.smul_apply, smul_eq_mul, mul_div_cancel_left₀ _ hne]
  rw [heff0] at hc hk
  -- the stress moves with some velocity
  obtain ⟨s', hs'⟩ : ∃ s' : ι → ℝ, ∀ i, s' i = -w' * (up (e t0)).s i +
    (1 - (r t0).h.1) * ((up (e t0)).A *ᵥ e') i := ⟨_, fun _ => rfl⟩
  have hsm : Moves (fun t => (r t).s) s' t0 := fun i => by
    have h1 := (hw.const_sub 1).mul (hA i)
    rw [hs']
    refine (h1.congr_of_eventuallyEq ?_)
    filter_upwards [hr] with t ht
    rw [(step t ht).1]
    rfl
  -- the damage equation along the path
  have hdm := hc (fun t => (r t).h.1) e (fun t => effective (r t).h.1 (r t).s) w' e' _ t0 hw he
    (effective_moves hsm hw hw1) rfl rfl heff0
  have hw'' := (hdm.congr_of_eventuallyEq (f₁ := fun t => (r t).h.1)
    (hr.mono fun t ht => (step t ht).2.1)).unique hw
  simp only [damTangent, heff0] at hT
  rcases hB : inv (1 + vecMulVec (up (e t0)).s fun j =>
      dm.ds (r t0).h.1 h0.1 (e t0) e0 (up (e t0)).s (effective h0.1 s0) j /
        ((1 - 1 / (1 - (r t0).h.1) * (dm.ds (r t0).h.1 h0.1 (e t0) e0 (up (e t0)).s
          (effective h0.1 s0) ⬝ᵥ (up (e t0)).s) - dm.dd (r t0).h.1 h0.1 (e t0) e0 (up (e t0)).s
          (effective h0.1 s0)) * (1 - (r t0).h.1))) with _ | B <;> simp only [hB] at hT
  · cases hT
  have hA' := Option.some.inj hT
  have hBi := mul_eq_one_comm.mp (hinv _ _ hB)
  -- abbreviations
  generalize (up (e t0)).s = σ at *
  generalize hws : dm.ds (r t0).h.1 h0.1 (e t0) e0 σ (effective h0.1 s0) = ws at *
  generalize hwe : dm.de (r t0).h.1 h0.1 (e t0) e0 σ (effective h0.1 s0) = we at *
  generalize hww : dm.dd (r t0).h.1 h0.1 (e t0) e0 σ (effective h0.1 s0) = ww at *
  generalize hk1 : 1 - 1 / (1 - (r t0).h.1) * (ws ⬝ᵥ σ) - ww = k1 at *
  have hsσ : (r t0).s = fun i => (1 - (r t0).h.1) * σ i := by rw [hs0]; rfl
  -- k1 w' = we . e' + ws . s' / (1 - w)
  have hkw : k1 * w' = we ⬝ᵥ e' + ws ⬝ᵥ s' / (1 - (r t0).h.1) := by
    have h3 : (ws ⬝ᵥ fun i => s' i / (1 - (r t0).h.1) + (r t0).s i * w' / (1 - (r t0).h.1) ^ 2) =
        ws ⬝ᵥ s' / (1 - (r t0).h.1) + w' * (1 / (1 - (r t0).h.1) * (ws ⬝ᵥ σ)) := by
      simp only [dotProduct, Finset.sum_div, Finset.mul_sum, ← Finset.sum_add_distrib]
      refine Finset.sum_congr rfl fun i _ => ?_
      rw [hsσ]
      field_simp
    rw [h3] at hw''
    rw [← hk1]
    linear_combination -hw''
  have hfin : (1 + vecMulVec σ fun j => ws j / (k1 * (1 - (r t0).h.1))) *ᵥ s' =
      ((1 - (r t0).h.1) • (up (e t0)).A - vecMulVec σ fun j => we j / k1) *ᵥ e' := by
    funext i
    simp only [add_mulVec, one_mulVec, sub_mulVec, smul_mulVec, Pi.add_apply, Pi.sub_apply,
      Pi.smul_apply, smul_eq_mul, vecMulVec_mulVec]
    have e1 : (fun j => ws j / (k1 * (1 - (r t0).h.1))) ⬝ᵥ s' =
        ws ⬝ᵥ s' / (1 - (r t0).h.1) / k1 := by
      simp only [dotProduct, Finset.sum_div]
      exact Finset.sum_congr rfl fun i _ => by field_simp
    have e2 : (fun j => we j / k1) ⬝ᵥ e' = we ⬝ᵥ e' / k1 := by
      simp only [dotProduct, Finset.sum_div]
      exact Finset.sum_congr rfl fun i _ => by ring
    simp only [MulOpposite.smul_eq_mul_unop, MulOpposite.unop_op]
    rw [e1, e2]
    have : w' = (we ⬝ᵥ e' + ws ⬝ᵥ s' / (1 - (r t0).h.1)) / k1 := by
      rw [← hkw, mul_div_cancel_left₀ _ hk]
    rw [hs', this]
    ring
  have : s' = (r t0).A *ᵥ e' := by
    rw [← hA', ← mulVec_mulVec, ← hfin, mulVec_mulVec, hBi, one_mulVec]
  rw [← this]
  exact hsm

end Frame

end Neml.Damage
