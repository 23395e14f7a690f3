import Verif.Model.Walker
import Verif.Props.DiffComp
import Mathlib.Analysis.SpecialFunctions.Pow.Deriv
import Mathlib.Analysis.SpecialFunctions.Pow.Continuity
import Mathlib.Topology.Order.LeftRightNhds
import Mathlib.Analysis.Calculus.TangentCone.Real

/-!
# Softening and thermal scaling of the Walker model (C117)
-/

namespace Neml.Walker

open Matrix Neml.Flow Neml.Mandel Filter Topology

/-- Spec: the reported derivative of a softening model is its derivative at a plastic strain. -/
def Soft.CorrectAt (f : Soft) (a T : ℝ) : Prop := HasDerivAt (fun a => f.phi a T) (f.dphi a T) a

theorem ainc_pos : 0 < ainc := by norm_num [ainc]

theorem noSoft_correct (a T : ℝ) : noSoft.CorrectAt a T := hasDerivAt_const a 1

/-- **C117** the softening is one for no plastic strain, at least one, and grows with plastic strain. -/
theorem C117_softening (phi0 phi1 : ℝ → ℝ) (T : ℝ) (h0 : 0 ≤ phi0 T) (h1 : 0 ≤ phi1 T) :
    (walkerSoft phi0 phi1).phi 0 T = 1 ∧ (∀ a, 1 ≤ (walkerSoft phi0 phi1).phi a T) ∧
    Monotone fun a => (walkerSoft phi0 phi1).phi a T := by
  have hA : 0 ≤ phi0 T * ainc ^ phi1 T := mul_nonneg h0 (Real.rpow_nonneg ainc_pos.le _)
  have hq : 0 ≤ phi0 T * ainc ^ phi1 T / ainc := div_nonneg hA ainc_pos.le
  refine ⟨by simp [walkerSoft], fun a => ?_, fun a b hab => ?_⟩
  · simp only [walkerSoft]
    split_ifs with ha hb
    · exact le_rfl
    · have := mul_nonneg hq (not_le.mp ha).le
      linarith
    · have := mul_nonneg h0 (Real.rpow_nonneg (not_le.mp ha).le (phi1 T))
      linarith
  · have hlin : ∀ x, 0 < x → x < ainc → phi0 T * ainc ^ phi1 T / ainc * x ≤ phi0 T * ainc ^ phi1 T := by
      intro x _ hx
      rw [div_mul_eq_mul_div, div_le_iff₀ ainc_pos]
      exact mul_le_mul_of_nonneg_left hx.le hA
    simp only [walkerSoft]
    by_cases a0 : a ≤ 0
    · simp only [a0, if_true]
      by_cases b0 : b ≤ 0
      · simp only [b0, if_true]; exact le_rfl
      · simp only [b0, if_false]
        split_ifs
        · have := mul_nonneg hq (not_le.mp b0).le
          linarith
        · have := mul_nonneg h0 (Real.rpow_nonneg (not_le.mp b0).le (phi1 T))
          linarith
    · have ap := not_le.mp a0
      have b0 : ¬ b ≤ 0 := not_le.mpr (ap.trans_le hab)
      simp only [a0, b0, if_false]
      by_cases a1 : a < ainc
      · simp only [a1, if_true]
        by_cases b1 : b < ainc
        · simp only [b1, if_true]
          have := mul_le_mul_of_nonneg_left hab hq
          linarith
        · simp only [b1, if_false]
          have h3 := hlin a ap a1
          have h4 := mul_le_mul_of_nonneg_left
            (Real.rpow_le_rpow ainc_pos.le (not_lt.mp b1) h1) h0
          linarith
      · have b1 : ¬ b < ainc := not_lt.mpr ((not_lt.mp a1).trans hab)
        simp only [a1, b1, if_false]
        have h4 := mul_le_mul_of_nonneg_left (Real.rpow_le_rpow ap.le hab h1) h0
        linarith

/-- **C117** the softening is a continuous function of plastic strain: its three branches meet. -/
theorem C117_softening_continuous (phi0 phi1 : ℝ → ℝ) (T : ℝ) :
    Continuous fun a => (walkerSoft phi0 phi1).phi a T := by
  simp only [walkerSoft]
  refine continuous_if_le continuous_id continuous_const continuousOn_const ?_ ?_
  · have h : ∀ a ∈ {a : ℝ | 0 ≤ a}, (if a < ainc then phi0 T * ainc ^ phi1 T / ainc * a + 1
        else 1 + phi0 T * a ^ phi1 T) =
        if a ≤ ainc then phi0 T * ainc ^ phi1 T / ainc * a + 1 else 1 + phi0 T * (max a ainc) ^ phi1 T := by
      intro a _
      rcases lt_trichotomy a ainc with h | h | h
      · simp [h, h.le]
      · simp only [h, lt_irrefl, if_false, le_refl, if_true]
        rw [div_mul_cancel₀ _ ainc_pos.ne']; ring
      · simp [h.not_gt, h.not_ge, max_eq_left h.le]
    refine ContinuousOn.congr ?_ h
    refine Continuous.continuousOn ?_
    refine Continuous.if_le (by fun_prop) ?_ continuous_id continuous_const ?_
    · refine continuous_const.add (continuous_const.mul ?_)
      exact (continuous_id.max continuous_const).rpow_const fun x =>
        Or.inl (ainc_pos.trans_le (le_max_right _ _)).ne'
    · intro x hx
      rw [hx, max_self, div_mul_cancel₀ _ ainc_pos.ne']; ring
  · intro x hx
    simp [hx, ainc_pos]

/-- **C117** the reported derivative is right for positive plastic strain away from the kink. -/
theorem C117_softening_derivative (phi0 phi1 : ℝ → ℝ) (a T : ℝ) (ha : 0 < a) (hk : a ≠ ainc) :
    (walkerSoft phi0 phi1).CorrectAt a T := by
  unfold Soft.CorrectAt
  rcases lt_or_gt_of_ne hk with h | h
  · have e : (fun a => (walkerSoft phi0 phi1).phi a T) =ᶠ[𝓝 a]
        fun a => phi0 T * ainc ^ phi1 T / ainc * a + 1 := by
      filter_upwards [lt_mem_nhds ha, gt_mem_nhds h] with x h1 h2
      simp [walkerSoft, not_le.mpr h1, h2]
    refine (HasDerivAt.congr_of_eventuallyEq ?_ e)
    refine (((hasDerivAt_id a).const_mul (phi0 T * ainc ^ phi1 T / ainc)).add_const 1).congr_deriv ?_
    simp [walkerSoft, not_le.mpr ha, h]
  · have e : (fun a => (walkerSoft phi0 phi1).phi a T) =ᶠ[𝓝 a] fun a => 1 + phi0 T * a ^ phi1 T := by
      filter_upwards [lt_mem_nhds h] with x h1
      simp [walkerSoft, not_le.mpr (ainc_pos.trans h1), h1.not_gt]
    refine (HasDerivAt.congr_of_eventuallyEq ?_ e)
    refine (((Real.hasDerivAt_rpow_const (p := phi1 T) (Or.inl ha.ne')).const_mul (phi0 T)).const_add 1).congr_deriv ?_
    simp only [walkerSoft, not_le.mpr ha, h.not_gt, if_false]
    ring

/-- **C117** (disagreement) for negative plastic strain, and at the initial value zero, the softening does not have the
reported derivative. -/
theorem C117_softening_derivative_nonpositive (phi0 phi1 : ℝ → ℝ) (a T : ℝ) (ha : a ≤ 0) (h0 : phi0 T ≠ 0) :
    ¬ (walkerSoft phi0 phi1).CorrectAt a T := by
  intro h
  have h1 : HasDerivWithinAt (fun a => (walkerSoft phi0 phi1).phi a T) _ (Set.Iic a) a := h.hasDerivWithinAt
  have h2 : HasDerivWithinAt (fun a => (walkerSoft phi0 phi1).phi a T) 0 (Set.Iic a) a := by
    refine (hasDerivWithinAt_const a _ (1 : ℝ)).congr (fun x hx => ?_) ?_
    · simp [walkerSoft, le_trans hx ha]
    · simp [walkerSoft, ha]
  have h3 := (uniqueDiffWithinAt_Iic a).eq_deriv _ h1 h2
  simp only [walkerSoft, ha, if_true] at h3
  have h4 := Real.rpow_pos_of_pos ainc_pos (phi1 T)
  rw [div_eq_zero_iff, mul_eq_zero] at h3
  rcases h3 with (h3 | h3) | h3
  · exact h0 h3
  · exact h4.ne' h3
  · exact ainc_pos.ne' h3

/-- **C117** the Arrhenius scaling is one at the reference temperature, positive, and for a constant positive activation
energy grows with temperature. -/
theorem C117_scaling (Q : ℝ → ℝ) (R Tref : ℝ) :
    arrhenius Q R Tref Tref = 1 ∧ (∀ T, 0 < arrhenius Q R Tref T) ∧
    (0 < R → (∃ q, 0 < q ∧ ∀ T, Q T = q) → ∀ T T', 0 < T → T < T' → arrhenius Q R Tref T < arrhenius Q R Tref T') := by
  refine ⟨div_self (Real.exp_pos _).ne', fun T => div_pos (Real.exp_pos _) (Real.exp_pos _), ?_⟩
  rintro hR ⟨q, hq, hQ⟩ T T' hT hTT
  refine div_lt_div_of_pos_right ?_ (Real.exp_pos _)
  refine Real.exp_lt_exp.mpr ?_
  rw [hQ, hQ, neg_div, neg_div, neg_lt_neg_iff]
  exact div_lt_div_of_pos_left hq (mul_pos hR hT) (mul_lt_mul_of_pos_left hTT hR)

/-- Concrete case for C117. -/
example : (walkerSoft (fun _ => 2) (fun _ => 1)).phi (1 / 2) 0 = 2 ∧
    (walkerSoft (fun _ => 2) (fun _ => 1)).CorrectAt (1 / 2) 0 ∧
    ¬ (walkerSoft (fun _ => 2) (fun _ => 1)).CorrectAt 0 0 := by
  refine ⟨?_, C117_softening_derivative _ _ _ _ (by norm_num) (by norm_num [ainc]),
    C117_softening_derivative_nonpositive _ _ _ _ le_rfl (by norm_num)⟩
  norm_num [walkerSoft, ainc]

end Neml.Walker
