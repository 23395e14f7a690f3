import Verif.Props.YaguchiFlow
import Mathlib.Analysis.Complex.ExponentialBounds

/-!
# The Yaguchi flow rule: the parameters over their range of temperature (C141)
-/

namespace Neml.Yaguchi

open Matrix Neml.Flow Neml.Mandel Neml.SmallStrain Neml.Walker

/-- Spec: parameters with which the rule makes sense at a temperature: a positive drag stress and exponents for which
rate and recovery are smooth, moduli and rates of hardening and recovery that are not negative, a threshold that falls
with the rate, and a limit of the first backstress that stays positive when it has fallen all the way. -/
structure Par.Sound (P : Par) (T : ℝ) : Prop where
  D : 0 < P.D T
  n : 1 < P.n T
  m : 3 ≤ P.m T
  C1 : 0 < P.C1 T
  C2 : 0 < P.C2 T
  a2 : 0 < P.a2 T
  g1 : 0 < P.g1 T
  g2 : 0 < P.g2 T
  br : 0 < P.br T
  bh : 0 < P.bh T
  d : 0 < P.d T
  q : 0 < P.q T
  a1 : P.q T < P.a10 T
  B : P.B T < 0

theorem gr91_m {T : ℝ} (h2 : T ≤ 873) : 3 ≤ gr91.m T := by
  simp only [gr91]
  split_ifs with h3 h4
  · norm_num
  · have h5 : Real.exp (-5) ≤ Real.exp (-5.754e-3 * T) := Real.exp_le_exp.mpr (by linarith)
    have h6 : (1 / 150 : ℝ) ≤ Real.exp (-5) := by
      have e : Real.exp 5 = Real.exp 1 ^ 5 := by
        rw [← Real.exp_nat_mul]
        norm_num
      have h7 : Real.exp 5 ≤ 150 := by
        rw [e]
        calc Real.exp 1 ^ 5 ≤ 2.7182818286 ^ 5 := by
              gcongr
              exact Real.exp_one_lt_d9.le
          _ ≤ 150 := by norm_num
      rw [Real.exp_neg, ← one_div]
      exact one_div_le_one_div_of_le (Real.exp_pos _) h7
    nlinarith
  · norm_num

theorem gr91_a10 {T : ℝ} (h1 : 473 ≤ T) (h2 : T ≤ 873) : 227 ≤ gr91.a10 T ∧ gr91.a10 T ≤ 432 := by
  simp only [gr91]
  constructor
  · nlinarith [mul_nonneg (sub_nonneg.mpr h1) (sub_nonneg.mpr h2), sq_nonneg (T - 605), mul_nonneg (sub_nonneg.mpr h2) (sq_nonneg (T - 470)), mul_nonneg (sub_nonneg.mpr h2) (sq_nonneg (T - 605))]
  · nlinarith [mul_nonneg (sub_nonneg.mpr h1) (sub_nonneg.mpr h2), sq_nonneg (T - 605), mul_nonneg (sub_nonneg.mpr h1) (sq_nonneg (T - 670)), mul_nonneg (sub_nonneg.mpr h1) (sq_nonneg (T - 605))]

theorem gr91_q {T : ℝ} : 94 ≤ gr91.q T ∧ gr91.q T ≤ 130 := by
  simp only [gr91]
  split_ifs with h3 h4
  · norm_num
  · push Not at h3
    constructor <;> nlinarith
  · norm_num

theorem gr91_a2 {T : ℝ} (h2 : T ≤ 873) : 72 ≤ gr91.a2 T ∧ gr91.a2 T ≤ 111 := by
  simp only [gr91]
  split_ifs with h3
  · norm_num
  · push Not at h3
    constructor
    · nlinarith [sq_nonneg (T - 866)]
    · nlinarith

theorem gr91_D {T : ℝ} (h1 : 473 ≤ T) (h2 : T ≤ 873) : 0 < baseD T := by
  simp only [baseD]
  nlinarith [mul_nonneg (sub_nonneg.mpr h1) (sub_nonneg.mpr h2)]

/-- **C141** between 473 K and 873 K, the range the code states, the parameters make sense. -/
theorem C141_sound {T : ℝ} (h1 : 473 ≤ T) (h2 : T ≤ 873) : 0 < baseD T ∧ gr91.Sound T := by
  have hD := gr91_D h1 h2
  have hq := gr91_q (T := T)
  have ha := gr91_a10 h1 h2
  refine ⟨hD, ?_⟩
  constructor
  case D => exact Real.rpow_pos_of_pos hD _
  case n => norm_num [gr91]
  case m => exact gr91_m h2
  case C1 =>
    simp only [gr91]
    split_ifs <;> linarith
  case C2 =>
    simp only [gr91]
    split_ifs <;> linarith
  case a2 => linarith [(gr91_a2 h2).1]
  case g1 =>
    simp only [gr91]
    split_ifs
    · exact mul_pos (by norm_num) (Real.exp_pos _)
    · exact mul_pos (by norm_num) (Real.exp_pos _)
  case g2 =>
    simp only [gr91]
    split_ifs with h3
    · exact mul_pos (by norm_num) (Real.exp_pos _)
    · push Not at h3
      nlinarith
  case br => norm_num [gr91]
  case bh =>
    simp only [gr91]
    nlinarith
  case d =>
    simp only [gr91]
    nlinarith [sq_nonneg (T - 499)]
  case q => linarith
  case a1 => linarith
  case B =>
    simp only [gr91]
    split_ifs <;> linarith

/-- **C141** the limits over the range: of the first backstress, of the second, of the fall of the first. -/
theorem C141_limits {T : ℝ} (h1 : 473 ≤ T) (h2 : T ≤ 873) :
    (227 ≤ gr91.a10 T ∧ gr91.a10 T ≤ 432) ∧ (72 ≤ gr91.a2 T ∧ gr91.a2 T ≤ 111) ∧
      94 ≤ gr91.q T ∧ gr91.q T ≤ 130 :=
  ⟨gr91_a10 h1 h2, gr91_a2 h2, gr91_q⟩

/-- **C141** the target of the threshold over the range, for any rate at which it moves. -/
theorem C141_threshold {T : ℝ} (h1 : 473 ≤ T) (h2 : T ≤ 873) : gr91.A T - 15 * gr91.B T ≤ 380 := by
  simp only [gr91]
  split_ifs <;> nlinarith

/-- **C141** from 922 K on, and up to 21 K, there is no drag stress: a negative number is raised to a broken power. -/
theorem C141_outside {T : ℝ} (h : 922 ≤ T ∨ T ≤ 21) : baseD T < 0 := by
  simp only [baseD]
  rcases h with h | h <;> nlinarith

/-- **C141** so over the range the rule reports the right derivatives wherever the effective stress is not hydrostatic,
the threshold not at a kink and the backstresses deviatoric. -/
theorem C141_derivatives_partial (s : Fin 6 → ℝ) (a : Var → ℝ) {T : ℝ} (h1 : 473 ≤ T) (h2 : T ≤ 873)
    (he : devVec (dS s a) ≠ 0) (hk : gr91.Switch s a T) (hX1 : tr3 (X1 a) = 0) (hX2 : tr3 (X2 a) = 0) :
    gr91.flow.CorrectAt s a T :=
  have h := (C141_sound h1 h2).2
  C140_yaguchi_partial gr91 s a T ⟨he, Or.inr h.n, hk, hX1, hX2, Or.inr h.m⟩

/-- Concrete case: below the threshold. -/
example : gr91.flow.CorrectAt (uni 1) (onlySa 2) 500 := by
  have hD := (C141_sound (T := 500) (by norm_num) (by norm_num)).2.D
  refine C141_derivatives_partial _ _ (by norm_num) (by norm_num) (by rw [dS_onlySa]; exact devVec_uni one_pos) (Or.inl ?_)
    (by simp [tr3, X1, onlySa]) (by simp [tr3, X2, onlySa])
  have : ¬ gr91.over (uni 1) (onlySa 2) 500 > 0 := by
    rw [Par.over, dS_onlySa, J2_uni, not_lt]
    exact div_nonpos_of_nonpos_of_nonneg (by norm_num [onlySa]) hD.le
  rw [Par.y, if_neg this]
  exact logTol_pos

end Neml.Yaguchi
