import Verif.Props.YaguchiPar
import Mathlib.Topology.Order.LeftRight
import Mathlib.Topology.Algebra.Polynomial

/-!
# The Yaguchi flow rule: the parameters where their formulas change (C181)
-/

namespace Neml.Yaguchi

open Filter Topology Set

/-- Spec: a parameter that is continuous except at some temperatures, and where, as such a temperature is reached from
below, the value changes by at most the part `r` of itself. -/
def Smooth (f : ℝ → ℝ) (breaks : List ℝ) (r : ℝ) : Prop :=
  (∀ T, T ∉ breaks → ContinuousAt f T) ∧
  ∀ T ∈ breaks, ContinuousWithinAt f (Ici T) T ∧ ∃ L, Tendsto f (𝓝[<] T) (𝓝 L) ∧ |f T - L| ≤ r * |L|

theorem tends_left {f g : ℝ → ℝ} {a b : ℝ} (hb : b < a) (hg : Continuous g) (h : ∀ x, b ≤ x → x < a → f x = g x) :
    Tendsto f (𝓝[<] a) (𝓝 (g a)) := by
  refine Tendsto.congr' ?_ (hg.tendsto a |>.mono_left nhdsWithin_le_nhds)
  filter_upwards [Ioo_mem_nhdsLT hb] with x hx
  exact (h x hx.1.le hx.2).symm

theorem cont_right {f g : ℝ → ℝ} {a b : ℝ} (hb : a < b) (hg : Continuous g) (h : ∀ x, a ≤ x → x < b → f x = g x) :
    ContinuousWithinAt f (Ici a) a := by
  refine (hg.continuousAt (x := a)).continuousWithinAt.congr_of_eventuallyEq ?_ (h a le_rfl hb)
  filter_upwards [Ico_mem_nhdsGE hb] with x hx
  exact h x hx.1 hx.2

theorem cont_open {f g : ℝ → ℝ} {s : Set ℝ} (hs : IsOpen s) (hg : Continuous g) (h : ∀ x ∈ s, f x = g x) {T : ℝ}
    (hT : T ∈ s) : ContinuousAt f T := by
  refine (hg.continuousAt (x := T)).congr ?_
  filter_upwards [hs.mem_nhds hT] with x hx
  exact (h x hx).symm

/-- Two formulas, one below `a` and one from there on. -/
theorem smooth_two {f g₁ g₂ : ℝ → ℝ} {a r : ℝ} (h1 : Continuous g₁) (h2 : Continuous g₂)
    (hf : ∀ x, f x = if x < a then g₁ x else g₂ x) (hj : |g₂ a - g₁ a| ≤ r * |g₁ a|) : Smooth f [a] r := by
  refine ⟨fun T hT => ?_, fun T hT => ?_⟩
  · have hne : T ≠ a := by simpa using hT
    rcases lt_or_gt_of_ne hne with h | h
    · exact cont_open isOpen_Iio h1 (fun x hx => by rw [hf, if_pos (show x < a from hx)]) (show T ∈ Iio a from h)
    · exact cont_open isOpen_Ioi h2 (fun x hx => by rw [hf, if_neg (not_lt.2 (le_of_lt hx))]) (show T ∈ Ioi a from h)
  · obtain rfl : T = a := by simpa using hT
    refine ⟨cont_right (lt_add_one T) h2 (fun x hx _ => by rw [hf, if_neg (not_lt.2 hx)]), g₁ T,
      tends_left (sub_one_lt T) h1 (fun x _ hx => by rw [hf, if_pos hx]), ?_⟩
    rw [hf, if_neg (lt_irrefl T)]
    exact hj

/-- Three formulas. -/
theorem smooth_three {f g₁ g₂ g₃ : ℝ → ℝ} {a b r : ℝ} (hab : a < b) (h1 : Continuous g₁) (h2 : Continuous g₂)
    (h3 : Continuous g₃) (hf : ∀ x, f x = if x < a then g₁ x else if x < b then g₂ x else g₃ x)
    (hj : |g₂ a - g₁ a| ≤ r * |g₁ a|) (hk : |g₃ b - g₂ b| ≤ r * |g₂ b|) : Smooth f [a, b] r := by
  have e1 : ∀ x, x < a → f x = g₁ x := fun x h => by rw [hf, if_pos h]
  have e2 : ∀ x, a ≤ x → x < b → f x = g₂ x := fun x h h' => by rw [hf, if_neg (not_lt.2 h), if_pos h']
  have e3 : ∀ x, b ≤ x → f x = g₃ x := fun x h => by
    rw [hf, if_neg (not_lt.2 (hab.le.trans h)), if_neg (not_lt.2 h)]
  refine ⟨fun T hT => ?_, fun T hT => ?_⟩
  · simp only [List.mem_cons, List.not_mem_nil, or_false, not_or] at hT
    rcases lt_or_gt_of_ne hT.1 with h | h
    · exact cont_open isOpen_Iio h1 (fun x hx => e1 x hx) (show T ∈ Iio a from h)
    · rcases lt_or_gt_of_ne hT.2 with h' | h'
      · exact cont_open isOpen_Ioo h2 (fun x hx => e2 x hx.1.le hx.2) (show T ∈ Ioo a b from ⟨h, h'⟩)
      · exact cont_open isOpen_Ioi h3 (fun x hx => e3 x (le_of_lt hx)) (show T ∈ Ioi b from h')
  · simp only [List.mem_cons, List.not_mem_nil, or_false] at hT
    rcases hT with rfl | rfl
    · refine ⟨cont_right hab h2 e2, g₁ T, tends_left (sub_one_lt T) h1 (fun x _ hx => e1 x hx), ?_⟩
      rw [e2 T le_rfl hab]
      exact hj
    · refine ⟨cont_right (lt_add_one T) h3 (fun x hx _ => e3 x hx), g₂ T, tends_left hab h2 e2, ?_⟩
      rw [e3 T le_rfl]
      exact hk

theorem exp_nat_bounds (n : ℕ) : (2.7182818283 : ℝ) ^ n ≤ Real.exp n ∧ Real.exp n ≤ (2.7182818286 : ℝ) ^ n := by
  have e : Real.exp n = Real.exp 1 ^ n := by rw [← Real.exp_nat_mul]; norm_num
  rw [e]
  constructor
  · gcongr
    exact Real.exp_one_gt_d9.le
  · gcongr
    exact Real.exp_one_lt_d9.le

theorem exp_small {x : ℝ} (h0 : 0 ≤ x) : 1 + x + x ^ 2 / 2 ≤ Real.exp x ∧ Real.exp x * (1 - x) ≤ 1 := by
  refine ⟨Real.quadratic_le_exp_of_nonneg h0, ?_⟩
  have h : Real.exp x * Real.exp (-x) = 1 := by rw [← Real.exp_add]; simp
  rw [← h]
  gcongr
  linarith [Real.add_one_le_exp (-x)]

set_option exponentiation.threshold 300 in
theorem g1_jump : |(5.336e-33 * Real.exp (4.470e-2 * 773) : ℝ) - 5.064e-137 * Real.exp (3.545e-1 * 773)| ≤
    0.06 * |5.064e-137 * Real.exp (3.545e-1 * 773)| := by
  have hL : Real.exp (3.545e-1 * 773) = Real.exp (274 : ℕ) * Real.exp 0.0285 := by
    rw [← Real.exp_add]; norm_num
  have hR : Real.exp (4.470e-2 * 773) * Real.exp 0.4469 = Real.exp (35 : ℕ) := by
    rw [← Real.exp_add]; norm_num
  have hR' : Real.exp (4.470e-2 * 773) = Real.exp (34 : ℕ) * Real.exp 0.5531 := by
    rw [← Real.exp_add]; norm_num
  obtain ⟨l1, l2⟩ := exp_nat_bounds 274
  obtain ⟨a1, a2⟩ := exp_small (x := 0.0285) (by norm_num)
  obtain ⟨-, r2⟩ := exp_nat_bounds 35
  obtain ⟨r1, -⟩ := exp_nat_bounds 34
  obtain ⟨b1, -⟩ := exp_small (x := 0.4469) (by norm_num)
  obtain ⟨c1, -⟩ := exp_small (x := 0.5531) (by norm_num)
  have L1 : (5.17e-18 : ℝ) ≤ 5.064e-137 * Real.exp (3.545e-1 * 773) := by
    rw [hL]
    calc (5.17e-18 : ℝ) ≤ 5.064e-137 * (2.7182818283 ^ 274 * (1 + 0.0285 + 0.0285 ^ 2 / 2)) := by norm_num
      _ ≤ _ := by gcongr
  have L2 : 5.064e-137 * Real.exp (3.545e-1 * 773) ≤ (5.18e-18 : ℝ) := by
    have a3 : Real.exp 0.0285 ≤ 1.0294 := by linarith
    rw [hL]
    calc 5.064e-137 * (Real.exp (274 : ℕ) * Real.exp 0.0285) ≤ 5.064e-137 * (2.7182818286 ^ 274 * 1.0294) := by gcongr
      _ ≤ _ := by norm_num
  have R1 : (5.18e-18 : ℝ) ≤ 5.336e-33 * Real.exp (4.470e-2 * 773) := by
    rw [hR']
    calc (5.18e-18 : ℝ) ≤ 5.336e-33 * (2.7182818283 ^ 34 * (1 + 0.5531 + 0.5531 ^ 2 / 2)) := by norm_num
      _ ≤ _ := by gcongr
  have R2 : 5.336e-33 * Real.exp (4.470e-2 * 773) ≤ (5.475e-18 : ℝ) := by
    have h : Real.exp (4.470e-2 * 773) * (1 + 0.4469 + 0.4469 ^ 2 / 2) ≤ 2.7182818286 ^ 35 := by
      calc Real.exp (4.470e-2 * 773) * (1 + 0.4469 + 0.4469 ^ 2 / 2) ≤ Real.exp (4.470e-2 * 773) * Real.exp 0.4469 := by
            gcongr
        _ ≤ _ := by rw [hR]; exact r2
    have h' : Real.exp (4.470e-2 * 773) ≤ 2.7182818286 ^ 35 / (1 + 0.4469 + 0.4469 ^ 2 / 2) :=
      (le_div_iff₀ (by norm_num)).2 h
    calc 5.336e-33 * Real.exp (4.470e-2 * 773) ≤ 5.336e-33 * (2.7182818286 ^ 35 / (1 + 0.4469 + 0.4469 ^ 2 / 2)) := by
          gcongr
      _ ≤ _ := by norm_num
  generalize 5.336e-33 * Real.exp (4.470e-2 * 773) = R at *
  generalize 5.064e-137 * Real.exp (3.545e-1 * 773) = L at *
  rw [abs_of_nonneg (by linarith), abs_of_nonneg (by linarith)]
  linarith

theorem g2_jump : |(2.817e-11 - 7.538e-14 * 773 + 5.039e-17 * 773 * 773 : ℝ) - 8.572e-108 * Real.exp (2.771e-1 * 773)| ≤
    0.19 * |8.572e-108 * Real.exp (2.771e-1 * 773)| := by
  have hL : Real.exp (2.771e-1 * 773) = Real.exp (214 : ℕ) * Real.exp 0.1983 := by
    rw [← Real.exp_add]; norm_num
  obtain ⟨l1, l2⟩ := exp_nat_bounds 214
  obtain ⟨a1, a2⟩ := exp_small (x := 0.1983) (by norm_num)
  have L1 : (9.06e-15 : ℝ) ≤ 8.572e-108 * Real.exp (2.771e-1 * 773) := by
    rw [hL]
    calc (9.06e-15 : ℝ) ≤ 8.572e-108 * (2.7182818283 ^ 214 * (1 + 0.1983 + 0.1983 ^ 2 / 2)) := by norm_num
      _ ≤ _ := by gcongr
  have L2 : 8.572e-108 * Real.exp (2.771e-1 * 773) ≤ (9.5e-15 : ℝ) := by
    have a3 : Real.exp 0.1983 ≤ 1.25 := by linarith
    rw [hL]
    calc 8.572e-108 * (Real.exp (214 : ℕ) * Real.exp 0.1983) ≤ 8.572e-108 * (2.7182818286 ^ 214 * 1.25) := by gcongr
      _ ≤ _ := by norm_num
  generalize 8.572e-108 * Real.exp (2.771e-1 * 773) = L at *
  rw [abs_of_nonneg (by linarith), abs_of_nonneg (by linarith)]
  linarith

theorem m_jump_lo : |(5.766e2 * Real.exp (-5.754e-3 * 673) : ℝ) - 1.200e1| ≤ 0.03 * |(1.200e1 : ℝ)| := by
  have hL : Real.exp (-5.754e-3 * 673) * Real.exp (4 : ℕ) = Real.exp 0.127558 := by
    rw [← Real.exp_add]; norm_num
  obtain ⟨l1, l2⟩ := exp_nat_bounds 4
  obtain ⟨a1, a2⟩ := exp_small (x := 0.127558) (by norm_num)
  have p := Real.exp_pos (-5.754e-3 * 673)
  generalize Real.exp (-5.754e-3 * 673) = L at *
  have h1 : L * 2.7182818283 ^ 4 ≤ 1.14621 := by
    calc L * 2.7182818283 ^ 4 ≤ L * Real.exp (4 : ℕ) := by gcongr
      _ ≤ _ := by rw [hL]; linarith
  have h2 : 1.1356 ≤ L * 2.7182818286 ^ 4 := by
    calc 1.1356 ≤ L * Real.exp (4 : ℕ) := by rw [hL]; linarith
      _ ≤ _ := by gcongr
  norm_num at h1 h2
  rw [abs_le, abs_of_nonneg (by norm_num)]
  constructor <;> linarith

theorem m_jump_hi : |(6.750 : ℝ) - 5.766e2 * Real.exp (-5.754e-3 * 773)| ≤ 0.03 * |5.766e2 * Real.exp (-5.754e-3 * 773)| := by
  have hL : Real.exp (-5.754e-3 * 773) * Real.exp (5 : ℕ) = Real.exp 0.552158 := by
    rw [← Real.exp_add]; norm_num
  have hU : Real.exp 0.552158 * Real.exp 0.447842 = Real.exp (1 : ℕ) := by
    rw [← Real.exp_add]; norm_num
  obtain ⟨l1, l2⟩ := exp_nat_bounds 5
  obtain ⟨-, u2⟩ := exp_nat_bounds 1
  obtain ⟨a1, -⟩ := exp_small (x := 0.552158) (by norm_num)
  obtain ⟨b1, -⟩ := exp_small (x := 0.447842) (by norm_num)
  have hu : Real.exp 0.552158 ≤ 1.757 := by
    have : Real.exp 0.552158 * (1 + 0.447842 + 0.447842 ^ 2 / 2) ≤ 2.7182818286 := by
      calc Real.exp 0.552158 * (1 + 0.447842 + 0.447842 ^ 2 / 2) ≤ Real.exp 0.552158 * Real.exp 0.447842 := by gcongr
        _ ≤ _ := by rw [hU]; simpa using u2
    linarith
  have p := Real.exp_pos (-5.754e-3 * 773)
  generalize Real.exp (-5.754e-3 * 773) = L at *
  have h1 : L * 2.7182818283 ^ 5 ≤ 1.757 := by
    calc L * 2.7182818283 ^ 5 ≤ L * Real.exp (5 : ℕ) := by gcongr
      _ ≤ _ := by rw [hL]; exact hu
  have h2 : 1.7045 ≤ L * 2.7182818286 ^ 5 := by
    calc 1.7045 ≤ L * Real.exp (5 : ℕ) := by rw [hL]; linarith
      _ ≤ _ := by gcongr
  norm_num at h1 h2
  rw [abs_le, abs_of_nonneg (by linarith)]
  constructor <;> linarith

/-- Spec: the parameter `B` if the linear formula ended at 673 K, where it meets the constant. -/
noncomputable def B673 (T : ℝ) : ℝ := if T < 673 then -6.340e1 + 6.850e-2 * T else -1.730e1

/-- **C181** the parameters given by more than one formula change by little where the formula changes: a recovery
modulus by 19 and 6 percent, all others by at most 3 percent. -/
theorem C181_smooth_partial :
    Smooth gr91.C1 [673, 773] 0.004 ∧ Smooth gr91.C2 [798] 0 ∧ Smooth gr91.a2 [773] 0.003 ∧ Smooth gr91.g1 [773] 0.06 ∧
    Smooth gr91.g2 [773] 0.19 ∧ Smooth gr91.m [673, 773] 0.03 ∧ Smooth gr91.A [673, 823] 0.005 ∧
    Smooth gr91.q [673, 823] 0.0003 := by
  refine ⟨?_, ?_, ?_, ?_, ?_, ?_, ?_, ?_⟩
  · exact smooth_three (by norm_num) (by fun_prop) (by fun_prop) (by fun_prop) (fun x => rfl) (by norm_num [abs_of_nonneg, abs_of_neg])
      (by norm_num [abs_of_nonneg, abs_of_neg])
  · exact smooth_two (by fun_prop) (by fun_prop) (fun x => rfl) (by norm_num [abs_of_nonneg, abs_of_neg])
  · exact smooth_two (by fun_prop) (by fun_prop) (fun x => rfl) (by norm_num [abs_of_nonneg, abs_of_neg])
  · exact smooth_two (by fun_prop) (by fun_prop) (fun x => rfl) g1_jump
  · exact smooth_two (by fun_prop) (by fun_prop) (fun x => rfl) g2_jump
  · exact smooth_three (by norm_num) (by fun_prop) (by fun_prop) (by fun_prop) (fun x => rfl) m_jump_lo m_jump_hi
  · exact smooth_three (by norm_num) (by fun_prop) (by fun_prop) (by fun_prop) (fun x => rfl) (by norm_num [abs_of_nonneg, abs_of_neg])
      (by norm_num [abs_of_nonneg, abs_of_neg])
  · exact smooth_three (by norm_num) (by fun_prop) (by fun_prop) (by fun_prop) (fun x => rfl) (by norm_num [abs_of_nonneg, abs_of_neg])
      (by norm_num [abs_of_nonneg, abs_of_neg])

/-- **C181** the parameters given by one formula have no jumps, the drag stress over the range of temperatures. -/
theorem C181_continuous : Continuous gr91.n ∧ Continuous gr91.a10 ∧ Continuous gr91.br ∧ Continuous gr91.bh ∧
    Continuous gr91.d ∧ ContinuousOn gr91.D (Icc 473 873) := by
  refine ⟨?_, ?_, ?_, ?_, ?_, ?_⟩
  · show Continuous fun _ : ℝ => _
    fun_prop
  · show Continuous fun T : ℝ => (2.082e3 - 8.110 * T + 1.321e-2 * T * T - 7.278e-6 * T * T * T : ℝ)
    fun_prop
  · show Continuous fun _ : ℝ => _
    fun_prop
  · show Continuous fun T : ℝ => (1.065e3 - 1.404 * T + 4.417e-4 * T * T : ℝ)
    fun_prop
  · show Continuous fun T : ℝ => (3.208 - 1.010e-2 * T + 1.012e-5 * T * T : ℝ)
    fun_prop
  · show ContinuousOn (fun T => baseD T ^ (-1 / 2.85 : ℝ)) _
    refine ContinuousOn.rpow_const ?_ fun T hT => Or.inl (gr91_D hT.1 hT.2).ne'
    unfold baseD
    fun_prop

/-- **C181** the rate sensitivity of the threshold does jump, by more than 60 percent, at 773 K; its two formulas meet
at 673 K, to within a ten-thousandth. -/
theorem C181_jump_disagreement : ¬ Smooth gr91.B [773] 0.6 ∧ Smooth B673 [673] 0.0001 := by
  constructor
  · intro h
    obtain ⟨-, L, hL, hj⟩ := h.2 773 (by simp)
    have h1 : Tendsto gr91.B (𝓝[<] (773 : ℝ)) (𝓝 (-6.340e1 + 6.850e-2 * 773)) :=
      tends_left (g := fun T => -6.340e1 + 6.850e-2 * T) (sub_one_lt _) (by fun_prop)
        (fun x _ hx => by simp only [gr91]; rw [if_pos hx])
    have h2 := tendsto_nhds_unique hL h1
    have h3 : gr91.B 773 = -1.730e1 := by simp only [gr91]; rw [if_neg (lt_irrefl _)]
    rw [h2, h3] at hj
    norm_num [abs_of_nonneg, abs_of_neg] at hj
  · exact smooth_two (by fun_prop) (by fun_prop) (fun x => rfl) (by norm_num [abs_of_nonneg, abs_of_neg])

/-- **C181** at any rate up to 10⁻⁵ the stress to which the threshold tends jumps up by more than 34 as
the temperature passes 773 K. -/
theorem C181_threshold_disagreement (r : ℝ) (h0 : 0 < r) (h1 : r ≤ 1 / 10 ^ 5) :
    ∃ L, Tendsto (fun T => gr91.A T + gr91.B T * log10 r) (𝓝[<] (773 : ℝ)) (𝓝 L) ∧
      L + 34 < gr91.A 773 + gr91.B 773 * log10 r := by
  have hlog : log10 r ≤ -5 := by
    have h10 : 0 < Real.log 10 := Real.log_pos (by norm_num)
    rw [log10, div_le_iff₀ h10]
    calc Real.log r ≤ Real.log (1 / 10 ^ 5) := Real.log_le_log h0 h1
      _ = -5 * Real.log 10 := by rw [one_div, Real.log_inv, Real.log_pow]; push_cast; ring
  refine ⟨_, tends_left (g := fun T => (-4.799e2 + 1.262 * T - 9.133e-4 * T * T) + (-6.340e1 + 6.850e-2 * T) * log10 r)
    (b := 700) (by norm_num) (by fun_prop) (fun x hx hx' => ?_), ?_⟩
  · simp only [gr91]
    rw [if_neg (by linarith), if_pos (by linarith), if_pos hx']
  · simp only [gr91]
    norm_num
    linarith

/-- Concrete case: the rate 10⁻⁵. -/
example : ∃ L, Tendsto (fun T => gr91.A T + gr91.B T * log10 (1 / 10 ^ 5)) (𝓝[<] (773 : ℝ)) (𝓝 L) ∧
    L + 34 < gr91.A 773 + gr91.B 773 * log10 (1 / 10 ^ 5) :=
  C181_threshold_disagreement _ (by norm_num) le_rfl

end Neml.Yaguchi
