import Verif.Model.DriverTests

/-!
# C129: classification of a cyclic response
-/

namespace Neml.DriverTests

/-- How severe a class is. -/
def Class.rank : Class → ℕ
  | .elastic => 0
  | .elasticShakedown => 1
  | .plasticShakedown => 2
  | .ratcheting => 3

/-- **C129.** Looser tolerances never give a more severe class. -/
theorem C129_tolerance (ua ub pb e1a e1b e2a e2b rtol rtol' atol atol' : ℝ) (hr : rtol ≤ rtol') (ha : atol ≤ atol') :
    (classify ua ub pb e1a e1b e2a e2b rtol' atol').rank ≤ (classify ua ub pb e1a e1b e2a e2b rtol atol).rank := by
  have hu : ∀ a b : ℝ, |b - a| < rtol * |b| → |b - a| < rtol' * |b| := fun a b h =>
    h.trans_le (mul_le_mul_of_nonneg_right hr (abs_nonneg _))
  unfold classify
  by_cases h1 : |pb| < atol
  · rw [if_pos h1, if_pos (h1.trans_le ha)]
  · rw [if_neg h1]
    by_cases h1' : |pb| < atol'
    · rw [if_pos h1']; exact Nat.zero_le _
    · rw [if_neg h1']
      by_cases h2 : |ub - ua| < rtol * |ub|
      · rw [if_pos h2, if_pos (hu _ _ h2)]
      · rw [if_neg h2]
        by_cases h2' : |ub - ua| < rtol' * |ub|
        · rw [if_pos h2']
          split_ifs <;> decide
        · rw [if_neg h2']
          by_cases h3 : |e1b - e1a| < rtol * |e1b| ∧ |e2b - e2a| < rtol * |e2b|
          · rw [if_pos h3, if_pos ⟨hu _ _ h3.1, hu _ _ h3.2⟩]
          · rw [if_neg h3]
            split_ifs <;> decide

/-- **C129.** The class does not depend on the units: of energy (with the absolute tolerance, which is one) and of each of
the strains. -/
theorem C129_units (ua ub pb e1a e1b e2a e2b rtol atol k l m : ℝ) (hk : 0 < k) (hl : 0 < l) (hm : 0 < m) :
    classify (k * ua) (k * ub) (k * pb) (l * e1a) (l * e1b) (m * e2a) (m * e2b) rtol (k * atol) =
      classify ua ub pb e1a e1b e2a e2b rtol atol := by
  have h : ∀ c a b : ℝ, 0 < c → (|c * b - c * a| < rtol * |c * b| ↔ |b - a| < rtol * |b|) := by
    intro c a b hc
    rw [← mul_sub, abs_mul, abs_mul, abs_of_pos hc, mul_left_comm, mul_lt_mul_iff_right₀ hc]
  have hp : |k * pb| < k * atol ↔ |pb| < atol := by
    rw [abs_mul, abs_of_pos hk, mul_lt_mul_iff_right₀ hk]
  unfold classify
  simp only [h k ua ub hk, h l e1a e1b hl, h m e2a e2b hm, hp]

/-- **C129.** A response without dissipation is elastic, one that then needs no more work is shakedown, one with equal strains
(that are not zero) in both cycles is no ratcheting, and one with a strain that grows, or with a strain that changes sign, is
ratcheting if it dissipates and needs work. -/
theorem C129_classes_partial (ua ub pb e1a e1b e2a e2b rtol atol : ℝ) (hr : 0 < rtol) (hr1 : rtol ≤ 1) (ha : 0 < atol) :
    (pb = 0 → classify ua ub pb e1a e1b e2a e2b rtol atol = .elastic) ∧
    (ua = ub → ub ≠ 0 → atol ≤ |pb| → classify ua ub pb e1a e1b e2a e2b rtol atol = .elasticShakedown) ∧
    (e1a = e1b → e2a = e2b → e1b ≠ 0 → e2b ≠ 0 → classify ua ub pb e1a e1b e2a e2b rtol atol ≠ .ratcheting) ∧
    (atol ≤ |pb| → rtol * |ub| ≤ |ub - ua| → (e1a * e1b ≤ 0 ∨ e2a * e2b ≤ 0 ∨ |e1a| * (1 + rtol) ≤ (1 - rtol) * |e1b| ∨
      |e2a| * (1 + rtol) ≤ (1 - rtol) * |e2b|) → classify ua ub pb e1a e1b e2a e2b rtol atol = .ratcheting) := by
  have key : ∀ a b : ℝ, (a * b ≤ 0 ∨ |a| * (1 + rtol) ≤ (1 - rtol) * |b|) → ¬ |b - a| < rtol * |b| := by
    intro a b h hlt
    rcases h with h | h
    · have h1 : |b| ≤ |b - a| := by
        refine sq_le_sq.1 ?_
        nlinarith [sq_nonneg a]
      have h2 : rtol * |b| ≤ |b| := mul_le_of_le_one_left (abs_nonneg _) hr1
      linarith
    · have h1 : |b| - |a| ≤ |b - a| := abs_sub_abs_le_abs_sub b a
      nlinarith [abs_nonneg a]
  refine ⟨fun h => ?_, fun h h0 hp => ?_, fun h1 h2 h3 h4 => ?_, fun hp hu h => ?_⟩
  · unfold classify
    rw [if_pos (by rw [h, abs_zero]; exact ha)]
  · unfold classify
    rw [if_neg (not_lt.2 hp), if_pos (by rw [h, sub_self, abs_zero]; exact mul_pos hr (abs_pos.2 h0))]
  · unfold classify
    split_ifs with a b c
    · decide
    · decide
    · decide
    · refine absurd ⟨?_, ?_⟩ c
      · rw [h1, sub_self, abs_zero]; exact mul_pos hr (abs_pos.2 h3)
      · rw [h2, sub_self, abs_zero]; exact mul_pos hr (abs_pos.2 h4)
  · unfold classify
    rw [if_neg (not_lt.2 hp), if_neg (not_lt.2 hu), if_neg]
    rintro ⟨c1, c2⟩
    rcases h with h | h | h | h
    · exact key _ _ (Or.inl h) c1
    · exact key _ _ (Or.inl h) c2
    · exact key _ _ (Or.inr h) c1
    · exact key _ _ (Or.inr h) c2

/-- **C129, disagreement.** A response that repeats exactly, with work dissipated in each cycle, is called ratcheting if one of
the strains compared is zero. -/
theorem C129_zero_strain (ua ub pb e rtol atol : ℝ) (hp : atol ≤ |pb|) (hu : rtol * |ub| ≤ |ub - ua|) :
    classify ua ub pb 0 0 e e rtol atol = .ratcheting := by
  unfold classify
  rw [if_neg (not_lt.2 hp), if_neg (not_lt.2 hu), if_neg (by simp)]

/-- One of each class, with the default tolerances. -/
example : classify 1 1 0 1 1 1 1 (1 / 10 ^ 4) (1 / 10 ^ 10) = .elastic ∧
    classify 1 1 1 1 1 1 1 (1 / 10 ^ 4) (1 / 10 ^ 10) = .elasticShakedown ∧
    classify 1 2 1 1 1 1 1 (1 / 10 ^ 4) (1 / 10 ^ 10) = .plasticShakedown ∧
    classify 1 2 1 1 2 1 2 (1 / 10 ^ 4) (1 / 10 ^ 10) = .ratcheting := by
  refine ⟨?_, ?_, ?_, ?_⟩ <;> · unfold classify; norm_num

end Neml.DriverTests
