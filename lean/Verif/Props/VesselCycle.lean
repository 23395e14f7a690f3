import Verif.Model.Vessel
import Mathlib.Tactic.Linarith
import Mathlib.Tactic.FieldSimp
import Mathlib.Tactic.Ring
import Mathlib.Tactic.NormNum

/-!
# C131: the temperature cycle through the wall
-/

namespace Neml.Vessel

/-- A sensible cycle: two different temperatures, positive rates, holds that are not negative. -/
structure Good (c : Cycle) : Prop where
  ne : c.T1 ≠ c.T2
  hot : 0 < c.hot
  cold : 0 < c.cold
  hold : 0 ≤ c.hold
  together : 0 ≤ c.together

/-- The length of a cycle: heating, hold, cooling, hold. -/
noncomputable def cycleLength (c : Cycle) : ℝ :=
  |c.T2 - c.T1| / c.hot + c.hold + |c.T2 - c.T1| / c.cold + c.together

/-- How far the outer side is from the initial temperature at the time `s` in the cycle: a trapezoid, rising with the
heating rate, bounded by the temperature range, and falling with the cooling rate such that the cooling ends after the
heating time, the hold and the cooling time. -/
noncomputable def trapezoid (c : Cycle) (s : ℝ) : ℝ :=
  min |c.T2 - c.T1| (min (c.hot * s)
    (max 0 (c.cold * (|c.T2 - c.T1| / c.hot + c.hold + |c.T2 - c.T1| / c.cold - s))))

section
variable {c : Cycle} (g : Good c)
include g

theorem Good.pos : 0 < |c.T2 - c.T1| := abs_pos.2 (sub_ne_zero.2 g.ne.symm)

theorem Good.thot : c.thot = |c.T2 - c.T1| / c.hot := by
  rw [Cycle.thot, Cycle.dT, abs_div, abs_of_pos g.hot]

theorem Good.tcold : c.tcold = |c.T2 - c.T1| / c.cold := by
  rw [Cycle.tcold, Cycle.dT, abs_div, abs_of_pos g.cold]

theorem Good.period : c.period = cycleLength c := by
  rw [Cycle.period, g.thot, g.tcold, cycleLength]

theorem Good.period_pos : 0 < cycleLength c := by
  have h1 := div_pos g.pos g.hot
  have h2 := div_pos g.pos g.cold
  have h3 := g.hold
  have h4 := g.together
  unfold cycleLength
  linarith

theorem Good.sign : c.T2 - c.T1 = |c.T2 - c.T1| * Real.sign (c.T2 - c.T1) := by
  rcases lt_or_gt_of_ne (sub_ne_zero.2 g.ne.symm) with h | h
  · rw [Real.sign_of_neg h, abs_of_neg h]; ring
  · rw [Real.sign_of_pos h, abs_of_pos h]; ring

theorem right_eq (s : ℝ) (h0 : 0 ≤ s) :
    c.right s = c.T1 + Real.sign (c.T2 - c.T1) * trapezoid c s := by
  have hp := g.pos
  have hh := g.hot
  have hc := g.cold
  have hd := g.hold
  have e2 := g.sign
  set a := |c.T2 - c.T1| with ha
  have h1 : c.hot * (a / c.hot) = a := by field_simp
  have h2 : c.cold * (a / c.cold) = a := by field_simp
  have p2 := div_pos hp hc
  have p1 := div_pos hp hh
  simp only [Cycle.right, trapezoid]
  rw [← ha, g.thot, g.tcold, ← ha]
  change (if s < a / c.hot then c.T1 + s * c.hot * Real.sign (c.T2 - c.T1)
    else if s < a / c.hot + c.hold then c.T2
    else if s < a / c.hot + c.hold + a / c.cold then
      c.T2 - (s - a / c.hot - c.hold) * c.cold * Real.sign (c.T2 - c.T1)
    else c.T1) = _
  by_cases i1 : s < a / c.hot
  · rw [if_pos i1]
    have q1 : c.hot * s < a := by rw [← h1]; exact mul_lt_mul_of_pos_left i1 hh
    have q2 : a ≤ c.cold * (a / c.hot + c.hold + a / c.cold - s) := by
      conv_lhs => rw [← h2]
      exact mul_le_mul_of_nonneg_left (by linarith) hc.le
    rw [max_eq_right (by linarith), min_eq_left (b := c.cold * _) (by linarith), min_eq_right q1.le]
    ring
  · rw [if_neg i1]
    have q1 : a ≤ c.hot * s := by rw [← h1]; exact mul_le_mul_of_nonneg_left (not_lt.1 i1) hh.le
    by_cases i2 : s < a / c.hot + c.hold
    · rw [if_pos i2]
      have q2 : a ≤ c.cold * (a / c.hot + c.hold + a / c.cold - s) := by
        conv_lhs => rw [← h2]
        exact mul_le_mul_of_nonneg_left (by linarith) hc.le
      rw [min_eq_left (le_min q1 (le_trans q2 (le_max_right _ _)))]
      linarith
    · rw [if_neg i2]
      by_cases i3 : s < a / c.hot + c.hold + a / c.cold
      · rw [if_pos i3]
        have q2 : c.cold * (a / c.hot + c.hold + a / c.cold - s) ≤ a := by
          conv_rhs => rw [← h2]
          exact mul_le_mul_of_nonneg_left (by linarith [not_lt.1 i2]) hc.le
        have q3 : 0 ≤ c.cold * (a / c.hot + c.hold + a / c.cold - s) := mul_nonneg hc.le (by linarith)
        rw [max_eq_right q3, min_eq_right (a := c.hot * s) (by linarith), min_eq_right q2]
        have : c.cold * (a / c.hot + c.hold + a / c.cold - s) = a - (s - a / c.hot - c.hold) * c.cold := by
          linear_combination h2
        rw [this]
        linear_combination e2
      · rw [if_neg i3]
        have q3 : c.cold * (a / c.hot + c.hold + a / c.cold - s) ≤ 0 :=
          mul_nonpos_of_nonneg_of_nonpos hc.le (by linarith [not_lt.1 i3])
        rw [max_eq_left q3, min_eq_right (a := c.hot * s) (mul_nonneg hh.le h0), min_eq_right hp.le]
        ring

theorem phase_eq (t s : ℝ) (k : ℤ) (h0 : 0 ≤ s) (h1 : s < cycleLength c)
    (h : t = c.delay + k * cycleLength c + s) : c.phase t = s := by
  have hp := g.period_pos
  have : ⌊(t - c.delay) / c.period⌋ = k := by
    rw [Int.floor_eq_iff, g.period, le_div_iff₀ hp, div_lt_iff₀ hp]
    constructor <;> nlinarith
  rw [Cycle.phase, this, g.period, h]
  ring

/-- Every time after the delay is some time in some cycle. -/
theorem phase_exists (t : ℝ) : ∃ (k : ℤ) (s : ℝ), 0 ≤ s ∧ s < cycleLength c ∧ t = c.delay + k * cycleLength c + s := by
  have hp := g.period_pos
  refine ⟨⌊(t - c.delay) / cycleLength c⌋, (t - c.delay) - cycleLength c * ⌊(t - c.delay) / cycleLength c⌋, ?_, ?_, ?_⟩
  · have := Int.floor_le ((t - c.delay) / cycleLength c)
    rw [le_div_iff₀ hp] at this
    linarith
  · have := Int.lt_floor_add_one ((t - c.delay) / cycleLength c)
    rw [div_lt_iff₀ hp] at this
    linarith
  · ring

/-- **C131.** The temperature is linear through the wall between the initial temperature at the inner side and the outer
side, which follows the trapezoid in every cycle. -/
theorem C131_cycle (ri ro r s : ℝ) (hr : ri < ro) (k : ℕ) (h0 : 0 ≤ s) (h1 : s < cycleLength c) :
    c.gradient ri ro r (c.delay + k * cycleLength c + s) =
      some (c.T1 + (r - ri) / (ro - ri) * (Real.sign (c.T2 - c.T1) * trapezoid c s)) := by
  have hp := g.period_pos
  have hk : (0 : ℝ) ≤ k * cycleLength c := mul_nonneg (Nat.cast_nonneg k) hp.le
  rw [Cycle.gradient, if_neg (by rintro (h | h); exacts [g.hot.ne' h, g.cold.ne' h]), if_neg (by linarith),
    if_neg (by rw [g.period]; rintro (h | h); exacts [hp.ne' h, by linarith])]
  simp only
  rw [phase_eq g _ s k h0 h1 (by simp), right_eq g s h0]
  congr 1
  ring

/-- **C131.** Before the cycling starts the wall has the initial temperature. -/
theorem C131_delay (ri ro r t : ℝ) (h : t < c.delay) : c.gradient ri ro r t = some c.T1 := by
  rw [Cycle.gradient, if_neg (by rintro (h | h); exacts [g.hot.ne' h, g.cold.ne' h]), if_pos h]

theorem trapezoid_nonneg (s : ℝ) (h0 : 0 ≤ s) : 0 ≤ trapezoid c s :=
  le_min (abs_nonneg _) (le_min (mul_nonneg g.hot.le h0) (le_max_left _ _))

omit g in
theorem trapezoid_le (s : ℝ) : trapezoid c s ≤ |c.T2 - c.T1| := min_le_left _ _

/-- **C131.** The temperature of the wall is always between the two temperatures. -/
theorem C131_range (ri ro r t : ℝ) (h1 : ri ≤ r) (h2 : r ≤ ro) (hr : ri < ro) :
    ∃ T, c.gradient ri ro r t = some T ∧ min c.T1 c.T2 ≤ T ∧ T ≤ max c.T1 c.T2 := by
  by_cases ht : t < c.delay
  · exact ⟨_, C131_delay g ri ro r t ht, min_le_left _ _, le_max_left _ _⟩
  · obtain ⟨k, s, hs0, hs1, e⟩ := phase_exists g t
    have hp := g.period_pos
    have hk : 0 ≤ k := by
      by_contra h
      have : (k : ℝ) ≤ -1 := by exact_mod_cast (by omega : k ≤ -1)
      have : (k : ℝ) * cycleLength c ≤ -1 * cycleLength c := mul_le_mul_of_nonneg_right this hp.le
      linarith [not_lt.1 ht]
    lift k to ℕ using hk
    refine ⟨_, by rw [e]; exact C131_cycle g ri ro r s hr k hs0 hs1, ?_⟩
    have x0 : 0 ≤ (r - ri) / (ro - ri) := div_nonneg (by linarith) (by linarith)
    have x1 : (r - ri) / (ro - ri) ≤ 1 := (div_le_one (by linarith)).2 (by linarith)
    have w0 := trapezoid_nonneg g s hs0
    have w1 := trapezoid_le (c := c) s
    have es := g.sign
    set x := (r - ri) / (ro - ri)
    set w := trapezoid c s
    have y0 : 0 ≤ x * w := mul_nonneg x0 w0
    have y1 : x * w ≤ |c.T2 - c.T1| := le_trans (mul_le_of_le_one_left w0 x1) w1
    rcases lt_or_gt_of_ne (sub_ne_zero.2 g.ne.symm) with h | h
    · rw [Real.sign_of_neg h]
      rw [abs_of_neg h] at y1
      rw [min_eq_right (by linarith), max_eq_left (by linarith)]
      constructor <;> nlinarith
    · rw [Real.sign_of_pos h]
      rw [abs_of_pos h] at y1
      rw [min_eq_left (by linarith), max_eq_right (by linarith)]
      constructor <;> nlinarith

/-- **C131.** During every hold the outer side has the hot temperature; in the hold between the cycles the whole wall has
the initial temperature. -/
theorem C131_holds (ri ro : ℝ) (hr : ri < ro) (k : ℕ) (s : ℝ) :
    (0 ≤ s → s ≤ c.hold →
      c.gradient ri ro ro (c.delay + k * cycleLength c + |c.T2 - c.T1| / c.hot + s) = some c.T2) ∧
    (∀ r, 0 ≤ s → s ≤ c.together →
      c.gradient ri ro r (c.delay + k * cycleLength c + (cycleLength c - c.together) + s) = some c.T1) := by
  have hp := g.pos
  have p1 := div_pos hp g.hot
  have p2 := div_pos hp g.cold
  have hP := g.period_pos
  have ht := g.together
  have hh := g.hold
  constructor
  · intro h0 h1
    have := C131_cycle g ri ro ro (|c.T2 - c.T1| / c.hot + s) hr k (by linarith)
      (by unfold cycleLength; linarith)
    rw [← add_assoc] at this
    rw [this, div_self (by linarith)]
    congr 1
    rw [trapezoid, min_eq_left]
    · linear_combination -g.sign
    · apply le_min
      · rw [mul_add, mul_div_cancel₀ _ g.hot.ne']
        nlinarith [g.hot]
      · refine le_trans ?_ (le_max_right _ _)
        have : c.cold * (|c.T2 - c.T1| / c.cold) = |c.T2 - c.T1| := mul_div_cancel₀ _ g.cold.ne'
        nlinarith [mul_nonneg g.cold.le (sub_nonneg.2 h1)]
  · intro r h0 h1
    rcases eq_or_lt_of_le h1 with h | h
    · have e : c.delay + k * cycleLength c + (cycleLength c - c.together) + s =
          c.delay + (k + 1 : ℕ) * cycleLength c + 0 := by push_cast; rw [h]; ring
      rw [e, C131_cycle g ri ro r 0 hr (k + 1) le_rfl hP]
      congr 1
      rw [trapezoid, mul_zero, min_eq_left (le_max_left _ _), min_eq_right hp.le]
      ring
    · have := C131_cycle g ri ro r (cycleLength c - c.together + s) hr k (by unfold cycleLength; linarith) (by linarith)
      rw [← add_assoc] at this
      rw [this]
      congr 1
      rw [trapezoid, max_eq_left (by
        refine mul_nonpos_of_nonneg_of_nonpos g.cold.le ?_
        unfold cycleLength
        linarith), min_eq_right (a := c.hot * _) (mul_nonneg g.hot.le (by unfold cycleLength; linarith)),
        min_eq_right hp.le]
      ring

theorem trapezoid_lip (s s' : ℝ) : |trapezoid c s - trapezoid c s'| ≤ max c.hot c.cold * |s - s'| := by
  unfold trapezoid
  refine le_trans (abs_min_sub_min_le_max _ _ _ _) (max_le ?_ ?_)
  · rw [sub_self, abs_zero]
    exact mul_nonneg (le_trans g.hot.le (le_max_left _ _)) (abs_nonneg _)
  · refine le_trans (abs_min_sub_min_le_max _ _ _ _) (max_le ?_ ?_)
    · rw [← mul_sub, abs_mul, abs_of_pos g.hot]
      exact mul_le_mul_of_nonneg_right (le_max_left _ _) (abs_nonneg _)
    · refine le_trans (abs_max_sub_max_le_max _ _ _ _) (max_le ?_ ?_)
      · rw [sub_self, abs_zero]
        exact mul_nonneg (le_trans g.hot.le (le_max_left _ _)) (abs_nonneg _)
      · rw [← mul_sub, abs_mul, abs_of_pos g.cold, sub_sub_sub_cancel_left, abs_sub_comm]
        exact mul_le_mul_of_nonneg_right (le_max_right _ _) (abs_nonneg _)

theorem trapezoid_zero : trapezoid c 0 = 0 := by
  rw [trapezoid, mul_zero, min_eq_left (le_max_left _ _), min_eq_right g.pos.le]

theorem trapezoid_end : trapezoid c (cycleLength c) = 0 := by
  rw [trapezoid, max_eq_left (by
    refine mul_nonpos_of_nonneg_of_nonpos g.cold.le ?_
    unfold cycleLength
    linarith [g.together]), min_eq_right (a := c.hot * _) (mul_nonneg g.hot.le g.period_pos.le),
    min_eq_right g.pos.le]

/-- The rise above the initial temperature at all times. -/
theorem rise_exists (t : ℝ) : ∃ w, (∀ ri ro r, ri < ro →
      c.gradient ri ro r t = some (c.T1 + (r - ri) / (ro - ri) * (Real.sign (c.T2 - c.T1) * w))) ∧
    ((t < c.delay ∧ w = 0) ∨ ∃ (k : ℕ) (s : ℝ), 0 ≤ s ∧ s < cycleLength c ∧ t = c.delay + k * cycleLength c + s ∧
      w = trapezoid c s) := by
  by_cases ht : t < c.delay
  · refine ⟨0, fun ri ro r _ => ?_, Or.inl ⟨ht, rfl⟩⟩
    rw [C131_delay g ri ro r t ht]
    simp
  · obtain ⟨k, s, hs0, hs1, e⟩ := phase_exists g t
    have hp := g.period_pos
    have hk : 0 ≤ k := by
      by_contra h
      have : (k : ℝ) ≤ -1 := by exact_mod_cast (by omega : k ≤ -1)
      have : (k : ℝ) * cycleLength c ≤ -1 * cycleLength c := mul_le_mul_of_nonneg_right this hp.le
      linarith [not_lt.1 ht]
    lift k to ℕ using hk
    refine ⟨_, fun ri ro r hr => by rw [e]; exact C131_cycle g ri ro r s hr k hs0 hs1, Or.inr ⟨k, s, hs0, hs1, ?_, rfl⟩⟩
    simpa using e

theorem lip_aux {t t' w w' : ℝ} (h : t ≤ t')
    (h1 : (t < c.delay ∧ w = 0) ∨ ∃ (k : ℕ) (s : ℝ), 0 ≤ s ∧ s < cycleLength c ∧ t = c.delay + k * cycleLength c + s ∧
      w = trapezoid c s)
    (h2 : (t' < c.delay ∧ w' = 0) ∨ ∃ (k : ℕ) (s : ℝ), 0 ≤ s ∧ s < cycleLength c ∧
      t' = c.delay + k * cycleLength c + s ∧ w' = trapezoid c s) :
    |w - w'| ≤ max c.hot c.cold * (t' - t) := by
  have hL : 0 ≤ max c.hot c.cold := le_trans g.hot.le (le_max_left _ _)
  have hp := g.period_pos
  have z := trapezoid_zero g
  have start : ∀ s, 0 ≤ s → |trapezoid c s| ≤ max c.hot c.cold * s := by
    intro s hs
    have := trapezoid_lip g s 0
    rwa [z, sub_zero, sub_zero, abs_of_nonneg hs] at this
  have stop : ∀ s, s ≤ cycleLength c → |trapezoid c s| ≤ max c.hot c.cold * (cycleLength c - s) := by
    intro s hs
    have := trapezoid_lip g s (cycleLength c)
    rwa [trapezoid_end g, sub_zero, abs_sub_comm s, abs_of_nonneg (sub_nonneg.2 hs)] at this
  rcases h1 with ⟨a, rfl⟩ | ⟨k, s, hs0, hs1, e, rfl⟩
  · rcases h2 with ⟨b, rfl⟩ | ⟨k', s', hs0', hs1', e', rfl⟩
    · rw [sub_zero, abs_zero]
      exact mul_nonneg hL (by linarith)
    · rw [zero_sub, abs_neg]
      refine le_trans (start s' hs0') (mul_le_mul_of_nonneg_left ?_ hL)
      have : (0 : ℝ) ≤ k' * cycleLength c := mul_nonneg (Nat.cast_nonneg _) hp.le
      linarith
  · rcases h2 with ⟨b, rfl⟩ | ⟨k', s', hs0', hs1', e', rfl⟩
    · have : (0 : ℝ) ≤ k * cycleLength c := mul_nonneg (Nat.cast_nonneg _) hp.le
      linarith
    · rcases lt_trichotomy k k' with q | q | q
      · have q' : (k : ℝ) + 1 ≤ k' := by exact_mod_cast q
        have : ((k : ℝ) + 1) * cycleLength c ≤ k' * cycleLength c := mul_le_mul_of_nonneg_right q' hp.le
        calc |trapezoid c s - trapezoid c s'| ≤ |trapezoid c s| + |trapezoid c s'| := by
              rw [sub_eq_add_neg, ← abs_neg (trapezoid c s')]
              exact abs_add_le _ _
          _ ≤ max c.hot c.cold * (cycleLength c - s) + max c.hot c.cold * s' :=
              add_le_add (stop s hs1.le) (start s' hs0')
          _ = max c.hot c.cold * (cycleLength c - s + s') := by ring
          _ ≤ _ := mul_le_mul_of_nonneg_left (by linarith) hL
      · subst q
        have := trapezoid_lip g s s'
        rwa [abs_sub_comm s, abs_of_nonneg (by linarith : 0 ≤ s' - s), show s' - s = t' - t by linarith] at this
      · have q' : (k' : ℝ) + 1 ≤ k := by exact_mod_cast q
        have : ((k' : ℝ) + 1) * cycleLength c ≤ k * cycleLength c := mul_le_mul_of_nonneg_right q' hp.le
        linarith

/-- **C131.** Nowhere in the wall does the temperature change faster than at the larger one of the two rates, at no time:
there are no jumps, neither when a phase nor when a cycle ends. -/
theorem C131_rate (ri ro r t t' : ℝ) (h1 : ri ≤ r) (h2 : r ≤ ro) (hr : ri < ro) :
    ∃ T T', c.gradient ri ro r t = some T ∧ c.gradient ri ro r t' = some T' ∧
      |T - T'| ≤ max c.hot c.cold * |t - t'| := by
  obtain ⟨w, e, hw⟩ := rise_exists g t
  obtain ⟨w', e', hw'⟩ := rise_exists g t'
  refine ⟨_, _, e ri ro r hr, e' ri ro r hr, ?_⟩
  have x0 : 0 ≤ (r - ri) / (ro - ri) := div_nonneg (by linarith) (by linarith)
  have x1 : (r - ri) / (ro - ri) ≤ 1 := (div_le_one (by linarith)).2 (by linarith)
  have key : |w - w'| ≤ max c.hot c.cold * |t - t'| := by
    rcases le_total t t' with q | q
    · rw [abs_sub_comm t, abs_of_nonneg (sub_nonneg.2 q)]
      exact lip_aux g q hw hw'
    · rw [abs_sub_comm w, abs_of_nonneg (sub_nonneg.2 q)]
      exact lip_aux g q hw' hw
  have es : |Real.sign (c.T2 - c.T1)| = 1 := by
    rcases lt_or_gt_of_ne (sub_ne_zero.2 g.ne.symm) with h | h
    · rw [Real.sign_of_neg h]; simp
    · rw [Real.sign_of_pos h]; simp
  rw [show ∀ a x σ : ℝ, a + x * (σ * w) - (a + x * (σ * w')) = x * (σ * (w - w')) by intros; ring, abs_mul, abs_mul,
    es, one_mul, abs_of_nonneg x0]
  exact le_trans (mul_le_of_le_one_left (abs_nonneg _) x1) key

end

/-- **C131, disagreement.** The lengths of the phases are computed with the size of the rates, the temperatures with
their signs: for a negative heating rate the outer side leaves the range of the two temperatures. -/
theorem C131_range_disagreement (c : Cycle) (hne : c.T1 ≠ c.T2) (hh : c.hot < 0) (hc : c.cold ≠ 0) (hd : 0 ≤ c.hold)
    (ht : 0 ≤ c.together) (ri ro : ℝ) (hr : ri < ro) :
    ∃ T, c.gradient ri ro ro (c.delay + |c.T2 - c.T1| / |c.hot| / 2) = some T ∧
      (T < min c.T1 c.T2 ∨ max c.T1 c.T2 < T) := by
  have hp : 0 < |c.T2 - c.T1| := abs_pos.2 (sub_ne_zero.2 hne.symm)
  have p1 : 0 < |c.T2 - c.T1| / |c.hot| := div_pos hp (abs_pos.2 hh.ne)
  have p2 : 0 < |c.T2 - c.T1| / |c.cold| := div_pos hp (abs_pos.2 hc)
  have e1 : c.thot = |c.T2 - c.T1| / |c.hot| := by rw [Cycle.thot, Cycle.dT, abs_div]
  have e2 : c.tcold = |c.T2 - c.T1| / |c.cold| := by rw [Cycle.tcold, Cycle.dT, abs_div]
  have hP : 0 < c.period := by rw [Cycle.period, e1, e2]; linarith
  have ph : c.phase (c.delay + |c.T2 - c.T1| / |c.hot| / 2) = |c.T2 - c.T1| / |c.hot| / 2 := by
    have : ⌊(c.delay + |c.T2 - c.T1| / |c.hot| / 2 - c.delay) / c.period⌋ = 0 := by
      rw [Int.floor_eq_zero_iff, add_sub_cancel_left]
      refine ⟨div_nonneg (by linarith) hP.le, (div_lt_one hP).2 ?_⟩
      rw [Cycle.period, e1, e2]
      linarith
    rw [Cycle.phase, this]
    simp
  refine ⟨_, by
    rw [Cycle.gradient, if_neg (by rintro (h | h); exacts [hh.ne h, hc h]), if_neg (by linarith),
      if_neg (by rintro (h | h); exacts [hP.ne' h, by linarith])], ?_⟩
  rw [ph, Cycle.right, if_pos (by rw [e1]; linarith), div_self (by linarith)]
  have e3 : |c.T2 - c.T1| / |c.hot| / 2 * c.hot = - |c.T2 - c.T1| / 2 := by
    rw [abs_of_neg hh]
    have := hh.ne
    field_simp
  rw [e3]
  rw [Cycle.dT]
  rcases lt_or_gt_of_ne (sub_ne_zero.2 hne.symm) with h | h
  · right
    rw [Real.sign_of_neg h, abs_of_neg h, max_eq_left (by linarith)]
    linarith
  · left
    rw [Real.sign_of_pos h, abs_of_pos h, min_eq_left (by linarith)]
    linarith

/-- A cycle between 300 and 500 with a hold. -/
def sample : Cycle := ⟨300, 500, 100, 50, 10, 5, 2⟩

theorem sample_good : Good sample := by
  constructor <;> norm_num [sample]

/-- Beside C131: half way up in the first cycle, in the middle of the wall. -/
example : sample.gradient 1 2 1.5 (2 + 0 * cycleLength sample + 1) = some 350 := by
  have := C131_cycle sample_good 1 2 1.5 1 (by norm_num) 0 (by norm_num) (by norm_num [cycleLength, sample, abs_of_pos])
  rw [show sample.delay = 2 from rfl] at this
  push_cast at this
  rw [this]
  congr 1
  rw [Real.sign_of_pos (by norm_num [sample])]
  norm_num [trapezoid, sample, abs_of_pos]

example : ({ sample with hot := -100 } : Cycle).hot < 0 := by norm_num

end Neml.Vessel
