import Verif.Model.Interpolate
import Mathlib.Topology.Order.OrderClosed
import Mathlib.Topology.Piecewise
import Mathlib.Tactic.Linarith
import Mathlib.Tactic.FieldSimp
import Mathlib.Tactic.Ring
import Mathlib.Tactic.SplitIfs
import Mathlib.Tactic.Continuity

/-!
# Helper lemmas about table lookup
-/

namespace Neml.Interp

theorem scan_le (x : ℝ) (l : List ℝ) : scan x l ≤ l.length := by
  induction l with
  | nil => simp [scan]
  | cons p l ih => rw [scan]; split_ifs <;> simp [ih]

theorem scan_eq (x : ℝ) (l : List ℝ) (k : Nat) (hk : k < l.length) (hx : x ≤ l[k])
    (hlt : ∀ j (hj : j < k), l[j]'(by omega) < x) : scan x l = k := by
  induction l generalizing k with
  | nil => simp at hk
  | cons p l ih =>
    cases k with
    | zero => simp only [List.getElem_cons_zero] at hx; simp [scan, hx]
    | succ k =>
      have h0 := hlt 0 (by omega)
      simp only [List.getElem_cons_zero] at h0
      rw [scan, if_neg (by linarith)]
      simp only [Nat.add_right_cancel_iff]
      refine ih k (by simpa using hk) (by simpa using hx) ?_
      intro j hj
      simpa using hlt (j + 1) (by omega)

theorem scan_lt (x : ℝ) (l : List ℝ) (j : Nat) (hj : j < scan x l) :
    ∃ h : j < l.length, l[j] < x := by
  induction l generalizing j with
  | nil => simp [scan] at hj
  | cons p l ih =>
    rw [scan] at hj
    split_ifs at hj with h
    · omega
    · cases j with
      | zero => exact ⟨by simp, by simpa using h⟩
      | succ j =>
        obtain ⟨h1, h2⟩ := ih j (by omega)
        exact ⟨by simpa using h1, by simpa using h2⟩

theorem scan_ge (x : ℝ) (l : List ℝ) (h : scan x l < l.length) : x ≤ l[scan x l] := by
  induction l with
  | nil => simp at h
  | cons p l ih =>
    by_cases hp : x ≤ p
    · simp [scan, hp]
    · have hs : scan x (p :: l) = scan x l + 1 := by simp [scan, hp]
      simp only [hs, List.getElem_cons_succ]
      exact ih (by rw [hs] at h; simpa using h)

/-- Sortedness by index. -/
theorem sorted_get {r : ℝ → ℝ → Prop} {l : List ℝ} (h : l.Pairwise r) {i j : Nat} (hij : i < j)
    (hj : j < l.length) : r (l[i]'(by omega)) l[j] :=
  List.pairwise_iff_getElem.1 h i j (by omega) hj hij

theorem sorted_le {l : List ℝ} (h : l.Pairwise (· ≤ ·)) {i j : Nat} (hij : i ≤ j)
    (hj : j < l.length) : l[i]'(by omega) ≤ l[j] := by
  rcases Nat.lt_or_ge i j with h1 | h1
  · exact sorted_get h h1 hj
  · have : i = j := by omega
    subst this; exact le_refl _

theorem strict_sorted {l : List ℝ} (h : l.Pairwise (· < ·)) : l.Pairwise (· ≤ ·) :=
  h.imp (fun h => le_of_lt h)

variable {pts vals : List ℝ} {lo hi : Option ℝ} {seg : ℝ → ℝ → ℝ → ℝ → ℝ} {x : ℝ}

theorem table_eq (h : 0 < pts.length) :
    table pts vals lo hi seg x =
      if x ≤ pts[0] then lo else if pts[pts.length - 1] ≤ x then hi
      else segment pts vals (scan x pts) seg := by
  unfold table
  have h1 : pts.head? = some pts[0] := by
    rw [List.head?_eq_getElem?]; exact List.getElem?_eq_getElem h
  have h2 : pts.getLast? = some pts[pts.length - 1] := by
    rw [List.getLast?_eq_getElem?]; exact List.getElem?_eq_getElem (by omega)
  rw [h1, h2]

theorem table_low (h : 0 < pts.length) (hx : x ≤ pts[0]) :
    table pts vals lo hi seg x = lo := by
  rw [table_eq h, if_pos hx]

theorem table_high (h : 0 < pts.length) (h0 : pts[0] < x) (hx : pts[pts.length - 1] ≤ x) :
    table pts vals lo hi seg x = hi := by
  rw [table_eq h, if_neg (by linarith), if_pos hx]

theorem table_mid (hs : pts.Pairwise (· ≤ ·)) (hlen : pts.length = vals.length) {i : Nat}
    (hi' : i + 1 < pts.length) (h1 : pts[i] < x) (h2 : x ≤ pts[i + 1])
    (hb : x < pts[pts.length - 1]) :
    table pts vals lo hi seg x = some (seg pts[i] pts[i + 1] vals[i] vals[i + 1]) := by
  have h0 : pts[0] < x := lt_of_le_of_lt (sorted_le hs (Nat.zero_le i) (by omega)) h1
  rw [table_eq (by omega), if_neg (by linarith), if_neg (by linarith)]
  have hsc : scan x pts = i + 1 := by
    apply scan_eq x pts (i + 1) hi' h2
    intro j hj
    exact lt_of_le_of_lt (sorted_le hs (by omega) (by omega)) h1
  rw [hsc]
  simp only [segment]
  rw [List.getElem?_eq_getElem (by omega), List.getElem?_eq_getElem hi',
    List.getElem?_eq_getElem (by omega), List.getElem?_eq_getElem (by omega)]

/-- Every argument is below the table, above it, or in one of the intervals. -/
theorem regimes (h : 0 < pts.length) (x : ℝ) :
    x ≤ pts[0] ∨ (pts[0] < x ∧ pts[pts.length - 1] ≤ x) ∨
    ∃ i, ∃ hi : i + 1 < pts.length, pts[i] < x ∧ x ≤ pts[i + 1] ∧ x < pts[pts.length - 1] := by
  by_cases h0 : x ≤ pts[0]
  · exact Or.inl h0
  by_cases h1 : pts[pts.length - 1] ≤ x
  · exact Or.inr (Or.inl ⟨by linarith, h1⟩)
  refine Or.inr (Or.inr ?_)
  have hlt : scan x pts < pts.length := by
    by_contra hge
    obtain ⟨_, h3⟩ := scan_lt x pts (pts.length - 1) (by omega)
    exact h1 (le_of_lt h3)
  have hge := scan_ge x pts hlt
  have hpos : scan x pts ≠ 0 := by
    intro h2
    simp only [h2] at hge
    exact h0 hge
  obtain ⟨i, hi⟩ := Nat.exists_eq_succ_of_ne_zero hpos
  simp only [hi, Nat.succ_eq_add_one] at hge hlt
  obtain ⟨_, h3⟩ := scan_lt x pts i (by omega)
  exact ⟨i, hlt, h3, hge, by linarith⟩

end Neml.Interp
