import Verif.Props.InterpTable
import Mathlib.Topology.Algebra.Order.Field
import Mathlib.Topology.Order.IntermediateValue

/-!
# C12, C13, C15, C16: piecewise interpolation
-/

namespace Neml.Interp

variable {pts vals : List ℝ}

/-- The straight line through `(x1, y1)` and `(x2, y2)`. -/
noncomputable def line (x1 y1 x2 y2 x : ℝ) : ℝ := y1 + (x - x1) * ((y2 - y1) / (x2 - x1))

theorem line_between {x1 y1 x2 y2 x : ℝ} (h1 : x1 ≤ x) (h2 : x ≤ x2) :
    min y1 y2 ≤ line x1 y1 x2 y2 x ∧ line x1 y1 x2 y2 x ≤ max y1 y2 := by
  rcases eq_or_lt_of_le (le_trans h1 h2) with he | hlt
  · have : line x1 y1 x2 y2 x = y1 := by simp [line, he]
    rw [this]; exact ⟨min_le_left _ _, le_max_left _ _⟩
  have hd : 0 < x2 - x1 := by linarith
  have ht0 : 0 ≤ (x - x1) / (x2 - x1) := div_nonneg (by linarith) hd.le
  have ht1 : (x - x1) / (x2 - x1) ≤ 1 := by rw [div_le_one hd]; linarith
  have hl : line x1 y1 x2 y2 x = y1 + ((x - x1) / (x2 - x1)) * (y2 - y1) := by
    unfold line; field_simp
  rw [hl]
  generalize (x - x1) / (x2 - x1) = t at ht0 ht1
  rcases le_total y1 y2 with h | h
  · rw [min_eq_left h, max_eq_right h]; constructor <;> nlinarith
  · rw [min_eq_right h, max_eq_left h]; constructor <;> nlinarith

/-! ## C12 -/

/-- C12. Below the first point the first value is returned. -/
theorem C12_clamp_low (hlen : pts.length = vals.length) (hp : 0 < pts.length) {x : ℝ}
    (hx : x ≤ pts[0]) : (linear pts vals).value x = some vals[0] := by
  show table _ _ _ _ _ _ = _
  rw [table_low hp hx, List.head?_eq_getElem?]
  exact List.getElem?_eq_getElem (by omega)

/-- C12. From the last point on the last value is returned. -/
theorem C12_clamp_high (hlen : pts.length = vals.length) (hp : 0 < pts.length) {x : ℝ}
    (h0 : pts[0] < x) (hx : pts[pts.length - 1] ≤ x) :
    (linear pts vals).value x = some vals[pts.length - 1] := by
  show table _ _ _ _ _ _ = _
  rw [table_high hp h0 hx, List.getLast?_eq_getElem?]
  have : vals.length - 1 = pts.length - 1 := by omega
  rw [this]
  exact List.getElem?_eq_getElem (by omega)

/-- C12. Inside an interval the value is on the straight line through its ends. -/
theorem C12_segment (hv : (linear pts vals).valid) {i : Nat} (hi : i + 1 < pts.length) {x : ℝ}
    (h1 : pts[i] < x) (h2 : x < pts[i + 1]) :
    (linear pts vals).value x = some
      (line pts[i] (vals[i]'(by have := hv.2; omega)) pts[i + 1]
        (vals[i + 1]'(by have := hv.2; omega)) x) := by
  show table _ _ _ _ _ _ = _
  rw [table_mid hv.1 hv.2 hi h1 h2.le (lt_of_lt_of_le h2 (sorted_le hv.1 (by omega) (by omega)))]
  simp only [line]; congr 1; ring

/-- C12. Inside an interval the value lies between the two tabulated values. -/
theorem C12_between (hv : (linear pts vals).valid) {i : Nat} (hi : i + 1 < pts.length) {x : ℝ}
    (h1 : pts[i] < x) (h2 : x < pts[i + 1]) :
    ∃ v, (linear pts vals).value x = some v ∧
      min (vals[i]'(by have := hv.2; omega)) (vals[i + 1]'(by have := hv.2; omega)) ≤ v ∧
      v ≤ max (vals[i]'(by have := hv.2; omega)) (vals[i + 1]'(by have := hv.2; omega)) :=
  ⟨_, C12_segment hv hi h1 h2, line_between h1.le h2.le⟩

/-- C12. At every knot the tabulated value is returned. (With repeated knots two
values are tabulated for one argument, hence strict sorting.) -/
theorem C12_knots (hs : pts.Pairwise (· < ·)) (hlen : pts.length = vals.length) {i : Nat}
    (hi : i < pts.length) : (linear pts vals).value pts[i] = some vals[i] := by
  rcases Nat.eq_zero_or_pos i with rfl | hpos
  · exact C12_clamp_low hlen hi (le_refl _)
  obtain ⟨k, rfl⟩ : ∃ k, i = k + 1 := ⟨i - 1, by omega⟩
  have h0 : pts[0] < pts[k + 1] := sorted_get hs (by omega) hi
  rcases Nat.lt_or_ge (k + 2) pts.length with h | h
  · show table _ _ _ _ _ _ = _
    have hk : pts[k] < pts[k + 1] := sorted_get hs (by omega) hi
    rw [table_mid (strict_sorted hs) hlen hi hk (le_refl _)
      (sorted_get hs (by omega) (by omega))]
    have : pts[k + 1] - pts[k] ≠ 0 := by linarith
    congr 1; field_simp; ring
  · have hk : k + 1 = pts.length - 1 := by omega
    rw [C12_clamp_high hlen (by omega) h0 (by simp [hk])]
    simp [hk]

/-- C12. A valid non-empty table is defined for every argument. -/
theorem C12_total (hv : (linear pts vals).valid) (hp : 0 < pts.length) (x : ℝ) :
    ∃ v, (linear pts vals).value x = some v := by
  have hlen := hv.2
  rcases regimes hp x with h | ⟨h, h'⟩ | ⟨i, hi, h1, h2, h3⟩
  · exact ⟨_, C12_clamp_low hlen hp h⟩
  · exact ⟨_, C12_clamp_high hlen hp h h'⟩
  · exact ⟨_, table_mid hv.1 hlen hi h1 h2 h3⟩

/-- The empty table passes the validity check, but evaluating it reads out of range. -/
theorem C12_empty_table (x : ℝ) :
    (linear [] []).valid ∧ (linear [] []).value x = none := by
  simp [linear, table]

theorem linear_cons {p q y z : ℝ} {ps vs : List ℝ} (hs : (p :: q :: ps).Pairwise (· < ·))
    (hlen : ps.length = vs.length) (x : ℝ) :
    (linear (p :: q :: ps) (y :: z :: vs)).value x =
      if x ≤ q then some (if x ≤ p then y else line p y q z x)
      else (linear (q :: ps) (z :: vs)).value x := by
  have hpq : p < q := by
    have := sorted_get hs (i := 0) (j := 1) (by omega) (by simp)
    simpa using this
  have hlen' : (p :: q :: ps).length = (y :: z :: vs).length := by simp [hlen]
  split_ifs with hq hp
  · exact C12_clamp_low hlen' (by simp) (by simpa using hp)
  · rcases eq_or_lt_of_le hq with rfl | hlt
    · have := C12_knots hs hlen' (i := 1) (by simp)
      simp only [List.getElem_cons_succ, List.getElem_cons_zero] at this
      rw [this]
      have : x - p ≠ 0 := by linarith
      simp only [line]; congr 1; field_simp; ring
    · have := C12_segment (pts := p :: q :: ps) (vals := y :: z :: vs) ⟨strict_sorted hs, hlen'⟩
        (i := 0) (by simp) (x := x) (by simpa using hp) (by simpa using hlt)
      simpa using this
  · have hqx : q < x := by linarith
    simp only [linear]
    rw [table_eq (by simp), table_eq (by simp)]
    have e1 : ¬ x ≤ (p :: q :: ps)[0] := by simp; linarith
    have e2 : ¬ x ≤ (q :: ps)[0] := by simp; linarith
    rw [if_neg e1, if_neg e2]
    have e3 : (p :: q :: ps)[(p :: q :: ps).length - 1] = (q :: ps)[(q :: ps).length - 1] := by
      simp
    rw [e3]
    have e4 : scan x (p :: q :: ps) = scan x (q :: ps) + 1 := by
      conv_lhs => rw [scan]
      rw [if_neg (by linarith)]
    rw [e4]
    have e5 : (y :: z :: vs).getLast? = (z :: vs).getLast? := by simp [List.getLast?_cons_cons]
    rw [e5]
    have e6 : scan x (q :: ps) = scan x ps + 1 := by
      conv_lhs => rw [scan]
      rw [if_neg (by linarith)]
    rw [e6]
    simp [segment]

/-- C12. The interpolate is a continuous function of its argument. -/
theorem C12_continuous (hs : pts.Pairwise (· < ·)) (hlen : pts.length = vals.length)
    (hp : 0 < pts.length) :
    ∃ f : ℝ → ℝ, Continuous f ∧ ∀ x, (linear pts vals).value x = some (f x) := by
  induction pts generalizing vals with
  | nil => simp at hp
  | cons p ps ih =>
    cases vals with
    | nil => simp at hlen
    | cons y vs =>
    cases ps with
    | nil =>
      have hv : vs = [] := by simpa using hlen.symm
      subst hv
      refine ⟨fun _ => y, continuous_const, fun x => ?_⟩
      rcases le_or_gt x p with h | h
      · exact C12_clamp_low hlen hp (by simpa using h)
      · exact C12_clamp_high hlen hp (by simpa using h) (by simpa using h.le)
    | cons q ps =>
      cases vs with
      | nil => simp at hlen
      | cons z vs =>
        have hlen' : ps.length = vs.length := by simpa using hlen
        obtain ⟨f, hf, hfe⟩ := ih (vals := z :: vs) (List.pairwise_cons.1 hs).2
          (by simpa using hlen') (by simp)
        have hpq : p < q := by
          have := sorted_get hs (i := 0) (j := 1) (by omega) (by simp)
          simpa using this
        refine ⟨fun x => if x ≤ q then (if x ≤ p then y else line p y q z x) else f x, ?_, ?_⟩
        · apply Continuous.if_le _ hf continuous_id continuous_const
          · intro x hx
            have hx : x = q := hx
            subst hx
            have h1 := hfe x
            rw [C12_clamp_low (by simp [hlen']) (by simp) (by simp)] at h1
            have h2 : z = f x := by simpa using h1
            rw [if_neg (by linarith), ← h2]
            have : x - p ≠ 0 := by linarith
            simp only [line]; field_simp; ring
          · apply Continuous.if_le continuous_const _ continuous_id continuous_const
            · intro x hx
              have hx : x = p := hx
              simp [line, hx]
            · unfold line; fun_prop
        · intro x
          rw [linear_cons hs hlen']
          show _ = some (if x ≤ q then (if x ≤ p then y else line p y q z x) else f x)
          rw [hfe]
          split_ifs <;> rfl

/-- Concrete case for C12: three knots, a value inside the second interval. -/
example : (linear [0, 1, 3] [2, 4, 0]).value 2 = some 2 ∧
    (linear [0, 1, 3] [2, 4, 0]).value 1 = some 4 ∧
    (linear [0, 1, 3] [2, 4, 0]).value (-5) = some 2 := by
  have hs : ([0, 1, 3] : List ℝ).Pairwise (· < ·) := by norm_num
  refine ⟨?_, C12_knots (pts := [0, 1, 3]) (vals := [2, 4, 0]) hs rfl (i := 1) (by simp),
    C12_clamp_low (pts := [0, 1, 3]) (vals := [2, 4, 0]) rfl (by simp) (by norm_num)⟩
  rw [C12_segment (pts := [0, 1, 3]) (vals := [2, 4, 0]) ⟨strict_sorted hs, rfl⟩ (i := 1) (by simp)
    (by norm_num) (by norm_num)]
  norm_num [line]

/-! ## C13 -/

/-- C13. Non-decreasing tabulated values give a non-decreasing function. -/
theorem C13_monotone (hv : (linear pts vals).valid) (hm : vals.Pairwise (· ≤ ·)) {x y u v : ℝ}
    (hxy : x ≤ y) (hx : (linear pts vals).value x = some u)
    (hy : (linear pts vals).value y = some v) : u ≤ v := by
  obtain ⟨hs, hlen⟩ := hv
  have hp : 0 < pts.length := by
    by_contra h
    have : pts = [] := by simpa using h
    subst this
    simp [linear, table] at hx
  have hb : ∀ {i : Nat} (hi : i + 1 < pts.length) {x u : ℝ} (_ : pts[i] < x) (_ : x ≤ pts[i + 1])
      (_ : x < pts[pts.length - 1]) (_ : (linear pts vals).value x = some u),
      u = line pts[i] vals[i] pts[i + 1] vals[i + 1] x ∧ vals[i] ≤ u ∧ u ≤ vals[i + 1] := by
    intro i hi x u h1 h2 h3 h
    have he : u = line pts[i] vals[i] pts[i + 1] vals[i + 1] x := by
      have h' : table _ _ _ _ _ _ = _ := h
      rw [table_mid hs hlen hi h1 h2 h3] at h'
      simp only [Option.some.injEq] at h'
      rw [← h']; simp only [line]; ring
    have hle : vals[i] ≤ vals[i + 1] := sorted_le hm (by omega) (by omega)
    have := line_between (y1 := vals[i]) (y2 := vals[i + 1]) h1.le h2
    rw [min_eq_left hle, max_eq_right hle, ← he] at this
    exact ⟨he, this⟩
  rcases regimes hp x with h | ⟨h, h'⟩ | ⟨i, hi, h1, h2, h3⟩
  · rw [C12_clamp_low hlen hp h] at hx
    simp only [Option.some.injEq] at hx
    subst hx
    rcases regimes hp y with g | ⟨g, g'⟩ | ⟨j, hj, g1, g2, g3⟩
    · rw [C12_clamp_low hlen hp g] at hy
      simp only [Option.some.injEq] at hy
      exact hy.le
    · rw [C12_clamp_high hlen hp g g'] at hy
      simp only [Option.some.injEq] at hy
      subst hy
      exact sorted_le hm (by omega) (by omega)
    · exact le_trans (sorted_le hm (Nat.zero_le j) (by omega)) (hb hj g1 g2 g3 hy).2.1
  · rw [C12_clamp_high hlen hp h h'] at hx
    rw [C12_clamp_high hlen hp (by linarith) (by linarith)] at hy
    simp only [Option.some.injEq] at hx hy
    exact (hx.symm.trans hy).le
  · obtain ⟨hu, hu1, hu2⟩ := hb hi h1 h2 h3 hx
    rcases regimes hp y with g | ⟨g, g'⟩ | ⟨j, hj, g1, g2, g3⟩
    · have := sorted_le hs (Nat.zero_le i) (by omega)
      linarith
    · rw [C12_clamp_high hlen hp g g'] at hy
      simp only [Option.some.injEq] at hy
      subst hy
      exact le_trans hu2 (sorted_le hm (by omega) (by omega))
    · obtain ⟨hv, hv1, hv2⟩ := hb hj g1 g2 g3 hy
      rcases Nat.lt_trichotomy i j with hij | rfl | hij
      · exact le_trans hu2 (le_trans (sorted_le hm (by omega) (by omega)) hv1)
      · rw [hu, hv]
        have hsl : 0 ≤ (vals[i + 1] - vals[i]) / (pts[i + 1] - pts[i]) :=
          div_nonneg (sub_nonneg.2 (sorted_le hm (by omega) (by omega)))
            (by linarith)
        simp only [line]
        nlinarith
      · have := sorted_le hs (i := j + 1) (j := i) (by omega) (by omega)
        linarith

/-- Concrete case for C13, across two intervals. -/
example : ∃ u v, (linear [0, 1, 3] [2, 4, 8]).value 0.5 = some u ∧
    (linear [0, 1, 3] [2, 4, 8]).value 2 = some v ∧ u ≤ v := by
  have hv : (linear [0, 1, 3] [2, 4, 8]).valid := ⟨by norm_num, rfl⟩
  obtain ⟨u, hu⟩ := C12_total hv (by simp) 0.5
  obtain ⟨v, hv'⟩ := C12_total hv (by simp) 2
  exact ⟨u, v, hu, hv', C13_monotone hv (by norm_num) (by norm_num) hu hv'⟩

/-! ## C15 -/

theorem segment_map (f : ℝ → ℝ) (ind : Nat) (seg : ℝ → ℝ → ℝ → ℝ → ℝ) :
    (segment pts vals ind seg).map f = segment pts vals ind (fun a b c d => f (seg a b c d)) := by
  cases ind with
  | zero => rfl
  | succ k => simp only [segment]; split <;> simp_all

/-- C15. The value is the exponential of the linear interpolation of the logarithms. -/
theorem C15_log_linear (pts vals : List ℝ) (x : ℝ) :
    (logLinear pts vals).value x =
      ((linear pts (vals.map Real.log)).value x).map Real.exp := by
  show table _ _ _ _ _ _ = Option.map _ (table _ _ _ _ _ _)
  unfold table
  split
  · split_ifs
    · rfl
    · rfl
    · rw [segment_map]
  · rfl

/-- C15. Positivity. -/
theorem C15_positive (pts vals : List ℝ) (x v : ℝ) (h : (logLinear pts vals).value x = some v) :
    0 < v := by
  rw [C15_log_linear] at h
  obtain ⟨w, _, rfl⟩ := Option.map_eq_some_iff.1 h
  exact Real.exp_pos w

/-- C15. The tabulated values are returned at the knots. -/
theorem C15_knots (hs : pts.Pairwise (· < ·)) (hlen : pts.length = vals.length)
    (hpos : ∀ v ∈ vals, 0 < v) {i : Nat} (hi : i < pts.length) :
    (logLinear pts vals).value pts[i] = some vals[i] := by
  rw [C15_log_linear, C12_knots hs (by simpa using hlen) hi]
  simp only [List.getElem_map, Option.map_some]
  rw [Real.exp_log (hpos _ (List.getElem_mem _))]

/-- C15. Inside an interval the value is the weighted geometric mean of the two
neighbouring values. -/
theorem C15_geometric (hv : (logLinear pts vals).valid) (hpos : ∀ v ∈ vals, 0 < v) {i : Nat}
    (hi : i + 1 < pts.length) {x : ℝ} (h1 : pts[i] < x) (h2 : x < pts[i + 1]) :
    let t := (x - pts[i]) / (pts[i + 1] - pts[i])
    (logLinear pts vals).value x = some
      ((vals[i]'(by have := hv.2.1; omega)) ^ (1 - t) *
        (vals[i + 1]'(by have := hv.2.1; omega)) ^ t) := by
  intro t
  have hlen := hv.2.1
  rw [C15_log_linear, C12_segment ⟨hv.1, by simpa using hlen⟩ hi h1 h2]
  simp only [List.getElem_map, Option.map_some, Option.some.injEq]
  rw [Real.rpow_def_of_pos (hpos _ (List.getElem_mem _)),
    Real.rpow_def_of_pos (hpos _ (List.getElem_mem _)), ← Real.exp_add]
  congr 1
  have : pts[i + 1] - pts[i] ≠ 0 := by linarith
  simp only [line, t]
  field_simp
  ring

/-- C15. Non-decreasing positive data give a non-decreasing function. -/
theorem C15_monotone (hv : (logLinear pts vals).valid) (hpos : ∀ v ∈ vals, 0 < v)
    (hm : vals.Pairwise (· ≤ ·)) {x y u v : ℝ} (hxy : x ≤ y)
    (hx : (logLinear pts vals).value x = some u)
    (hy : (logLinear pts vals).value y = some v) : u ≤ v := by
  rw [C15_log_linear] at hx hy
  obtain ⟨a, ha, rfl⟩ := Option.map_eq_some_iff.1 hx
  obtain ⟨b, hb, rfl⟩ := Option.map_eq_some_iff.1 hy
  refine Real.exp_le_exp.2 (C13_monotone ⟨hv.1, by simpa using hv.2.1⟩ ?_ hxy ha hb)
  rw [List.pairwise_map]
  refine hm.imp_of_mem ?_
  intro a b ha _ hab
  exact Real.log_le_log (hpos a ha) hab

/-- C15. Continuity. -/
theorem C15_continuous (hs : pts.Pairwise (· < ·)) (hlen : pts.length = vals.length)
    (hp : 0 < pts.length) :
    ∃ f : ℝ → ℝ, Continuous f ∧ ∀ x, (logLinear pts vals).value x = some (f x) := by
  obtain ⟨f, hf, hfe⟩ := C12_continuous (vals := vals.map Real.log) hs (by simpa using hlen) hp
  exact ⟨fun x => Real.exp (f x), Real.continuous_exp.comp hf, fun x => by
    rw [C15_log_linear, hfe]; rfl⟩

/-- Concrete case for C15: halfway (in the argument) between 1 and 4 the value is 2. -/
example : (logLinear [0, 2] [1, 4]).value 1 = some 2 := by
  have h := C15_geometric (pts := [0, 2]) (vals := [1, 4]) ⟨by norm_num, rfl, by norm_num⟩
    (by norm_num) (i := 0) (by simp) (x := 1) (by norm_num) (by norm_num)
  simp only [List.getElem_cons_zero, List.getElem_cons_succ] at h
  rw [h]
  have h4 : (4 : ℝ) = 2 ^ (2 : ℝ) := by norm_num
  rw [h4, ← Real.rpow_mul (by norm_num)]
  norm_num

/-! ## C16 -/

/-- C16, negation. For every table the validity check accepts whose last interval is
not empty, every argument inside the last interval reads past the function list. -/
theorem C16_reads_past_end (pts : List ℝ) (fns : List Fn) (hv : (generic pts fns).valid)
    (hn : 2 ≤ pts.length) (x : ℝ) (h1 : pts[pts.length - 2] < x) (h2 : x < pts[pts.length - 1]) :
    genericPick pts fns x = none ∧ (generic pts fns).value x = none ∧
      (generic pts fns).deriv x = none := by
  obtain ⟨hs, hlen⟩ := hv
  have key : genericPick pts fns x = none := by
    unfold genericPick
    rw [List.head?_eq_getElem?, List.getLast?_eq_getElem?,
      List.getElem?_eq_getElem (by omega : 0 < pts.length),
      List.getElem?_eq_getElem (by omega : pts.length - 1 < pts.length)]
    have h0 : pts[0] ≤ pts[pts.length - 2] := sorted_le hs (by omega) (by omega)
    simp only
    rw [if_neg (by linarith), if_neg (by linarith)]
    have : scan x pts = pts.length - 1 := by
      apply scan_eq x pts _ (by omega) h2.le
      intro j hj
      exact lt_of_le_of_lt (sorted_le hs (by omega) (by omega)) h1
    rw [this]
    exact List.getElem?_eq_none (by omega)
  exact ⟨key, by simp [generic, key], by simp [generic, key]⟩

/-- C16, the part that holds: a valid table with at least two points evaluates one of
its own functions for every argument outside the last open interval. Missing: the
last open interval, where `C16_reads_past_end` shows the claim is false. -/
theorem C16_own_function_partial (pts : List ℝ) (fns : List Fn) (hv : (generic pts fns).valid)
    (hn : 2 ≤ pts.length) (x : ℝ) (hx : x ≤ pts[pts.length - 2] ∨ pts[pts.length - 1] ≤ x) :
    ∃ f ∈ fns, genericPick pts fns x = some f ∧ (generic pts fns).value x = f.value x ∧
      (generic pts fns).deriv x = f.deriv x := by
  obtain ⟨hs, hlen⟩ := hv
  have key : ∃ f ∈ fns, genericPick pts fns x = some f := by
    unfold genericPick
    rw [List.head?_eq_getElem?, List.getLast?_eq_getElem?,
      List.getElem?_eq_getElem (by omega : 0 < pts.length),
      List.getElem?_eq_getElem (by omega : pts.length - 1 < pts.length)]
    simp only
    split_ifs with h1 h2
    · exact ⟨fns[0], List.getElem_mem _, List.getElem?_eq_getElem (by omega)⟩
    · rw [List.getLast?_eq_getElem?]
      exact ⟨fns[fns.length - 1], List.getElem_mem _, List.getElem?_eq_getElem (by omega)⟩
    · have hx' : x ≤ pts[pts.length - 2] := by
        rcases hx with h | h
        · exact h
        · exact absurd h h2
      have hlt : scan x pts < fns.length := by
        by_contra hge
        obtain ⟨_, h3⟩ := scan_lt x pts (pts.length - 2) (by omega)
        linarith
      exact ⟨fns[scan x pts], List.getElem_mem _, List.getElem?_eq_getElem hlt⟩
  obtain ⟨f, hf, hk⟩ := key
  exact ⟨f, hf, hk, by simp [generic, hk], by simp [generic, hk]⟩

/-- With one function more than points (the layout the lookup is written for, and
which the check rejects) every argument is served. -/
theorem C16_one_more_function (pts : List ℝ) (fns : List Fn)
    (hn : 0 < pts.length) (hlen : fns.length = pts.length + 1) (x : ℝ) :
    (∃ f ∈ fns, genericPick pts fns x = some f) ∧ ¬ (generic pts fns).valid := by
  constructor
  · unfold genericPick
    rw [List.head?_eq_getElem?, List.getLast?_eq_getElem?,
      List.getElem?_eq_getElem (by omega : 0 < pts.length),
      List.getElem?_eq_getElem (by omega : pts.length - 1 < pts.length)]
    simp only
    split_ifs
    · exact ⟨fns[0], List.getElem_mem _, List.getElem?_eq_getElem (by omega)⟩
    · rw [List.getLast?_eq_getElem?]
      exact ⟨fns[fns.length - 1], List.getElem_mem _, List.getElem?_eq_getElem (by omega)⟩
    · have hlt : scan x pts < fns.length := by have := scan_le x pts; omega
      exact ⟨fns[scan x pts], List.getElem_mem _, List.getElem?_eq_getElem hlt⟩
  · intro h
    have := h.2
    omega

/-- Concrete case for C16: points 0, 1, 2 with two functions, argument 1.5. -/
example : (generic [0, 1, 2] [const 3, const 4]).valid ∧
    (generic [0, 1, 2] [const 3, const 4]).value 1.5 = none ∧
    (∃ f ∈ [const 3, const 4], genericPick [0, 1, 2] [const 3, const 4] 0.5 = some f) := by
  have hv : (generic [0, 1, 2] [const 3, const 4]).valid := ⟨by norm_num, rfl⟩
  refine ⟨hv, (C16_reads_past_end _ _ hv (by simp) _ (by norm_num) (by norm_num)).2.1, ?_⟩
  obtain ⟨f, hf, h, _⟩ := C16_own_function_partial _ _ hv (by simp) 0.5 (Or.inl (by norm_num))
  exact ⟨f, hf, h⟩

end Neml.Interp
