import Verif.Model.Vessel
import Mathlib.Analysis.Convex.SpecificFunctions.Basic
import Mathlib.Data.List.GetD
import Mathlib.Tactic.Linarith
import Mathlib.Tactic.FieldSimp
import Mathlib.Tactic.Ring
import Mathlib.Tactic.NormNum

/-!
# C134: meshes
-/

namespace Neml.Vessel

/-- The nodes of equal elements from `a` to `b`. -/
noncomputable def even (n : ℕ) (a b : ℝ) (k : ℕ) : ℝ := a + (b - a) * (k / n)

/-- The nodes of a graded mesh: in the first half a power of the number of the node, the second half mirrored. -/
noncomputable def graded (p : ℝ) (n : ℕ) (a b : ℝ) (k : ℕ) : ℝ :=
  if 2 * k ≤ n then a + (b - a) * (((k : ℝ) / ((n + 1) / 2 : ℕ)) ^ p / 2)
  else b - (b - a) * ((((n - k : ℕ) : ℝ) / ((n + 1) / 2 : ℕ)) ^ p / 2)

theorem segment_eq (n : ℕ) (a b : ℝ) : segment n a b = (List.range n).map fun k => even n a b (k + 1) := by
  apply List.map_congr_left
  intro k _
  simp only [even]
  push_cast
  ring

theorem biased_eq (p : ℝ) (n : ℕ) (a b : ℝ) : biased p n a b = (List.range n).map fun k => graded p n a b (k + 1) := by
  have hm : (if n % 2 = 0 then n / 2 else (n + 1) / 2) = (n + 1) / 2 := by
    split_ifs <;> omega
  simp only [biased, hm]
  apply List.ext_getElem
  · split_ifs <;> simp <;> omega
  · intro i h1 h2
    have hi : i < n := by simpa using h2
    simp only [List.getElem_map, List.getElem_range]
    simp only [graded]
    by_cases e : n % 2 = 0
    · simp only [if_pos e]
      by_cases hk : i < (n + 1) / 2
      · rw [List.getElem_append_left (by simpa using hk), if_pos (by omega)]
        simp only [List.getElem_map, List.getElem_range]
        push_cast
        ring
      · rw [List.getElem_append_right (by simpa using hk), if_neg (show ¬ 2 * (i + 1) ≤ n by omega)]
        simp only [List.getElem_reverse, List.getElem_map, List.getElem_range, List.length_map, List.length_range]
        rw [show (n + 1) / 2 - 1 - (i - (n + 1) / 2) = n - (i + 1) by omega]
        ring
    · simp only [if_neg e]
      by_cases hk : i < (n + 1) / 2 - 1
      · rw [List.getElem_append_left (by simpa using hk), if_pos (by omega)]
        simp only [List.getElem_dropLast, List.getElem_map, List.getElem_range]
        push_cast
        ring
      · rw [List.getElem_append_right (by simpa using hk), if_neg (show ¬ 2 * (i + 1) ≤ n by omega)]
        simp only [List.getElem_reverse, List.getElem_map, List.getElem_range, List.length_map, List.length_range,
          List.length_dropLast]
        rw [show (n + 1) / 2 - 1 - (i - ((n + 1) / 2 - 1)) = n - (i + 1) by omega]
        ring

/-- The nodes of a segment, for the kind of mesh. -/
noncomputable def nodes (bias : Option ℝ) (n : ℕ) (a b : ℝ) (k : ℕ) : ℝ :=
  match bias with
  | none => even n a b k
  | some p => graded p n a b k

theorem nodes_zero (bias : Option ℝ) (hb : ∀ p, bias = some p → 0 < p) (n : ℕ) (a b : ℝ) : nodes bias n a b 0 = a := by
  cases bias with
  | none => simp [nodes, even]
  | some p => simp [nodes, graded, Real.zero_rpow (hb p rfl).ne']

theorem nodes_last (bias : Option ℝ) (hb : ∀ p, bias = some p → 0 < p) (n : ℕ) (hn : 0 < n) (a b : ℝ) :
    nodes bias n a b n = b := by
  have : (n : ℝ) ≠ 0 := by exact_mod_cast hn.ne'
  cases bias with
  | none => simp only [nodes, even]; rw [div_self this]; ring
  | some p =>
    simp only [nodes, graded]
    rw [if_neg (by omega), Nat.sub_self, Nat.cast_zero, zero_div, Real.zero_rpow (hb p rfl).ne']
    ring

theorem nodes_lt (bias : Option ℝ) (hb : ∀ p, bias = some p → 0 < p) (n : ℕ) (a b : ℝ) (hab : a < b) (j k : ℕ)
    (hjk : j < k) (hk : k ≤ n) : nodes bias n a b j < nodes bias n a b k := by
  have hn : (0 : ℝ) < n := by exact_mod_cast (by omega : 0 < n)
  have hd : 0 < b - a := sub_pos.2 hab
  cases bias with
  | none =>
    simp only [nodes, even]
    have : (j : ℝ) / n < k / n := div_lt_div_of_pos_right (by exact_mod_cast hjk) hn
    linarith [mul_lt_mul_of_pos_left this hd]
  | some p =>
    have hp := hb p rfl
    have hm : (0 : ℝ) < ((n + 1) / 2 : ℕ) := by exact_mod_cast (by omega : 0 < (n + 1) / 2)
    have mono : ∀ x y : ℕ, x < y → ((x : ℝ) / ((n + 1) / 2 : ℕ)) ^ p < ((y : ℝ) / ((n + 1) / 2 : ℕ)) ^ p := by
      intro x y hxy
      exact Real.rpow_lt_rpow (div_nonneg (Nat.cast_nonneg _) hm.le)
        (div_lt_div_of_pos_right (by exact_mod_cast hxy) hm) hp
    have bound : ∀ x : ℕ, x ≤ (n + 1) / 2 → ((x : ℝ) / ((n + 1) / 2 : ℕ)) ^ p ≤ 1 := by
      intro x hx
      exact Real.rpow_le_one (div_nonneg (Nat.cast_nonneg _) hm.le) ((div_le_one hm).2 (by exact_mod_cast hx)) hp.le
    have bound' : ∀ x : ℕ, x < (n + 1) / 2 → ((x : ℝ) / ((n + 1) / 2 : ℕ)) ^ p < 1 := by
      intro x hx
      exact Real.rpow_lt_one (div_nonneg (Nat.cast_nonneg _) hm.le) ((div_lt_one hm).2 (by exact_mod_cast hx)) hp
    simp only [nodes, graded]
    by_cases h1 : 2 * j ≤ n
    · rw [if_pos h1]
      by_cases h2 : 2 * k ≤ n
      · rw [if_pos h2]
        nlinarith [mul_lt_mul_of_pos_left (mono j k hjk) hd]
      · rw [if_neg h2]
        have b1 := mul_le_mul_of_nonneg_left (bound j (by omega)) hd.le
        have b2 := mul_lt_mul_of_pos_left (bound' (n - k) (by omega)) hd
        nlinarith
    · rw [if_neg h1, if_neg (by omega)]
      nlinarith [mul_lt_mul_of_pos_left (mono (n - k) (n - j) (by omega)) hd]

/-- The lists of nodes of the segments. -/
theorem kind_eq (bias : Option ℝ) (n : ℕ) (a b : ℝ) :
    kind bias n a b = (List.range n).map fun k => nodes bias n a b (k + 1) := by
  cases bias with
  | none => exact segment_eq n a b
  | some p => exact biased_eq p n a b

/-- Sensible regions: increasing radii, one more than regions, all regions with elements. -/
structure Regions (rs : List ℝ) (ns : List ℕ) : Prop where
  length : rs.length = ns.length + 1
  some : ns ≠ []
  sorted : rs.Pairwise (· < ·)
  pos : ∀ n ∈ ns, 0 < n

section
variable {seg : ℕ → ℝ → ℝ → List ℝ} {node : ℕ → ℝ → ℝ → ℕ → ℝ}
  (hs : ∀ n a b, seg n a b = (List.range n).map fun k => node n a b (k + 1))
  (h0 : ∀ n a b, node n a b 0 = a) (h1 : ∀ n a b, 0 < n → node n a b n = b)
  (hm : ∀ n a b, a < b → ∀ j k, j < k → k ≤ n → node n a b j < node n a b k)
include hs h0 h1

theorem segments_get (rs : List ℝ) (ns : List ℕ) (hl : rs.length = ns.length + 1) (hp : ∀ n ∈ ns, 0 < n) (i : ℕ)
    (hi : i < ns.length) (k : ℕ) (hk : k ≤ ns.getD i 0) :
    (rs.getD 0 0 :: segments seg rs ns)[(ns.take i).sum + k]? =
      some (node (ns.getD i 0) (rs.getD i 0) (rs.getD (i + 1) 0) k) := by
  induction ns generalizing rs i with
  | nil => simp at hi
  | cons n ns ih =>
    match rs, hl with
    | [a], hl => simp at hl
    | a :: b :: rs, hl =>
      simp only [segments, List.getD_cons_zero]
      have hn : 0 < n := hp n (by simp)
      cases i with
      | zero =>
        simp only [List.take_zero, List.sum_nil, zero_add, List.getD_cons_zero, List.getD_cons_succ] at hk ⊢
        cases k with
        | zero => simp [h0]
        | succ k =>
          rw [List.getElem?_cons_succ, List.getElem?_append_left (by rw [hs]; simp; omega), hs]
          simp only [List.getElem?_map]
          rw [List.getElem?_range (by omega)]
          rfl
      | succ i =>
        simp only [List.take_succ_cons, List.sum_cons, List.getD_cons_succ] at hk ⊢
        have := ih (b :: rs) (by simpa using hl) (fun m hm => hp m (by simp [hm])) i (by simpa using hi) hk
        simp only [List.getD_cons_zero, List.getD_cons_succ] at this
        rw [show n + (ns.take i).sum + k = ((ns.take i).sum + k) + n by omega]
        obtain ⟨m, rfl⟩ := Nat.exists_eq_succ_of_ne_zero hn.ne'
        rw [Nat.succ_eq_add_one, ← add_assoc, List.getElem?_cons_succ]
        rcases Nat.eq_zero_or_pos ((ns.take i).sum + k) with z | z
        · rw [z] at this ⊢
          simp only [List.getElem?_cons_zero] at this
          rw [List.getElem?_append_left (by rw [hs]; simp), hs, ← this]
          simp only [List.getElem?_map]
          rw [List.getElem?_range (by omega)]
          simp [h1]
        · obtain ⟨q, e⟩ := Nat.exists_eq_succ_of_ne_zero z.ne'
          rw [e] at this ⊢
          rw [Nat.succ_eq_add_one, List.getElem?_cons_succ] at this
          rw [List.getElem?_append_right (by rw [hs]; simp), ← this]
          congr 1
          rw [hs]
          simp
          omega

omit h0 h1 in
theorem segments_length (rs : List ℝ) (ns : List ℕ) (hl : rs.length = ns.length + 1) :
    (segments seg rs ns).length = ns.sum := by
  induction ns generalizing rs with
  | nil => rcases rs with _ | ⟨a, _ | ⟨b, rs⟩⟩ <;> simp [segments]
  | cons n ns ih =>
    match rs, hl with
    | [a], hl => simp at hl
    | a :: b :: rs, hl =>
      simp only [segments, List.length_append, List.sum_cons]
      rw [ih _ (by simpa using hl), hs]
      simp

include hm

theorem segments_sorted (rs : List ℝ) (ns : List ℕ) (hl : rs.length = ns.length + 1) (hp : ∀ n ∈ ns, 0 < n)
    (hr : rs.Pairwise (· < ·)) : (rs.getD 0 0 :: segments seg rs ns).Pairwise (· < ·) := by
  induction ns generalizing rs with
  | nil =>
    match rs, hl with
    | [a], _ => simp [segments]
  | cons n ns ih =>
    match rs, hl with
    | [a], hl => simp at hl
    | a :: b :: rs, hl =>
      have hn : 0 < n := hp n (by simp)
      rw [List.pairwise_cons] at hr
      have hab : a < b := hr.1 b (by simp)
      have tail := ih (b :: rs) (by simpa using hl) (fun m hm => hp m (by simp [hm])) hr.2
      simp only [List.getD_cons_zero] at tail
      rw [List.pairwise_cons] at tail
      simp only [segments, List.getD_cons_zero]
      have upper : ∀ x ∈ seg n a b, a < x ∧ x ≤ b := by
        intro x hx
        rw [hs] at hx
        obtain ⟨k, hk, rfl⟩ := List.mem_map.1 hx
        rw [List.mem_range] at hk
        constructor
        · have := hm n a b hab 0 (k + 1) (by omega) (by omega)
          rwa [h0] at this
        · rcases Nat.lt_or_ge (k + 1) n with q | q
          · have := hm n a b hab (k + 1) n q le_rfl
            rw [h1 n a b hn] at this
            exact this.le
          · rw [show k + 1 = n by omega, h1 n a b hn]
      rw [List.pairwise_cons, List.pairwise_append]
      refine ⟨?_, ?_, tail.2, ?_⟩
      · intro x hx
        rcases List.mem_append.1 hx with hx | hx
        · exact (upper x hx).1
        · exact lt_trans hab (tail.1 x hx)
      · rw [hs, List.pairwise_map]
        refine List.Pairwise.imp_of_mem ?_ List.pairwise_lt_range
        intro j k _ hk hjk
        exact hm n a b hab _ _ (by omega) (by rw [List.mem_range] at hk; omega)
      · intro x hx y hy
        exact lt_of_le_of_lt (upper x hx).2 (tail.1 y hy)

end

section
variable {rs : List ℝ} {ns : List ℕ} (h : Regions rs ns) (bias : Option ℝ) (hb : ∀ p, bias = some p → 0 < p)
include h hb

omit hb in
theorem mesh_eq : mesh rs ns bias = some (rs.getD 0 0 :: segments (kind bias) rs ns) := by
  have hl := h.length
  cases rs with
  | nil => simp at hl
  | cons r rs => rw [mesh, if_neg (by rintro (e | e); exacts [h.some e, e hl])]; rfl

/-- **C134.** A mesh has as many elements as asked for, in each region: the nodes increase, and the boundaries of the
regions are the nodes with the numbers that are the sums of the numbers of elements. -/
theorem C134_mesh : ∃ l, mesh rs ns bias = some l ∧ l.length = ns.sum + 1 ∧ l.Pairwise (· < ·) ∧
    ∀ i, i ≤ ns.length → l[(ns.take i).sum]? = rs[i]? := by
  have hl := h.length
  have hs := kind_eq bias
  have h0 := nodes_zero bias hb
  have h1 := fun n a b hn => nodes_last bias hb n hn a b
  refine ⟨_, mesh_eq h bias, ?_, ?_, ?_⟩
  · rw [List.length_cons, segments_length hs rs ns hl]
  · exact segments_sorted hs h0 h1 (nodes_lt bias hb) rs ns hl h.pos h.sorted
  · intro i hi
    have r : rs[i]? = some (rs.getD i 0) := by
      rw [List.getD_eq_getElem _ _ (by omega), List.getElem?_eq_getElem]
    rw [r]
    rcases Nat.lt_or_ge i ns.length with q | q
    · have := segments_get hs h0 h1 rs ns hl h.pos i q 0 (Nat.zero_le _)
      rwa [add_zero, h0] at this
    · have n0 : 0 < ns.length := List.length_pos_of_ne_nil h.some
      have g : ns.getD (ns.length - 1) 0 = ns[ns.length - 1] := List.getD_eq_getElem _ _ (by omega)
      have := segments_get hs h0 h1 rs ns hl h.pos (ns.length - 1) (by omega) (ns.getD (ns.length - 1) 0) le_rfl
      rw [h1 _ _ _ (by rw [g]; exact h.pos _ (List.getElem_mem _)), g,
        show ns.length - 1 + 1 = ns.length by omega] at this
      have e : (ns.take (ns.length - 1)).sum + ns[ns.length - 1] = (ns.take i).sum := by
        have := List.take_succ_eq_append_getElem (l := ns) (i := ns.length - 1) (by omega)
        rw [show ns.length - 1 + 1 = i by omega] at this
        rw [this, List.sum_append, List.sum_singleton]
      rw [← e, this, show ns.length = i by omega]

/-- The nodes of every region. -/
theorem mesh_node : ∃ l, mesh rs ns bias = some l ∧ ∀ i, i < ns.length → ∀ k, k ≤ ns.getD i 0 →
    l[(ns.take i).sum + k]? = some (nodes bias (ns.getD i 0) (rs.getD i 0) (rs.getD (i + 1) 0) k) :=
  ⟨_, mesh_eq h bias, fun i hi k hk => segments_get (kind_eq bias) (nodes_zero bias hb)
    (fun n a b hn => nodes_last bias hb n hn a b) rs ns h.length h.pos i hi k hk⟩

end

/-- **C134.** Without bias the elements of each region are of equal size. -/
theorem C134_uniform {rs : List ℝ} {ns : List ℕ} (h : Regions rs ns) : ∃ l, mesh rs ns none = some l ∧
    ∀ i, i < ns.length → ∀ k, k ≤ ns.getD i 0 →
      l[(ns.take i).sum + k]? = some (rs.getD i 0 + (rs.getD (i + 1) 0 - rs.getD i 0) * (k / ns.getD i 0)) :=
  mesh_node h none (by simp)

theorem graded_mirror (p : ℝ) (n : ℕ) (a b : ℝ) (k : ℕ) (hk : k ≤ n) (hn : 0 < n) :
    graded p n a b k + graded p n a b (n - k) = a + b := by
  simp only [graded]
  rcases lt_trichotomy (2 * k) n with q | q | q
  · rw [if_pos q.le, if_neg (by omega), show n - (n - k) = k by omega]
    ring
  · have e : n - k = k := by omega
    rw [if_pos q.le, e, if_pos q.le, show (n + 1) / 2 = k by omega, div_self (by exact_mod_cast (by omega : k ≠ 0)),
      Real.one_rpow]
    ring
  · rw [if_neg (by omega), if_pos (by omega)]
    ring

/-- **C134.** With bias the nodes of each region are symmetric about its middle. -/
theorem C134_mirror {rs : List ℝ} {ns : List ℕ} (h : Regions rs ns) (p : ℝ) (hp : 0 < p) :
    ∃ l, mesh rs ns (some p) = some l ∧ ∀ i, i < ns.length → ∀ k, k ≤ ns.getD i 0 →
      ∃ x y, l[(ns.take i).sum + k]? = some x ∧ l[(ns.take i).sum + (ns.getD i 0 - k)]? = some y ∧
        x + y = rs.getD i 0 + rs.getD (i + 1) 0 := by
  obtain ⟨l, e, hl⟩ := mesh_node h (some p) (by rintro q ⟨rfl⟩; exact hp)
  refine ⟨l, e, fun i hi k hk => ⟨_, _, hl i hi k hk, hl i hi _ (Nat.sub_le _ _), ?_⟩⟩
  exact graded_mirror p _ _ _ k hk (by
    rw [List.getD_eq_getElem _ _ hi]
    exact h.pos _ (List.getElem_mem _))

/-- **C134.** With an exponent of at least one the elements get larger from the end of a region to its middle: in the
first half no element is larger than the next one. -/
theorem C134_graded {rs : List ℝ} {ns : List ℕ} (h : Regions rs ns) (p : ℝ) (hp : 1 ≤ p) :
    ∃ l, mesh rs ns (some p) = some l ∧ ∀ i, i < ns.length → ∀ k, 2 * (k + 2) ≤ ns.getD i 0 →
      ∃ x y z, l[(ns.take i).sum + k]? = some x ∧ l[(ns.take i).sum + (k + 1)]? = some y ∧
        l[(ns.take i).sum + (k + 2)]? = some z ∧ y - x ≤ z - y := by
  obtain ⟨l, e, hl⟩ := mesh_node h (some p) (by rintro q ⟨rfl⟩; linarith)
  refine ⟨l, e, fun i hi k hk => ⟨_, _, _, hl i hi k (by omega), hl i hi (k + 1) (by omega), hl i hi (k + 2) (by omega),
    ?_⟩⟩
  have hd : 0 < rs.getD (i + 1) 0 - rs.getD i 0 := by
    have hlen := h.length
    rw [List.getD_eq_getElem _ _ (by omega), List.getD_eq_getElem _ _ (by omega)]
    exact sub_pos.2 (List.pairwise_iff_getElem.1 h.sorted _ _ _ _ (by omega))
  simp only [nodes, graded]
  rw [if_pos (by omega), if_pos (by omega), if_pos (by omega)]
  generalize ns.getD i 0 = n at *
  have hm : (0 : ℝ) < ((n + 1) / 2 : ℕ) := by exact_mod_cast (by omega : 0 < (n + 1) / 2)
  have m1 : (k : ℝ) / ((n + 1) / 2 : ℕ) ∈ Set.Ici (0 : ℝ) := div_nonneg (Nat.cast_nonneg _) hm.le
  have m2 : ((k + 2 : ℕ) : ℝ) / ((n + 1) / 2 : ℕ) ∈ Set.Ici (0 : ℝ) := div_nonneg (Nat.cast_nonneg _) hm.le
  have cv := ((convexOn_rpow hp).2 : _) m1 m2 (by norm_num : (0 : ℝ) ≤ 1 / 2) (by norm_num : (0 : ℝ) ≤ 1 / 2)
    (by norm_num)
  simp only [smul_eq_mul] at cv
  have mid : 1 / 2 * ((k : ℝ) / ((n + 1) / 2 : ℕ)) + 1 / 2 * (((k + 2 : ℕ) : ℝ) / ((n + 1) / 2 : ℕ)) =
      ((k + 1 : ℕ) : ℝ) / ((n + 1) / 2 : ℕ) := by
    push_cast
    ring
  rw [mid] at cv
  nlinarith [mul_le_mul_of_nonneg_left cv hd.le]

/-- **C134, disagreement.** The element in the middle of a region with an odd number of elements is out of line: with the
exponent one, which for an even number gives equal elements, it is twice as large as the others. -/
theorem C134_odd_disagreement (a b : ℝ) :
    (∀ m k : ℕ, 0 < m → k ≤ 2 * m → graded 1 (2 * m) a b k = even (2 * m) a b k) ∧
    (∀ m : ℕ, graded 1 (2 * m + 1) a b (m + 1) - graded 1 (2 * m + 1) a b m =
      2 * ((b - a) / (2 * m + 2 : ℕ))) ∧
    (∀ m k : ℕ, k < m → graded 1 (2 * m + 1) a b (k + 1) - graded 1 (2 * m + 1) a b k = (b - a) / (2 * m + 2 : ℕ)) := by
  refine ⟨?_, ?_, ?_⟩
  · intro m k hm hk
    have hm' : (m : ℝ) ≠ 0 := by exact_mod_cast hm.ne'
    simp only [graded, even, Real.rpow_one, show (2 * m + 1) / 2 = m by omega]
    split_ifs with q
    · push_cast
      field_simp
    · rw [Nat.cast_sub hk]
      push_cast
      field_simp
      ring
  · intro m
    have hm' : (m : ℝ) + 1 ≠ 0 := by positivity
    simp only [graded, Real.rpow_one, show (2 * m + 1 + 1) / 2 = m + 1 by omega]
    rw [if_neg (by omega), if_pos (by omega), show 2 * m + 1 - (m + 1) = m by omega]
    push_cast
    field_simp
    ring
  · intro m k hk
    have hm' : (m : ℝ) + 1 ≠ 0 := by positivity
    simp only [graded, Real.rpow_one, show (2 * m + 1 + 1) / 2 = m + 1 by omega]
    rw [if_pos (by omega), if_pos (by omega)]
    push_cast
    field_simp
    ring

/-- **C134.** The rectangle rule: the weights add up to the length of the interval, and linear functions are integrated
exactly. -/
theorem C134_rectangle (n : ℕ) (hn : 0 < n) (a b : ℝ) :
    ((rect n).map fun x => x.2 * (a + b * x.1)).sum = 2 * a ∧ ∀ x ∈ rect n, -1 < x.1 ∧ x.1 < 1 ∧ 0 < x.2 := by
  have hn' : (0 : ℝ) < n := by exact_mod_cast hn
  constructor
  · have key : ∀ m : ℕ, ((List.range m).map fun k : ℕ => (2 / n : ℝ) *
        (a + b * (((-1 + (k : ℝ) * (2 / n)) + (-1 + ((k : ℝ) + 1) * (2 / n))) / 2))).sum =
        m * (2 / n) * a + b * (m * (2 / n)) * (-1 + m / n) := by
      intro m
      induction m with
      | zero => simp
      | succ m ih =>
        rw [List.range_succ, List.map_append, List.sum_append, ih]
        simp only [List.map_cons, List.map_nil, List.sum_singleton]
        push_cast
        field_simp
        ring
    rw [rect, List.map_map]
    refine (key n).trans ?_
    field_simp
    ring
  · intro x hx
    simp only [rect, List.mem_map, List.mem_range] at hx
    obtain ⟨k, hk, rfl⟩ := hx
    have hk' : (k : ℝ) + 1 ≤ n := by exact_mod_cast hk
    have k0 : (0 : ℝ) ≤ k := Nat.cast_nonneg k
    have e : ((-1 + (k : ℝ) * (2 / n)) + (-1 + ((k : ℝ) + 1) * (2 / n))) / 2 = -1 + (2 * k + 1) / n := by
      field_simp
      ring
    refine ⟨?_, ?_, by positivity⟩
    · simp only [e]
      have : (0 : ℝ) < (2 * k + 1) / n := by positivity
      linarith
    · simp only [e]
      have : ((2 : ℝ) * k + 1) / n < 2 := by
        rw [div_lt_iff₀ hn']
        linarith
      linarith

/-- Beside C134: two regions, biased. -/
example : Regions [1, 2, 4] [3, 4] := by
  constructor
  · rfl
  · simp
  · norm_num
  · simp

end Neml.Vessel
