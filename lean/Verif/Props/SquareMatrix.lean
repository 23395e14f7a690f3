import Verif.Model.SquareMatrix
import Mathlib.Tactic.Ring
import Mathlib.Tactic.Linarith
import Mathlib.Data.Matrix.Mul
import Mathlib.Data.List.GetD

/-!
# C160: matrices of interaction coefficients

Specification: a row is in block `b` if it is not below the sum of the sizes of the blocks before and below the sum
including the block.
-/

namespace Neml.SquareMatrix

variable {K : Type} [Semiring K]

/-- Row `i` is in block `b`. -/
def InBlock (blocks : List ℕ) (b i : ℕ) : Prop := (blocks.take b).sum ≤ i ∧ i < (blocks.take (b + 1)).sum

example : InBlock [2, 0, 3] 0 1 ∧ InBlock [2, 0, 3] 2 2 ∧ ¬ InBlock [2, 0, 3] 1 2 := by
  simp [InBlock]

theorem take_le (blocks : List ℕ) {b c : ℕ} (h : b ≤ c) : (blocks.take b).sum ≤ (blocks.take c).sum := by
  obtain ⟨k, rfl⟩ := Nat.exists_eq_add_of_le h
  rw [List.take_add, List.sum_append]
  omega

/-- Every row is in exactly one block. -/
theorem block_unique (blocks : List ℕ) {i : ℕ} (h : i < blocks.sum) : ∃! b, b < blocks.length ∧ InBlock blocks b i := by
  have ex : ∃ b, i < (blocks.take (b + 1)).sum := ⟨blocks.length, by rw [List.take_of_length_le (by omega)]; exact h⟩
  classical
  have hs := Nat.find_spec ex
  have hm := fun c (hc : c < Nat.find ex) => Nat.find_min ex hc
  generalize Nat.find ex = b at hs hm
  have lo : (blocks.take b).sum ≤ i := by
    rcases b with _ | b
    · simp
    · exact Nat.le_of_not_lt (hm b (by omega))
  refine ⟨b, ⟨?_, lo, hs⟩, ?_⟩
  · by_contra hc
    rw [List.take_of_length_le (by omega)] at lo
    omega
  · rintro c ⟨-, h1, h2⟩
    rcases lt_trichotomy c b with hc | hc | hc
    · exact absurd h2 (hm c hc)
    · exact hc
    · have := take_le blocks (show b + 1 ≤ c from hc)
      omega

/-- A sequence of assignments. -/
def writes (l : List (ℕ × K)) (d : Mem K) : Mem K := l.foldl (fun d p => Function.update d p.1 p.2) d

omit [Semiring K] in
theorem writes_not (l : List (ℕ × K)) (d : Mem K) {k : ℕ} (h : ∀ p ∈ l, p.1 ≠ k) : writes l d k = d k := by
  induction l generalizing d with
  | nil => rfl
  | cons p l ih =>
    rw [writes, List.foldl_cons]
    change writes l _ k = _
    rw [ih _ fun q hq => h q (by simp [hq]), Function.update_of_ne (h p (by simp)).symm]

omit [Semiring K] in
theorem writes_mem (l : List (ℕ × K)) (d : Mem K) (hc : ∀ p ∈ l, ∀ q ∈ l, p.1 = q.1 → p.2 = q.2) {p : ℕ × K}
    (hp : p ∈ l) : writes l d p.1 = p.2 := by
  induction l generalizing d p with
  | nil => simp at hp
  | cons q l ih =>
    rw [writes, List.foldl_cons]
    change writes l _ _ = _
    by_cases h : p ∈ l
    · exact ih _ (fun a ha b hb => hc a (by simp [ha]) b (by simp [hb])) h
    · obtain rfl : p = q := by simpa [h] using hp
      by_cases h2 : ∃ q ∈ l, q.1 = p.1
      · obtain ⟨q, hq, e⟩ := h2
        rw [← e, ih _ (fun a ha b hb => hc a (by simp [ha]) b (by simp [hb])) hq]
        exact hc q (by simp [hq]) p (by simp) e
      · push Not at h2
        rw [writes_not _ _ h2, Function.update_self]

omit [Semiring K] in
theorem writes_append (l l' : List (ℕ × K)) (d : Mem K) : writes (l ++ l') d = writes l' (writes l d) := by
  rw [writes, List.foldl_append]; rfl

theorem cindex_inj {m i j k l : ℕ} (hj : j < m) (hl : l < m) (h : cindex i j m = cindex k l m) : i = k ∧ j = l := by
  unfold cindex at h
  have hm : 0 < m := by omega
  have e1 : (j + i * m) / m = i := by rw [Nat.add_mul_div_right _ _ hm, Nat.div_eq_of_lt hj, zero_add]
  have e2 : (l + k * m) / m = k := by rw [Nat.add_mul_div_right _ _ hm, Nat.div_eq_of_lt hl, zero_add]
  have : i = k := by rw [← e1, h, e2]
  subst this
  exact ⟨rfl, by omega⟩

theorem cindex_lt {m i j : ℕ} (hi : i < m) (hj : j < m) : cindex i j m < m * m := by
  unfold cindex
  calc j + i * m < m + i * m := by omega
    _ = (i + 1) * m := by ring
    _ ≤ m * m := Nat.mul_le_mul_right _ hi

/-- The diagonal loops. -/
theorem diagonal_entry (m : ℕ) (f : ℕ → K) (d : Mem K) {i j : ℕ} (hi : i < m) (hj : j < m) :
    (List.range m).foldl (fun d i => Function.update d (cindex i i m) (f i)) (fill (m * m) 0 d) (cindex i j m) =
      if i = j then f i else 0 := by
  have e : (List.range m).foldl (fun d i => Function.update d (cindex i i m) (f i)) (fill (m * m) 0 d) =
      writes ((List.range m).map fun i => (cindex i i m, f i)) (fill (m * m) 0 d) := by
    rw [writes, List.foldl_map]
  rw [e]
  split_ifs with h
  · subst h
    refine writes_mem _ _ ?_ (p := (cindex i i m, f i)) (List.mem_map.mpr ⟨i, by simpa using hi, rfl⟩)
    intro p hp q hq hpq
    obtain ⟨a, ha, rfl⟩ := List.mem_map.mp hp
    obtain ⟨b, hb, rfl⟩ := List.mem_map.mp hq
    simp only [List.mem_range] at ha hb
    rw [(cindex_inj ha hb hpq).1]
  · rw [writes_not, fill, if_pos (cindex_lt hi hj)]
    intro p hp hpq
    obtain ⟨a, ha, rfl⟩ := List.mem_map.mp hp
    simp only [List.mem_range] at ha
    obtain ⟨rfl, rfl⟩ := cindex_inj ha hj hpq
    exact h rfl

theorem inner_loop (m bs : ℕ) (x : K) (ci : ℕ) (d : Mem K) :
    (List.range bs).foldl (fun (s : ℕ × Mem K) _ => (s.1 + 1, Function.update s.2 (cindex s.1 s.1 m) x)) (ci, d) =
      (ci + bs, writes ((List.range bs).map fun i => (cindex (ci + i) (ci + i) m, x)) d) := by
  induction bs with
  | zero => rfl
  | succ n ih =>
    rw [List.range_succ, List.foldl_append, ih, List.map_append, writes_append]
    rfl

/-- What the blocks of the diagonal leave in the memory. -/
theorem diagonal_loop (m : ℕ) (data : List K) (blocks : List ℕ) (ci cb : ℕ) (d : Mem K) :
    ∃ l : List (ℕ × K), (diagonalLoop m data blocks (ci, cb, d)).2.2 = writes l d ∧
      ∀ p, p ∈ l ↔ ∃ b i, InBlock blocks b i ∧ p = (cindex (ci + i) (ci + i) m, data.getD (cb + b) 0) := by
  induction blocks generalizing ci cb d with
  | nil => exact ⟨[], rfl, fun p => by simp [InBlock]⟩
  | cons bs blocks ih =>
    have e : diagonalLoop m data (bs :: blocks) (ci, cb, d) = diagonalLoop m data blocks
        (ci + bs, cb + 1, writes ((List.range bs).map fun i => (cindex (ci + i) (ci + i) m, data.getD cb 0)) d) := by
      rw [diagonalLoop, List.foldl_cons]
      dsimp only
      rw [inner_loop]
      rfl
    obtain ⟨l, hl, hm⟩ := ih (ci + bs) (cb + 1)
      (writes ((List.range bs).map fun i => (cindex (ci + i) (ci + i) m, data.getD cb 0)) d)
    refine ⟨((List.range bs).map fun i => (cindex (ci + i) (ci + i) m, data.getD cb 0)) ++ l, ?_, fun p => ?_⟩
    · rw [e, hl, writes_append]
    · rw [List.mem_append, hm]
      constructor
      · rintro (h | ⟨b, i, h, rfl⟩)
        · obtain ⟨i, hi, rfl⟩ := List.mem_map.mp h
          exact ⟨0, i, by simpa [InBlock] using hi, rfl⟩
        · refine ⟨b + 1, bs + i, ?_, ?_⟩
          · simp only [InBlock, List.take_succ_cons, List.sum_cons] at h ⊢
            omega
          · rw [show ci + (bs + i) = ci + bs + i by omega, show cb + (b + 1) = cb + 1 + b by omega]
      · rintro ⟨b, i, h, rfl⟩
        rcases b with _ | b
        · left
          refine List.mem_map.mpr ⟨i, by simpa [InBlock] using h, rfl⟩
        · right
          simp only [InBlock, List.take_succ_cons, List.sum_cons] at h
          refine ⟨b, i - bs, ?_, ?_⟩
          · simp only [InBlock]
            omega
          · rw [show ci + bs + (i - bs) = ci + i by omega, show cb + 1 + b = cb + (b + 1) by omega]

theorem check_sum (m : ℕ) (blocks : List ℕ) : checkBlocks m blocks = true ↔ blocks.sum = m := by
  simp [checkBlocks, List.sum_eq_foldl]

theorem in_lt {blocks : List ℕ} {b i : ℕ} (h : InBlock blocks b i) : i < blocks.sum := by
  have := take_le blocks (show b + 1 ≤ max (b + 1) blocks.length from le_max_left _ _)
  rw [List.take_of_length_le (le_max_right _ _)] at this
  exact lt_of_lt_of_le h.2 this

theorem in_unique {blocks : List ℕ} {b c i : ℕ} (h : InBlock blocks b i) (h' : InBlock blocks c i) : b = c := by
  rcases lt_trichotomy b c with hc | hc | hc
  · have := take_le blocks (show b + 1 ≤ c from hc)
    unfold InBlock at h h'
    omega
  · exact hc
  · have := take_le blocks (show c + 1 ≤ b from hc)
    unfold InBlock at h h'
    omega

theorem offsets_get (blocks : List ℕ) (b : ℕ) (h : b ≤ blocks.length) : (offsets blocks).getD b 0 = (blocks.take b).sum := by
  have gen : ∀ (l : List ℕ) (a b : ℕ), b ≤ l.length → (l.scanl (· + ·) a).getD b 0 = a + (l.take b).sum := by
    intro l
    induction l with
    | nil => intro a b hb; obtain rfl : b = 0 := by simpa using hb
             simp
    | cons x l ih =>
      intro a b hb
      rcases b with _ | b
      · simp
      · rw [List.scanl_cons, List.getD_cons_succ, ih _ _ (by simpa using hb), List.take_succ_cons, List.sum_cons]
        ring
  rw [offsets, gen blocks 0 b h, zero_add]

theorem mem_upTo {a b i : ℕ} : i ∈ upTo a b ↔ a ≤ i ∧ i < b := by
  rw [upTo, List.mem_range'_1]
  omega

/-! ## What is built -/

/-- A matrix of zeros, the identity, and a matrix given entry by entry. -/
theorem C160_simple (m : ℕ) (data : List K) (blocks : List ℕ) (junk : Mem K) :
    (∃ d, build m "zero" data blocks junk = some d ∧ ∀ i < m, ∀ j < m, view m m d i j = 0) ∧
    (∃ d, build m "identity" data blocks junk = some d ∧ ∀ i < m, ∀ j < m, view m m d i j = if i = j then 1 else 0) ∧
    (build m "dense" data blocks junk = none ↔ data.length ≠ m * m) ∧
    ∀ d, build m "dense" data blocks junk = some d → ∀ i < m, ∀ j < m, some (view m m d i j) = data[i * m + j]? := by
  have hlt : ∀ {i j : ℕ}, i < m → j < m → i * m + j < m * m := fun {i j} hi hj => by
    have := cindex_lt hi hj
    unfold cindex at this
    omega
  refine ⟨⟨_, by simp [build]; rfl, fun i hi j hj => ?_⟩, ⟨_, by simp [build]; rfl, fun i hi j hj => ?_⟩, ?_, ?_⟩
  · rw [view, fill, if_pos (hlt hi hj)]
  · have := diagonal_entry m (fun _ => (1 : K)) junk hi hj
    rw [view, show i * m + j = cindex i j m from by unfold cindex; omega]
    exact this
  · simp [build]
  · intro d hd i hi j hj
    simp only [build, String.reduceEq, if_false, if_true] at hd
    split_ifs at hd with h
    · rw [← Option.some.inj hd]
      have hl : i * m + j < data.length := by rw [not_not.mp h]; exact hlt hi hj
      rw [view, if_pos hl, List.getElem?_eq_getElem hl, List.getD_eq_getElem _ _ hl]

/-- A diagonal matrix. -/
theorem C160_diagonal (m : ℕ) (data : List K) (blocks : List ℕ) (junk : Mem K) :
    (build m "diagonal" data blocks junk = none ↔ data.length ≠ m) ∧
    ∀ d, build m "diagonal" data blocks junk = some d → ∀ i < m, ∀ j < m,
      some (view m m d i j) = if i = j then data[i]? else some 0 := by
  constructor
  · simp [build, setupDiagonal]
  · intro d hd i hi j hj
    simp only [build, String.reduceEq, if_false, if_true, setupDiagonal] at hd
    split_ifs at hd with h
    rw [← Option.some.inj hd, view, show i * m + j = cindex i j m from by unfold cindex; omega,
      diagonal_entry m (fun i => data.getD i 0) junk hi hj]
    have hl : i < data.length := by omega
    split_ifs
    · rw [List.getElem?_eq_getElem hl, List.getD_eq_getElem _ _ hl]
    · rfl

/-- A diagonal matrix with the same number in each block. Blocks may be empty. -/
theorem C160_diagonal_blocks (m : ℕ) (data : List K) (blocks : List ℕ) (junk : Mem K) :
    (build m "diagonal_blocks" data blocks junk = none ↔ blocks.length ≠ data.length ∨ blocks.sum ≠ m) ∧
    ∀ d, build m "diagonal_blocks" data blocks junk = some d → ∀ i < m, ∀ j < m,
      ∃! b, b < blocks.length ∧ InBlock blocks b i ∧ some (view m m d i j) = if i = j then data[b]? else some 0 := by
  constructor
  · simp only [build, String.reduceEq, if_false, if_true, setupDiagonalBlocks, check_sum]
    split_ifs <;> simp_all
  · intro d hd i hi j hj
    simp only [build, String.reduceEq, if_false, if_true, setupDiagonalBlocks, check_sum] at hd
    split_ifs at hd with h1 h2
    obtain ⟨l, hl, hm⟩ := diagonal_loop m data blocks 0 0 (fill (m * m) 0 junk)
    rw [hl] at hd
    obtain ⟨b, ⟨hb, hbi⟩, hu⟩ := block_unique blocks (show i < blocks.sum by omega)
    refine ⟨b, ⟨hb, hbi, ?_⟩, fun c hc => hu c ⟨hc.1, hc.2.1⟩⟩
    rw [← Option.some.inj hd, view, show i * m + j = cindex i j m from by unfold cindex; omega]
    have hbd : b < data.length := by omega
    split_ifs with h
    · subst h
      have := writes_mem l (fill (m * m) 0 junk) ?_ (p := (cindex i i m, data.getD b 0))
        ((hm _).mpr ⟨b, i, hbi, by rw [zero_add, zero_add]⟩)
      · rw [this, List.getElem?_eq_getElem hbd, List.getD_eq_getElem _ _ hbd]
      · intro p hp q hq hpq
        obtain ⟨b1, i1, h3, rfl⟩ := (hm p).mp hp
        obtain ⟨b2, i2, h4, rfl⟩ := (hm q).mp hq
        simp only [zero_add] at hpq ⊢
        have e1 := in_lt h3
        have e2 := in_lt h4
        obtain ⟨rfl, -⟩ := cindex_inj (by omega) (by omega) hpq
        rw [in_unique h3 h4]
    · rw [writes_not, fill, if_pos (cindex_lt hi hj)]
      intro p hp hpq
      obtain ⟨b1, i1, h3, rfl⟩ := (hm p).mp hp
      simp only [zero_add] at hpq
      have e1 := in_lt h3
      obtain ⟨rfl, rfl⟩ := cindex_inj (by omega) hj hpq
      exact h rfl

/-- A matrix with the same number in each pair of blocks. Every entry is written. -/
theorem C160_block (m : ℕ) (data : List K) (blocks : List ℕ) (junk : Mem K) :
    (build m "block" data blocks junk = none ↔ data.length ≠ blocks.length ^ 2 ∨ blocks.sum ≠ m) ∧
    ∀ d, build m "block" data blocks junk = some d → ∀ i < m, ∀ j < m,
      ∃ b c, b < blocks.length ∧ c < blocks.length ∧ InBlock blocks b i ∧ InBlock blocks c j ∧
        some (view m m d i j) = data[b * blocks.length + c]? := by
  constructor
  · simp only [build, String.reduceEq, if_false, if_true, setupBlock, check_sum, pow_two]
    split_ifs <;> simp_all
  · intro d hd i hi j hj
    simp only [build, String.reduceEq, if_false, if_true, setupBlock, check_sum] at hd
    split_ifs at hd with h1 h2
    rw [not_not] at h1
    set l : List (ℕ × K) := (List.range blocks.length).flatMap fun bi => (List.range blocks.length).flatMap fun bj =>
      (upTo ((offsets blocks).getD bi 0) ((offsets blocks).getD (bi + 1) 0)).flatMap fun i =>
        (upTo ((offsets blocks).getD bj 0) ((offsets blocks).getD (bj + 1) 0)).map fun j =>
          (cindex i j m, data.getD (cindex bi bj blocks.length) 0) with hl
    have e : d = writes l junk := by
      rw [← Option.some.inj hd, hl, writes]
      simp only [List.foldl_flatMap, List.foldl_map]
    have hm : ∀ p, p ∈ l ↔ ∃ b c i j, b < blocks.length ∧ c < blocks.length ∧ InBlock blocks b i ∧ InBlock blocks c j ∧
        p = (cindex i j m, data.getD (cindex b c blocks.length) 0) := by
      intro p
      simp only [hl, List.mem_flatMap, List.mem_map, List.mem_range, mem_upTo]
      constructor
      · rintro ⟨b, hb, c, hc, i, hi, j, hj, rfl⟩
        rw [offsets_get _ _ hb.le, offsets_get _ _ hb] at hi
        rw [offsets_get _ _ hc.le, offsets_get _ _ hc] at hj
        exact ⟨b, c, i, j, hb, hc, hi, hj, rfl⟩
      · rintro ⟨b, c, i, j, hb, hc, hi, hj, rfl⟩
        refine ⟨b, hb, c, hc, i, ?_, j, ?_, rfl⟩
        · rw [offsets_get _ _ hb.le, offsets_get _ _ hb]; exact hi
        · rw [offsets_get _ _ hc.le, offsets_get _ _ hc]; exact hj
    obtain ⟨b, ⟨hb, hbi⟩, -⟩ := block_unique blocks (show i < blocks.sum by omega)
    obtain ⟨c, ⟨hc, hcj⟩, -⟩ := block_unique blocks (show j < blocks.sum by omega)
    refine ⟨b, c, hb, hc, hbi, hcj, ?_⟩
    have := writes_mem l junk ?_ (p := (cindex i j m, data.getD (cindex b c blocks.length) 0))
      ((hm _).mpr ⟨b, c, i, j, hb, hc, hbi, hcj, rfl⟩)
    · have hbc : cindex b c blocks.length < data.length := by rw [h1]; exact cindex_lt hb hc
      rw [view, show i * m + j = cindex i j m from by unfold cindex; omega, e, this,
        show b * blocks.length + c = cindex b c blocks.length from by unfold cindex; omega,
        List.getElem?_eq_getElem hbc, List.getD_eq_getElem _ _ hbc]
    · intro p hp q hq hpq
      obtain ⟨b1, c1, i1, j1, -, -, h3, h4, rfl⟩ := (hm p).mp hp
      obtain ⟨b2, c2, i2, j2, -, -, h5, h6, rfl⟩ := (hm q).mp hq
      have e1 := in_lt h4
      have e2 := in_lt h6
      obtain ⟨rfl, rfl⟩ := cindex_inj (by omega) (by omega) hpq
      rw [in_unique h3 h5, in_unique h4 h6]

/-- Other types are refused. -/
theorem C160_types (m : ℕ) {type : String} (data : List K) (blocks : List ℕ) (junk : Mem K)
    (h : type ∉ ["zero", "identity", "diagonal", "diagonal_blocks", "block", "dense"]) :
    build m type data blocks junk = none := by
  simp only [List.mem_cons, List.not_mem_nil, or_false, not_or] at h
  simp [build, h]

/-- Two groups of systems, three and two, with their own and a common coefficient. -/
example : ∃ d, build (K := ℤ) 5 "block" [1, 2, 2, 3] [3, 2] (fun _ => 77) = some d ∧ view 5 5 d 1 4 = 2 ∧
    view 5 5 d 4 4 = 3 := ⟨_, rfl, by decide, by decide⟩

/-! ## Products and reading -/

/-- The product is refused unless the sizes fit and is otherwise the product with the array that Python shows. -/
theorem C160_product (m n : ℕ) (d : Mem K) (nb : ℕ) (b : Mem K) :
    (dot m n d nb b = none ↔ nb ≠ n) ∧
    ∀ r, dot m n d nb b = some r → r.1 = m ∧ ∀ i : Fin m, r.2 i =
      Matrix.mulVec (Matrix.of fun (i : Fin m) (j : Fin n) => view m n d i j) (fun j : Fin n => b j) i := by
  simp only [dot, matvec, ne_eq, not_true_eq_false, or_false]
  constructor
  · split_ifs <;> simp_all
  · intro r hr
    split_ifs at hr
    swap
    · simp at hr
    rw [← Option.some.inj hr]
    refine ⟨rfl, fun i => ?_⟩
    simp only [matVec, Matrix.mulVec, dotProduct, Matrix.of_apply, view]
    rw [Finset.sum_fin_eq_sum_range, ← List.sum_toFinset _ List.nodup_range]
    refine Finset.sum_congr (by ext; simp) fun k hk => ?_
    rw [dif_pos (by simpa using hk), add_comm]

omit [Semiring K] in
/-- Reading an entry by its indices gives the entry of the array for square matrices. -/
theorem C160_read_partial (m : ℕ) (d : Mem K) (i j : ℕ) : call m m d i j = view m m d i j := by
  rw [call, view, cindex, add_comm]

/-- Otherwise it gives some other entry, and if there are more rows than columns it reads past the end. -/
theorem C160_read_disagreement {m n : ℕ} (hm : 2 ≤ m) (hn : 1 ≤ n) (h : m ≠ n) :
    (∃ (d : Mem ℤ) (i j : ℕ), i < m ∧ j < n ∧ call m n d i j ≠ view m n d i j) ∧
      (n < m → ∃ i j : ℕ, i < m ∧ j < n ∧ m * n ≤ cindex i j m) := by
  constructor
  · refine ⟨fun k => k, 1, 0, by omega, by omega, ?_⟩
    simp only [call, view, cindex]
    omega
  · intro hl
    refine ⟨m - 1, n - 1, by omega, by omega, ?_⟩
    unfold cindex
    obtain ⟨k, rfl⟩ := Nat.exists_eq_add_of_lt hl
    obtain ⟨n, rfl⟩ := Nat.exists_eq_add_of_le' hn
    simp only [Nat.add_sub_cancel]
    nlinarith

end Neml.SquareMatrix
