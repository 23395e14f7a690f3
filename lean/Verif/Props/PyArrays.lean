import Verif.Model.PyArrays
import Mathlib.Tactic.Linarith
import Mathlib.Tactic.Ring
import Mathlib.Tactic.NormNum

/-!
# C177: arrays handed over from Python
-/

namespace Neml.PyArrays

/-- An index within a shape. -/
abbrev Within (idx shape : List ℕ) : Prop := List.Forall₂ (· < ·) idx shape

/-- The number of an entry counted row by row. -/
def flat : List ℕ → List ℕ → ℕ
  | _ :: ns, i :: is => i * ns.prod + flat ns is
  | _, _ => 0

theorem flat_lt (shape idx : List ℕ) (h : Within idx shape) : flat shape idx < shape.prod := by
  induction h with
  | nil => simp [flat]
  | @cons i n is ns hi _ ih =>
    simp only [flat, List.prod_cons]
    calc i * ns.prod + flat ns is < i * ns.prod + ns.prod := by omega
      _ = (i + 1) * ns.prod := by ring
      _ ≤ n * ns.prod := Nat.mul_le_mul_right _ hi

theorem unflatten_flat (shape idx : List ℕ) (h : Within idx shape) : unflatten shape (flat shape idx) = idx := by
  induction h with
  | nil => rfl
  | @cons i n is ns hi ht ih =>
    have hl := flat_lt ns is ht
    have hp : 0 < ns.prod := lt_of_le_of_lt (Nat.zero_le _) hl
    simp only [flat, unflatten]
    rw [Nat.add_comm, Nat.add_mul_div_right _ _ hp, Nat.div_eq_of_lt hl, Nat.add_mul_mod_self_right, Nat.mod_eq_of_lt hl, ih]
    simp

theorem addr_contiguous (off : ℤ) (shape idx : List ℕ) (strides : List ℤ) (h : Within idx shape)
    (hc : contiguous shape strides = true) : addr off idx strides = off + flat shape idx := by
  induction h generalizing strides with
  | nil =>
    cases strides with
    | nil => simp [addr, flat]
    | cons => simp [contiguous] at hc
  | @cons i n is ns hi ht ih =>
    cases strides with
    | nil => simp [contiguous] at hc
    | cons s ss =>
      simp only [contiguous, Bool.and_eq_true, Bool.or_eq_true, beq_iff_eq] at hc
      simp only [addr, flat]
      rw [ih ss hc.2]
      rcases hc.1 with h1 | h1
      · have : i = 0 := by omega
        subst this
        simp
      · rw [h1]; push_cast; ring

theorem contiguous_cStrides (shape : List ℕ) : contiguous shape (cStrides shape) = true := by
  induction shape with
  | nil => rfl
  | cons n ns ih => simp [contiguous, cStrides, ih]

/-- C177: whatever the steps and the kind of the numbers of an argument, C++ reads its entries row by row. -/
theorem C177_argument (m : Mem) (fresh : ℕ) (a : Arr) (idx : List ℕ) (h : Within idx a.shape) :
    argument m fresh a (flat a.shape idx) = a.entry m idx := by
  unfold argument ensure
  by_cases hd : a.direct = true
  · rw [if_pos hd]
    simp only [Arr.direct, Bool.and_eq_true] at hd
    simp only [readPtr, Arr.entry, addr_contiguous a.off a.shape idx a.strides h hd.2]
  · rw [if_neg hd]
    have hl := flat_lt a.shape idx h
    simp only [readPtr, zero_add, if_true]
    rw [if_pos ⟨by positivity, by exact_mod_cast hl⟩, Int.toNat_natCast, unflatten_flat a.shape idx h]

/-- C177: an argument a function fills has the new entries afterwards if it holds doubles without gaps, and nothing else has
changed, neither in other buffers nor before or behind the entries in its own. -/
theorem C177_fill_partial (m : Mem) (fresh : ℕ) (a : Arr) (hd : a.direct = true) (w : ℕ → ℝ) :
    (∀ idx, Within idx a.shape → a.entry (fillArgument m fresh a w) idx = some (w (flat a.shape idx))) ∧
      ∀ b i, (b ≠ a.buf ∨ i < a.off ∨ a.off + a.shape.prod ≤ i) → fillArgument m fresh a w b i = m b i := by
  have e : fillArgument m fresh a w = writePtr m a a.shape.prod w := by
    unfold fillArgument ensure
    rw [if_pos hd]
  rw [e]
  simp only [Arr.direct, Bool.and_eq_true] at hd
  constructor
  · intro idx h
    have hl := flat_lt a.shape idx h
    rw [Arr.entry, addr_contiguous a.off a.shape idx a.strides h hd.2, writePtr,
      if_pos ⟨rfl, by omega, by
        have : (flat a.shape idx : ℤ) < a.shape.prod := by exact_mod_cast hl
        omega⟩]
    congr 2
    simp
  · intro b i hb
    rw [writePtr, if_neg]
    rintro ⟨c1, c2, c3⟩
    rcases hb with hb | hb | hb
    · exact hb c1
    · omega
    · omega

/-- C177, what is not so: an argument to be filled that has gaps, or holds other numbers than doubles, is left as it was, without
a message. -/
theorem C177_fill_disagreement (m : Mem) (fresh : ℕ) (a : Arr) (hf : fresh ≠ a.buf) (hd : a.direct = false) (w : ℕ → ℝ)
    (idx : List ℕ) : a.entry (fillArgument m fresh a w) idx = a.entry m idx := by
  have hd' : ¬ a.direct = true := by simp [hd]
  unfold fillArgument ensure
  rw [if_neg hd']
  simp only [Arr.entry, writePtr]
  rw [if_neg fun c => hf c.1.symm, if_neg (Ne.symm hf)]

/-- C177, what is not so: an argument with fewer entries than the function reads is read beyond its end. `n` entries are all there
is in the buffer. -/
theorem C177_short_disagreement (m : Mem) (fresh : ℕ) (a : Arr) (n k : ℕ) (hs : a.shape = [n]) (hk : n ≤ k)
    (hb : ∀ i, a.off + n ≤ i → m a.buf i = none) : argument m fresh a k = none := by
  unfold argument ensure
  by_cases hd : a.direct = true
  · rw [if_pos hd]
    show m a.buf (a.off + k) = none
    exact hb _ (by omega)
  · rw [if_neg hd]
    simp only [readPtr, zero_add, if_true, hs, List.prod_cons, List.prod_nil, mul_one]
    rw [if_neg]
    rintro ⟨-, h⟩
    have : k < n := by exact_mod_cast h
    omega

/-- C177: the data of a history copied from an array without gaps are its entries. -/
theorem C177_copy_partial (m : Mem) (a : Arr) (hc : contiguous a.shape a.strides = true) (idx : List ℕ)
    (h : Within idx a.shape) : copyData m a (flat a.shape idx) = a.entry m idx := by
  rw [copyData, if_pos hc, readPtr, Arr.entry, addr_contiguous a.off a.shape idx a.strides h hc]

/-- C177, what is not so: from an array with gaps they are whatever is found in memory that was given back. -/
theorem C177_copy_disagreement (m : Mem) (a : Arr) (hc : contiguous a.shape a.strides = false) (k : ℕ) : copyData m a k = none := by
  rw [copyData, if_neg (by simp [hc])]

/-- C177: the steps and the size of new arrays are those of an array without gaps. -/
theorem C177_alloc (n : ℕ) (ns : List ℕ) :
    ∃ st, allocTensor (n :: ns) = some (st, (n :: ns).prod) ∧ st.map (fun k => (k : ℤ)) = cStrides (n :: ns) := by
  induction ns generalizing n with
  | nil => exact ⟨[1], by simp [allocTensor], by simp [cStrides]⟩
  | cons k ns ih =>
    obtain ⟨st, h1, h2⟩ := ih k
    cases st with
    | nil => simp [cStrides] at h2
    | cons s ss =>
      refine ⟨s * k :: s :: ss, ?_, ?_⟩
      · simp only [allocTensor, h1, List.prod_cons]
        congr 2
        ring
      · have hs : (s : ℤ) = ns.prod := by
          have := congrArg List.head? h2
          simpa [cStrides] using this
        show ((s * k : ℕ) : ℤ) :: (s :: ss).map (fun k => (k : ℤ)) = ((k :: ns).prod : ℤ) :: cStrides (k :: ns)
        rw [h2, List.prod_cons]
        push_cast
        rw [hs, mul_comm]

/-- C177: so are those of new vectors, matrices and arrays of three dimensions. -/
theorem C177_alloc_small (shape : List ℕ) (st : List ℕ) (h : allocSteps shape = some st) :
    st.map (fun k => (k : ℤ)) = cStrides shape := by
  unfold allocSteps at h
  split at h <;> first | (cases h; simp [cStrides]) | simp at h

/-- What the arguments of a block evaluation must look like. -/
def BlockShapes.Right (nhist : ℕ) (b : BlockShapes) : Prop :=
  ∃ n, b = ⟨[n, 3, 3], [n, 3, 3], [n], [n], [n, 3, 3], [n, 3, 3], [n, nhist], [n, nhist], [n, 3, 3, 3, 3], [n], [n], [n], [n]⟩

theorem shape1 (s : List ℕ) (n : ℕ) (h : s.head? = some n) (hl : s.length = 1) : s = [n] := by
  match s, hl with
  | [a], _ => simpa using h

theorem shape2 (s : List ℕ) (n k : ℕ) (h : s.head? = some n) (hl : s.length = 2) (h1 : wrongAt s 1 k = false) : s = [n, k] := by
  match s, hl with
  | [a, b], _ =>
    simp [wrongAt] at h h1
    simp [h, h1]

theorem shape3 (s : List ℕ) (n : ℕ) (h : s.head? = some n) (hl : s.length = 3) (h1 : wrongAt s 1 3 = false)
    (h2 : wrongAt s 2 3 = false) : s = [n, 3, 3] := by
  match s, hl with
  | [a, b, c], _ =>
    simp [wrongAt] at h h1 h2
    simp [h, h1, h2]

theorem shape5 (s : List ℕ) (n : ℕ) (h : s.head? = some n) (hl : s.length = 5) (h1 : wrongAt s 1 3 = false)
    (h2 : wrongAt s 2 3 = false) (h3 : wrongAt s 3 3 = false) (h4 : wrongAt s 4 3 = false) : s = [n, 3, 3, 3, 3] := by
  match s, hl with
  | [a, b, c, d, e], _ =>
    simp [wrongAt] at h h1 h2 h3 h4
    simp [h, h1, h2, h3, h4]

theorem cascade (c : Prop) [Decidable c] (x : Option Bool) :
    (if c then some false else x) = some true ↔ ¬ c ∧ x = some true := by
  by_cases h : c <;> simp [h]

/-- C177: a block evaluation goes on exactly if all arguments have the right shape. -/
theorem C177_block_check (nhist : ℕ) (b : BlockShapes) : blockCheck nhist b = some true ↔ b.Right nhist := by
  constructor
  · intro h
    unfold blockCheck at h
    split at h
    · simp at h
    rename_i n hn
    have hh : b.all.any (fun s => s.head? == none) = false := by
      by_contra hc
      rw [if_pos (by simpa using hc)] at h
      cases h
    rw [if_neg (by rw [hh]; exact Bool.false_ne_true)] at h
    simp only [cascade, Bool.or_eq_true, bne_iff_ne, ne_eq, not_or, not_not, Bool.not_eq_true] at h
    obtain ⟨h1, h2, h3, h4, h5, h6, h7, h8, h9, h10, h11, h12, h13, h14, -⟩ := h
    have a : ∀ s ∈ b.all, s.head? = some n := by
      intro s hs
      by_contra hc
      have : b.all.any (fun s => s.head? != some n) = true := List.any_eq_true.mpr ⟨s, hs, by simpa using hc⟩
      rw [h1] at this
      cases this
    have a1 := a b.e1 (by simp [BlockShapes.all])
    have a2 := a b.e0 (by simp [BlockShapes.all])
    have a3 := a b.T1 (by simp [BlockShapes.all])
    have a4 := a b.T0 (by simp [BlockShapes.all])
    have a5 := a b.s1 (by simp [BlockShapes.all])
    have a6 := a b.s0 (by simp [BlockShapes.all])
    have a7 := a b.h1 (by simp [BlockShapes.all])
    have a8 := a b.h0 (by simp [BlockShapes.all])
    have a9 := a b.A1 (by simp [BlockShapes.all])
    have a10 := a b.u1 (by simp [BlockShapes.all])
    have a11 := a b.u0 (by simp [BlockShapes.all])
    have a12 := a b.p1 (by simp [BlockShapes.all])
    have a13 := a b.p0 (by simp [BlockShapes.all])
    clear a
    refine ⟨n, ?_⟩
    cases b with
    | mk e1 e0 T1 T0 s1 s0 H1 H0 A1 u1 u0 p1 p0 =>
      simp only [BlockShapes.mk.injEq]
      exact ⟨shape3 _ _ a1 h2.1.1 h2.1.2 h2.2, shape3 _ _ a2 h3.1.1 h3.1.2 h3.2, shape1 _ _ a3 h4, shape1 _ _ a4 h5,
        shape3 _ _ a5 h6.1.1 h6.1.2 h6.2, shape3 _ _ a6 h7.1.1 h7.1.2 h7.2, shape2 _ _ _ a7 h8.1 h8.2, shape2 _ _ _ a8 h9.1 h9.2,
        shape5 _ _ a9 h10.1.1.1.1 h10.1.1.1.2 h10.1.1.2 h10.1.2 h10.2, shape1 _ _ a10 h11, shape1 _ _ a11 h12, shape1 _ _ a12 h13,
        shape1 _ _ a13 h14⟩
  · rintro ⟨n, rfl⟩
    simp [blockCheck, BlockShapes.all, wrongAt]

/-- C177, what is not so: an array without dimensions among the arguments is not refused but looked at beyond its shape. -/
theorem C177_scalar_disagreement (nhist : ℕ) (b : BlockShapes) (h : [] ∈ b.all) : blockCheck nhist b = none := by
  unfold blockCheck
  split
  · rfl
  · rw [if_pos]
    rw [List.any_eq_true]
    exact ⟨[], h, rfl⟩

/-! ## Examples -/

/-- Every second entry of a buffer of twelve. -/
def second : Arr := ⟨0, 0, [6], [2], true⟩

/-- The buffer, holding its own places. -/
def twelve : Mem := fun b i => if b = 0 ∧ 0 ≤ i ∧ i < 12 then some i else none

example : second.entry twelve [5] = some 10 := by simp [second, Arr.entry, addr, twelve]

example : argument twelve 1 second 5 = some 10 := by
  have := C177_argument twelve 1 second [5] (by simp [second, Within])
  simpa [second, flat, Arr.entry, addr, twelve] using this

example : second.entry (fillArgument twelve 1 second fun _ => 7) [5] = some 10 := by
  rw [C177_fill_disagreement twelve 1 second (by decide) (by decide)]
  simp [second, Arr.entry, addr, twelve]

example : (⟨0, 0, [6], [1], true⟩ : Arr).entry (fillArgument twelve 1 ⟨0, 0, [6], [1], true⟩ fun _ => 7) [5] = some 7 :=
  (C177_fill_partial twelve 1 ⟨0, 0, [6], [1], true⟩ (by decide) fun _ => 7).1 [5] (by simp [Within])

example : argument twelve 1 ⟨0, 7, [5], [1], true⟩ 5 = none :=
  C177_short_disagreement twelve 1 ⟨0, 7, [5], [1], true⟩ 5 5 rfl (by omega) (by
    intro i hi
    simp only [twelve]
    rw [if_neg]
    rintro ⟨-, -, h⟩
    simp at hi
    omega)

example : allocTensor [6, 6, 3, 3, 3, 3] = some ([486, 81, 27, 9, 3, 1], 2916) := by decide

end Neml.PyArrays
