import Verif.Model.Text
import Mathlib.Tactic.Common
import Mathlib.Tactic.Linarith
import Mathlib.Tactic.Ring

/-!
# C11: integer and list text fields survive printing and parsing
-/

namespace Neml.Text

/-- The range of a 32 bit integer. -/
def InRange (i : Int) : Prop := -2 ^ 31 ≤ i ∧ i < 2 ^ 31

theorem digit_not_space {c : Char} (h : c.isDigit = true) : isSpace c = false := by
  simp only [Char.isDigit, Bool.and_eq_true, decide_eq_true_eq] at h
  obtain ⟨h1, h2⟩ := h
  unfold isSpace
  have : ∀ d : Char, d.val < 48 → (c = d) = False := by
    intro d hd
    simp only [eq_iff_iff, iff_false]
    rintro rfl
    exact absurd hd (by simpa [UInt32.not_lt] using h1)
  simp [this ' ' (by decide), this '\t' (by decide), this '\n' (by decide), this '\x0b' (by decide),
    this '\x0c' (by decide), this '\r' (by decide)]

theorem digits_isDigit (n : Nat) : ∀ c ∈ Nat.toDigits 10 n, c.isDigit = true := fun _ hc =>
  Nat.isDigit_of_mem_toDigits (by decide) (by decide) hc

theorem digits_ne_nil (n : Nat) : Nat.toDigits 10 n ≠ [] := Nat.toDigits_ne_nil

theorem leadingNat_digits (n : Nat) : leadingNat (Nat.toDigits 10 n) = some n := by
  have h : (Nat.toDigits 10 n).takeWhile Char.isDigit = Nat.toDigits 10 n := by
    have : ∀ l : List Char, (∀ c ∈ l, c.isDigit = true) → l.takeWhile Char.isDigit = l := by
      intro l hl
      induction l with
      | nil => rfl
      | cons c l ih =>
        rw [List.takeWhile_cons_of_pos (hl c (List.mem_cons_self ..)),
          ih fun x hx => hl x (List.mem_cons_of_mem _ hx)]
    exact this _ (digits_isDigit n)
  simp only [leadingNat, h, digits_ne_nil, if_false]
  rw [Nat.ofDigitChars_toDigits (by decide) (by decide)]

theorem digits_head (n : Nat) : ∃ c cs, Nat.toDigits 10 n = c :: cs ∧ c.isDigit = true := by
  obtain ⟨c, cs, h⟩ := List.exists_cons_of_ne_nil (digits_ne_nil n)
  exact ⟨c, cs, h, digits_isDigit n c (h ▸ List.mem_cons_self ..)⟩

theorem signOf_digits (n : Nat) : signOf (Nat.toDigits 10 n) = (1, Nat.toDigits 10 n) := by
  obtain ⟨c, cs, h, hc⟩ := digits_head n
  rw [h]
  unfold signOf
  split
  · rename_i heq; cases heq; exact absurd hc (by decide)
  · rename_i heq; cases heq; exact absurd hc (by decide)
  · rfl

theorem dropWhile_digits (n : Nat) : (Nat.toDigits 10 n).dropWhile isSpace = Nat.toDigits 10 n := by
  obtain ⟨c, cs, h, hc⟩ := digits_head n
  rw [h, List.dropWhile_cons_of_neg (by simp [digit_not_space hc])]

/-- **C11** a printed integer reads back. -/
theorem C11_int (i : Int) (hi : InRange i) : stoi (showInt i) = some i := by
  cases i with
  | ofNat n =>
    simp only [stoi, showInt, dropWhile_digits, signOf_digits, leadingNat_digits]
    have hi' : -2 ^ 31 ≤ (n : Int) ∧ (n : Int) < 2 ^ 31 := hi
    rw [one_mul, if_pos hi']
    rfl
  | negSucc n =>
    have hs : isSpace '-' = false := by decide
    have hd : (showInt (.negSucc n)).dropWhile isSpace = '-' :: Nat.toDigits 10 (n + 1) :=
      List.dropWhile_cons_of_neg (by simp [hs])
    simp only [stoi, hd, signOf, leadingNat_digits]
    have e : (-1 : Int) * ((n + 1 : Nat) : Int) = Int.negSucc n := by rw [Int.negSucc_eq]; push_cast; ring
    have hi' : -2 ^ 31 ≤ Int.negSucc n ∧ Int.negSucc n < 2 ^ 31 := hi
    rw [e, if_pos hi']

/-- **C11** a printed size reads back. -/
theorem C11_size (n : Nat) (hn : n < 2 ^ 64) : stoul (Nat.toDigits 10 n) = some n := by
  simp only [stoul, dropWhile_digits, signOf_digits, leadingNat_digits]
  rw [if_pos hn, one_mul, Int.emod_eq_of_lt (by positivity) (by exact_mod_cast hn)]
  rfl

/-- A text without blanks. -/
def Solid (w : List Char) : Prop := w ≠ [] ∧ ∀ c ∈ w, isSpace c = false

theorem showInt_solid (i : Int) : Solid (showInt i) := by
  cases i with
  | ofNat n => exact ⟨digits_ne_nil n, fun c hc => digit_not_space (digits_isDigit n c hc)⟩
  | negSucc n =>
    refine ⟨List.cons_ne_nil _ _, fun c hc => ?_⟩
    rcases List.mem_cons.mp hc with rfl | hc
    · decide
    · exact digit_not_space (digits_isDigit _ c hc)

theorem digits_solid (n : Nat) : Solid (Nat.toDigits 10 n) :=
  ⟨digits_ne_nil n, fun c hc => digit_not_space (digits_isDigit n c hc)⟩

theorem tok_word (cur w rest : List Char) (hw : ∀ c ∈ w, isSpace c = false) :
    tok cur (w ++ rest) = tok (cur ++ w) rest := by
  induction w generalizing cur with
  | nil => simp
  | cons c w ih =>
    rw [List.cons_append, tok, if_neg (by simp [hw c (List.mem_cons_self ..)]),
      ih _ fun x hx => hw x (List.mem_cons_of_mem _ hx)]
    simp

/-- Words followed by blanks split into the words. -/
theorem tok_words {α : Type} (f : α → List Char) (l : List α) (hf : ∀ x ∈ l, Solid (f x)) :
    tok [] (l.flatMap fun x => f x ++ [' ']) = l.map f := by
  induction l with
  | nil => simp [tok]
  | cons x l ih =>
    have hx := hf x (List.mem_cons_self ..)
    rw [List.flatMap_cons, List.append_assoc, tok_word _ _ _ hx.2, List.nil_append, List.cons_append, tok,
      if_pos (by decide), if_neg hx.1, List.nil_append, ih fun y hy => hf y (List.mem_cons_of_mem _ hy)]
    rfl

theorem mapM_map {α β : Type} (f : α → List Char) (g : List Char → Option β) (h : α → β) (l : List α)
    (hg : ∀ x ∈ l, g (f x) = some (h x)) : (l.map f).mapM g = some (l.map h) := by
  induction l with
  | nil => rfl
  | cons x l ih =>
    rw [List.map_cons, List.mapM_cons, hg x (List.mem_cons_self ..),
      ih fun y hy => hg y (List.mem_cons_of_mem _ hy)]
    rfl

/-- **C11** a printed list of integers reads back. -/
theorem C11_ints (l : List Int) (hl : ∀ i ∈ l, InRange i) : splitInts (showInts l) = some l := by
  unfold splitInts showInts
  rw [tok_words showInt l fun i _ => showInt_solid i,
    mapM_map showInt stoi id l fun i hi => C11_int i (hl i hi)]
  simp

/-- **C11** a printed list of sizes reads back. -/
theorem C11_sizes (l : List Nat) (hl : ∀ i ∈ l, i < 2 ^ 64) : splitSizes (showSizes l) = some l := by
  unfold splitSizes showSizes
  rw [tok_words (Nat.toDigits 10) l fun i _ => digits_solid i,
    mapM_map (Nat.toDigits 10) stoul id l fun i hi => C11_size i (hl i hi)]
  simp

/-- **C11** a printed list of real numbers reads back up to printing precision, if a single printed number
has no blanks and reads back as its rounded value. -/
theorem C11_doubles {D : Type} (fmt : D → List Char) (stod : List Char → Option D) (rnd : D → D)
    (hs : ∀ x, Solid (fmt x)) (hr : ∀ x, stod (fmt x) = some (rnd x)) (l : List D) :
    splitDoubles stod (showDoubles fmt l) = some (l.map rnd) := by
  unfold splitDoubles showDoubles
  rw [tok_words fmt l fun x _ => hs x, mapM_map fmt stod rnd l fun x _ => hr x]

/-! ## Blanks at the ends -/

theorem tok_space (cs : List Char) (c : Char) (h : isSpace c = true) : tok [] (c :: cs) = tok [] cs := by
  simp [tok, h]

theorem tok_dropWhile (cs : List Char) : tok [] (cs.dropWhile isSpace) = tok [] cs := by
  induction cs with
  | nil => rfl
  | cons c cs ih =>
    by_cases h : isSpace c = true
    · rw [List.dropWhile_cons_of_pos h, ih, tok_space _ _ h]
    · rw [List.dropWhile_cons_of_neg h]

theorem tok_trailing (cur cs : List Char) (c : Char) (h : isSpace c = true) :
    tok cur (cs ++ [c]) = tok cur cs := by
  induction cs generalizing cur with
  | nil =>
    by_cases hc : cur = [] <;> simp [tok, hc, h]
  | cons d cs ih =>
    rw [List.cons_append]
    simp only [tok, ih]

theorem tok_reverse_dropWhile (cs : List Char) :
    tok [] ((cs.reverse.dropWhile isSpace).reverse) = tok [] cs := by
  rw [← List.reverse_reverse cs]
  generalize cs.reverse = r
  rw [List.reverse_reverse]
  induction r with
  | nil => rfl
  | cons c r ih =>
    by_cases h : isSpace c = true
    · rw [List.dropWhile_cons_of_pos h, ih, List.reverse_cons, tok_trailing _ _ _ h]
    · rw [List.dropWhile_cons_of_neg h]

/-- Stripping blanks does not change the words. -/
theorem tok_strip (cs : List Char) : tok [] (strip cs) = tok [] cs := by
  unfold strip
  rw [tok_reverse_dropWhile, tok_dropWhile]

theorem splitInts_strip (cs : List Char) : splitInts (strip cs) = splitInts cs := by
  unfold splitInts; rw [tok_strip]

/-- Pieces ending in the separator. -/
theorem pieces_flatMap {α : Type} (sep : Char) (f : α → List Char) (l : List α)
    (hf : ∀ x ∈ l, sep ∉ f x) : pieces sep [] (l.flatMap fun x => f x ++ [sep]) = l.map f := by
  have hw : ∀ (w cur rest : List Char), sep ∉ w → pieces sep cur (w ++ sep :: rest) =
      (cur ++ w) :: pieces sep [] rest := by
    intro w
    induction w with
    | nil => intro cur rest _; simp [pieces]
    | cons c w ih =>
      intro cur rest h
      rw [List.mem_cons, not_or] at h
      rw [List.cons_append, pieces, if_neg (Ne.symm h.1), ih _ _ h.2]
      simp
  induction l with
  | nil => simp [pieces]
  | cons x l ih =>
    rw [List.flatMap_cons, List.append_assoc, List.singleton_append,
      hw _ _ _ (hf x (List.mem_cons_self ..)), ih fun y hy => hf y (List.mem_cons_of_mem _ hy)]
    rfl

theorem cut_append (a b : List Char) (h : ';' ∉ a) : cut (a ++ ';' :: b) = some (a, b) := by
  induction a with
  | nil => simp [cut]
  | cons c a ih =>
    rw [List.mem_cons, not_or] at h
    rw [List.cons_append, cut, if_neg (Ne.symm h.1), ih h.2]
    rfl

theorem field_append (full a b : List Char) (h : ';' ∉ a) : field full (a ++ ';' :: b) = (a, b) := by
  rw [field, cut_append _ _ h]; rfl

theorem showInts_chars (l : List Int) (c : Char) (hc : c ∈ showInts l) :
    c.isDigit = true ∨ c = '-' ∨ c = ' ' := by
  simp only [showInts, List.mem_flatMap, List.mem_append, List.mem_singleton] at hc
  obtain ⟨i, -, hc | hc⟩ := hc
  · cases i with
    | ofNat n => exact Or.inl (digits_isDigit n c hc)
    | negSucc n =>
      rcases List.mem_cons.mp hc with rfl | hc
      · exact Or.inr (Or.inl rfl)
      · exact Or.inl (digits_isDigit _ c hc)
  · exact Or.inr (Or.inr hc)

theorem showInts_not_mem (l : List Int) (d : Char) (h : d.isDigit = false) (h1 : d ≠ '-') (h2 : d ≠ ' ') :
    d ∉ showInts l := by
  intro hd
  rcases showInts_chars l d hd with h' | h' | h'
  · simp [h] at h'
  · exact h1 h'
  · exact h2 h'

theorem semi_not_mem (l : List Int) : ';' ∉ showInts l :=
  showInts_not_mem l ';' (by decide) (by decide) (by decide)

theorem comma_not_mem (l : List Int) : ',' ∉ showInts l :=
  showInts_not_mem l ',' (by decide) (by decide) (by decide)

/-- Stripping a text that has a character other than a blank in the middle. -/
theorem strip_middle (a b : List Char) (c : Char) (hc : isSpace c = false) :
    strip (a ++ c :: b) = a.dropWhile isSpace ++ c :: (b.reverse.dropWhile isSpace).reverse := by
  have h1 : (a ++ c :: b).dropWhile isSpace = a.dropWhile isSpace ++ c :: b := by
    induction a with
    | nil => simp [hc]
    | cons d a ih =>
      by_cases hd : isSpace d = true
      · rw [List.cons_append, List.dropWhile_cons_of_pos hd, List.dropWhile_cons_of_pos hd, ih]
      · rw [List.cons_append, List.dropWhile_cons_of_neg hd, List.dropWhile_cons_of_neg hd]
        rfl
  have h2 : ∀ r s : List Char, (r ++ c :: s).dropWhile isSpace = r.dropWhile isSpace ++ c :: s := by
    intro r s
    induction r with
    | nil => simp [hc]
    | cons d r ih =>
      by_cases hd : isSpace d = true
      · rw [List.cons_append, List.dropWhile_cons_of_pos hd, List.dropWhile_cons_of_pos hd, ih]
      · rw [List.cons_append, List.dropWhile_cons_of_neg hd, List.dropWhile_cons_of_neg hd]
        rfl
  unfold strip
  rw [h1]
  simp only [List.reverse_append, List.reverse_cons, List.append_assoc, List.singleton_append]
  rw [h2]
  simp

theorem mem_dropWhile {c : Char} {l : List Char} (h : c ∈ l.dropWhile isSpace) : c ∈ l :=
  (List.dropWhile_sublist _).subset h

theorem splitInts_left (l : List Int) (hl : ∀ i ∈ l, InRange i) :
    splitInts (strip ((showInts l).dropWhile isSpace)) = some l := by
  rw [splitInts_strip]
  unfold splitInts
  rw [tok_dropWhile]
  exact C11_ints l hl

theorem splitInts_right (b : List Char) (l : List Int) (hb : tok [] b = tok [] (showInts l))
    (hl : ∀ i ∈ l, InRange i) :
    splitInts (strip ((b.reverse.dropWhile isSpace).reverse)) = some l := by
  rw [splitInts_strip]
  unfold splitInts
  rw [tok_reverse_dropWhile, hb]
  exact C11_ints l hl

theorem mapM_pieces {α : Type} (f : α → List Char) (g : List Char → Option α) (l : List α)
    (hne : ∀ x ∈ l, strip (f x) ≠ []) (hg : ∀ x ∈ l, g (strip (f x)) = some x) :
    (((l.map f).map strip).filter fun p => p ≠ []).mapM g = some l := by
  rw [List.filter_eq_self.mpr]
  · rw [List.map_map, mapM_map (strip ∘ f) g id l hg]; simp
  · intro p hp
    simp only [List.map_map, List.mem_map, Function.comp] at hp
    obtain ⟨x, hx, rfl⟩ := hp
    simpa using hne x hx

/-- **C11** a printed list of slip systems reads back, for every list, including empty directions. -/
theorem C11_slip (l : List (List Int × List Int))
    (hl : ∀ e ∈ l, (∀ i ∈ e.1, InRange i) ∧ ∀ i ∈ e.2, InRange i) : getSlip (showSlip l) = some l := by
  have e1 : showSlip l = l.flatMap fun e => (showInts e.1 ++ ';' :: ' ' :: showInts e.2) ++ [','] := by
    simp [showSlip]
  have hsc : isSpace ';' = false := by decide
  unfold getSlip
  rw [e1, pieces_flatMap]
  · refine mapM_pieces _ _ l ?_ ?_
    · intro e _
      rw [strip_middle _ _ _ hsc]
      simp
    · intro e he
      rw [strip_middle _ _ _ hsc]
      unfold slipOne
      rw [field_append _ _ _ fun h => semi_not_mem _ (mem_dropWhile h)]
      simp only
      rw [splitInts_left _ (hl e he).1,
        splitInts_right (' ' :: showInts e.2) e.2 (tok_space _ _ (by decide)) (hl e he).2]
  · intro e _
    simp only [List.mem_append, List.mem_cons, not_or]
    exact ⟨comma_not_mem _, by decide, by decide, comma_not_mem _⟩

/-- **C11** a printed list of twin systems reads back. -/
theorem C11_twin (l : List (List Int × List Int × List Int × List Int))
    (hl : ∀ e ∈ l, (∀ i ∈ e.1, InRange i) ∧ (∀ i ∈ e.2.1, InRange i) ∧ (∀ i ∈ e.2.2.1, InRange i) ∧
      ∀ i ∈ e.2.2.2, InRange i) : getTwin (showTwin l) = some l := by
  have e1 : showTwin l = l.flatMap fun e => (showInts e.1 ++ ';' :: (showInts e.2.1 ++
      ';' :: (showInts e.2.2.1 ++ ';' :: showInts e.2.2.2))) ++ [','] := by
    simp [showTwin]
  have hsc : isSpace ';' = false := by decide
  have hr : ∀ a b : List Char, ((a ++ ';' :: b).reverse.dropWhile isSpace).reverse =
      a ++ ';' :: (b.reverse.dropWhile isSpace).reverse := by
    intro a b
    have h2 : ∀ r s : List Char, (r ++ ';' :: s).dropWhile isSpace = r.dropWhile isSpace ++ ';' :: s := by
      intro r s
      induction r with
      | nil => simp [hsc]
      | cons d r ih =>
        by_cases hd : isSpace d = true
        · rw [List.cons_append, List.dropWhile_cons_of_pos hd, List.dropWhile_cons_of_pos hd, ih]
        · rw [List.cons_append, List.dropWhile_cons_of_neg hd, List.dropWhile_cons_of_neg hd]
          rfl
    simp only [List.reverse_append, List.reverse_cons, List.append_assoc, List.singleton_append]
    rw [h2]
    simp
  unfold getTwin
  rw [e1, pieces_flatMap]
  · refine mapM_pieces _ _ l ?_ ?_
    · intro e _
      rw [strip_middle _ _ _ hsc]
      simp
    · intro e he
      obtain ⟨ha, hb, hc, hd⟩ := hl e he
      rw [strip_middle _ _ _ hsc, hr, hr]
      unfold twinOne
      rw [field_append _ _ _ fun h => semi_not_mem _ (mem_dropWhile h)]
      simp only
      rw [field_append _ _ _ (semi_not_mem _)]
      simp only
      rw [field_append _ _ _ (semi_not_mem _)]
      simp only
      rw [splitInts_left _ ha, splitInts_strip, splitInts_strip, C11_ints _ hb, C11_ints _ hc,
        splitInts_right _ e.2.2.2 rfl hd]
  · intro e _
    simp only [List.mem_append, List.mem_cons, not_or]
    exact ⟨comma_not_mem _, by decide, comma_not_mem _, by decide, comma_not_mem _, by decide,
      comma_not_mem _⟩

/-- Cases: signs, several systems, empty entries and the empty list. -/
example : getSlip "1 1 -2 ; 0 1 1 ,; ,".toList = some [([1, 1, -2], [0, 1, 1]), ([], [])] := by decide +kernel

example : showSlip [([1, 1, -2], [0, 1, 1]), ([], [])] = "1 1 -2 ; 0 1 1 ,; ,".toList := by decide +kernel

example : getTwin (showTwin [([1], [-20], [], [3, 4])]) = some [([1], [-20], [], [3, 4])] := by decide +kernel

/-- A text without a semicolon gives the same numbers twice. -/
example : getSlip "1 2 3".toList = some [([1, 2, 3], [1, 2, 3])] := by decide +kernel

end Neml.Text
