import Verif.Model.XmlFile
import Verif.Props.Xml

/-!
# C190, C191: files written by hand

`C190_layout`: however a document is laid out, with any blanks, comments, declarations, quotes and
escapes, the reader finds the same nodes.
-/

namespace Neml.Xml

open Neml.Objects (Kind)
open Neml.Text

/-! ## How a document may be written -/

/-- Blanks, tabs and line breaks. -/
def Blank (b : S) : Prop := ∀ c ∈ b, c = ' ' ∨ c = '\n' ∨ c = '\r' ∨ c = '\t'

/-- `Spelled bad v t`: `t` spells the text `v`. A character is written as itself, unless it is `&`, zero
or `bad`, or as one of the five named references. -/
inductive Spelled (bad : Char) : S → S → Prop
  | nil : Spelled bad [] []
  | raw {v t : S} (c : Char) (h1 : c ≠ '&') (h2 : c ≠ bad) (h3 : c ≠ '\x00') (h : Spelled bad v t) :
      Spelled bad (c :: v) (c :: t)
  | amp {v t : S} (h : Spelled bad v t) : Spelled bad ('&' :: v) ("&amp;".toList ++ t)
  | apos {v t : S} (h : Spelled bad v t) : Spelled bad ('\'' :: v) ("&apos;".toList ++ t)
  | quot {v t : S} (h : Spelled bad v t) : Spelled bad ('"' :: v) ("&quot;".toList ++ t)
  | gt {v t : S} (h : Spelled bad v t) : Spelled bad ('>' :: v) ("&gt;".toList ++ t)
  | lt {v t : S} (h : Spelled bad v t) : Spelled bad ('<' :: v) ("&lt;".toList ++ t)

/-- The inside of brackets: brackets come in pairs. -/
inductive Paired : S → Prop
  | nil : Paired []
  | char {r : S} (c : Char) (h0 : c ≠ '\x00') (h1 : c ≠ '[') (h2 : c ≠ ']') (h : Paired r) : Paired (c :: r)
  | group {x r : S} (hx : Paired x) (h : Paired r) : Paired ('[' :: (x ++ ']' :: r))

/-- The text of a document type: `>` only inside of brackets. -/
inductive Heading : S → Prop
  | nil : Heading []
  | char {r : S} (c : Char) (h0 : c ≠ '\x00') (h1 : c ≠ '>') (h2 : c ≠ '[') (h : Heading r) : Heading (c :: r)
  | group {x r : S} (hx : Paired x) (h : Heading r) : Heading ('[' :: (x ++ ']' :: r))

/-- Comments, processing instructions, among them the declaration `<?xml ...?>`, document types and other
declarations, with blanks before each. -/
inductive Notes : S → Prop
  | nil : Notes []
  | comment {r : S} (b x : S) (hb : Blank b) (hz : '\x00' ∉ x) (hx : ¬"-->".toList <:+: x) (h : Notes r) :
      Notes (b ++ "<!--".toList ++ x ++ "-->".toList ++ r)
  | pi {r : S} (b x : S) (hb : Blank b) (hz : '\x00' ∉ x) (hx : ¬"?>".toList <:+: x) (h : Notes r) :
      Notes (b ++ "<?".toList ++ x ++ "?>".toList ++ r)
  | doctype {r : S} (b x : S) (w : Char) (hb : Blank b) (hw : Blank [w]) (hx : Heading x) (h : Notes r) :
      Notes (b ++ "<!DOCTYPE".toList ++ w :: x ++ ">".toList ++ r)
  | other {r : S} (b x : S) (hb : Blank b) (hz : '\x00' ∉ x) (hx : '>' ∉ x) (h1 : ¬"--".toList <+: x)
      (h2 : ¬"[CDATA[".toList <+: x) (h3 : ¬"DOCTYPE".toList <+: x) (h : Notes r) :
      Notes (b ++ "<!".toList ++ x ++ ">".toList ++ r)

/-- Attributes, each after at least one blank, between single or double quotes. -/
inductive Attrs : List (S × S) → S → Prop
  | nil (b : S) (hb : Blank b) : Attrs [] b
  | cons {as : List (S × S)} {r v t : S} (b n b1 b2 : S) (q : Char) (hb : Blank b) (h0 : b ≠ []) (hn : AttrOK n)
      (hb1 : Blank b1) (hb2 : Blank b2) (hq : q = '\'' ∨ q = '"') (hv : Spelled q v t) (h : Attrs as r) :
      Attrs ((n, v) :: as) (b ++ n ++ b1 ++ '=' :: (b2 ++ q :: (t ++ q :: r)))

/-- What may stand between two tags for the nodes `ks`. -/
inductive Written : List Node → S → Prop
  | done (c b : S) (hc : Notes c) (hb : Blank b) : Written [] (c ++ b)
  | single {attrs : List (S × S)} {ta r : S} {ks : List Node} (c b name : S) (hc : Notes c) (hb : Blank b)
      (hn : NameOK name) (ha : Attrs attrs ta) (hr : Written ks r) :
      Written (.elem name attrs [] :: ks) (c ++ (b ++ '<' :: (name ++ (ta ++ '/' :: '>' :: r))))
  | pair {attrs : List (S × S)} {ta tb r : S} {kids ks : List Node} (c b name w : S) (hc : Notes c)
      (hb : Blank b) (hn : NameOK name) (ha : Attrs attrs ta) (hk : Written kids tb) (hw : Blank w)
      (hr : Written ks r) :
      Written (.elem name attrs kids :: ks)
        (c ++ (b ++ '<' :: (name ++ (ta ++ '>' :: (tb ++ '<' :: '/' :: (name ++ (w ++ '>' :: r)))))))
  | text {v t r : S} {ks : List Node} (c : S) (hc : Notes c) (hv : Spelled '<' v t) (hb : ¬Blank t)
      (h0 : r = [] ∨ r.head? = some '<') (hr : Written ks r) :
      Written (.data v :: ks) (c ++ (t ++ r))

/-! ## The reader on what is written -/

theorem blank_ws {b : S} (h : Blank b) : ∀ c ∈ b, ws c = true := by
  intro c hc
  have := h c hc
  unfold ws
  rcases this with rfl | rfl | rfl | rfl <;> decide

theorem takeText_spelled {q : Char} {v t : S} (keep : Char → Bool) (h : Spelled q v t)
    (hk : ∀ c, c ≠ q → c ≠ '\x00' → keep c = true) (hq : keep q = false) (hq' : q ≠ '&') (r : S) :
    takeText keep (t ++ q :: r) = some (v, q :: r) := by
  induction h with
  | nil => rw [List.nil_append, takeText_cons keep q r hq', hq]; rfl
  | raw c h1 h2 h3 h ih =>
    rw [List.cons_append, takeText_cons keep c _ h1, hk c h2 h3, if_pos rfl, ih]
    rfl
  | amp h ih => simp [takeText, ih, put]
  | apos h ih => simp [takeText, ih, put]
  | quot h ih => simp [takeText, ih, put]
  | gt h ih => simp [takeText, ih, put]
  | lt h ih => simp [takeText, ih, put]

theorem dropComment_end (x r : S) (hz : '\x00' ∉ x) (hx : ¬"-->".toList <:+: x) :
    dropComment (x ++ '-' :: '-' :: '>' :: r) = some r := by
  induction x with
  | nil => rfl
  | cons c x ih =>
    have hx' : ¬"-->".toList <:+: x := fun h => hx (h.trans (List.infix_cons (List.infix_refl x)))
    have hz' : '\x00' ∉ x := fun h => hz (List.mem_cons_of_mem _ h)
    rw [List.cons_append, dropComment.eq_def]
    split
    · simp_all
    · rename_i e
      exact absurd (List.cons.inj e).1 fun h => hz (h ▸ List.mem_cons_self)
    · rename_i r' e
      exfalso
      obtain ⟨rfl, e1⟩ := List.cons.inj e
      clear e
      match x, e1 with
      | [], e2 => simp at e2
      | [a], e2 => simp at e2
      | a :: b :: y, e2 =>
        simp only [List.cons_append, List.cons.injEq] at e2
        obtain ⟨rfl, rfl, -⟩ := e2
        exact hx ⟨[], y, by simp⟩
    · rename_i e
      rw [(List.cons.inj e).2.symm]
      exact ih hz' hx'

theorem dropPi_end (x r : S) (hz : '\x00' ∉ x) (hx : ¬"?>".toList <:+: x) : dropPi (x ++ '?' :: '>' :: r) = some r := by
  induction x with
  | nil => rfl
  | cons c x ih =>
    have hx' : ¬"?>".toList <:+: x := fun h => hx (h.trans (List.infix_cons (List.infix_refl x)))
    have hz' : '\x00' ∉ x := fun h => hz (List.mem_cons_of_mem _ h)
    rw [List.cons_append, dropPi.eq_def]
    split
    · simp_all
    · rename_i e
      exact absurd (List.cons.inj e).1 fun h => hz (h ▸ List.mem_cons_self)
    · rename_i r' e
      exfalso
      obtain ⟨rfl, e1⟩ := List.cons.inj e
      clear e
      match x, e1 with
      | [], e2 => simp at e2
      | a :: y, e2 =>
        simp only [List.cons_append, List.cons.injEq] at e2
        obtain ⟨rfl, -⟩ := e2
        exact hx ⟨[], y, by simp⟩
    · rename_i e
      rw [(List.cons.inj e).2.symm]
      exact ih hz' hx'

theorem dropBrackets_paired {x : S} (h : Paired x) (d : Nat) (r : S) :
    dropBrackets (d + 1) (x ++ r) = dropBrackets (d + 1) r := by
  induction h generalizing d r with
  | nil => rfl
  | char c h0 h1 h2 h ih => rw [List.cons_append, dropBrackets, if_neg h0, if_neg h1, if_neg h2, ih]
  | @group x y hx hy ihx ihy =>
    rw [List.cons_append, dropBrackets, if_neg (by decide), if_pos rfl, List.append_assoc, ihx, List.cons_append,
      dropBrackets, if_neg (by decide), if_neg (by decide), if_pos rfl, ihy]

theorem dropDoctype_heading {x : S} (h : Heading x) (r : S) (f : Nat) (hf : (x ++ '>' :: r).length < f) :
    dropDoctype f (x ++ '>' :: r) = some r := by
  induction h generalizing f with
  | nil =>
    obtain ⟨f, rfl⟩ : ∃ g, f = g + 1 := ⟨f - 1, by omega⟩
    rw [List.nil_append, dropDoctype, if_pos rfl]
  | char c h0 h1 h2 h ih =>
    obtain ⟨f, rfl⟩ : ∃ g, f = g + 1 := ⟨f - 1, by omega⟩
    rw [List.cons_append, dropDoctype, if_neg h1, if_neg h0, if_neg h2]
    exact ih f (by simp at hf ⊢; omega)
  | @group x y hx hy ih =>
    obtain ⟨f, rfl⟩ : ∃ g, f = g + 1 := ⟨f - 1, by omega⟩
    have e : dropBrackets 1 (x ++ ']' :: y ++ '>' :: r) = some (y ++ '>' :: r) := by
      rw [List.append_assoc, dropBrackets_paired hx, List.cons_append, dropBrackets, if_neg (by decide),
        if_neg (by decide), if_pos rfl, dropBrackets]
    rw [List.cons_append, dropDoctype, if_neg (by decide), if_neg (by decide), if_pos rfl, e]
    exact ih f (by simp at hf ⊢; omega)

theorem dropBang_end (x r : S) (hz : '\x00' ∉ x) (hx : '>' ∉ x) : dropBang (x ++ '>' :: r) = some r := by
  induction x with
  | nil => rfl
  | cons c x ih =>
    rw [List.cons_append, dropBang.eq_def]
    split
    · simp_all
    · rename_i e
      exact absurd (List.cons.inj e).1 fun h => hz (h ▸ List.mem_cons_self)
    · rename_i e
      exact absurd (List.cons.inj e).1 fun h => hx (h ▸ List.mem_cons_self)
    · rename_i e
      rw [(List.cons.inj e).2.symm]
      exact ih (fun h => hz (List.mem_cons_of_mem _ h)) fun h => hx (List.mem_cons_of_mem _ h)

theorem prefix_before (p x r : S) (hp : '>' ∉ p) (h : p <+: x ++ '>' :: r) : p <+: x := by
  induction p generalizing x with
  | nil => exact List.nil_prefix
  | cons c p ih =>
    cases x with
    | nil =>
      rw [List.nil_append, List.cons_prefix_cons] at h
      exact absurd (h.1 ▸ List.mem_cons_self) hp
    | cons d x =>
      rw [List.cons_append, List.cons_prefix_cons] at h
      rw [List.cons_prefix_cons]
      exact ⟨h.1, ih x (fun h => hp (List.mem_cons_of_mem _ h)) h.2⟩

theorem dropMarkup_other (x r : S) (hz : '\x00' ∉ x) (hx : '>' ∉ x) (h1 : ¬"--".toList <+: x)
    (h2 : ¬"[CDATA[".toList <+: x) (h3 : ¬"DOCTYPE".toList <+: x) :
    dropMarkup ('!' :: (x ++ '>' :: r)) = some r := by
  unfold dropMarkup
  split
  · simp_all
  · rename_i r' e
    exact absurd (prefix_before _ x r (by decide) ⟨r', by rw [(List.cons.inj e).2]; rfl⟩) h1
  · rename_i r' e
    exact absurd (prefix_before _ x r (by decide) ⟨r', by rw [(List.cons.inj e).2]; rfl⟩) h2
  · rename_i c r' e
    exact absurd (prefix_before _ x r (by decide) ⟨c :: r', by rw [(List.cons.inj e).2]; rfl⟩) h3
  · rename_i e
    rw [← (List.cons.inj e).2]
    exact dropBang_end x r hz hx
  · simp_all

theorem dropMarkup_doctype (w : Char) (hw : Blank [w]) {x : S} (hx : Heading x) (r : S) :
    dropMarkup ('!' :: 'D' :: 'O' :: 'C' :: 'T' :: 'Y' :: 'P' :: 'E' :: w :: (x ++ '>' :: r)) = some r := by
  show (if ws w then dropDoctype ((x ++ '>' :: r).length + 1) (x ++ '>' :: r) else _) = _
  rw [if_pos (blank_ws hw w (by simp)), dropDoctype_heading hx r _ (Nat.lt_succ_self _)]

/-- Reading attributes. -/
theorem parseAttrs_written {as : List (S × S)} {ta : S} (h : Attrs as ta) (c : Char) (tail : S)
    (hc : c = '>' ∨ c = '/') (f : Nat) (hf : ta.length < f) :
    parseAttrs f (skipWs (ta ++ c :: tail)) = some (as, c :: tail) := by
  have hcw : ws c = false ∧ attrCh c = false := by rcases hc with rfl | rfl <;> decide
  induction h generalizing f with
  | nil b hb =>
    obtain ⟨f, rfl⟩ : ∃ g, f = g + 1 := ⟨f - 1, by omega⟩
    rw [skipWs_append b (blank_ws hb), skipWs_cons c tail hcw.1, parseAttrs]
    simp [hcw.2]
  | @cons as r v t b n b1 b2 q hb h0 hn hb1 hb2 hq hv h ih =>
    obtain ⟨f, rfl⟩ : ∃ g, f = g + 1 := ⟨f - 1, by omega⟩
    have ih' := ih f (by simp at hf; omega)
    obtain ⟨d, n', rfl⟩ : ∃ d n', n = d :: n' := by
      cases n with
      | nil => exact absurd rfl hn.1
      | cons d n' => exact ⟨d, n', rfl⟩
    have hd : ws d = false := attrCh_not_ws (hn.2 d (by simp))
    have hqw : ws q = false := by rcases hq with rfl | rfl <;> decide
    have e : b ++ (d :: n') ++ b1 ++ '=' :: (b2 ++ q :: (t ++ q :: r)) ++ c :: tail =
        b ++ (d :: (n' ++ (b1 ++ '=' :: (b2 ++ q :: (t ++ q :: (r ++ c :: tail)))))) := by simp
    rw [e, skipWs_append b (blank_ws hb), skipWs_cons d _ hd, parseAttrs]
    obtain ⟨x, y, hxy, hx⟩ : ∃ x y, b1 ++ '=' :: (b2 ++ q :: (t ++ q :: (r ++ c :: tail))) = x :: y ∧
        attrCh x = false := by
      cases b1 with
      | nil => exact ⟨_, _, rfl, by decide⟩
      | cons x y =>
        refine ⟨_, _, rfl, ?_⟩
        rcases hb1 x (by simp) with rfl | rfl | rfl | rfl <;> decide
    have hs := span_append attrCh (d :: n') x y hn.2 hx
    rw [← hxy, List.cons_append] at hs
    rw [hs.1, hs.2, skipWs_append b1 (blank_ws hb1), skipWs_cons '=' _ (by decide)]
    simp only [skipWs_append b2 (blank_ws hb2), skipWs_cons q _ hqw, if_pos hq]
    rw [takeText_spelled (valueCh q) hv (fun c h1 h2 => by simp [valueCh, h1, h2]) (by simp [valueCh])
      (by rcases hq with rfl | rfl <;> decide)]
    simp only [if_true, ih', Option.map_some]

/-- The first step of the reader on a text that begins with notes: they are skipped. -/
theorem fileContents_notes {c : S} (h : Notes c) (r : S) (f : Nat) (hf : (c ++ r).length < f) :
    ∃ g, r.length < g ∧ fileContents f (c ++ r) = fileContents g r := by
  induction h generalizing f with
  | nil => exact ⟨f, hf, rfl⟩
  | @comment r' b x hb hz hx h ih =>
    obtain ⟨f, rfl⟩ : ∃ g, f = g + 1 := ⟨f - 1, by omega⟩
    obtain ⟨g, hg, e⟩ := ih f (by simp at hf ⊢; omega)
    refine ⟨g, hg, ?_⟩
    have e1 : b ++ "<!--".toList ++ x ++ "-->".toList ++ r' ++ r =
        b ++ '<' :: '!' :: '-' :: '-' :: (x ++ '-' :: '-' :: '>' :: (r' ++ r)) := by simp
    rw [e1, fileContents, skipWs_append b (blank_ws hb), skipWs_cons '<' _ (by decide)]
    simp [isMarkup, dropMarkup, dropComment_end x (r' ++ r) hz hx, e]
  | @pi r' b x hb hz hx h ih =>
    obtain ⟨f, rfl⟩ : ∃ g, f = g + 1 := ⟨f - 1, by omega⟩
    obtain ⟨g, hg, e⟩ := ih f (by simp at hf ⊢; omega)
    refine ⟨g, hg, ?_⟩
    have e1 : b ++ "<?".toList ++ x ++ "?>".toList ++ r' ++ r =
        b ++ '<' :: '?' :: (x ++ '?' :: '>' :: (r' ++ r)) := by simp
    rw [e1, fileContents, skipWs_append b (blank_ws hb), skipWs_cons '<' _ (by decide)]
    simp [isMarkup, dropMarkup, dropPi_end x (r' ++ r) hz hx, e]
  | @doctype r' b x w hb hw hx h ih =>
    obtain ⟨f, rfl⟩ : ∃ g, f = g + 1 := ⟨f - 1, by omega⟩
    obtain ⟨g, hg, e⟩ := ih f (by simp at hf ⊢; omega)
    refine ⟨g, hg, ?_⟩
    have e1 : b ++ "<!DOCTYPE".toList ++ w :: x ++ ">".toList ++ r' ++ r =
        b ++ '<' :: '!' :: 'D' :: 'O' :: 'C' :: 'T' :: 'Y' :: 'P' :: 'E' :: w :: (x ++ '>' :: (r' ++ r)) := by simp
    rw [e1, fileContents, skipWs_append b (blank_ws hb), skipWs_cons '<' _ (by decide)]
    simp [isMarkup, dropMarkup_doctype w hw hx (r' ++ r), e]
  | @other r' b x hb hz hx h1 h2 h3 h ih =>
    obtain ⟨f, rfl⟩ : ∃ g, f = g + 1 := ⟨f - 1, by omega⟩
    obtain ⟨g, hg, e⟩ := ih f (by simp at hf ⊢; omega)
    refine ⟨g, hg, ?_⟩
    have e1 : b ++ "<!".toList ++ x ++ ">".toList ++ r' ++ r = b ++ '<' :: '!' :: (x ++ '>' :: (r' ++ r)) := by simp
    rw [e1, fileContents, skipWs_append b (blank_ws hb), skipWs_cons '<' _ (by decide)]
    simp [isMarkup, dropMarkup_other x (r' ++ r) hz hx h1 h2 h3, e]

theorem fileKids_notes {c : S} (h : Notes c) (r : S) (f : Nat) (hf : (c ++ r).length < f) :
    ∃ g, r.length < g ∧ fileKids f (c ++ r) = fileKids g r := by
  induction h generalizing f with
  | nil => exact ⟨f, hf, rfl⟩
  | @comment r' b x hb hz hx h ih =>
    obtain ⟨f, rfl⟩ : ∃ g, f = g + 1 := ⟨f - 1, by omega⟩
    obtain ⟨g, hg, e⟩ := ih f (by simp at hf ⊢; omega)
    refine ⟨g, hg, ?_⟩
    have e1 : b ++ "<!--".toList ++ x ++ "-->".toList ++ r' ++ r =
        b ++ '<' :: '!' :: '-' :: '-' :: (x ++ '-' :: '-' :: '>' :: (r' ++ r)) := by simp
    rw [e1, fileKids, skipWs_append b (blank_ws hb), skipWs_cons '<' _ (by decide)]
    simp [isMarkup, dropMarkup, dropComment_end x (r' ++ r) hz hx, e]
  | @pi r' b x hb hz hx h ih =>
    obtain ⟨f, rfl⟩ : ∃ g, f = g + 1 := ⟨f - 1, by omega⟩
    obtain ⟨g, hg, e⟩ := ih f (by simp at hf ⊢; omega)
    refine ⟨g, hg, ?_⟩
    have e1 : b ++ "<?".toList ++ x ++ "?>".toList ++ r' ++ r =
        b ++ '<' :: '?' :: (x ++ '?' :: '>' :: (r' ++ r)) := by simp
    rw [e1, fileKids, skipWs_append b (blank_ws hb), skipWs_cons '<' _ (by decide)]
    simp [isMarkup, dropMarkup, dropPi_end x (r' ++ r) hz hx, e]
  | @doctype r' b x w hb hw hx h ih =>
    obtain ⟨f, rfl⟩ : ∃ g, f = g + 1 := ⟨f - 1, by omega⟩
    obtain ⟨g, hg, e⟩ := ih f (by simp at hf ⊢; omega)
    refine ⟨g, hg, ?_⟩
    have e1 : b ++ "<!DOCTYPE".toList ++ w :: x ++ ">".toList ++ r' ++ r =
        b ++ '<' :: '!' :: 'D' :: 'O' :: 'C' :: 'T' :: 'Y' :: 'P' :: 'E' :: w :: (x ++ '>' :: (r' ++ r)) := by simp
    rw [e1, fileKids, skipWs_append b (blank_ws hb), skipWs_cons '<' _ (by decide)]
    simp [isMarkup, dropMarkup_doctype w hw hx (r' ++ r), e]
  | @other r' b x hb hz hx h1 h2 h3 h ih =>
    obtain ⟨f, rfl⟩ : ∃ g, f = g + 1 := ⟨f - 1, by omega⟩
    obtain ⟨g, hg, e⟩ := ih f (by simp at hf ⊢; omega)
    refine ⟨g, hg, ?_⟩
    have e1 : b ++ "<!".toList ++ x ++ ">".toList ++ r' ++ r = b ++ '<' :: '!' :: (x ++ '>' :: (r' ++ r)) := by simp
    rw [e1, fileKids, skipWs_append b (blank_ws hb), skipWs_cons '<' _ (by decide)]
    simp [isMarkup, dropMarkup_other x (r' ++ r) hz hx h1 h2 h3, e]

/-- The start of an element. -/
theorem fileElem_open {attrs : List (S × S)} {ta : S} (name : S) (hn : NameOK name) (ha : Attrs attrs ta) (c : Char)
    (tail : S) (hc : c = '>' ∨ c = '/') (f : Nat) (hf : ta.length < f) :
    fileElem (f + 1) (name ++ (ta ++ c :: tail)) =
      match (some (attrs, c :: tail) : Option (List (S × S) × S)) with
      | some (attrs, '>' :: r) => (fileContents f r).map fun p => (.elem name attrs p.1, p.2)
      | some (attrs, '/' :: '>' :: r) => some (.elem name attrs [], r)
      | _ => none := by
  obtain ⟨x, y, hxy, hx⟩ : ∃ x y, ta ++ c :: tail = x :: y ∧ nameCh x = false := by
    cases ha with
    | nil _ hb =>
      cases ta with
      | nil => exact ⟨_, _, rfl, by rcases hc with rfl | rfl <;> decide⟩
      | cons x y => exact ⟨_, _, rfl, by rcases hb x (by simp) with rfl | rfl | rfl | rfl <;> decide⟩
    | cons b n b1 b2 q hb h0 hn' =>
      cases b with
      | nil => exact absurd rfl h0
      | cons x y => exact ⟨_, _, rfl, by rcases hb x (by simp) with rfl | rfl | rfl | rfl <;> decide⟩
  have hs := span_append nameCh name x y hn.2.2 hx
  rw [← hxy] at hs
  rw [fileElem, hs.1, hs.2, parseAttrs_written ha c tail hc f hf]
  obtain ⟨d, n', rfl⟩ : ∃ d n', name = d :: n' := by
    cases name with
    | nil => exact absurd rfl hn.1
    | cons d n' => exact ⟨d, n', rfl⟩
  rfl

theorem not_markup {name : S} (hn : NameOK name) (r : S) : isMarkup (name ++ r) = false := by
  obtain ⟨d, n', rfl⟩ : ∃ d n', name = d :: n' := by
    cases name with
    | nil => exact absurd rfl hn.1
    | cons d n' => exact ⟨d, n', rfl⟩
  have h1 : d ≠ '!' := fun e => hn.2.1 (by simp [e])
  have h2 : d ≠ '?' := by
    rintro rfl
    exact absurd (hn.2.2 '?' (by simp)) (by decide)
  rw [List.cons_append]
  unfold isMarkup
  split <;> simp_all

theorem not_close {name : S} (hn : NameOK name) (r : S) : ∀ r', name ++ r ≠ '/' :: r' := by
  intro r' e
  obtain ⟨d, n', rfl⟩ : ∃ d n', name = d :: n' := by
    cases name with
    | nil => exact absurd rfl hn.1
    | cons d n' => exact ⟨d, n', rfl⟩
  rw [List.cons_append] at e
  obtain ⟨rfl, -⟩ := List.cons.inj e
  exact absurd (hn.2.2 '/' (by simp)) (by decide)

/-- The contents: an element comes next. -/
theorem fileContents_elem {name : S} (hn : NameOK name) (b r : S) (hb : Blank b) (f : Nat) :
    fileContents (f + 1) (b ++ '<' :: (name ++ r)) =
      match fileElem f (name ++ r) with
      | some (n, r') => (fileContents f r').map fun p => (n :: p.1, p.2)
      | none => none := by
  rw [fileContents, skipWs_append b (blank_ws hb), skipWs_cons '<' _ (by decide)]
  split
  · simp_all
  · simp_all
  · rename_i e
    exact absurd (List.cons.inj e).2 (not_close hn r _)
  · rename_i e
    rw [← (List.cons.inj e).2, not_markup hn r]
    rfl
  · rename_i h1 h2 h3 h4
    exact absurd rfl (h4 _)

theorem fileKids_elem {name : S} (hn : NameOK name) (b r : S) (hb : Blank b) (f : Nat) :
    fileKids (f + 1) (b ++ '<' :: (name ++ r)) =
      match fileElem f (name ++ r) with
      | some (n, r') => (fileKids f r').map (n :: ·)
      | none => none := by
  rw [fileKids, skipWs_append b (blank_ws hb), skipWs_cons '<' _ (by decide)]
  simp only [not_markup hn r]
  rfl

theorem spelled_skipWs {v t : S} (h : Spelled '<' v t) (hb : ¬Blank t) (r : S) :
    ∃ d u, skipWs (t ++ r) = d :: u ∧ d ≠ '<' ∧ d ≠ '\x00' := by
  induction h with
  | nil => exact absurd (fun c hc => by simp at hc) hb
  | @raw v t c h1 h2 h3 h ih =>
    by_cases hw : ws c = true
    · have ht : ¬Blank t := by
        intro ht
        refine hb fun d hd => ?_
        rcases List.mem_cons.mp hd with rfl | hd
        · simpa [ws, or_assoc] using hw
        · exact ht d hd
      obtain ⟨d, u, e, h4⟩ := ih ht
      exact ⟨d, u, by rw [List.cons_append]; simpa [skipWs, hw] using e, h4⟩
    · exact ⟨c, t ++ r, by rw [List.cons_append, skipWs_cons c _ (by simpa using hw)], h2, h3⟩
  | amp => exact ⟨_, _, skipWs_cons '&' _ (by decide), by decide, by decide⟩
  | apos => exact ⟨_, _, skipWs_cons '&' _ (by decide), by decide, by decide⟩
  | quot => exact ⟨_, _, skipWs_cons '&' _ (by decide), by decide, by decide⟩
  | gt => exact ⟨_, _, skipWs_cons '&' _ (by decide), by decide, by decide⟩
  | lt => exact ⟨_, _, skipWs_cons '&' _ (by decide), by decide, by decide⟩

/-- The contents: a closing tag comes next. -/
theorem fileContents_close (b cl w rest : S) (hb : Blank b) (hcl : ∀ c ∈ cl, nameCh c = true) (hw : Blank w) (f : Nat) :
    fileContents (f + 1) (b ++ '<' :: '/' :: (cl ++ (w ++ '>' :: rest))) = some ([], rest) := by
  rw [fileContents, skipWs_append b (blank_ws hb), skipWs_cons '<' _ (by decide)]
  obtain ⟨x, y, hxy, hx⟩ : ∃ x y, w ++ '>' :: rest = x :: y ∧ nameCh x = false := by
    cases w with
    | nil => exact ⟨_, _, rfl, by decide⟩
    | cons x y => exact ⟨_, _, rfl, by rcases hw x (by simp) with rfl | rfl | rfl | rfl <;> decide⟩
  have hs := (span_append nameCh cl x y hcl hx).2
  rw [← hxy] at hs
  have : closeTag (cl ++ (w ++ '>' :: rest)) = some rest := by
    rw [closeTag, hs, skipWs_append w (blank_ws hw), skipWs_cons '>' _ (by decide)]
    rfl
  simp [this]

/-- The contents of an element, up to any closing tag. -/
theorem fileContents_written {ks : List Node} {t : S} (h : Written ks t) (cl w rest : S)
    (hcl : ∀ c ∈ cl, nameCh c = true) (hw : Blank w) (f : Nat)
    (hf : (t ++ '<' :: '/' :: (cl ++ (w ++ '>' :: rest))).length < f) :
    fileContents f (t ++ '<' :: '/' :: (cl ++ (w ++ '>' :: rest))) = some (ks, rest) := by
  induction h generalizing f cl w rest with
  | done c b hc hb =>
    rw [List.append_assoc] at hf ⊢
    obtain ⟨g, hg, e⟩ := fileContents_notes hc _ f hf
    obtain ⟨g, rfl⟩ : ∃ g', g = g' + 1 := ⟨g - 1, by omega⟩
    rw [e, fileContents_close b cl w rest hb hcl hw]
  | @single attrs ta r ks c b name hc hb hn ha hr ih =>
    rw [List.append_assoc] at hf ⊢
    obtain ⟨g, hg, e⟩ := fileContents_notes hc _ f hf
    simp only [List.append_assoc, List.cons_append] at e hg ⊢
    simp only [List.length_append, List.length_cons] at hg
    obtain ⟨g, rfl⟩ : ∃ g', g = g' + 1 + 1 := ⟨g - 2, by omega⟩
    rw [e, fileContents_elem hn b _ hb, fileElem_open name hn ha '/' _ (.inr rfl) g (by omega)]
    show Option.map _ (fileContents (g + 1) _) = _
    rw [ih cl w rest hcl hw (g + 1) (by simp; omega)]
    rfl
  | @pair attrs ta tb r kids ks c b name w' hc hb hn ha hk hw' hr ihk ih =>
    rw [List.append_assoc] at hf ⊢
    obtain ⟨g, hg, e⟩ := fileContents_notes hc _ f hf
    simp only [List.append_assoc, List.cons_append] at e hg ⊢
    simp only [List.length_append, List.length_cons] at hg
    obtain ⟨g, rfl⟩ : ∃ g', g = g' + 1 + 1 := ⟨g - 2, by omega⟩
    rw [e, fileContents_elem hn b _ hb, fileElem_open name hn ha '>' _ (.inl rfl) g (by omega)]
    simp only
    rw [ihk name w' _ hn.2.2 hw' g (by simp; omega)]
    show Option.map _ (fileContents (g + 1) _) = _
    rw [ih cl w rest hcl hw (g + 1) (by simp; omega)]
    rfl
  | @text v t r ks c hc hv hb h0 hr ih =>
    rw [List.append_assoc] at hf ⊢
    obtain ⟨g, hg, e⟩ := fileContents_notes hc _ f hf
    rw [List.append_assoc] at e hg
    simp only [List.length_append, List.length_cons] at hg
    obtain ⟨g, rfl⟩ : ∃ g', g = g' + 1 := ⟨g - 1, by omega⟩
    have ht : 0 < t.length := by
      rcases t with _ | ⟨a, t⟩
      · exact absurd (fun c hc => by simp at hc) hb
      · simp
    have ih' := ih cl w rest hcl hw g (by simp; omega)
    obtain ⟨y, hy⟩ : ∃ y, r ++ '<' :: '/' :: (cl ++ (w ++ '>' :: rest)) = '<' :: y := by
      rcases h0 with rfl | h0
      · exact ⟨_, rfl⟩
      · cases r with
        | nil => simp at h0
        | cons a r =>
          obtain rfl : a = '<' := by simpa using h0
          exact ⟨_, rfl⟩
    rw [List.append_assoc, e, hy, fileContents]
    rw [hy] at ih'
    obtain ⟨d, u, hd, h1, h2⟩ := spelled_skipWs hv hb ('<' :: y)
    rw [hd]
    have ht := takeText_spelled textCh hv (fun c h1 h2 => by simp [textCh, h1, h2]) (by decide) (by decide) y
    split
    · simp_all
    · simp_all
    · simp_all
    · simp_all
    · rw [ht]
      simp only [ih', Option.map_some]

theorem fileKids_written {ks : List Node} {t : S} (h : Written ks t) (hd : ∀ v, Node.data v ∉ ks) (f : Nat)
    (hf : t.length < f) : fileKids f t = some ks := by
  induction h generalizing f with
  | done c b hc hb =>
    obtain ⟨g, hg, e⟩ := fileKids_notes hc _ f hf
    obtain ⟨g, rfl⟩ : ∃ g', g = g' + 1 := ⟨g - 1, by omega⟩
    have : skipWs b = [] := by
      have := skipWs_append b (blank_ws hb) []
      simpa [skipWs] using this
    rw [e, fileKids, this]
  | @single attrs ta r ks c b name hc hb hn ha hr ih =>
    obtain ⟨g, hg, e⟩ := fileKids_notes hc _ f hf
    simp only [List.length_append, List.length_cons] at hg
    obtain ⟨g, rfl⟩ : ∃ g', g = g' + 1 + 1 := ⟨g - 2, by omega⟩
    rw [e, fileKids_elem hn b _ hb, fileElem_open name hn ha '/' _ (.inr rfl) g (by omega)]
    show Option.map _ (fileKids (g + 1) _) = _
    rw [ih (fun v hv => hd v (by simp [hv])) (g + 1) (by omega)]
    rfl
  | @pair attrs ta tb r kids ks c b name w' hc hb hn ha hk hw' hr ihk ih =>
    obtain ⟨g, hg, e⟩ := fileKids_notes hc _ f hf
    simp only [List.length_append, List.length_cons] at hg
    obtain ⟨g, rfl⟩ : ∃ g', g = g' + 1 + 1 := ⟨g - 2, by omega⟩
    rw [e, fileKids_elem hn b _ hb, fileElem_open name hn ha '>' _ (.inl rfl) g (by omega)]
    simp only
    rw [fileContents_written hk name w' _ hn.2.2 hw' g (by simp; omega)]
    show Option.map _ (fileKids (g + 1) _) = _
    rw [ih (fun v hv => hd v (by simp [hv])) (g + 1) (by omega)]
    rfl
  | text => exact absurd (List.mem_cons_self ..) (hd _)

/-- **C190** Layout does not matter: however the nodes are written, with blanks anywhere between tags and
inside them, comments and declarations, either kind of quotes, and characters as themselves or as named
references, the reader finds these nodes. -/
theorem C190_layout {ks : List Node} {t : S} (h : Written ks t) (hd : ∀ v, Node.data v ∉ ks) :
    fileDoc t = some ks := fileKids_written h hd _ (by omega)

theorem file_of_parse (f : Nat) :
    (∀ cs n r, parseElem f cs = some (n, r) → fileElem f cs = some (n, r)) ∧
    (∀ cs ks r, parseContents f cs = some (ks, r) → fileContents f cs = some (ks, r)) := by
  induction f with
  | zero => exact ⟨fun _ _ _ h => by simp [parseElem] at h, fun _ _ _ h => by simp [parseContents] at h⟩
  | succ f ih =>
    refine ⟨fun cs n r h => ?_, fun cs ks r h => ?_⟩
    · rw [parseElem] at h
      rw [fileElem]
      split at h
      · simp at h
      · simp at h
      · rename_i h1 h2
        split
        · rename_i e
          exact absurd e h1
        · split at h
          · rename_i e
            rw [e]
            obtain ⟨p, hp, hp'⟩ := Option.map_eq_some_iff.mp h
            simp only [ih.2 _ p.1 p.2 hp, Option.map_some, hp']
          · rename_i e
            rw [e]
            exact h
          · simp at h
    · rw [parseContents] at h
      rw [fileContents]
      split at h
      · simp at h
      · simp at h
      · rename_i e
        rw [e]
        exact h
      · rename_i r' h1 e
        split at h
        · rename_i n r'' e'
          have hm : isMarkup r' = false := by
            cases f with
            | zero => simp [parseElem] at e'
            | succ f =>
              rw [parseElem] at e'
              cases r' with
              | nil => rfl
              | cons d r' =>
                unfold isMarkup
                split
                · rename_i e2
                  rw [(List.cons.inj e2).1] at e'
                  simp [List.takeWhile_cons, show nameCh '?' = false by decide] at e'
                · rename_i e2
                  rw [(List.cons.inj e2).1] at e'
                  simp [List.takeWhile_cons, show nameCh '!' = true by decide] at e'
                · rfl
          obtain ⟨p, hp, hp'⟩ := Option.map_eq_some_iff.mp h
          have e1 := ih.1 _ _ _ e'
          have e2 := ih.2 _ _ _ hp
          rw [e]
          split
          · simp_all
          · simp_all
          · rename_i e3
            exact absurd (List.cons.inj e3).2 (h1 _)
          · rename_i e3
            obtain rfl := (List.cons.inj e3).2
            rw [hm, if_neg (by simp), e1]
            simp only [e2, Option.map_some, hp']
          · rename_i h4
            exact absurd rfl (h4 _)
        · simp at h
      · rename_i h1 h2 h3 h4
        split at h
        · rename_i v r'' e'
          obtain ⟨p, hp, hp'⟩ := Option.map_eq_some_iff.mp h
          have e2 := ih.2 _ _ _ hp
          split
          · rename_i e3
            exact absurd e3 h1
          · rename_i e3
            exact absurd e3 (h2 _)
          · rename_i e3
            exact absurd e3 (h3 _)
          · rename_i e3
            exact absurd e3 (h4 _)
          · rw [e']
            simp only [e2, Option.map_some, hp']
        · simp at h

theorem fileKids_of_parse (f : Nat) (cs : S) (ks : List Node) (h : parseKids f cs = some ks) :
    fileKids f cs = some ks := by
  induction f generalizing cs ks with
  | zero => simp [parseKids] at h
  | succ f ih =>
    rw [parseKids] at h
    rw [fileKids]
    split at h
    · rename_i e
      rw [e]
      exact h
    · rename_i r' e
      split at h
      · rename_i n r'' e'
        have e1 := (file_of_parse f).1 _ _ _ e'
        have hm : isMarkup r' = false := by
          cases f with
          | zero => simp [parseElem] at e'
          | succ f =>
            rw [parseElem] at e'
            cases r' with
            | nil => rfl
            | cons d r' =>
              unfold isMarkup
              split
              · rename_i e2
                rw [(List.cons.inj e2).1] at e'
                simp [List.takeWhile_cons, show nameCh '?' = false by decide] at e'
              · rename_i e2
                rw [(List.cons.inj e2).1] at e'
                simp [List.takeWhile_cons, show nameCh '!' = true by decide] at e'
              · rfl
        obtain ⟨p, hp, hp'⟩ := Option.map_eq_some_iff.mp h
        rw [e]
        simp only
        rw [hm, if_neg (by simp), e1]
        simp only [ih _ _ hp, Option.map_some, hp']
      · simp at h
    · simp at h

/-- **C190** What `C88_text` and `C10_round_trip` say about text from the writer holds for this reader: it
reads everything the reader of `Model/Xml` reads, alike. -/
theorem C190_printed (cs : S) (ks : List Node) (h : parseDoc cs = some ks) : fileDoc cs = some ks :=
  fileKids_of_parse _ cs ks h

/-! ## Looking up a model -/

section read

variable {D : Type} (stod : S → Option D) (schema : Schema D)

/-- **C190** Two files that hold the same nodes give the same model or the same error, for every name
asked for. -/
theorem C190_same {ks : List Node} {t t' : S} (h : Written ks t) (h' : Written ks t')
    (hd : ∀ v, Node.data v ∉ ks) (m : S) : readFile stod schema t m = readFile stod schema t' m := by
  rw [readFile, readFile, C190_layout h hd, C190_layout h' hd]

/-- **C190** The model read is the first child of the root with the name asked for. -/
theorem C190_found {a : List (S × S)} {n t : S} {pre post ks : List Node} {k : Node}
    (h : Written (.elem n a (pre ++ k :: post) :: ks) t) (hd : ∀ v, Node.data v ∉ ks)
    (hp : ∀ x ∈ pre, x.name ≠ k.name) :
    readFile stod schema t k.name = (getObject stod schema k).mapError .object := by
  rw [readFile, C190_layout h fun v hv => hd v (by simpa using hv)]
  have : (pre ++ k :: post).find? (fun x => decide (x.name = k.name)) = some k := by
    rw [List.find?_append, List.find?_eq_none.mpr (by simpa using hp)]
    simp
  simp only [Node.kids, this]
  cases getObject stod schema k <;> rfl

/-- **C190** Without a child of that name the reader says so and names it. -/
theorem C190_missing {a : List (S × S)} {n t m : S} {kids ks : List Node}
    (h : Written (.elem n a kids :: ks) t) (hd : ∀ v, Node.data v ∉ ks) (hp : ∀ x ∈ kids, x.name ≠ m) :
    readFile stod schema t m = .error (.notFound m) := by
  rw [readFile, C190_layout h fun v hv => hd v (by simpa using hv)]
  have : kids.find? (fun x => decide (x.name = m)) = none := List.find?_eq_none.mpr (by simpa using hp)
  simp only [Node.kids, this]

/-! ## Order of the parameters -/

theorem setSlot_comm (n m : S) (u v : Val D) (hnm : n ≠ m) (slots : List (Slot D)) :
    setSlot n u (setSlot m v slots) = setSlot m v (setSlot n u slots) := by
  induction slots with
  | nil => rfl
  | cons s l ih =>
    unfold setSlot at ih ⊢
    by_cases h1 : s.1 = n <;> by_cases h2 : s.1 = m <;> simp_all

theorem setSlot_again (n : S) (u v : Val D) (slots : List (Slot D)) :
    setSlot n v (setSlot n u slots) = setSlot n v slots := by
  induction slots with
  | nil => rfl
  | cons s l ih =>
    unfold setSlot at ih ⊢
    by_cases h1 : s.1 = n <;> simp_all

/-- What reading one more child does. -/
theorem getParams_ok_cons (node : S) (slots s : List (Slot D)) (x : Node) (rest : List Node) :
    getParams stod schema node slots (x :: rest) = .ok s ↔
      ∃ n a kids, x = .elem n a kids ∧
        (n = textKey ∧ getParams stod schema node slots rest = .ok s ∨
          n ≠ textKey ∧ ∃ k v, slotKind n slots = some k ∧ getValue stod schema x k = .ok v ∧
            getParams stod schema node (setSlot n v slots) rest = .ok s) := by
  cases x with
  | data v => simp [getParams]
  | elem n a kids =>
    by_cases hn : n = textKey
    · rw [getParams, if_pos hn]
      constructor
      · exact fun h => ⟨n, a, kids, rfl, .inl ⟨hn, h⟩⟩
      · rintro ⟨n', a', kids', e, h⟩
        obtain ⟨rfl, rfl, rfl⟩ := Node.elem.inj e
        rcases h with h | h
        · exact h.2
        · exact absurd hn h.1
    · rcases hk : slotKind n slots with _ | k
      · rw [getParams, if_neg hn]
        simp only [hk]
        constructor
        · simp
        · rintro ⟨n', a', kids', e, h⟩
          obtain ⟨rfl, rfl, rfl⟩ := Node.elem.inj e
          rcases h with h | ⟨_, k, v, h, _⟩
          · exact absurd h.1 hn
          · rw [hk] at h
            cases h
      · rw [getParams_cons stod schema node slots n a kids rest k hn hk]
        constructor
        · intro h
          rcases hv : getValue stod schema (.elem n a kids) k with e | v
          · rw [hv] at h
            cases h
          · rw [hv] at h
            exact ⟨n, a, kids, rfl, .inr ⟨hn, k, v, hk, hv, h⟩⟩
        · rintro ⟨n', a', kids', e, h⟩
          obtain ⟨rfl, rfl, rfl⟩ := Node.elem.inj e
          rcases h with h | ⟨_, k', v, h, h', h''⟩
          · exact absurd h.1 hn
          · rw [hk] at h
            obtain rfl := Option.some.inj h
            rw [h']
            exact h''

theorem getParams_perm (node : S) {l l' : List Node} (hp : l.Perm l') :
    ∀ slots s : List (Slot D), l.Pairwise (fun x y => x.name ≠ y.name) →
      getParams stod schema node slots l = .ok s → getParams stod schema node slots l' = .ok s := by
  induction hp with
  | nil => exact fun _ _ _ h => h
  | cons x h ih =>
    intro slots s hd hs
    obtain ⟨-, hd⟩ := List.pairwise_cons.mp hd
    rw [getParams_ok_cons] at hs ⊢
    obtain ⟨n, a, kids, e, h⟩ := hs
    refine ⟨n, a, kids, e, ?_⟩
    rcases h with ⟨h1, h2⟩ | ⟨h1, k, v, h2, h3, h4⟩
    · exact .inl ⟨h1, ih _ _ hd h2⟩
    · exact .inr ⟨h1, k, v, h2, h3, ih _ _ hd h4⟩
  | swap x y l =>
    intro slots s hd hs
    have hne : y.name ≠ x.name := (List.pairwise_cons.mp hd).1 x (by simp)
    rw [getParams_ok_cons] at hs
    obtain ⟨n, a, kids, rfl, h⟩ := hs
    rcases h with ⟨h1, h2⟩ | ⟨h1, k, v, h2, h3, h4⟩
    · rw [getParams_ok_cons] at h2 ⊢
      obtain ⟨n', a', kids', rfl, h⟩ := h2
      refine ⟨n', a', kids', rfl, ?_⟩
      rcases h with ⟨g1, g2⟩ | ⟨g1, k', v', g2, g3, g4⟩
      · exact absurd (h1.trans g1.symm) hne
      · exact .inr ⟨g1, k', v', g2, g3, (getParams_ok_cons ..).mpr ⟨n, a, kids, rfl, .inl ⟨h1, g4⟩⟩⟩
    · rw [getParams_ok_cons] at h4 ⊢
      obtain ⟨n', a', kids', rfl, h⟩ := h4
      refine ⟨n', a', kids', rfl, ?_⟩
      rcases h with ⟨g1, g2⟩ | ⟨g1, k', v', g2, g3, g4⟩
      · exact .inl ⟨g1, (getParams_ok_cons ..).mpr ⟨n, a, kids, rfl, .inr ⟨h1, k, v, h2, h3, g2⟩⟩⟩
      · rw [slotKind_setSlot] at g2
        refine .inr ⟨g1, k', v', g2, g3, (getParams_ok_cons ..).mpr ⟨n, a, kids, rfl, .inr ⟨h1, k, v, ?_, h3, ?_⟩⟩⟩
        · rw [slotKind_setSlot, h2]
        · rw [setSlot_comm n n' v v' hne]
          exact g4
  | trans h1 h2 ih1 ih2 =>
    intro slots s hd hs
    exact ih2 slots s ((h1.pairwise_iff fun {_ _} h => h.symm).mp hd) (ih1 slots s hd hs)

/-- **C190** The order in which the parameters of an object are written does not matter: a model that is
read is read the same from every reordering of its parameters. -/
theorem C190_order (name : S) (attrs : List (S × S)) (kids kids' : List Node) (hp : kids.Perm kids')
    (hd : kids.Pairwise fun x y => x.name ≠ y.name)
    (ht : typeOf (.elem name attrs kids) ≠ noneKey) (v : Val D)
    (h : getObject stod schema (.elem name attrs kids) = .ok v) :
    getObject stod schema (.elem name attrs kids') = .ok v := by
  have ht' : typeOf (.elem name attrs kids') ≠ noneKey := ht
  rw [getObject, if_neg ht] at h
  rw [getObject, if_neg ht']
  have e : typeOf (.elem name attrs kids') = typeOf (.elem name attrs kids) := rfl
  rw [e]
  rcases hs : schema (typeOf (.elem name attrs kids)) with _ | slots
  · rw [hs] at h
    cases h
  · rw [hs] at h
    simp only at h ⊢
    rcases hg : getParams stod schema name slots kids with e | s
    · rw [hg] at h
      cases h
    · rw [getParams_perm stod schema name hp slots s hd hg]
      rw [hg] at h
      exact h

/-- **C190** Attributes other than the type do not matter. -/
theorem C190_attrs (name : S) (attrs attrs' : List (S × S)) (kids : List Node)
    (ha : attrs.find? (fun p => p.1 = typeKey) = attrs'.find? fun p => p.1 = typeKey)
    (ht : typeOf (.elem name attrs kids) ≠ noneKey) :
    getObject stod schema (.elem name attrs kids) = getObject stod schema (.elem name attrs' kids) := by
  have e : typeOf (.elem name attrs kids) = typeOf (.elem name attrs' kids) := by
    simp only [typeOf, ha]
  have ht' : typeOf (.elem name attrs' kids) ≠ noneKey := e ▸ ht
  rw [getObject, if_neg ht, getObject, if_neg ht', e]

/-! ## Where the reader differs from what a user would expect -/

/-- **C190** A parameter given twice is no error. The first value is read and then forgotten. -/
theorem C190_twice_disagreement (node : S) (slots : List (Slot D)) (n : S) (a a' : List (S × S))
    (kids kids' rest : List Node) (k : Kind) (v : Val D) (hn : n ≠ textKey) (hk : slotKind n slots = some k)
    (hv : getValue stod schema (.elem n a kids) k = .ok v) :
    getParams stod schema node slots (.elem n a kids :: .elem n a' kids' :: rest) =
      getParams stod schema node slots (.elem n a' kids' :: rest) := by
  rw [getParams_cons stod schema node slots n a kids _ k hn hk, hv]
  simp only
  rw [getParams_cons stod schema node _ n a' kids' _ k hn (by rw [slotKind_setSlot, hk]),
    getParams_cons stod schema node _ n a' kids' _ k hn hk]
  simp only [setSlot_again]

omit stod schema in
/-- **C190** A closing tag need not fit: any name, even none, closes the element. -/
theorem C190_closing_disagreement {kids : List Node} {tb : S} (hk : Written kids tb) (name cl : S)
    (hn : NameOK name) (hcl : ∀ c ∈ cl, nameCh c = true) :
    fileDoc ('<' :: (name ++ '>' :: (tb ++ '<' :: '/' :: (cl ++ ['>'])))) = some [.elem name [] kids] := by
  have hb : Blank [] := fun c hc => by simp at hc
  have e1 := fileKids_elem hn [] ([] ++ '>' :: (tb ++ '<' :: '/' :: (cl ++ ([] ++ '>' :: [])))) hb
    ((name ++ '>' :: (tb ++ '<' :: '/' :: (cl ++ ['>']))).length + 1)
  have hl : (tb ++ '<' :: '/' :: (cl ++ ([] ++ '>' :: []))).length <
      (name ++ '>' :: (tb ++ '<' :: '/' :: (cl ++ ['>']))).length := by
    simp
    have := List.length_pos_iff.mpr hn.1
    omega
  rw [fileElem_open name hn (.nil [] hb) '>' _ (.inl rfl) _ (by simp)] at e1
  simp only at e1
  rw [fileContents_written hk cl [] [] hcl hb _ hl] at e1
  simp only [Option.map_some, List.nil_append] at e1
  rw [fileDoc]
  simp only [List.length_cons]
  rw [e1, fileKids.eq_def]
  simp [skipWs]

/-- **C190** A comment in the middle of a list of numbers ends the list. The numbers after it are left
out and nothing is said. -/
theorem C190_comment_disagreement (name : S) (u v x : S) (hu : ¬Blank u) (hu' : Spelled '<' u u) (hv : ¬Blank v)
    (hv' : Spelled '<' v v) (hz : '\x00' ∉ x) (hx : ¬"-->".toList <:+: x) (hn : NameOK name) :
    ∃ n, fileDoc ('<' :: (name ++ '>' :: (u ++ "<!--".toList ++ x ++ "-->".toList ++ v ++
        '<' :: '/' :: (name ++ ['>'])))) = some [n] ∧
      getPlain stod n .vecDouble = (viaString (.elem name [] [.data u]) "vector<double>".toList
        (splitDoubles stod)).map .vecDouble := by
  refine ⟨.elem name [] [.data u, .data v], ?_, ?_⟩
  · have hb : Blank [] := fun c hc => by simp at hc
    have h2 : Written [.data v] ("<!--".toList ++ x ++ "-->".toList ++ v) := by
      have := Written.text (c := [] ++ "<!--".toList ++ x ++ "-->".toList ++ []) (r := []) (ks := [])
        (.comment [] x hb hz hx .nil) hv' hv (.inl rfl) (.done [] [] .nil hb)
      simpa using this
    have h1 := Written.text (c := []) .nil hu' hu (.inr (by simp)) h2
    have h0 := Written.pair [] [] name [] .nil hb hn (.nil [] hb) h1 hb (.done [] [] .nil hb)
    have := C190_layout h0 (by simp)
    simpa using this
  · have : u ≠ [] := by
      rintro rfl
      exact hu fun c hc => by simp at hc
    have e1 : getString (.elem name [] [.data u, .data v]) = .ok u := by
      simp [getString, Node.kids, Node.value, this]
    have e2 : getString (.elem name [] [.data u]) = .ok u := getString_text name u this
    rw [getPlain, if_neg (by simp [Node.kids]), viaString, viaString, e1, e2]
    rfl

/-! ## What the writer puts in a file -/

/-- **C190** Models written under one top node are read back from the file by their names, each as it
was, with its doubles replaced by what their texts stand for. -/
theorem C190_saved (fmt : D → S) (rnd : D → D) (hf : FmtOK fmt stod rnd) (top : S) (ht : NameOK top)
    (ms : List (S × Val D)) (hn : ∀ m ∈ ms, NameOK m.1) (hd : (ms.map Prod.fst).Nodup)
    (hw : ∀ m ∈ ms, WF schema m.2 ∧ m.2.kind = .object) (m : S × Val D) (hm : m ∈ ms) :
    readFile stod schema (printDoc [.elem top [] (paramNodes fmt ms)]) m.1 = .ok (roundVal rnd m.2) := by
  have hel : ∀ k ∈ paramNodes fmt ms, ∃ n b ks, k = .elem n b ks := by
    intro k hk
    obtain ⟨p, -, rfl⟩ := paramNodes_mem fmt ms k hk
    obtain ⟨a, ks, e⟩ := toNode_elem fmt p.1 p.2
    exact ⟨_, a, ks, e⟩
  have hpr : Printable (.elem top [] (paramNodes fmt ms)) := by
    refine .elem _ _ _ ht (by simp) fun k hk => ?_
    obtain ⟨p, hp, rfl⟩ := paramNodes_mem fmt ms k hk
    exact (wf_reads fmt stod rnd schema hf (hw p hp).1 p.1 (hn p hp)).1
  have e := C190_printed _ _ (C88_text [.elem top [] (paramNodes fmt ms)] (by simpa using hpr))
  rw [readFile, e]
  simp only [normKids, norm_elem top _ _ hel, Node.kids]
  have hfind : ∀ ms : List (S × Val D), (ms.map Prod.fst).Nodup → m ∈ ms →
      (normKids (paramNodes fmt ms)).find? (fun k => k.name = m.1) = some (norm (toNode fmt m.1 m.2)) := by
    intro ms hd hm
    induction ms with
    | nil => simp at hm
    | cons p ms ih =>
      obtain ⟨a, k, e⟩ := norm_toNode_elem fmt p.1 p.2
      simp only [List.map_cons, List.nodup_cons] at hd
      rw [paramNodes, normKids, List.find?_cons]
      rcases List.mem_cons.mp hm with rfl | hm
      · simp [e, Node.name]
      · have : p.1 ≠ m.1 := fun h => hd.1 (h ▸ List.mem_map_of_mem hm)
        have hnm : (norm (toNode fmt p.1 p.2)).name = p.1 := by rw [e]; rfl
        simp only [hnm, this, decide_false]
        exact ih hd.2 hm
  rw [hfind ms hd hm]
  have h2 := (wf_reads fmt stod rnd schema hf (hw m hm).1 m.1 (hn m hm)).2
  rw [(hw m hm).2] at h2
  simp only [getValue] at h2
  simp only [h2]

/-- **C190** So the text of one object under a top node. -/
theorem C190_saved_one (fmt : D → S) (rnd : D → D) (hf : FmtOK fmt stod rnd) (top name : S) (ht : NameOK top)
    (hn : NameOK name) (type : S) (params : List (S × Val D)) (hw : WF schema (.object type params)) :
    readFile stod schema (deparseIn fmt top name (.object type params)) name =
      .ok (roundVal rnd (.object type params)) := by
  have := C190_saved stod schema fmt rnd hf top ht [(name, .object type params)] (by simpa using hn) (by simp)
    (by simpa using ⟨hw, rfl⟩) (name, .object type params) (by simp)
  simpa [deparseIn, paramNodes] using this

end read

/-! ## A file that someone might write -/

/-- The nodes of a file with one law. -/
def handNodes : List Node :=
  [.elem "materials".toList [] [.elem "steel".toList [("type".toList, "Law".toList)]
    [.elem "E".toList [] [.data " 200 ".toList], .elem "name".toList [] [.data "a<b".toList],
      .elem "terms".toList [] []]]]

/-- A file with a declaration, a document type, comments, both kinds of quotes and odd blanks. -/
def handFile : S :=
  "<?xml version=\"1.0\"?>\n<!DOCTYPE m [<![x[]]>]><!A <b>\n<!-- steels -->\n<materials>\n  <steel type = 'Law' >\n    <E> 200 </E><!-- GPa -->\n    <name>a&lt;b</name >\n <terms/> </steel>\n</materials>\n".toList

theorem blank_of (b : S) (h : b.all (fun c => c = ' ' || c = '\n' || c = '\r' || c = '\t') = true) : Blank b := by
  intro c hc
  have := List.all_eq_true.mp h c hc
  simpa [or_assoc] using this

theorem spelled_raw (bad : Char) (t : S) (h : t.all (fun c => !(c = '&' || c = bad || c = '\x00')) = true) :
    Spelled bad t t := by
  induction t with
  | nil => exact .nil
  | cons c t ih =>
    rw [List.all_cons, Bool.and_eq_true] at h
    have h1 := h.1
    simp only [Bool.not_eq_true', Bool.or_eq_false_iff, decide_eq_false_iff_not] at h1
    exact .raw c h1.1.1 h1.1.2 h1.2 (ih h.2)

theorem handFile_written : Written handNodes handFile := by
  have nb : Blank [] := blank_of _ rfl
  have dn : ∀ b : S, Blank b → Written [] b := fun b hb => .done [] b .nil hb
  have hE := Written.text (c := []) (r := []) .nil (spelled_raw '<' " 200 ".toList (by decide +kernel))
    (by intro h; exact absurd (h '2' (by decide +kernel)) (by decide)) (.inl rfl) (dn [] nb)
  have hN := Written.text (c := []) (r := []) .nil
    (.raw 'a' (by decide) (by decide) (by decide) (.lt (.raw 'b' (by decide) (by decide) (by decide) .nil)))
    (by intro h; exact absurd (h 'a' (by decide +kernel)) (by decide)) (.inl rfl) (dn [] nb)
  have h3 := Written.single [] "\n ".toList "terms".toList .nil (blank_of _ (by decide +kernel)) (by decide +kernel)
    (.nil [] nb) (dn " ".toList (blank_of _ (by decide +kernel)))
  have h2 := Written.pair _ "\n    ".toList "name".toList " ".toList
    (.comment [] " GPa ".toList nb (by decide +kernel) (by decide +kernel) .nil) (blank_of _ (by decide +kernel)) (by decide +kernel)
    (.nil [] nb) hN (blank_of _ (by decide +kernel)) h3
  have h1 := Written.pair [] "\n    ".toList "E".toList [] .nil (blank_of _ (by decide +kernel)) (by decide +kernel)
    (.nil [] nb) hE nb h2
  have ha : Attrs [("type".toList, "Law".toList)]
      (" ".toList ++ "type".toList ++ " ".toList ++ '=' :: (" ".toList ++ '\'' :: ("Law".toList ++ '\'' :: " ".toList))) :=
    .cons " ".toList "type".toList " ".toList " ".toList '\'' (blank_of _ (by decide +kernel)) (by decide +kernel)
      ⟨by decide +kernel, by decide +kernel⟩ (blank_of _ (by decide +kernel)) (blank_of _ (by decide +kernel)) (.inl rfl)
      (spelled_raw _ _ (by decide +kernel)) (.nil " ".toList (blank_of _ (by decide +kernel)))
  have hs := Written.pair [] "\n  ".toList "steel".toList [] .nil (blank_of _ (by decide +kernel)) (by decide +kernel)
    ha h1 nb (dn "\n".toList (blank_of _ (by decide +kernel)))
  have hm := Written.pair _ "\n".toList "materials".toList []
    (.pi [] "xml version=\"1.0\"".toList nb (by decide +kernel) (by decide +kernel)
      (.doctype "\n".toList _ ' ' (blank_of _ (by decide +kernel)) (blank_of _ (by decide +kernel))
        (.char 'm' (by decide) (by decide) (by decide) (.char ' ' (by decide) (by decide) (by decide) (.group
          (.char '<' (by decide) (by decide) (by decide) (.char '!' (by decide) (by decide) (by decide) (.group
            (.char 'x' (by decide) (by decide) (by decide) (.group .nil .nil))
            (.char '>' (by decide) (by decide) (by decide) .nil)))) .nil)))
        (.other [] "A <b".toList nb (by decide +kernel) (by decide +kernel) (by decide +kernel) (by decide +kernel)
          (by decide +kernel)
          (.comment "\n".toList " steels ".toList (blank_of _ (by decide +kernel)) (by decide +kernel)
            (by decide +kernel) .nil))))
    (blank_of _ (by decide +kernel)) (by decide +kernel) (.nil [] nb) hs nb
    (dn "\n".toList (blank_of _ (by decide +kernel)))
  convert hm using 1
  · rfl
  · decide +kernel

example : fileDoc handFile = some handNodes := C190_layout handFile_written (by simp [handNodes])

/-- The law of the file is read with the default of the parameter left out. -/
example : readFile leadingNat (fun t => if t = "Law".toList then
      some [("E".toList, .double, none), ("on".toList, .bool, some (.bool true)), ("name".toList, .string, none),
        ("terms".toList, .vecObject, none)] else none) handFile "copper".toList =
    .error (.notFound "copper".toList) :=
  C190_missing leadingNat _ handFile_written (by simp) (by simp [Node.name])

example : readFile leadingNat demoSchema
    (deparseIn (fun x => Nat.toDigits 10 (x / 10 * 10)) "materials".toList "steel".toList demoLaw) "steel".toList =
      .ok (roundVal (fun x => x / 10 * 10) demoLaw) :=
  C190_saved_one _ _ _ _ demo_fmt _ _ (by decide +kernel) (by decide +kernel) _ _ demoLaw_wf

/-- Its parameters in another order. -/
example : getObject leadingNat demoSchema (.elem "steel".toList [("type".toList, "Law".toList)]
    [.elem "terms".toList [] [], .elem "E".toList [] [.data "200".toList], .elem "name".toList [] [.data "a".toList]]) =
    .ok (.object "Law".toList [("E".toList, .double 200), ("on".toList, .bool true), ("name".toList, .string "a".toList),
      ("terms".toList, .vecObject [])]) := by
  refine C190_order leadingNat demoSchema "steel".toList [("type".toList, "Law".toList)]
    [.elem "E".toList [] [.data "200".toList], .elem "name".toList [] [.data "a".toList], .elem "terms".toList [] []] _
    ?_ (by simp [Node.name]) (by decide +kernel) _ ?_
  · exact ((List.Perm.swap _ _ _).cons _).trans (List.Perm.swap _ _ _)
  · rfl

/-- An attribute more. -/
example : getObject leadingNat demoSchema (.elem "t".toList [("type".toList, "Term".toList)]
      [.elem "slip".toList [] []]) =
    getObject leadingNat demoSchema (.elem "t".toList [("note".toList, "x".toList), ("type".toList, "Term".toList)]
      [.elem "slip".toList [] []]) :=
  C190_attrs leadingNat demoSchema _ _ _ _ (by decide +kernel) (by decide +kernel)

/-- Two values for one parameter: the second counts. -/
example : getParams leadingNat demoSchema "steel".toList [("E".toList, .double, none)]
      [.elem "E".toList [] [.data "200".toList], .elem "E".toList [] [.data "100".toList]] =
    .ok [("E".toList, .double, some (.double 100))] := by
  rw [C190_twice_disagreement leadingNat demoSchema _ _ _ _ _ _ _ _ .double (.double 200) (by decide +kernel)
    (by decide +kernel) (by rfl)]
  rfl

example : fileDoc "<a></b>".toList = some [.elem "a".toList [] []] :=
  C190_closing_disagreement (.done [] [] .nil (blank_of _ rfl)) "a".toList "b".toList (by decide +kernel)
    (by decide +kernel)

/-- The numbers 1 2, a comment, and 3: the 3 is lost. -/
example : ∃ n, fileDoc "<p>1 2<!--x--> 3</p>".toList = some [n] ∧
    getPlain leadingNat n .vecDouble = .ok (.vecDouble [1, 2]) := by
  obtain ⟨n, h1, h2⟩ := C190_comment_disagreement leadingNat "p".toList "1 2".toList " 3".toList "x".toList
    (by intro h; exact absurd (h '1' (by decide +kernel)) (by decide)) (spelled_raw _ _ (by decide +kernel))
    (by intro h; exact absurd (h '3' (by decide +kernel)) (by decide)) (spelled_raw _ _ (by decide +kernel))
    (by decide +kernel) (by decide +kernel) (by decide +kernel)
  exact ⟨n, h1, h2.trans (by rfl)⟩

/-! ## C191: values that are not values -/

theorem leadingNat_split (t ds rest : S) (h0 : ds ≠ []) (hd : ∀ c ∈ ds, c.isDigit = true)
    (hr : ∀ c, rest.head? = some c → c.isDigit = false) (e : t = ds ++ rest) :
    leadingNat t = some (Nat.ofDigitChars 10 ds 0) := by
  have : t.takeWhile Char.isDigit = ds := by
    rw [e, List.takeWhile_append_of_pos hd]
    cases rest with
    | nil => simp
    | cons c r => simp [hr c rfl]
  simp [leadingNat, this, h0]

/-- A text that begins with a number written as blanks, a sign and digits. -/
structure Starts (t : S) (neg : Bool) (n : Nat) (rest : S) : Prop where
  split : ∃ b s ds : S, t = b ++ (s ++ (ds ++ rest)) ∧ (∀ c ∈ b, isSpace c = true) ∧
    (neg = true ∧ s = ['-'] ∨ neg = false ∧ (s = [] ∨ s = ['+'])) ∧ ds ≠ [] ∧ (∀ c ∈ ds, c.isDigit = true) ∧
    n = Nat.ofDigitChars 10 ds 0
  ends : ∀ c, rest.head? = some c → c.isDigit = false

theorem digit_not_sign {c : Char} (h : c.isDigit = true) : c ≠ '-' ∧ c ≠ '+' := by
  constructor <;> rintro rfl <;> exact absurd h (by decide)

theorem starts_reads {t : S} {neg : Bool} {n : Nat} {rest : S} (h : Starts t neg n rest) :
    (signOf (t.dropWhile isSpace)).1 = (if neg then -1 else 1) ∧
      leadingNat (signOf (t.dropWhile isSpace)).2 = some n := by
  obtain ⟨⟨b, s, ds, e, hb, hs, h0, hd, hn⟩, hr⟩ := h
  obtain ⟨d, ds', rfl⟩ : ∃ d ds', ds = d :: ds' := by
    cases ds with
    | nil => exact absurd rfl h0
    | cons d ds' => exact ⟨d, ds', rfl⟩
  have hdd := hd d (by simp)
  have hlead := leadingNat_split _ (d :: ds') rest h0 hd hr rfl
  have hdrop : t.dropWhile isSpace = s ++ ((d :: ds') ++ rest) := by
    rw [e, List.dropWhile_append_of_pos hb]
    rcases hs with ⟨-, rfl⟩ | ⟨-, rfl | rfl⟩
    · rw [List.cons_append, List.dropWhile_cons, if_neg (by decide)]
    · rw [List.nil_append, List.cons_append, List.dropWhile_cons, if_neg (by rw [digit_not_space hdd]; decide)]
    · rw [List.cons_append, List.dropWhile_cons, if_neg (by decide)]
  rw [hdrop]
  rcases hs with ⟨rfl, rfl⟩ | ⟨rfl, rfl | rfl⟩
  · exact ⟨rfl, by rw [hn]; exact hlead⟩
  · have : signOf ([] ++ ((d :: ds') ++ rest)) = (1, (d :: ds') ++ rest) := by
      rw [List.nil_append, List.cons_append]
      unfold signOf
      split
      · rename_i e1
        exact absurd (List.cons.inj e1).1 (digit_not_sign hdd).1
      · rename_i e1
        exact absurd (List.cons.inj e1).1 (digit_not_sign hdd).2
      · rfl
    rw [this, hn]
    exact ⟨rfl, hlead⟩
  · exact ⟨rfl, by rw [hn]; exact hlead⟩

theorem takeWhile_head (p : Char → Bool) (l : S) (c : Char) (h : (l.dropWhile p).head? = some c) : p c = false := by
  have := List.head?_dropWhile_not p l
  rw [h] at this
  simpa using this

theorem reads_starts {t : S} {n : Nat} (h : leadingNat (signOf (t.dropWhile isSpace)).2 = some n) :
    ∃ neg rest, Starts t neg n rest ∧ (signOf (t.dropWhile isSpace)).1 = (if neg then -1 else 1) := by
  have key : ∀ u : S, leadingNat u = some n → ∃ ds rest, u = ds ++ rest ∧ ds ≠ [] ∧
      (∀ c ∈ ds, c.isDigit = true) ∧ (∀ c, rest.head? = some c → c.isDigit = false) ∧
      n = Nat.ofDigitChars 10 ds 0 := by
    intro u hu
    unfold leadingNat at hu
    simp only at hu
    split_ifs at hu with h0
    refine ⟨u.takeWhile Char.isDigit, u.dropWhile Char.isDigit, (List.takeWhile_append_dropWhile ..).symm, h0,
      fun c hc => List.all_eq_true.mp List.all_takeWhile c hc, fun c hc => takeWhile_head _ _ _ hc, (Option.some.inj hu).symm⟩
  have ht : t = t.takeWhile isSpace ++ t.dropWhile isSpace := (List.takeWhile_append_dropWhile ..).symm
  have hb : ∀ c ∈ t.takeWhile isSpace, isSpace c = true := fun c hc => List.all_eq_true.mp List.all_takeWhile c hc
  generalize t.takeWhile isSpace = b at ht hb
  generalize t.dropWhile isSpace = u at ht h
  unfold signOf at h ⊢
  split at h
  · rename_i cs
    obtain ⟨ds, rest, e, h0, hd, hr, hn⟩ := key cs h
    exact ⟨true, rest, ⟨⟨b, ['-'], ds, by rw [ht, e]; rfl, hb, .inl ⟨rfl, rfl⟩, h0, hd, hn⟩, hr⟩, rfl⟩
  · rename_i cs
    obtain ⟨ds, rest, e, h0, hd, hr, hn⟩ := key cs h
    exact ⟨false, rest, ⟨⟨b, ['+'], ds, by rw [ht, e]; rfl, hb, .inr ⟨rfl, .inr rfl⟩, h0, hd, hn⟩, hr⟩, rfl⟩
  · obtain ⟨ds, rest, e, h0, hd, hr, hn⟩ := key u h
    refine ⟨false, rest, ⟨⟨b, [], ds, by rw [ht, e]; rfl, hb, .inr ⟨rfl, .inl rfl⟩, h0, hd, hn⟩, hr⟩, ?_⟩
    rfl

/-- **C191** The texts that are read as an integer: blanks, a sign, digits, and then anything that does
not begin with a digit. The number must be one of 32 bits. All other texts are refused. -/
theorem C191_int (t : S) (i : Int) :
    stoi t = some i ↔ ∃ neg n rest, Starts t neg n rest ∧ i = (if neg then -(n : Int) else n) ∧
      -2 ^ 31 ≤ i ∧ i < 2 ^ 31 := by
  constructor
  · intro h
    unfold stoi at h
    simp only at h
    split at h
    · cases h
    · rename_i n hn
      obtain ⟨neg, rest, hs, e⟩ := reads_starts hn
      split_ifs at h with hr
      rw [e] at h hr
      refine ⟨neg, n, rest, hs, ?_⟩
      obtain rfl := Option.some.inj h
      cases neg <;> simp_all
  · rintro ⟨neg, n, rest, hs, rfl, hr⟩
    obtain ⟨h1, h2⟩ := starts_reads hs
    unfold stoi
    simp only [h2, h1]
    have : (if neg then -1 else 1 : Int) * n = if neg then -(n : Int) else n := by cases neg <;> simp
    rw [this, if_pos hr]

/-- **C191** The texts that are read as a size: as for integers, with 64 bits, and a minus sign is taken
modulo 2^64. -/
theorem C191_size (t : S) (m : Nat) :
    stoul t = some m ↔ ∃ neg n rest, Starts t neg n rest ∧ n < 2 ^ 64 ∧
      m = if neg then (2 ^ 64 - n) % 2 ^ 64 else n := by
  have key : ∀ (neg : Bool) (n : Nat), n < 2 ^ 64 →
      (((if neg then -1 else 1 : Int) * n) % 2 ^ 64).toNat = if neg then (2 ^ 64 - n) % 2 ^ 64 else n := by
    intro neg n hn
    cases neg
    · simp only [Bool.false_eq_true, if_false, one_mul]
      omega
    · simp only [if_true]
      omega
  constructor
  · intro h
    unfold stoul at h
    simp only at h
    split at h
    · cases h
    · rename_i n hn
      obtain ⟨neg, rest, hs, e⟩ := reads_starts hn
      split_ifs at h with hr
      rw [e, key neg n hr] at h
      exact ⟨neg, n, rest, hs, hr, (Option.some.inj h).symm⟩
  · rintro ⟨neg, n, rest, hs, hr, rfl⟩
    obtain ⟨h1, h2⟩ := starts_reads hs
    unfold stoul
    simp only [h2, h1, if_pos hr, key neg n hr]

/-- **C191** A text that is not read as a number of the declared type is an error that names the parameter
and the type. -/
theorem C191_refused {α : Type} (name t e : S) (conv : S → Option α) (h0 : t ≠ []) (h : conv t = none) :
    viaString (.elem name [] [.data t]) e conv = .error (.invalidType name e) := by
  simp [viaString, getString_text name t h0, h, Node.name]

/-- **C191** What follows the digits is not looked at: a decimal fraction, an exponent or a unit after
an integer is dropped. -/
theorem C191_int_disagreement (i : Int) (hi : InRange i) (rest : S)
    (hr : ∀ c, rest.head? = some c → c.isDigit = false) : stoi (showInt i ++ rest) = some i := by
  have hd : ∀ n : Nat, Nat.ofDigitChars 10 (Nat.toDigits 10 n) 0 = n := fun n => by
    have := leadingNat_digits n
    rw [leadingNat_split _ (Nat.toDigits 10 n) [] (digits_ne_nil n) (digits_isDigit n) (by simp) (by simp)] at this
    exact Option.some.inj this
  refine (C191_int _ _).mpr ?_
  cases i with
  | ofNat n =>
    exact ⟨false, n, rest, ⟨⟨[], [], Nat.toDigits 10 n, by simp [showInt], by simp, .inr ⟨rfl, .inl rfl⟩,
      digits_ne_nil n, digits_isDigit n, (hd n).symm⟩, hr⟩, rfl, hi⟩
  | negSucc n =>
    exact ⟨true, n + 1, rest, ⟨⟨[], ['-'], Nat.toDigits 10 (n + 1), by simp [showInt], by simp, .inl ⟨rfl, rfl⟩,
      digits_ne_nil _, digits_isDigit _, (hd _).symm⟩, hr⟩, by simp [Int.negSucc_eq], hi⟩

/-- Texts with commas between them. -/
def commas : List S → S
  | [] => []
  | [w] => w
  | w :: ws => w ++ ',' :: commas ws

/-- **C191** Numbers separated by commas instead of blanks are read as the first number alone. The reader
of numbers is any that stops at a comma. -/
theorem C191_commas_disagreement {D : Type} (stod : S → Option D) (w : S) (x : D) (hw : Solid w)
    (hx : stod w = some x) (hstop : ∀ rest, stod (w ++ ',' :: rest) = some x) (ws : List S) (hws : ∀ v ∈ ws, Solid v) :
    splitDoubles stod (commas (w :: ws)) = some [x] := by
  have hs : ∀ (l : List S), (∀ v ∈ l, Solid v) → ∀ c ∈ commas l, isSpace c = false := by
    intro l hl
    induction l with
    | nil => simp [commas]
    | cons v l ih =>
      cases l with
      | nil => exact (hl v (by simp)).2
      | cons u l =>
        intro c hc
        rw [commas, List.mem_append, List.mem_cons] at hc
        rcases hc with hc | rfl | hc
        · exact (hl v (by simp)).2 c hc
        · decide
        · exact ih (fun v hv => hl v (by simp [hv])) c hc
        · simp
  have hall : ∀ v ∈ w :: ws, Solid v := by
    intro v hv
    rcases List.mem_cons.mp hv with rfl | hv
    · exact hw
    · exact hws v hv
  have ht := tok_word [] (commas (w :: ws)) [] (hs _ hall)
  have h0 : commas (w :: ws) ≠ [] := by
    cases ws with
    | nil => exact hw.1
    | cons u l =>
      rw [commas]
      · simp
      · simp
  rw [List.append_nil] at ht
  have ht' : tok [] (commas (w :: ws)) = [commas (w :: ws)] := by
    rw [ht]
    simp [tok, h0]
  have hr : stod (commas (w :: ws)) = some x := by
    cases ws with
    | nil => exact hx
    | cons u l =>
      rw [commas]
      · exact hstop _
      · simp
  simp [splitDoubles, ht', hr]

/-- **C191** A slip system without a plane is accepted: the direction is taken for the plane. -/
theorem C191_slip_disagreement (d : List Int) (hd : ∀ i ∈ d, InRange i) (h0 : d ≠ []) :
    getSlip (showInts d) = some [(d, d)] := by
  have hp : ∀ (w cur : S), ',' ∉ w → cur ++ w ≠ [] → pieces ',' cur w = [cur ++ w] := by
    intro w
    induction w with
    | nil => intro cur _ h; simp at h; simp [pieces, h]
    | cons c w ih =>
      intro cur h _
      rw [List.mem_cons, not_or] at h
      rw [pieces, if_neg (Ne.symm h.1), ih _ h.2 (by simp)]
      simp
  have hc : ∀ w : S, ';' ∉ w → cut w = none := by
    intro w
    induction w with
    | nil => intro; rfl
    | cons c w ih =>
      intro h
      rw [List.mem_cons, not_or] at h
      rw [cut, if_neg (Ne.symm h.1), ih h.2]
      rfl
  have hne : showInts d ≠ [] := by
    obtain ⟨i, l, rfl⟩ := List.exists_cons_of_ne_nil h0
    simp [showInts]
  have htok : tok [] (strip (showInts d)) = tok [] (showInts d) := tok_strip _
  have hw : tok [] (showInts d) = d.map showInt := tok_words showInt d fun i _ => showInt_solid i
  have hs : strip (showInts d) ≠ [] := by
    intro h
    rw [h, hw] at htok
    simp [tok, h0] at htok
  have hm : ';' ∉ strip (showInts d) := fun h => semi_not_mem d <| by
    have h1 : ';' ∈ ((showInts d).dropWhile isSpace).reverse := mem_dropWhile (List.mem_reverse.mp h)
    exact mem_dropWhile (List.mem_reverse.mp h1)
  have hr : splitInts (strip (strip (showInts d))) = some d := by
    rw [splitInts_strip, splitInts_strip, C11_ints d hd]
  have h1 : slipOne (strip (showInts d)) = some (d, d) := by
    simp only [slipOne, field, hc _ hm, Option.getD_none, hr]
  rw [getSlip, hp _ [] (comma_not_mem d) (by simpa using hne)]
  simp [hs, h1]

/-! ## What goes wrong, in numbers -/

example : stoi "2.7".toList = some 2 := by
  have := C191_int_disagreement 2 (by unfold InRange; norm_num) ".7".toList (by
    intro c hc
    obtain rfl : '.' = c := by simpa using hc
    decide)
  exact this

example : stoi "1e3 MPa".toList = some 1 := by decide +kernel

example : stoul "-1".toList = some (2 ^ 64 - 1) := by decide +kernel

example : splitSizes "1,2,3".toList = some [1] := by decide +kernel

example : splitDoubles leadingNat "1,2,3".toList = some [1] :=
  C191_commas_disagreement leadingNat "1".toList 1 ⟨by decide +kernel, by decide +kernel⟩ (by decide +kernel)
    (fun rest => leadingNat_split _ ['1'] (',' :: rest) (by simp) (by decide +kernel) (by
      intro c hc
      obtain rfl : ',' = c := by simpa using hc
      decide) rfl) ["2".toList, "3".toList] (by
      intro v hv
      simp only [List.mem_cons, List.not_mem_nil, or_false] at hv
      rcases hv with rfl | rfl <;> exact ⟨by decide +kernel, by decide +kernel⟩)

example : getSlip "1 1 0 ".toList = some [([1, 1, 0], [1, 1, 0])] := by
  have := C191_slip_disagreement [1, 1, 0] (by decide +kernel) (by simp)
  exact this

/-- A twin system with three of the four directions. -/
example : getTwin "1 1;2 2;3 3".toList = some [([1, 1], [2, 2], [3, 3], [1, 1, 2, 3])] := by decide +kernel

example : viaString (.elem "E".toList [] [.data "x".toList]) "int".toList stoi =
    .error (.invalidType "E".toList "int".toList) :=
  C191_refused _ _ _ _ (by decide +kernel) (by decide +kernel)

end Neml.Xml
