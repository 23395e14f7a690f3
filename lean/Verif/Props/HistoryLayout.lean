import Verif.Model.History
import Mathlib.Algebra.BigOperators.Group.List.Basic
import Mathlib.Tactic.Linarith
import Mathlib.Tactic.SplitIfs

/-!
# Helper lemmas on history layouts

`Tiled h vs` says that the name maps of `h` describe the variables `vs` (name,
type, number of entries) stored back to back in that order.
-/

namespace Neml.Hist

/-- A variable: name, type, number of entries. -/
abbrev Var := String × STy × Nat

/-- Total number of entries of a list of variables. -/
def total (vs : List Var) : Nat := (vs.map (fun v => v.2.2)).sum

/-- Names of a list of variables. -/
def names (vs : List Var) : List String := vs.map (fun v => v.1)

/-- Where the variable `x` starts when the variables are stored back to back. -/
def startOf : List Var → String → Option Nat
  | [], _ => none
  | v :: r, x => if x = v.1 then some 0 else (startOf r x).map (fun p => v.2.2 + p)

/-- The type of the variable `x`. -/
def typeOf : List Var → String → Option STy
  | [], _ => none
  | v :: r, x => if x = v.1 then some v.2.1 else typeOf r x

/-- The maps of `h` describe `vs` stored back to back. -/
structure Tiled (h : Layout) (vs : List Var) : Prop where
  order : h.order = names vs
  nodup : (names vs).Nodup
  loc : ∀ x, h.loc x = startOf vs x
  typ : ∀ x, h.typ x = typeOf vs x
  size : h.size = total vs

theorem total_append (a b : List Var) : total (a ++ b) = total a + total b := by
  simp [total]

theorem names_append (a b : List Var) : names (a ++ b) = names a ++ names b := by
  simp [names]

theorem total_cons (v : Var) (b : List Var) : total (v :: b) = v.2.2 + total b := by
  simp [total]

theorem names_cons (v : Var) (b : List Var) : names (v :: b) = v.1 :: names b := by
  simp [names]

theorem startOf_eq_none {vs : List Var} {x : String} : startOf vs x = none ↔ x ∉ names vs := by
  induction vs with
  | nil => simp [startOf, names]
  | cons v r ih =>
    simp only [startOf, names_cons, List.mem_cons, not_or]
    by_cases h : x = v.1
    · simp [h]
    · simp [h, ih]

theorem typeOf_eq_none {vs : List Var} {x : String} : typeOf vs x = none ↔ x ∉ names vs := by
  induction vs with
  | nil => simp [typeOf, names]
  | cons v r ih =>
    simp only [typeOf, names_cons, List.mem_cons, not_or]
    by_cases h : x = v.1
    · simp [h]
    · simp [h, ih]

theorem startOf_append (a b : List Var) (x : String) :
    startOf (a ++ b) x =
      match startOf a x with
      | some p => some p
      | none => (startOf b x).map (fun p => total a + p) := by
  induction a with
  | nil => simp [startOf, total]
  | cons v r ih =>
    simp only [List.cons_append, startOf]
    by_cases h : x = v.1
    · simp [h]
    · simp only [h, if_false, ih, total_cons]
      cases startOf r x with
      | some p => simp
      | none => cases startOf b x <;> simp [Nat.add_assoc]

theorem typeOf_append (a b : List Var) (x : String) :
    typeOf (a ++ b) x =
      match typeOf a x with
      | some p => some p
      | none => typeOf b x := by
  induction a with
  | nil => simp [typeOf]
  | cons v r ih =>
    simp only [List.cons_append, typeOf]
    by_cases h : x = v.1
    · simp [h]
    · simp only [h, if_false, ih]

/-- A variable of the list lies inside the total. -/
theorem startOf_le {vs : List Var} (hn : (names vs).Nodup) {v : Var} (hv : v ∈ vs) :
    ∃ p, startOf vs v.1 = some p ∧ p + v.2.2 ≤ total vs := by
  induction vs with
  | nil => simp at hv
  | cons w r ih =>
    simp only [names_cons, List.nodup_cons] at hn
    rcases List.mem_cons.1 hv with rfl | hv
    · exact ⟨0, by simp [startOf], by simp [total_cons]⟩
    · obtain ⟨p, hp, hle⟩ := ih hn.2 hv
      have hne : v.1 ≠ w.1 := by
        intro he; apply hn.1; rw [← he]; exact List.mem_map_of_mem hv
      exact ⟨w.2.2 + p, by simp [startOf, hne, hp], by rw [total_cons]; omega⟩

theorem typeOf_mem {vs : List Var} (hn : (names vs).Nodup) {v : Var} (hv : v ∈ vs) :
    typeOf vs v.1 = some v.2.1 := by
  induction vs with
  | nil => simp at hv
  | cons w r ih =>
    simp only [names_cons, List.nodup_cons] at hn
    rcases List.mem_cons.1 hv with rfl | hv
    · simp [typeOf]
    · have hne : v.1 ≠ w.1 := by
        intro he; apply hn.1; rw [← he]; exact List.mem_map_of_mem hv
      simp [typeOf, hne, ih hn.2 hv]

/-- Different variables do not overlap. -/
theorem startOf_disjoint {vs : List Var} (hn : (names vs).Nodup) {v w : Var}
    (hv : v ∈ vs) (hw : w ∈ vs) (hne : v.1 ≠ w.1) {p q : Nat}
    (hp : startOf vs v.1 = some p) (hq : startOf vs w.1 = some q) :
    p + v.2.2 ≤ q ∨ q + w.2.2 ≤ p := by
  induction vs generalizing p q with
  | nil => simp at hv
  | cons u r ih =>
    simp only [names_cons, List.nodup_cons] at hn
    have key : ∀ x : Var, x ∈ r → x.1 ≠ u.1 := by
      intro x hx he; apply hn.1; rw [← he]; exact List.mem_map_of_mem hx
    rcases List.mem_cons.1 hv with hv' | hv' <;> rcases List.mem_cons.1 hw with hw' | hw'
    · exact absurd (by rw [hv', hw']) hne
    · subst hv'
      simp only [startOf, if_true, Option.some.injEq] at hp
      simp only [startOf, if_neg (key w hw'), Option.map_eq_some_iff] at hq
      obtain ⟨a, _, ha⟩ := hq
      omega
    · subst hw'
      simp only [startOf, if_true, Option.some.injEq] at hq
      simp only [startOf, if_neg (key v hv'), Option.map_eq_some_iff] at hp
      obtain ⟨a, _, ha⟩ := hp
      omega
    · simp only [startOf, if_neg (key w hw'), Option.map_eq_some_iff] at hq
      simp only [startOf, if_neg (key v hv'), Option.map_eq_some_iff] at hp
      obtain ⟨a, ha', ha⟩ := hp
      obtain ⟨b, hb', hb⟩ := hq
      have := ih hn.2 hv' hw' ha' hb'
      omega

/-- The blocks fill the whole range. -/
theorem startOf_cover {vs : List Var} (hn : (names vs).Nodup) {a : Nat} (ha : a < total vs) :
    ∃ v ∈ vs, ∃ p, startOf vs v.1 = some p ∧ p ≤ a ∧ a < p + v.2.2 := by
  induction vs generalizing a with
  | nil => simp [total] at ha
  | cons u r ih =>
    simp only [names_cons, List.nodup_cons] at hn
    by_cases h : a < u.2.2
    · exact ⟨u, by simp, 0, by simp [startOf], by omega, by omega⟩
    · rw [total_cons] at ha
      obtain ⟨v, hv, p, hp, h1, h2⟩ := ih hn.2 (a := a - u.2.2) (by omega)
      have hne : v.1 ≠ u.1 := by
        intro he; apply hn.1; rw [← he]; exact List.mem_map_of_mem hv
      exact ⟨v, by simp [hv], u.2.2 + p, by simp [startOf, hne, hp], by omega, by omega⟩

theorem startOf_getElem {vs : List Var} (hn : (names vs).Nodup) (i : Nat) (hi : i < vs.length) :
    startOf vs (vs[i]).1 = some (total (vs.take i)) := by
  induction vs generalizing i with
  | nil => simp at hi
  | cons u r ih =>
    simp only [names_cons, List.nodup_cons] at hn
    cases i with
    | zero => simp [startOf, total]
    | succ i =>
      simp only [List.length_cons] at hi
      have hi' : i < r.length := by omega
      have hne : (r[i]).1 ≠ u.1 := by
        intro he; apply hn.1; rw [← he]
        exact List.mem_map_of_mem (List.getElem_mem hi')
      simp [startOf, hne, ih hn.2 i hi', total_cons]

theorem tiled_empty : Tiled Layout.empty [] :=
  ⟨rfl, by simp [names], fun _ => rfl, fun _ => rfl, rfl⟩

theorem Tiled.contains_iff {h : Layout} {vs : List Var} (t : Tiled h vs) (x : String) :
    h.contains x = true ↔ x ∈ names vs := by
  unfold Layout.contains
  rw [t.loc]
  cases hs : startOf vs x with
  | none => simp [startOf_eq_none.1 hs]
  | some p =>
    simp only [Option.isSome_some, true_iff]
    by_contra hc
    rw [startOf_eq_none.2 hc] at hs
    exact absurd hs (by simp)

/-- Adding a fresh variable appends it to the tiling. -/
theorem Tiled.add {h : Layout} {vs : List Var} (t : Tiled h vs) {name : String} {ty : STy} {n : Nat}
    (hf : name ∉ names vs) :
    ∃ l, h.add name ty n = .ok l ∧ Tiled l (vs ++ [(name, ty, n)]) := by
  have hc : ¬ (h.contains name = true) := fun hc => hf ((t.contains_iff name).1 hc)
  refine ⟨_, by rw [Layout.add, if_neg hc], ?_⟩
  constructor
  · simp [t.order, names]
  · rw [names_append]
    rw [List.nodup_append]
    refine ⟨t.nodup, by simp [names], ?_⟩
    intro a ha b hb
    simp [names] at hb
    rintro rfl
    exact hf (hb ▸ ha)
  · intro x
    simp only [mapInsert, t.loc, startOf_append, t.size]
    cases startOf vs x with
    | some p => rfl
    | none => simp only [startOf]; split_ifs <;> simp
  · intro x
    simp only [mapInsert, t.typ, typeOf_append]
    cases typeOf vs x with
    | some p => rfl
    | none => simp only [typeOf]
  · simp [t.size, total]

/-- Adding a name that is present fails. -/
theorem Tiled.add_error {h : Layout} {vs : List Var} (t : Tiled h vs) {name : String} {ty : STy}
    {n : Nat} (hf : name ∈ names vs) : h.add name ty n = .error .nameExists := by
  rw [Layout.add, if_pos ((t.contains_iff name).2 hf)]

theorem Tiled.add_inv {h l : Layout} {vs : List Var} (t : Tiled h vs) {name : String} {ty : STy}
    {n : Nat} (ha : h.add name ty n = .ok l) :
    name ∉ names vs ∧ Tiled l (vs ++ [(name, ty, n)]) := by
  by_cases hf : name ∈ names vs
  · rw [t.add_error hf] at ha; exact absurd ha (by simp)
  · obtain ⟨l', h1, h2⟩ := t.add (ty := ty) (n := n) hf
    rw [h1] at ha
    simp only [Except.ok.injEq] at ha
    exact ⟨hf, ha ▸ h2⟩

/-- A tiled layout is determined by its variables. -/
theorem Tiled.unique {h l : Layout} {vs : List Var} (t : Tiled h vs) (t' : Tiled l vs) : h = l := by
  cases h; cases l
  have h1 := t.order; have h2 := t'.order
  have h3 := t.size; have h4 := t'.size
  have h5 := funext t.loc; have h6 := funext t'.loc
  have h7 := funext t.typ; have h8 := funext t'.typ
  simp only at *
  subst h1; subst h2; subst h3; subst h4; subst h5; subst h7
  simp [h6, h8]

/-- Copying the maps into a layout without names gives the source's maps. -/
theorem copyMaps_empty {h : Layout} {vs : List Var} (t : Tiled h vs) (n : Nat) (hn : n = h.size) :
    Tiled (({ Layout.empty with size := n } : Layout).copyMaps h) vs := by
  constructor
  · simp [Layout.copyMaps, t.order]
  · exact t.nodup
  · intro x; simp [Layout.copyMaps, mapInsertAll, Layout.empty, t.loc]
  · intro x; simp [Layout.copyMaps, mapInsertAll, Layout.empty, t.typ]
  · simp [Layout.copyMaps, hn, t.size]

/-- Copying the maps of a layout with the same variables changes nothing. -/
theorem copyMaps_same {h l : Layout} {vs : List Var} (t : Tiled h vs) (t' : Tiled l vs) :
    Tiled (h.copyMaps l) vs := by
  constructor
  · simp [Layout.copyMaps, t'.order]
  · exact t.nodup
  · intro x
    simp only [Layout.copyMaps, mapInsertAll, t.loc, t'.loc]
    cases startOf vs x <;> rfl
  · intro x
    simp only [Layout.copyMaps, mapInsertAll, t.typ, t'.typ]
    cases typeOf vs x <;> rfl
  · simp [Layout.copyMaps, t.size]

/-! ## Shifting locations (add_union) -/

theorem shiftLocs_not_mem {loc : String → Option Nat} {ns : List String} {o : Nat} {x : String}
    (hx : x ∉ ns) : shiftLocs loc ns o x = loc x := by
  unfold shiftLocs
  induction ns generalizing loc with
  | nil => rfl
  | cons a r ih =>
    simp only [List.mem_cons, not_or] at hx
    simp only [List.foldl_cons]
    rw [ih hx.2]
    simp [hx.1]

theorem shiftLocs_mem {loc : String → Option Nat} {ns : List String} (hn : ns.Nodup) {o : Nat}
    {x : String} (hx : x ∈ ns) : shiftLocs loc ns o x = some ((loc x).getD 0 + o) := by
  unfold shiftLocs
  induction ns generalizing loc with
  | nil => simp at hx
  | cons a r ih =>
    simp only [List.nodup_cons] at hn
    simp only [List.foldl_cons]
    by_cases h : x = a
    · subst h
      have := shiftLocs_not_mem (loc := fun y => if y = x then some ((loc y).getD 0 + o) else loc y)
        (o := o) hn.1
      unfold shiftLocs at this
      rw [this]; simp
    · have hx' : x ∈ r := by
        rcases List.mem_cons.1 hx with h' | h'
        · exact absurd h' h
        · exact h'
      rw [ih hn.2 hx']
      simp [h]

/-! ## Memory lemmas -/

variable {K : Type}

/-- Object `h` lives inside memory `m`. -/
structure Live (m : Mem K) (h : Obj) : Prop where
  inside : h.base + h.size ≤ m.brk
  room : h.store = true → h.size ≤ h.storesize ∧ h.base + h.storesize ≤ m.brk

theorem slice_length (m : Mem K) (a n : Nat) : (m.slice a n).length = n := by
  simp [Mem.slice]

theorem slice_congr {m m' : Mem K} {a b n : Nat}
    (h : ∀ i, i < n → m.cell (a + i) = m'.cell (b + i)) : m.slice a n = m'.slice b n := by
  unfold Mem.slice
  apply List.map_congr_left
  intro i hi
  exact h i (List.mem_range.1 hi)

theorem slice_put_same (m : Mem K) (a : Nat) (v : List K) :
    (m.put a v).slice a v.length = v := by
  apply List.ext_getElem
  · simp [Mem.slice]
  · intro i h1 h2
    simp only [Mem.slice, Mem.put, List.getElem_map, List.getElem_range]
    rw [if_pos ⟨by omega, by omega⟩]
    simp [h2]

theorem slice_put_other (m : Mem K) (a b n : Nat) (v : List K)
    (hd : b + n ≤ a ∨ a + v.length ≤ b) : (m.put a v).slice b n = m.slice b n := by
  apply slice_congr
  intro i hi
  simp only [Mem.put]
  rw [if_neg (by omega)]

/-- What `reserve` does to a live object: same maps, same contents, still live,
older memory untouched, and the storage is either the old one or new. -/
theorem reserve_spec {m : Mem K} {h : Obj} (hl : Live m h) (n : Nat) :
    let r := reserve m h n
    r.1.toLayout = h.toLayout ∧ r.1.store = h.store ∧ m.brk ≤ r.2.brk ∧
    (∀ a, a < m.brk → r.2.cell a = m.cell a) ∧
    (∀ i, i < h.size → r.2.cell (r.1.base + i) = m.cell (h.base + i)) ∧
    (r.1.base = h.base ∧ r.1.storesize = h.storesize ∧ r.2 = m ∨
      m.brk = r.1.base ∧ h.store = true ∧ r.1.storesize = h.size + n ∧
        r.2.brk = m.brk + (h.size + n)) ∧
    (h.store = true → h.size + n ≤ r.1.storesize ∧ r.1.base + r.1.storesize ≤ r.2.brk) := by
  intro r
  by_cases hc : h.store = true ∧ h.size + n > h.storesize
  · have hr : r = increaseStore m h (h.size + n) := by simp only [r, reserve, if_pos hc]
    simp only [increaseStore, Mem.alloc] at hr
    have hin := hl.inside
    refine ⟨by rw [hr], by rw [hr], by rw [hr]; simp [Mem.copy], ?_, ?_, ?_, ?_⟩
    · intro a ha; rw [hr]; simp only [Mem.copy]; rw [if_neg (by omega)]
    · intro i hi; rw [hr]; simp only [Mem.copy]
      rw [if_pos ⟨by omega, by omega⟩]
      congr 1; omega
    · right; rw [hr]; exact ⟨rfl, hc.1, rfl, rfl⟩
    · intro _; rw [hr]; exact ⟨le_refl _, le_refl _⟩
  · have hr : r = (h, m) := by simp only [r, reserve, if_neg hc]
    refine ⟨by rw [hr], by rw [hr], by rw [hr], ?_, ?_, ?_, ?_⟩
    · intro a _; rw [hr]
    · intro i _; rw [hr]
    · left; rw [hr]; exact ⟨rfl, rfl, rfl⟩
    · intro hs; rw [hr]
      have := (hl.room hs).2
      exact ⟨by simp only [hs, true_and, not_lt] at hc; omega, this⟩

/-- `add` on a live tiled object that owns its storage. -/
theorem add_spec {m : Mem K} {h : Obj} (hl : Live m h) (hs : h.store = true) {vs : List Var}
    (t : Tiled h.toLayout vs) {name : String} {ty : STy} {n : Nat} {h' : Obj} {m' : Mem K}
    (ha : add m h name ty n = .ok (h', m')) :
    name ∉ names vs ∧ Tiled h'.toLayout (vs ++ [(name, ty, n)]) ∧ Live m' h' ∧ h'.store = true ∧
    m.brk ≤ m'.brk ∧ (∀ a, a < m.brk → m'.cell a = m.cell a) ∧
    (∀ i, i < h.size → m'.cell (h'.base + i) = m.cell (h.base + i)) ∧
    (h'.base = h.base ∧ h'.storesize = h.storesize ∨ m.brk ≤ h'.base) := by
  unfold add at ha
  cases hadd : h.toLayout.add name ty n with
  | error e => rw [hadd] at ha; simp at ha
  | ok l =>
    rw [hadd] at ha
    obtain ⟨hf, tl⟩ := t.add_inv hadd
    obtain ⟨r1, r2, r3, r4, r5, r6, r7⟩ := reserve_spec hl n
    simp only [Except.ok.injEq, Prod.mk.injEq] at ha
    obtain ⟨rfl, rfl⟩ := ha
    have hsz : l.size = h.size + n := by
      rw [tl.size, total_append, ← t.size]; simp [total]
    refine ⟨hf, tl, ⟨?_, ?_⟩, by rw [← hs, ← r2], r3, r4, r5, ?_⟩
    · have := r7 hs
      show _ + l.size ≤ _
      rw [hsz]; simp only; omega
    · intro _
      have := r7 hs
      show l.size ≤ _ ∧ _
      rw [hsz]; exact this
    · rcases r6 with ⟨a, b, _⟩ | ⟨a, _⟩
      · exact Or.inl ⟨a, b⟩
      · right; simp only; omega

theorem new_live (m : Mem K) : Live (new m).2 (new m).1 := by
  constructor <;> simp [new, Mem.alloc, Layout.empty]

/-- Everything `addAll` guarantees, starting from a live tiled owning object. -/
theorem addAll_spec (es : List Var) : ∀ {m : Mem K} {h : Obj} (_ : Live m h) (_ : h.store = true)
    {vs : List Var} (_ : Tiled h.toLayout vs) {h' : Obj} {m' : Mem K}
    (_ : addAll m h es = .ok (h', m')),
    Tiled h'.toLayout (vs ++ es) ∧ Live m' h' ∧ h'.store = true ∧
    m.brk ≤ m'.brk ∧ (∀ a, a < m.brk → m'.cell a = m.cell a) ∧
    (∀ i, i < h.size → m'.cell (h'.base + i) = m.cell (h.base + i)) ∧
    (h'.base = h.base ∧ h'.storesize = h.storesize ∨ m.brk ≤ h'.base) := by
  induction es with
  | nil =>
    intro m h hl hs vs t h' m' ha
    simp only [addAll, Except.ok.injEq, Prod.mk.injEq] at ha
    obtain ⟨rfl, rfl⟩ := ha
    simp [t, hl, hs]
  | cons e es ih =>
    intro m h hl hs vs t h' m' ha
    obtain ⟨name, ty, n⟩ := e
    simp only [addAll] at ha
    cases hadd : add m h name ty n with
    | error _ => rw [hadd] at ha; simp at ha
    | ok p =>
      obtain ⟨h1, m1⟩ := p
      rw [hadd] at ha
      obtain ⟨_, t1, l1, s1, b1, c1, d1, e1⟩ := add_spec hl hs t hadd
      obtain ⟨t2, l2, s2, b2, c2, d2, e2⟩ := ih l1 s1 t1 ha
      refine ⟨by simpa using t2, l2, s2, by omega, ?_, ?_, ?_⟩
      · intro a hlt; rw [c2 a (by omega), c1 a hlt]
      · intro i hi
        have : h1.size = h.size + n := by rw [t1.size, total_append, ← t.size]; simp [total]
        rw [d2 i (by omega), d1 i hi]
      · rcases e2 with ⟨ea, eb⟩ | ea
        · rw [ea, eb]; exact e1
        · right; omega

/-- `addAll` succeeds exactly when the new names are distinct and fresh. -/
theorem addAll_ok_iff (es : List Var) : ∀ {m : Mem K} {h : Obj} {vs : List Var}
    (_ : Tiled h.toLayout vs),
    (∃ r, addAll m h es = .ok r) ↔ (names (vs ++ es)).Nodup := by
  induction es with
  | nil => intro m h vs t; simp [addAll, t.nodup]
  | cons e es ih =>
    intro m h vs t
    obtain ⟨name, ty, n⟩ := e
    by_cases hf : name ∈ names vs
    · have : add m h name ty n = .error .nameExists := by
        unfold add; rw [t.add_error hf]
      simp only [addAll, this]
      constructor
      · rintro ⟨r, hr⟩; simp at hr
      · intro hn
        rw [names_append, names_cons, List.nodup_append] at hn
        exact absurd rfl (hn.2.2 name hf name (by simp))
    · obtain ⟨l, h1, h2⟩ := t.add (ty := ty) (n := n) hf
      have : add m h name ty n = .ok ({ (reserve m h n).1 with toLayout := l }, (reserve m h n).2) := by
        unfold add; rw [h1]
      simp only [addAll, this]
      have := ih (m := (reserve m h n).2) (h := { (reserve m h n).1 with toLayout := l }) (vs := vs ++ [(name, ty, n)]) h2
      rw [this]
      simp

end Neml.Hist
