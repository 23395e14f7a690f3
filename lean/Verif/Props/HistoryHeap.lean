import Verif.Props.History

/-!
# C07: several histories sharing one memory

`World`: a memory, `user` cells of storage owned by the caller (addresses below
`user`), and any number of `History` objects, some owning their storage and some
views over the caller's storage. `WOp` are the public operations. The theorems say
that an operation on one object never changes what is read through another owning
object, and never changes user storage except the entries of the view it acts on.
-/

namespace Neml.Hist

variable {K : Type}

/-- A memory with several history objects. -/
structure World (K : Type) where
  mem : Mem K
  user : Nat
  objs : List Obj

/-- Public operations; indices select objects. -/
inductive WOp (K : Type)
  | create
  | viewOf (p : Nat)
  | add (i : Nat) (name : String) (ty : STy)
  | addBlank (i : Nat) (name : String) (n : Nat)
  | write (i : Nat) (name : String) (ty : STy) (v : List K)
  | zero (i : Nat)
  | scale (i : Nat) (c : K)
  | plus (i j : Nat)
  | assign (i j : Nat)
  | union (i j : Nat)
  | reorder (i : Nat) (vars : List String)
  | setData (i p : Nat)
  | makeStore (i : Nat)
  | copy (i : Nat)
  | deepcopy (i : Nat)
  | subset (i : Nat) (vars : List String)
  | copyBlank (i : Nat) (exclude : List String)
  | split (i : Nat) (sep : List String) (after : Bool)

/-- The object an operation may change. -/
def WOp.target : WOp K → Option Nat
  | .add i .. | .addBlank i .. | .write i .. | .zero i | .scale i .. | .plus i .. | .assign i ..
  | .union i .. | .reorder i .. | .setData i .. | .makeStore i => some i
  | _ => none

/-- The object an operation reads as its source when it makes a new one. -/
def WOp.source : WOp K → Option Nat
  | .copy i | .deepcopy i | .subset i .. | .copyBlank i .. | .split i .. => some i
  | _ => none

/-- A view must lie inside the caller's storage; otherwise the caller broke the
contract of `set_data` and the behaviour is undefined. -/
def guard (u : Nat) (r : Obj × Mem K) : Except Err (Obj × Mem K) :=
  if r.1.store = false ∧ u < r.1.base + r.1.size then .error .ub else .ok r

/-- Replace object `i` by the result of an action on it. -/
def World.upd (w : World K) (i : Nat) (f : Mem K → Obj → Except Err (Obj × Mem K)) :
    Except Err (World K) :=
  match w.objs[i]? with
  | none => .error .outOfRange
  | some h => match f w.mem h with
    | .error e => .error e
    | .ok r => match guard w.user r with
      | .error e => .error e
      | .ok r => .ok { w with mem := r.2, objs := w.objs.set i r.1 }

/-- Append a new object made from object `i`. -/
def World.mk1 (w : World K) (i : Nat) (f : Mem K → Obj → Except Err (Obj × Mem K)) :
    Except Err (World K) :=
  match w.objs[i]? with
  | none => .error .outOfRange
  | some h => match f w.mem h with
    | .error e => .error e
    | .ok r => match guard w.user r with
      | .error e => .error e
      | .ok r => .ok { w with mem := r.2, objs := w.objs ++ [r.1] }

/-- A second operand. -/
def World.with (w : World K) (j : Nat) (f : Obj → Except Err (World K)) : Except Err (World K) :=
  match w.objs[j]? with
  | none => .error .outOfRange
  | some o => f o

/-- Wrap an operation that only changes the memory. -/
def onMem (r : Except Err (Mem K)) (h : Obj) : Except Err (Obj × Mem K) :=
  match r with
  | .error e => .error e
  | .ok m => .ok (h, m)

/-- Run one operation. `union` requires names not yet present (see
`C06_union_overlap`). -/
def WOp.run [Zero K] [Add K] [Mul K] (w : World K) : WOp K → Except Err (World K)
  | .create => .ok { w with mem := (new w.mem).2, objs := w.objs ++ [(new w.mem).1] }
  | .viewOf p => if p ≤ w.user then .ok { w with objs := w.objs ++ [view p] } else .error .ub
  | .add i name ty => w.upd i (fun m h => addT m h name ty)
  | .addBlank i name n => w.upd i (fun m h => Hist.add m h name .blank n)
  | .write i name ty v => w.upd i (fun m h => onMem (set m h name ty v) h)
  | .zero i => w.upd i (fun m h => .ok (h, Hist.zero m h))
  | .scale i c => w.upd i (fun m h => .ok (h, scalarMultiply m h c))
  | .plus i j => w.with j (fun o => w.upd i (fun m h => onMem (plusEq m h o) h))
  | .assign i j => w.with j (fun o => w.upd i (fun m h => Hist.assign m h o))
  | .union i j => w.with j (fun o => w.upd i (fun m h =>
      if o.order.all (fun x => !h.contains x) then .ok (addUnion m h o) else .error .ub))
  | .reorder i vars => w.upd i (fun m h => Hist.reorder m h vars)
  | .setData i p => w.upd i (fun m h => .ok (Hist.setData h p, m))
  | .makeStore i => w.upd i (fun m h => .ok (Hist.makeStore m h))
  | .copy i => w.mk1 i (fun m h => .ok (copyCtor m h))
  | .deepcopy i => w.mk1 i (fun m h => .ok (Hist.deepcopy m h))
  | .subset i vars => w.mk1 i (fun m h => Hist.subset m h vars)
  | .copyBlank i ex => w.mk1 i (fun m h => Hist.copyBlank m h ex)
  | .split i sep after => w.mk1 i (fun m h => Hist.split m h sep after)

/-- Run a list of operations. -/
def runW [Zero K] [Add K] [Mul K] (w : World K) : List (WOp K) → Except Err (World K)
  | [] => .ok w
  | o :: os => match o.run w with
    | .error e => .error e
    | .ok w' => runW w' os

/-- The start: no objects, all cells below `user` belong to the caller. -/
def World.start (cell : Nat → K) (user : Nat) : World K := ⟨⟨cell, user⟩, user, []⟩

/-! ## Invariants -/

/-- Well-formed maps. -/
structure Fit (h : Layout) : Prop where
  nodup : h.order.Nodup
  dom : ∀ x ∈ h.order, (h.loc x).isSome
  same : ∀ x, (h.loc x).isSome = (h.typ x).isSome
  inb : ∀ x p t n, h.loc x = some p → h.typ x = some t → t.size? = some n → p + n ≤ h.size

/-- Number of cells an object may write. -/
def foot (h : Obj) : Nat := if h.store then h.storesize else h.size

/-- What an action on `h` may do. -/
structure Acts (m : Mem K) (h h' : Obj) (m' : Mem K) : Prop where
  brk : m.brk ≤ m'.brk
  cells : ∀ a < m.brk, ¬ (h.base ≤ a ∧ a < h.base + foot h) →
    ¬ (h'.base ≤ a ∧ a < h'.base + foot h') → m'.cell a = m.cell a
  own : h'.store = true → h'.size ≤ h'.storesize ∧
    ((h.store = true ∧ h'.base = h.base ∧ h'.storesize = h.storesize) ∨
     (m.brk ≤ h'.base ∧ h'.base + h'.storesize ≤ m'.brk))
  fit : Fit h'.toLayout

/-- What making a new object may do. -/
structure Makes (m : Mem K) (h' : Obj) (m' : Mem K) : Prop where
  brk : m.brk ≤ m'.brk
  cells : ∀ a < m.brk, m'.cell a = m.cell a
  own : h'.store = true → h'.size ≤ h'.storesize ∧ m.brk ≤ h'.base ∧ h'.base + h'.storesize ≤ m'.brk
  fit : Fit h'.toLayout

/-- Two regions do not share a cell. -/
def Apart (b n c k : Nat) : Prop := ∀ a, ¬ (b ≤ a ∧ a < b + n ∧ c ≤ a ∧ a < c + k)

/-- The world invariant. -/
structure WInv (w : World K) : Prop where
  user : w.user ≤ w.mem.brk
  fit : ∀ h ∈ w.objs, Fit h.toLayout
  own : ∀ h ∈ w.objs, h.store = true →
    w.user ≤ h.base ∧ h.size ≤ h.storesize ∧ h.base + h.storesize ≤ w.mem.brk
  view : ∀ h ∈ w.objs, h.store = false → h.base + h.size ≤ w.user
  sep : ∀ (i j : Nat) (h k : Obj), i ≠ j → w.objs[i]? = some h → w.objs[j]? = some k →
    h.store = true → k.store = true → Apart h.base h.storesize k.base k.storesize

theorem fit_empty : Fit Layout.empty :=
  ⟨by simp [Layout.empty], by simp [Layout.empty], by simp [Layout.empty], by simp [Layout.empty]⟩

theorem Fit.add {h l : Layout} (f : Fit h) {name : String} {ty : STy} {n : Nat}
    (hsz : ty.size? = some n ∨ ty = .blank) (ha : h.add name ty n = .ok l) : Fit l := by
  unfold Layout.add at ha
  split_ifs at ha with hc
  simp only [Except.ok.injEq] at ha
  subst ha
  have hnone : h.loc name = none := by
    simp only [Layout.contains, Bool.not_eq_true] at hc
    simpa using hc
  have hnone' : h.typ name = none := by
    have := f.same name; rw [hnone] at this; simpa using this.symm
  have hno : name ∉ h.order := fun hm => by have := f.dom name hm; rw [hnone] at this; simp at this
  constructor
  · show (h.order ++ [name]).Nodup
    rw [List.nodup_append]
    refine ⟨f.nodup, by simp, ?_⟩
    rintro a ha b hb rfl
    simp only [List.mem_singleton] at hb
    exact hno (hb ▸ ha)
  · intro x hx
    show (mapInsert h.loc name h.size x).isSome
    rcases List.mem_append.1 hx with hx | hx
    · have := f.dom x hx
      unfold mapInsert
      cases hl : h.loc x with
      | none => rw [hl] at this; simp at this
      | some w => simp
    · simp only [List.mem_singleton] at hx
      subst hx
      simp [mapInsert, hnone]
  · intro x
    show (mapInsert h.loc name h.size x).isSome = (mapInsert h.typ name ty x).isSome
    have := f.same x
    unfold mapInsert
    cases h1 : h.loc x <;> cases h2 : h.typ x <;> simp_all
    split_ifs <;> simp
  · intro x p t k hp ht hk
    change mapInsert h.loc name h.size x = some p at hp
    change mapInsert h.typ name ty x = some t at ht
    show p + k ≤ h.size + n
    have hs := f.same x
    unfold mapInsert at hp ht
    cases h1 : h.loc x with
    | none =>
      rw [h1] at hs hp
      simp only [Option.isSome_none] at hs
      have h2 : h.typ x = none := by simpa using hs.symm
      rw [h2] at ht
      simp only at hp ht
      split_ifs at hp ht
      simp only [Option.some.injEq] at hp ht
      subst hp ht
      rcases hsz with hsz | hsz
      · rw [hsz] at hk; simp only [Option.some.injEq] at hk; omega
      · subst hsz; simp [STy.size?] at hk
    | some q =>
      rw [h1] at hs hp
      simp only [Option.isSome_some] at hs
      obtain ⟨t', h2⟩ := Option.isSome_iff_exists.1 hs.symm
      rw [h2] at ht
      simp only [Option.some.injEq] at hp ht
      subst hp ht
      have := f.inb x q t' k h1 h2 hk
      omega

theorem Fit.copyMaps {h o : Layout} (f : Fit h) (g : Fit o) (hs : h.size = o.size) :
    Fit (h.copyMaps o) := by
  have aux : ∀ x, (mapInsertAll h.loc o.loc x).isSome = ((h.loc x).isSome || (o.loc x).isSome) := by
    intro x; unfold mapInsertAll; cases h.loc x <;> simp
  constructor
  · exact g.nodup
  · intro x hx
    show (mapInsertAll h.loc o.loc x).isSome
    rw [aux, g.dom x hx]; simp
  · intro x
    show (mapInsertAll h.loc o.loc x).isSome = (mapInsertAll h.typ o.typ x).isSome
    rw [aux, f.same, g.same]
    unfold mapInsertAll; cases h.typ x <;> simp
  · intro x p t n hp ht hn
    change mapInsertAll h.loc o.loc x = some p at hp
    change mapInsertAll h.typ o.typ x = some t at ht
    show p + n ≤ h.size
    have h1 := f.same x
    unfold mapInsertAll at hp ht
    cases hl : h.loc x with
    | none =>
      rw [hl] at hp h1
      have h2 : h.typ x = none := by simpa using h1.symm
      rw [h2] at ht
      rw [hs]; exact g.inb x p t n hp ht hn
    | some q =>
      rw [hl] at hp h1
      simp only [Option.isSome_some] at h1
      obtain ⟨t', h2⟩ := Option.isSome_iff_exists.1 h1.symm
      rw [h2] at ht
      simp only [Option.some.injEq] at hp ht
      subst hp ht
      exact f.inb x q t' n hl h2 hn

theorem Fit.emptyWith (n : Nat) : Fit ({ Layout.empty with size := n }) :=
  ⟨by simp [Layout.empty], by simp [Layout.empty], by simp [Layout.empty], by simp [Layout.empty]⟩

theorem Fit.union {h o : Layout} (f : Fit h) (g : Fit o)
    (hd : ∀ x ∈ o.order, h.loc x = none) :
    Fit { order := h.order ++ o.order,
          typ := mapInsertAll h.typ o.typ,
          loc := shiftLocs (mapInsertAll h.loc o.loc) o.order h.size,
          size := h.size + o.size } := by
  have aux : ∀ x, (mapInsertAll h.loc o.loc x).isSome = ((h.loc x).isSome || (o.loc x).isSome) := by
    intro x; unfold mapInsertAll; cases h.loc x <;> simp
  have hshift : ∀ x, (shiftLocs (mapInsertAll h.loc o.loc) o.order h.size x).isSome =
      (mapInsertAll h.loc o.loc x).isSome := by
    intro x
    by_cases hx : x ∈ o.order
    · rw [shiftLocs_mem g.nodup hx, aux, g.dom x hx]; simp
    · rw [shiftLocs_not_mem hx]
  constructor
  · show (h.order ++ o.order).Nodup
    rw [List.nodup_append]
    refine ⟨f.nodup, g.nodup, ?_⟩
    rintro a ha b hb rfl
    have := f.dom a ha
    rw [hd a hb] at this; simp at this
  · intro x hx
    show (shiftLocs (mapInsertAll h.loc o.loc) o.order h.size x).isSome
    rw [hshift, aux]
    rcases List.mem_append.1 hx with hx | hx
    · rw [f.dom x hx]; simp
    · rw [g.dom x hx]; simp
  · intro x
    show (shiftLocs (mapInsertAll h.loc o.loc) o.order h.size x).isSome = (mapInsertAll h.typ o.typ x).isSome
    rw [hshift, aux, f.same, g.same]
    unfold mapInsertAll; cases h.typ x <;> simp
  · intro x p t n hp ht hn
    change shiftLocs (mapInsertAll h.loc o.loc) o.order h.size x = some p at hp
    change mapInsertAll h.typ o.typ x = some t at ht
    show p + n ≤ h.size + o.size
    have h1 := f.same x
    by_cases hx : x ∈ o.order
    · rw [shiftLocs_mem g.nodup hx] at hp
      have hn0 := hd x hx
      obtain ⟨q, hq⟩ := Option.isSome_iff_exists.1 (g.dom x hx)
      rw [hn0] at h1
      have h2 : h.typ x = none := by simpa using h1.symm
      simp only [mapInsertAll, hn0, hq, h2] at hp ht
      simp only [Option.getD_some, Option.some.injEq] at hp
      have := g.inb x q t n hq ht hn
      omega
    · rw [shiftLocs_not_mem hx] at hp
      unfold mapInsertAll at hp ht
      cases hl : h.loc x with
      | none =>
        rw [hl] at hp h1
        have h2 : h.typ x = none := by simpa using h1.symm
        rw [h2] at ht
        have := g.inb x p t n hp ht hn
        omega
      | some q =>
        rw [hl] at hp h1
        simp only [Option.isSome_some] at h1
        obtain ⟨t', h2⟩ := Option.isSome_iff_exists.1 h1.symm
        rw [h2] at ht
        simp only [Option.some.injEq] at hp ht
        subst hp ht
        have := f.inb x q t' n hl h2 hn
        omega

theorem copy_out (m : Mem K) {src dst n a : Nat} (h : ¬ (dst ≤ a ∧ a < dst + n)) :
    (m.copy src dst n).cell a = m.cell a := if_neg h

/-- A live object: room for its entries, inside the allocated memory. -/
structure Ok (m : Mem K) (h : Obj) : Prop where
  fit : Fit h.toLayout
  size : h.size ≤ foot h
  inside : h.base + foot h ≤ m.brk

theorem Ok.live {m : Mem K} {h : Obj} (k : Ok m h) : Live m h := by
  have h1 := k.size; have h2 := k.inside
  refine ⟨by omega, ?_⟩
  intro hs
  simp only [foot, hs, if_true] at h1 h2
  exact ⟨h1, h2⟩

theorem acts_add {m m' : Mem K} {h h' : Obj} (k : Ok m h) {name : String} {ty : STy} {n : Nat}
    (hsz : ty.size? = some n ∨ ty = .blank) (ha : add m h name ty n = .ok (h', m')) :
    Acts m h h' m' := by
  unfold add at ha
  cases hl : h.toLayout.add name ty n with
  | error e => rw [hl] at ha; simp at ha
  | ok l =>
    rw [hl] at ha
    simp only [Except.ok.injEq, Prod.mk.injEq] at ha
    obtain ⟨rfl, rfl⟩ := ha
    obtain ⟨r1, r2, r3, r4, r5, r6, r7⟩ := reserve_spec k.live n
    have hfit := k.fit.add hsz hl
    have hlsz : l.size = h.size + n := by
      unfold Layout.add at hl; split_ifs at hl; simp only [Except.ok.injEq] at hl; subst hl; rfl
    refine ⟨r3, fun a ha _ _ => r4 a ha, ?_, hfit⟩
    intro hs
    simp only at hs ⊢
    have hst : h.store = true := by rw [← r2]; exact hs
    refine ⟨by rw [hlsz]; exact (r7 hst).1, ?_⟩
    rcases r6 with ⟨b1, b2, _⟩ | ⟨b1, _, _, _⟩
    · exact Or.inl ⟨hst, b1, b2⟩
    · exact Or.inr ⟨by omega, (r7 hst).2⟩

theorem acts_same {m m' : Mem K} {h : Obj} (k : Ok m h) (hb : m'.brk = m.brk)
    (hc : ∀ a, ¬ (h.base ≤ a ∧ a < h.base + h.size) → m'.cell a = m.cell a) : Acts m h h m' := by
  have hsz := k.size
  refine ⟨by omega, fun a _ hn _ => hc a (fun hh => hn ⟨hh.1, by omega⟩), ?_, k.fit⟩
  intro hs
  simp only [foot, hs, if_true] at hsz
  exact ⟨hsz, Or.inl ⟨hs, rfl, rfl⟩⟩

theorem acts_write {m m' : Mem K} {h : Obj} (k : Ok m h) {name : String} {ty : STy} {v : List K}
    (hw : set m h name ty v = .ok m') : Acts m h h m' := by
  unfold set at hw
  cases hl : h.loc name with
  | none => rw [hl] at hw; simp at hw
  | some p =>
    cases ht : h.typ name with
    | none => rw [hl, ht] at hw; simp at hw
    | some t =>
      rw [hl, ht] at hw
      simp only at hw
      split_ifs at hw with h1 h2
      simp only [Except.ok.injEq] at hw
      subst hw h1
      have := k.fit.inb name p t _ hl ht h2
      refine acts_same (m' := m.put (h.base + p) v) k rfl ?_
      intro a hn
      simp only [Mem.put]
      rw [if_neg]
      rintro ⟨h3, h4⟩
      exact hn ⟨by omega, by omega⟩

theorem acts_assign {m m' : Mem K} {h h' o : Obj} (k : Ok m h) (g : Fit o.toLayout)
    (ha : assign m h o = .ok (h', m')) : Acts m h h' m' := by
  unfold assign at ha
  split_ifs at ha with hs
  simp only [Except.ok.injEq, Prod.mk.injEq] at ha
  obtain ⟨rfl, rfl⟩ := ha
  have hs' : h.size = o.size := by simpa using hs
  have hk := k.size
  refine ⟨le_refl _, ?_, ?_, k.fit.copyMaps g hs'⟩
  · intro a _ hn _
    simp only [Mem.copy]
    rw [if_neg]
    rintro ⟨h1, h2⟩
    exact hn ⟨h1, by omega⟩
  · intro hst
    simp only at hst
    simp only [foot, hst, if_true] at hk
    exact ⟨hk, Or.inl ⟨hst, rfl, rfl⟩⟩

theorem acts_union {m : Mem K} {h o : Obj} (k : Ok m h) (g : Fit o.toLayout)
    (hd : ∀ x ∈ o.order, h.loc x = none) :
    Acts m h (addUnion m h o).1 (addUnion m h o).2 := by
  obtain ⟨r1, r2, r3, r4, r5, r6, r7⟩ := reserve_spec k.live o.size
  have hsz := k.size
  have hfit := k.fit.union g hd
  refine ⟨r3, ?_, ?_, hfit⟩
  · intro a ha hn hn'
    show ((reserve m h o.size).2.copy o.base ((reserve m h o.size).1.base + h.size) o.size).cell a = _
    simp only [Mem.copy]
    rw [if_neg]
    · exact r4 a ha
    · rintro ⟨h1, h2⟩
      apply hn'
      refine ⟨by show (reserve m h o.size).1.base ≤ a; omega, ?_⟩
      show a < (reserve m h o.size).1.base +
        (if (reserve m h o.size).1.store then (reserve m h o.size).1.storesize else h.size + o.size)
      split_ifs with hs
      · rw [r2] at hs
        have := (r7 hs).1
        omega
      · omega
  · intro hs
    have hst : h.store = true := by rw [← r2]; exact hs
    refine ⟨(r7 hst).1, ?_⟩
    rcases r6 with ⟨b1, b2, _⟩ | ⟨b1, _, _, _⟩
    · exact Or.inl ⟨hst, b1, b2⟩
    · refine Or.inr ⟨?_, (r7 hst).2⟩
      show m.brk ≤ (reserve m h o.size).1.base
      omega

/-- Loop invariant for `subset`: the accumulator lives in fresh memory. -/
theorem subsetLoop_makes {h : Obj} (m0 : Mem K) : ∀ (vars : List String) {m m' : Mem K} {acc r : Obj},
    Ok m acc → acc.store = true → m0.brk ≤ acc.base → m0.brk ≤ m.brk →
    (∀ a < m0.brk, m.cell a = m0.cell a) →
    subsetLoop m h acc vars = .ok (r, m') → Makes m0 r m' ∧ r.store = true := by
  intro vars
  induction vars with
  | nil =>
    intro m m' acc r k hs hb hm hc hr
    simp only [subsetLoop, Except.ok.injEq, Prod.mk.injEq] at hr
    obtain ⟨rfl, rfl⟩ := hr
    have h1 := k.size; have h2 := k.inside
    simp only [foot, hs, if_true] at h1 h2
    exact ⟨⟨hm, hc, fun _ => ⟨h1, hb, h2⟩, k.fit⟩, hs⟩
  | cons v vs ih =>
    intro m m' acc r k hs hb hm hc hr
    simp only [subsetLoop] at hr
    cases h1 : h.loc v with
    | none => rw [h1] at hr; simp at hr
    | some p =>
      rw [h1] at hr
      simp only at hr
      cases h2 : entry h.toLayout v with
      | error e => rw [h2] at hr; simp at hr
      | ok x =>
        obtain ⟨nm, t, n⟩ := x
        rw [h2] at hr
        simp only at hr
        have hsz : t.size? = some n := by
          unfold entry at h2
          cases h3 : h.typ v with
          | none => rw [h3] at h2; simp at h2
          | some t' =>
            rw [h3] at h2
            simp only at h2
            cases h4 : t'.size? with
            | none => rw [h4] at h2; simp at h2
            | some n' =>
              rw [h4] at h2
              simp only [Except.ok.injEq, Prod.mk.injEq] at h2
              obtain ⟨_, rfl, rfl⟩ := h2
              exact h4
        cases h5 : add m acc v t n with
        | error e => rw [h5] at hr; simp at hr
        | ok x =>
          obtain ⟨acc', m1⟩ := x
          rw [h5] at hr
          simp only at hr
          have hact := acts_add k (Or.inl hsz) h5
          have hst' : acc'.store = true := by
            unfold add at h5
            cases hl : acc.toLayout.add v t n with
            | error e => rw [hl] at h5; simp at h5
            | ok l =>
              rw [hl] at h5
              simp only [Except.ok.injEq, Prod.mk.injEq] at h5
              obtain ⟨rfl, rfl⟩ := h5
              obtain ⟨_, r2, _⟩ := reserve_spec k.live n
              simp only [r2, hs]
          obtain ⟨hsz', hreg⟩ := hact.own hst'
          have hb' : m0.brk ≤ acc'.base := by
            rcases hreg with ⟨_, e, _⟩ | ⟨e, _⟩ <;> omega
          have hins : acc'.base + acc'.storesize ≤ m1.brk := by
            have := k.inside
            simp only [foot, hs, if_true] at this
            have := hact.brk
            rcases hreg with ⟨_, e, e'⟩ | ⟨_, e⟩ <;> omega
          cases h6 : acc'.loc v with
          | none => rw [h6] at hr; simp at hr
          | some q =>
            rw [h6] at hr
            simp only at hr
            have hbrk := hact.brk
            refine ih (m := m1.copy (h.base + p) (acc'.base + q) n) ?_ hst' hb' ?_ ?_ hr
            · refine ⟨hact.fit, ?_, ?_⟩
              · simp only [foot, hst', if_true]; exact hsz'
              · simp only [foot, hst', if_true]; exact hins
            · show m0.brk ≤ m1.brk; omega
            · intro a ha
              simp only [Mem.copy]
              rw [if_neg (by omega), hact.cells a (by omega) (by omega) (by omega), hc a ha]

theorem new_ok (m : Mem K) : Ok (new m).2 (new m).1 :=
  ⟨fit_empty, by simp [new, Layout.empty], by simp [new, foot, Mem.alloc]⟩

theorem makes_subset {m m' : Mem K} {h r : Obj} {vars : List String}
    (hr : subset m h vars = .ok (r, m')) : Makes m r m' ∧ r.store = true := by
  unfold subset at hr
  exact subsetLoop_makes m vars (new_ok m) rfl (by simp [new, Mem.alloc]) (by simp [new, Mem.alloc])
    (by simp [new, Mem.alloc]) hr

theorem makes_new (m : Mem K) : Makes m (new m).1 (new m).2 :=
  ⟨by simp [new, Mem.alloc], by simp [new, Mem.alloc],
   fun _ => by simp [new, Mem.alloc, Layout.empty], fit_empty⟩

/-- Adding typed variables keeps an object in place or moves it to fresh memory. -/
theorem addAll_keeps (m0 : Mem K) : ∀ (es : List Var) {m m' : Mem K} {h r : Obj},
    Ok m h → (∀ v ∈ es, v.2.1.size? = some v.2.2) → h.store = true → m0.brk ≤ h.base →
    m0.brk ≤ m.brk → (∀ a < m0.brk, m.cell a = m0.cell a) →
    addAll m h es = .ok (r, m') → Makes m0 r m' ∧ r.store = true := by
  intro es
  induction es with
  | nil =>
    intro m m' h r k _ hs hb hm hc hr
    simp only [addAll, Except.ok.injEq, Prod.mk.injEq] at hr
    obtain ⟨rfl, rfl⟩ := hr
    have h1 := k.size; have h2 := k.inside
    simp only [foot, hs, if_true] at h1 h2
    exact ⟨⟨hm, hc, fun _ => ⟨h1, hb, h2⟩, k.fit⟩, hs⟩
  | cons v vs ih =>
    intro m m' h r k hes hs hb hm hc hr
    obtain ⟨nm, t, n⟩ := v
    simp only [addAll] at hr
    cases h5 : add m h nm t n with
    | error e => rw [h5] at hr; simp at hr
    | ok x =>
      obtain ⟨h', m1⟩ := x
      rw [h5] at hr
      simp only at hr
      have hact := acts_add k (Or.inl (hes (nm, t, n) (by simp))) h5
      have hst' : h'.store = true := by
        unfold add at h5
        cases hl : h.toLayout.add nm t n with
        | error e => rw [hl] at h5; simp at h5
        | ok l =>
          rw [hl] at h5
          simp only [Except.ok.injEq, Prod.mk.injEq] at h5
          obtain ⟨rfl, rfl⟩ := h5
          obtain ⟨_, r2, _⟩ := reserve_spec k.live n
          simp only [r2, hs]
      obtain ⟨hsz', hreg⟩ := hact.own hst'
      have hb' : m0.brk ≤ h'.base := by
        rcases hreg with ⟨_, e, _⟩ | ⟨e, _⟩ <;> omega
      have hbrk := hact.brk
      have hins : h'.base + h'.storesize ≤ m1.brk := by
        have := k.inside
        simp only [foot, hs, if_true] at this
        rcases hreg with ⟨_, e, e'⟩ | ⟨_, e⟩ <;> omega
      refine ih ⟨hact.fit, ?_, ?_⟩ (fun v hv => hes v (by simp [hv])) hst' hb' (by omega) ?_ hr
      · simp only [foot, hst', if_true]; exact hsz'
      · simp only [foot, hst', if_true]; exact hins
      · intro a ha
        rw [hact.cells a (by omega) (by omega) (by omega), hc a ha]

/-- Adding typed variables to a view only grows its maps. -/
theorem addAll_view : ∀ (es : List Var) {m m' : Mem K} {h r : Obj},
    Fit h.toLayout → (∀ v ∈ es, v.2.1.size? = some v.2.2) → h.store = false →
    addAll m h es = .ok (r, m') → m' = m ∧ r.store = false ∧ Fit r.toLayout ∧ r.base = h.base := by
  intro es
  induction es with
  | nil =>
    intro m m' h r k _ hs hr
    simp only [addAll, Except.ok.injEq, Prod.mk.injEq] at hr
    obtain ⟨rfl, rfl⟩ := hr
    exact ⟨rfl, hs, k, rfl⟩
  | cons v vs ih =>
    intro m m' h r k hes hs hr
    obtain ⟨nm, t, n⟩ := v
    simp only [addAll] at hr
    cases h5 : add m h nm t n with
    | error e => rw [h5] at hr; simp at hr
    | ok x =>
      obtain ⟨h', m1⟩ := x
      rw [h5] at hr
      simp only at hr
      unfold add at h5
      cases hl : h.toLayout.add nm t n with
      | error e => rw [hl] at h5; simp at h5
      | ok l =>
        rw [hl] at h5
        simp only [reserve, hs] at h5
        simp only [Bool.false_eq_true, false_and, if_false, Except.ok.injEq, Prod.mk.injEq] at h5
        obtain ⟨rfl, rfl⟩ := h5
        have hf := k.add (Or.inl (hes (nm, t, n) (by simp))) hl
        exact ih (h := { h with toLayout := l }) hf (fun v hv => hes v (by simp [hv])) hs hr

theorem entry_sized {h : Layout} {x : String} {v : Var} (he : entry h x = .ok v) :
    v.2.1.size? = some v.2.2 := by
  unfold entry at he
  cases h3 : h.typ x with
  | none => rw [h3] at he; simp at he
  | some t' =>
    rw [h3] at he
    simp only at he
    cases h4 : t'.size? with
    | none => rw [h4] at he; simp at he
    | some n' =>
      rw [h4] at he
      simp only [Except.ok.injEq] at he
      subst he
      exact h4

theorem entries_sized {h : Layout} : ∀ {xs : List String} {es : List Var},
    entries h xs = .ok es → ∀ v ∈ es, v.2.1.size? = some v.2.2 := by
  intro xs
  induction xs with
  | nil =>
    intro es he v hv
    simp only [entries, Except.ok.injEq] at he
    subst he
    simp at hv
  | cons x xs ih =>
    intro es he v hv
    simp only [entries] at he
    cases h1 : entry h x with
    | error e => rw [h1] at he; simp at he
    | ok y =>
      rw [h1] at he
      simp only at he
      cases h2 : entries h xs with
      | error e => rw [h2] at he; simp at he
      | ok ys =>
        rw [h2] at he
        simp only [Except.ok.injEq] at he
        subst he
        rcases List.mem_cons.1 hv with rfl | hv
        · exact entry_sized h1
        · exact ih h2 v hv

theorem makes_copyBlank [Zero K] {m m' : Mem K} {h r : Obj} {ex : List String}
    (hr : copyBlank m h ex = .ok (r, m')) : Makes m r m' := by
  unfold copyBlank at hr
  cases h1 : entries h.toLayout (h.order.filter (fun x => !ex.contains x)) with
  | error e => rw [h1] at hr; simp at hr
  | ok es =>
    rw [h1] at hr
    simp only at hr
    cases h2 : addAll (new m).2 (new m).1 es with
    | error e => rw [h2] at hr; simp at hr
    | ok x =>
      obtain ⟨c, m1⟩ := x
      rw [h2] at hr
      simp only [Except.ok.injEq, Prod.mk.injEq] at hr
      obtain ⟨rfl, rfl⟩ := hr
      obtain ⟨mk, hs⟩ := addAll_keeps m es (new_ok m) (entries_sized h1) rfl
        (by simp [new, Mem.alloc]) (by simp [new, Mem.alloc]) (by simp [new, Mem.alloc]) h2
      refine ⟨mk.brk, ?_, mk.own, mk.fit⟩
      intro a ha
      have hb := (mk.own hs).2.1
      simp only [zero, Mem.fill]
      rw [if_neg (by omega), mk.cells a ha]

theorem makes_split {m m' : Mem K} {h r : Obj} {sep : List String} {after : Bool}
    (hr : split m h sep after = .ok (r, m')) : Makes m r m' := by
  unfold split at hr
  cases h0 : checkPrefix sep h.order with
  | error e => rw [h0] at hr; simp at hr
  | ok u =>
    rw [h0] at hr
    simp only at hr
    by_cases h1 : (sep.length = h.order.length ∧ after = true) ∨ (sep.length = 0 ∧ after = false)
    · rw [if_pos h1] at hr
      by_cases h2 : h.store = true
      · rw [if_pos h2] at hr
        have hr' := Prod.mk.inj (Except.ok.inj hr)
        rw [← hr'.1, ← hr'.2]
        exact makes_new m
      · rw [if_neg h2] at hr
        simp only [Except.ok.injEq, Prod.mk.injEq] at hr
        obtain ⟨rfl, rfl⟩ := hr
        exact ⟨le_refl _, fun _ _ => rfl, by simp, fit_empty⟩
    · rw [if_neg h1] at hr
      generalize (if after = true then h.order.drop sep.length else h.order.take sep.length) = ns at hr
      cases h4 : entries h.toLayout ns with
      | error e => rw [h4] at hr; simp at hr
      | ok es =>
        rw [h4] at hr
        simp only at hr
        cases h5 : addAll m { Layout.empty with storesize := 0, store := false, base := 0 } es with
        | error e => rw [h5] at hr; simp at hr
        | ok x =>
          obtain ⟨res, m1⟩ := x
          rw [h5] at hr
          simp only at hr
          obtain ⟨rfl, hs, hf, _⟩ := addAll_view es fit_empty (entries_sized h4) rfl h5
          cases ns with
          | nil => simp at hr
          | cons first rest =>
            simp only at hr
            cases h6 : h.loc first with
            | none => rw [h6] at hr; simp at hr
            | some p =>
              rw [h6] at hr
              simp only at hr
              by_cases h7 : h.store = true
              · rw [if_pos h7] at hr
                simp only [makeStore, hs, Bool.false_eq_true, if_false,
                  Except.ok.injEq, Prod.mk.injEq] at hr
                obtain ⟨rfl, rfl⟩ := hr
                refine ⟨by simp [copyData, Mem.copy, Mem.alloc], ?_, ?_, hf⟩
                · intro a ha
                  exact copy_out { m1 with brk := m1.brk + res.size } (by simp only [Mem.alloc]; omega)
                · intro _
                  simp [copyData, Mem.copy, Mem.alloc]
              · rw [if_neg h7] at hr
                simp only [setData, hs, Bool.false_eq_true, if_false, Except.ok.injEq,
                  Prod.mk.injEq] at hr
                obtain ⟨rfl, rfl⟩ := hr
                exact ⟨le_refl _, fun _ _ => rfl, by simp [hs], hf⟩

theorem makes_copy {m : Mem K} {h : Obj} (f : Fit h.toLayout) :
    Makes m (copyCtor m h).1 (copyCtor m h).2 := by
  have hf := (Fit.emptyWith h.size).copyMaps f rfl
  unfold copyCtor
  split_ifs with hs
  · refine ⟨by simp [Mem.alloc, Mem.copy], ?_, ?_, hf⟩
    · intro a ha
      exact copy_out { m with brk := m.brk + h.size } (by simp only [Mem.alloc]; omega)
    · intro _
      simp [Mem.alloc, Mem.copy, Layout.copyMaps]
  · exact ⟨le_refl _, fun _ _ => rfl, by simp, hf⟩

theorem makes_deepcopy {m : Mem K} {h : Obj} (f : Fit h.toLayout) :
    Makes m (deepcopy m h).1 (deepcopy m h).2 := by
  obtain ⟨r1, r2, r3, r4, r5, r6, r7⟩ := reserve_spec (new_live m) h.size
  have hs0 : (new m).1.size = 0 := rfl
  have hst : (new m).1.store = true := rfl
  obtain ⟨q1, q2⟩ := r7 hst
  rw [hs0] at q1
  have hb : (new m).2.brk = m.brk := by simp [new, Mem.alloc]
  have hbase : m.brk ≤ (reserve (new m).2 (new m).1 h.size).1.base := by
    have h0 : (new m).1.base = m.brk := rfl
    rcases r6 with ⟨b1, _, _⟩ | ⟨b1, _, _, _⟩
    · rw [b1, h0]
    · rw [← b1, hb]
  have hsz : (reserve (new m).2 (new m).1 h.size).1.size = 0 := by rw [r1]; rfl
  refine ⟨by rw [← hb]; exact r3, ?_, ?_, ?_⟩
  · intro a ha
    refine (copy_out (reserve (new m).2 (new m).1 h.size).2 (src := h.base)
      (dst := (reserve (new m).2 (new m).1 h.size).1.base) (n := h.size) (by omega)).trans ?_
    rw [r4 a (by omega)]
    simp [new, Mem.alloc]
  · intro _
    refine ⟨?_, hbase, q2⟩
    show (reserve (new m).2 (new m).1 h.size).1.size + h.size ≤ (reserve (new m).2 (new m).1 h.size).1.storesize
    omega
  · show Fit (Layout.copyMaps { (reserve (new m).2 (new m).1 h.size).1.toLayout with
      size := (reserve (new m).2 (new m).1 h.size).1.size + h.size } h.toLayout)
    rw [r1]
    apply Fit.copyMaps _ f (by rw [hs0]; simp)
    exact Fit.emptyWith _

theorem acts_makeStore {m : Mem K} {h : Obj} (k : Ok m h) :
    Acts m h (makeStore m h).1 (makeStore m h).2 := by
  unfold makeStore
  split_ifs with hs
  · exact acts_same k rfl (fun _ _ => rfl)
  · exact ⟨by simp [Mem.alloc], fun _ _ _ _ => rfl, fun _ => by simp [Mem.alloc], k.fit⟩

theorem acts_setData {m : Mem K} {h : Obj} (k : Ok m h) (p : Nat) :
    Acts m h (setData h p) m := by
  unfold setData
  split_ifs with hs
  · exact ⟨le_refl _, fun _ _ _ _ => rfl, by simp, k.fit⟩
  · exact ⟨le_refl _, fun _ _ _ _ => rfl, by simp [hs], k.fit⟩

theorem subsetLoop_dom (h : Obj) : ∀ (vars : List String) {m m' : Mem K} {acc r : Obj},
    (∀ x, (acc.loc x).isSome → (h.loc x).isSome) →
    subsetLoop m h acc vars = .ok (r, m') → ∀ x, (r.loc x).isSome → (h.loc x).isSome := by
  intro vars
  induction vars with
  | nil =>
    intro m m' acc r hd hr
    simp only [subsetLoop, Except.ok.injEq, Prod.mk.injEq] at hr
    obtain ⟨rfl, rfl⟩ := hr
    exact hd
  | cons v vs ih =>
    intro m m' acc r hd hr
    simp only [subsetLoop] at hr
    cases h1 : h.loc v with
    | none => rw [h1] at hr; simp at hr
    | some p =>
      rw [h1] at hr
      simp only at hr
      cases h2 : entry h.toLayout v with
      | error e => rw [h2] at hr; simp at hr
      | ok x =>
        obtain ⟨nm, t, n⟩ := x
        rw [h2] at hr
        simp only at hr
        cases h5 : add m acc v t n with
        | error e => rw [h5] at hr; simp at hr
        | ok x =>
          obtain ⟨acc', m1⟩ := x
          rw [h5] at hr
          simp only at hr
          cases h6 : acc'.loc v with
          | none => rw [h6] at hr; simp at hr
          | some q =>
            rw [h6] at hr
            simp only at hr
            refine ih ?_ hr
            intro x hx
            unfold add at h5
            cases hl : acc.toLayout.add v t n with
            | error e => rw [hl] at h5; simp at h5
            | ok l =>
              rw [hl] at h5
              simp only [Except.ok.injEq, Prod.mk.injEq] at h5
              obtain ⟨rfl, rfl⟩ := h5
              unfold Layout.add at hl
              split_ifs at hl
              simp only [Except.ok.injEq] at hl
              subst hl
              change (mapInsert acc.loc v acc.size x).isSome at hx
              unfold mapInsert at hx
              cases e : acc.loc x with
              | some w => exact hd x (by simp [e])
              | none =>
                rw [e] at hx
                simp only at hx
                split_ifs at hx with e2
                · rw [e2, h1]; rfl
                · simp at hx

theorem acts_reorder {m m' : Mem K} {h h' : Obj} (k : Ok m h) {vars : List String}
    (hr : reorder m h vars = .ok (h', m')) : Acts m h h' m' := by
  unfold reorder at hr
  cases h1 : subset m h vars with
  | error e => rw [h1] at hr; simp at hr
  | ok x =>
    obtain ⟨n, m1⟩ := x
    rw [h1] at hr
    simp only at hr
    split_ifs at hr with h2
    simp only [Except.ok.injEq, Prod.mk.injEq] at hr
    obtain ⟨rfl, rfl⟩ := hr
    obtain ⟨mk, hs⟩ := makes_subset h1
    have hk := k.size
    refine ⟨mk.brk, ?_, ?_, ?_⟩
    · intro a ha hn _
      simp only [Mem.copy]
      rw [if_neg, mk.cells a ha]
      rintro ⟨h3, h4⟩
      exact hn ⟨h3, by omega⟩
    · intro hst
      simp only at hst
      simp only [foot, hst, if_true] at hk
      exact ⟨hk, Or.inl ⟨hst, rfl, rfl⟩⟩
    · -- names of the subset are names of `h`, so the maps do not change
      have hdom := subsetLoop_dom h vars (by intro x hx; simp [new, Layout.empty] at hx) h1
      have hl : ∀ x, mapInsertAll h.loc n.loc x = h.loc x := by
        intro x
        unfold mapInsertAll
        cases e : h.loc x with
        | some w => rfl
        | none =>
          simp only
          cases e2 : n.loc x with
          | none => rfl
          | some w => have := hdom x (by simp [e2]); rw [e] at this; simp at this
      have ht : ∀ x, mapInsertAll h.typ n.typ x = h.typ x := by
        intro x
        unfold mapInsertAll
        cases e : h.typ x with
        | some w => rfl
        | none =>
          simp only
          cases e2 : n.typ x with
          | none => rfl
          | some w =>
            have h5 : (n.loc x).isSome := by rw [mk.fit.same, e2]; rfl
            have := hdom x h5
            rw [k.fit.same, e] at this; simp at this
      have hlt : h.toLayout.copyMaps n.toLayout = { h.toLayout with order := n.order } := by
        unfold Layout.copyMaps
        congr 1
        · funext x; exact hl x
        · funext x; exact ht x
      show Fit (h.toLayout.copyMaps n.toLayout)
      rw [hlt]
      exact ⟨mk.fit.nodup, fun x hx => hdom x (mk.fit.dom x hx), k.fit.same, k.fit.inb⟩

/-! ## The world invariant is kept -/

theorem WInv.ok {w : World K} (i : WInv w) {h : Obj} (hm : h ∈ w.objs) : Ok w.mem h := by
  cases hs : h.store with
  | true =>
    obtain ⟨_, h2, h3⟩ := i.own h hm hs
    exact ⟨i.fit h hm, by simp [foot, hs, h2], by simp [foot, hs, h3]⟩
  | false =>
    have h1 := i.view h hm hs
    have h2 := i.user
    exact ⟨i.fit h hm, by simp [foot, hs], by simp only [foot, hs, Bool.false_eq_true, if_false]; omega⟩

/-- What one operation leaves alone. -/
structure Frame (w w' : World K) (target : Option Nat) : Prop where
  user : w'.user = w.user
  keep : ∀ (j : Nat) (k : Obj), w.objs[j]? = some k → target ≠ some j → w'.objs[j]? = some k
  kind : ∀ j, j < w.objs.length → j < w'.objs.length
  data : ∀ (j : Nat) (k : Obj), w.objs[j]? = some k → target ≠ some j → k.store = true →
    ∀ a, k.base ≤ a → a < k.base + k.storesize → w'.mem.cell a = w.mem.cell a
  ext : ∀ a < w.user, w'.mem.cell a ≠ w.mem.cell a →
    ∃ i, target = some i ∧ ∃ k, (w.objs[i]? = some k ∨ w'.objs[i]? = some k) ∧ k.store = false ∧
      k.base ≤ a ∧ a < k.base + k.size

theorem upd_spec {w w' : World K} (inv : WInv w) {i : Nat}
    {f : Mem K → Obj → Except Err (Obj × Mem K)}
    (hf : ∀ h ∈ w.objs, ∀ h' m', f w.mem h = .ok (h', m') → Acts w.mem h h' m')
    (hr : w.upd i f = .ok w') : WInv w' ∧ Frame w w' (some i) := by
  unfold World.upd at hr
  cases h1 : w.objs[i]? with
  | none => rw [h1] at hr; simp at hr
  | some h =>
    rw [h1] at hr
    simp only at hr
    have hm : h ∈ w.objs := List.mem_of_getElem? h1
    cases h2 : f w.mem h with
    | error e => rw [h2] at hr; simp at hr
    | ok r =>
      obtain ⟨h', m'⟩ := r
      rw [h2] at hr
      simp only [guard] at hr
      split_ifs at hr with hg
      simp only [Except.ok.injEq] at hr
      subst hr
      have act := hf h hm h' m' h2
      have hbrk := act.brk
      have huser := inv.user
      have hok := inv.ok hm
      have hilt : i < w.objs.length := by
        rw [List.getElem?_eq_some_iff] at h1; exact h1.1
      have hview' : h'.store = false → h'.base + h'.size ≤ w.user := by
        intro hs; by_contra hc; exact hg ⟨hs, by omega⟩
      -- regions of other owners are untouched by the action
      have hregion : h'.store = true →
          h'.size ≤ h'.storesize ∧ w.user ≤ h'.base ∧ h'.base + h'.storesize ≤ m'.brk := by
        intro hs
        obtain ⟨a1, a2⟩ := act.own hs
        refine ⟨a1, ?_, ?_⟩
        · rcases a2 with ⟨b1, b2, b3⟩ | ⟨b1, b2⟩
          · have := (inv.own h hm b1).1; omega
          · omega
        · rcases a2 with ⟨b1, b2, b3⟩ | ⟨b1, b2⟩
          · have := (inv.own h hm b1).2.2; omega
          · omega
      have hdata : ∀ (j : Nat) (k : Obj), w.objs[j]? = some k → j ≠ i → k.store = true →
          ∀ a, k.base ≤ a → a < k.base + k.storesize → m'.cell a = w.mem.cell a := by
        intro j k hj hne hks a ha1 ha2
        have hkm : k ∈ w.objs := List.mem_of_getElem? hj
        obtain ⟨k1, k2, k3⟩ := inv.own k hkm hks
        apply act.cells a (by omega)
        · rintro ⟨c1, c2⟩
          cases hs : h.store with
          | true =>
            simp only [foot, hs, if_true] at c2
            exact inv.sep i j h k (Ne.symm hne) h1 hj hs hks a ⟨c1, c2, ha1, ha2⟩
          | false =>
            simp only [foot, hs, Bool.false_eq_true, if_false] at c2
            have := inv.view h hm hs
            omega
        · rintro ⟨c1, c2⟩
          cases hs : h'.store with
          | true =>
            simp only [foot, hs, if_true] at c2
            rcases (act.own hs).2 with ⟨b1, b2, b3⟩ | ⟨b1, b2⟩
            · exact inv.sep i j h k (Ne.symm hne) h1 hj b1 hks a ⟨by omega, by omega, ha1, ha2⟩
            · omega
          | false =>
            simp only [foot, hs, Bool.false_eq_true, if_false] at c2
            have := hview' hs
            omega
      constructor
      · constructor
        · show w.user ≤ m'.brk; omega
        · intro k hk
          rcases List.mem_or_eq_of_mem_set hk with hk | rfl
          · exact inv.fit k hk
          · exact act.fit
        · intro k hk hs
          show w.user ≤ k.base ∧ k.size ≤ k.storesize ∧ k.base + k.storesize ≤ m'.brk
          rcases List.mem_or_eq_of_mem_set hk with hk | rfl
          · obtain ⟨k1, k2, k3⟩ := inv.own k hk hs
            exact ⟨k1, k2, by omega⟩
          · obtain ⟨k1, k2, k3⟩ := hregion hs
            exact ⟨k2, k1, k3⟩
        · intro k hk hs
          show k.base + k.size ≤ w.user
          rcases List.mem_or_eq_of_mem_set hk with hk | rfl
          · exact inv.view k hk hs
          · exact hview' hs
        · have key : ∀ (j : Nat) (k : Obj), j ≠ i → w.objs[j]? = some k → k.store = true →
              h'.store = true → Apart h'.base h'.storesize k.base k.storesize := by
            intro j k hne hj hks hs a
            rintro ⟨c1, c2, c3, c4⟩
            have hkm : k ∈ w.objs := List.mem_of_getElem? hj
            obtain ⟨k1, k2, k3⟩ := inv.own k hkm hks
            rcases (act.own hs).2 with ⟨b1, b2, b3⟩ | ⟨b1, b2⟩
            · exact inv.sep i j h k (Ne.symm hne) h1 hj b1 hks a ⟨by omega, by omega, c3, c4⟩
            · omega
          intro p q k l hpq hp hq hks hls
          simp only [List.getElem?_set] at hp hq
          by_cases hpi : i = p
          · subst hpi
            rw [if_neg hpq] at hq
            simp only [hilt, if_true, Option.some.injEq] at hp
            subst hp
            exact key q l (Ne.symm hpq) hq hls hks
          · rw [if_neg hpi] at hp
            by_cases hqi : i = q
            · subst hqi
              simp only [hilt, if_true, Option.some.injEq] at hq
              subst hq
              intro a
              rintro ⟨c1, c2, c3, c4⟩
              exact key p k hpq hp hks hls a ⟨c3, c4, c1, c2⟩
            · rw [if_neg hqi] at hq
              exact inv.sep p q k l hpq hp hq hks hls
      · constructor
        · rfl
        · intro j k hj hne
          have hne' : i ≠ j := fun he => hne (by rw [he])
          simp only [List.getElem?_set, if_neg hne', hj]
        · intro j hj; simpa using hj
        · intro j k hj hne hks a ha1 ha2
          exact hdata j k hj (fun he => hne (by rw [he])) hks a ha1 ha2
        · intro a ha hc
          refine ⟨i, rfl, ?_⟩
          by_cases c : h.base ≤ a ∧ a < h.base + foot h
          · refine ⟨h, Or.inl h1, ?_⟩
            cases hs : h.store with
            | true =>
              have := (inv.own h hm hs).1
              omega
            | false =>
              simp only [foot, hs, Bool.false_eq_true, if_false] at c
              exact ⟨rfl, c.1, c.2⟩
          · by_cases c' : h'.base ≤ a ∧ a < h'.base + foot h'
            · refine ⟨h', Or.inr ?_, ?_⟩
              · simp [List.getElem?_set, hilt]
              · cases hs : h'.store with
                | true =>
                  have := (hregion hs).2.1
                  omega
                | false =>
                  simp only [foot, hs, Bool.false_eq_true, if_false] at c'
                  exact ⟨rfl, c'.1, c'.2⟩
            · exact absurd (act.cells a (by omega) c c') hc

theorem make_spec {w : World K} (inv : WInv w) {h' : Obj} {m' : Mem K} (mk : Makes w.mem h' m')
    (hview : h'.store = false → h'.base + h'.size ≤ w.user) :
    WInv { w with mem := m', objs := w.objs ++ [h'] } ∧
      Frame w { w with mem := m', objs := w.objs ++ [h'] } none := by
  have hbrk := mk.brk
  have huser := inv.user
  have hlt : ∀ (j : Nat) (k : Obj), w.objs[j]? = some k → j < w.objs.length := by
    intro j k hj; rw [List.getElem?_eq_some_iff] at hj; exact hj.1
  have hnew : ∀ (j : Nat) (k : Obj), (w.objs ++ [h'])[j]? = some k →
      w.objs[j]? = some k ∨ (j = w.objs.length ∧ k = h') := by
    intro j k hj
    rw [List.getElem?_append] at hj
    split_ifs at hj with hc
    · exact Or.inl hj
    · right
      have : j - w.objs.length = 0 := by
        by_contra hne
        have : j - w.objs.length < [h'].length := by
          rw [List.getElem?_eq_some_iff] at hj; exact hj.1
        simp at this; omega
      rw [this] at hj
      simp only [List.getElem?_cons_zero, Option.some.injEq] at hj
      exact ⟨by omega, hj.symm⟩
  constructor
  · constructor
    · show w.user ≤ m'.brk; omega
    · intro k hk
      rcases List.mem_append.1 hk with hk | hk
      · exact inv.fit k hk
      · rw [List.mem_singleton.1 hk]; exact mk.fit
    · intro k hk hs
      show w.user ≤ k.base ∧ k.size ≤ k.storesize ∧ k.base + k.storesize ≤ m'.brk
      rcases List.mem_append.1 hk with hk | hk
      · obtain ⟨k1, k2, k3⟩ := inv.own k hk hs
        exact ⟨k1, k2, by omega⟩
      · have he := List.mem_singleton.1 hk
        rw [he] at hs ⊢
        obtain ⟨k1, k2, k3⟩ := mk.own hs
        exact ⟨by omega, k1, k3⟩
    · intro k hk hs
      show k.base + k.size ≤ w.user
      rcases List.mem_append.1 hk with hk | hk
      · exact inv.view k hk hs
      · have he := List.mem_singleton.1 hk
        rw [he] at hs ⊢
        exact hview hs
    · have key : ∀ (j : Nat) (k : Obj), w.objs[j]? = some k → k.store = true →
          h'.store = true → Apart h'.base h'.storesize k.base k.storesize := by
        intro j k hj hks hs a
        rintro ⟨c1, c2, c3, c4⟩
        obtain ⟨k1, k2, k3⟩ := inv.own k (List.mem_of_getElem? hj) hks
        obtain ⟨l1, l2, l3⟩ := mk.own hs
        omega
      intro p q k l hpq hp hq hks hls
      rcases hnew p k hp with hp' | ⟨hp', e1⟩ <;> rcases hnew q l hq with hq' | ⟨hq', e2⟩
      · exact inv.sep p q k l hpq hp' hq' hks hls
      · rw [e2] at hls ⊢
        intro a
        rintro ⟨c1, c2, c3, c4⟩
        exact key p k hp' hks hls a ⟨c3, c4, c1, c2⟩
      · rw [e1] at hks ⊢
        exact key q l hq' hls hks
      · omega
  · constructor
    · rfl
    · intro j k hj _
      show (w.objs ++ [h'])[j]? = some k
      rw [List.getElem?_append, if_pos (hlt j k hj)]; exact hj
    · intro j hj
      show j < (w.objs ++ [h']).length
      simp; omega
    · intro j k hj _ hks a ha1 ha2
      obtain ⟨k1, k2, k3⟩ := inv.own k (List.mem_of_getElem? hj) hks
      exact mk.cells a (by omega)
    · intro a ha hc
      exact absurd (mk.cells a (by omega)) hc

theorem mk1_spec {w w' : World K} (inv : WInv w) {i : Nat}
    {f : Mem K → Obj → Except Err (Obj × Mem K)}
    (hf : ∀ h ∈ w.objs, ∀ h' m', f w.mem h = .ok (h', m') → Makes w.mem h' m')
    (hr : w.mk1 i f = .ok w') : WInv w' ∧ Frame w w' none := by
  unfold World.mk1 at hr
  cases h1 : w.objs[i]? with
  | none => rw [h1] at hr; simp at hr
  | some h =>
    rw [h1] at hr
    simp only at hr
    have hm : h ∈ w.objs := List.mem_of_getElem? h1
    cases h2 : f w.mem h with
    | error e => rw [h2] at hr; simp at hr
    | ok r =>
      obtain ⟨h', m'⟩ := r
      rw [h2] at hr
      simp only [guard] at hr
      split_ifs at hr with hg
      simp only [Except.ok.injEq] at hr
      subst hr
      apply make_spec inv (hf h hm h' m' h2)
      intro hs; by_contra hc; exact hg ⟨hs, by omega⟩

theorem onMem_ok {r : Except Err (Mem K)} {h h' : Obj} {m' : Mem K}
    (ho : onMem r h = .ok (h', m')) : h' = h ∧ r = .ok m' := by
  unfold onMem at ho
  cases r with
  | error e => simp at ho
  | ok m => simp only [Except.ok.injEq, Prod.mk.injEq] at ho; exact ⟨ho.1.symm, by rw [ho.2]⟩

variable [Zero K] [Add K] [Mul K]

/-- Every operation keeps the invariant and leaves everything else alone. -/
theorem run_spec {w w' : World K} (inv : WInv w) (o : WOp K) (hr : o.run w = .ok w') :
    WInv w' ∧ Frame w w' o.target := by
  have hwith : ∀ {j : Nat} {f : Obj → Except Err (World K)}, w.with j f = .ok w' →
      ∃ k ∈ w.objs, f k = .ok w' := by
    intro j f hw
    unfold World.with at hw
    cases h1 : w.objs[j]? with
    | none => rw [h1] at hw; simp at hw
    | some k => rw [h1] at hw; exact ⟨k, List.mem_of_getElem? h1, hw⟩
  cases o with
  | create =>
    simp only [WOp.run, Except.ok.injEq] at hr
    subst hr
    exact make_spec inv (makes_new w.mem) (by simp [new])
  | viewOf p =>
    simp only [WOp.run] at hr
    split_ifs at hr with hp
    simp only [Except.ok.injEq] at hr
    subst hr
    refine make_spec inv (h' := view p) (m' := w.mem) ⟨le_refl _, fun _ _ => rfl, ?_, fit_empty⟩ ?_
    · intro h; simp [view] at h
    · intro _; simpa [view, Layout.empty] using hp
  | add i name ty =>
    rw [WOp.run] at hr
    refine upd_spec inv ?_ hr
    intro h hm h' m' ha
    simp only [addT] at ha
    cases hs : ty.size? with
    | none => rw [hs] at ha; simp at ha
    | some n => rw [hs] at ha; exact acts_add (inv.ok hm) (Or.inl hs) ha
  | addBlank i name n =>
    rw [WOp.run] at hr
    exact upd_spec inv (fun h hm h' m' ha => acts_add (inv.ok hm) (Or.inr rfl) ha) hr
  | write i name ty v =>
    rw [WOp.run] at hr
    refine upd_spec inv ?_ hr
    intro h hm h' m' ha
    obtain ⟨rfl, ha⟩ := onMem_ok ha
    exact acts_write (inv.ok hm) ha
  | zero i =>
    rw [WOp.run] at hr
    refine upd_spec inv ?_ hr
    intro h hm h' m' ha
    simp only [Except.ok.injEq, Prod.mk.injEq] at ha
    obtain ⟨rfl, rfl⟩ := ha
    exact acts_same (inv.ok hm) rfl (fun a hn => if_neg hn)
  | scale i c =>
    rw [WOp.run] at hr
    refine upd_spec inv ?_ hr
    intro h hm h' m' ha
    simp only [Except.ok.injEq, Prod.mk.injEq] at ha
    obtain ⟨rfl, rfl⟩ := ha
    exact acts_same (inv.ok hm) rfl (fun a hn => if_neg hn)
  | plus i j =>
    rw [WOp.run] at hr
    obtain ⟨o, _, hr⟩ := hwith hr
    refine upd_spec inv ?_ hr
    intro h hm h' m' ha
    obtain ⟨rfl, ha⟩ := onMem_ok ha
    unfold plusEq at ha
    split_ifs at ha
    simp only [Except.ok.injEq] at ha
    subst ha
    exact acts_same (inv.ok hm) rfl (fun a hn => if_neg hn)
  | assign i j =>
    rw [WOp.run] at hr
    obtain ⟨o, ho, hr⟩ := hwith hr
    exact upd_spec inv (fun h hm h' m' ha => acts_assign (inv.ok hm) (inv.fit o ho) ha) hr
  | union i j =>
    rw [WOp.run] at hr
    obtain ⟨o, ho, hr⟩ := hwith hr
    refine upd_spec inv ?_ hr
    intro h hm h' m' ha
    split_ifs at ha with hc
    simp only [Except.ok.injEq] at ha
    have := Prod.mk.inj ha
    rw [← this.1, ← this.2]
    apply acts_union (inv.ok hm) (inv.fit o ho)
    intro x hx
    have := List.all_eq_true.1 hc x hx
    simpa [Layout.contains] using this
  | reorder i vars =>
    rw [WOp.run] at hr
    exact upd_spec inv (fun h hm h' m' ha => acts_reorder (inv.ok hm) ha) hr
  | setData i p =>
    rw [WOp.run] at hr
    refine upd_spec inv ?_ hr
    intro h hm h' m' ha
    simp only [Except.ok.injEq, Prod.mk.injEq] at ha
    obtain ⟨rfl, rfl⟩ := ha
    exact acts_setData (inv.ok hm) p
  | makeStore i =>
    rw [WOp.run] at hr
    refine upd_spec inv ?_ hr
    intro h hm h' m' ha
    simp only [Except.ok.injEq] at ha
    have := Prod.mk.inj ha
    rw [← this.1, ← this.2]
    exact acts_makeStore (inv.ok hm)
  | copy i =>
    rw [WOp.run] at hr
    refine mk1_spec inv ?_ hr
    intro h hm h' m' ha
    simp only [Except.ok.injEq] at ha
    have := Prod.mk.inj ha
    rw [← this.1, ← this.2]
    exact makes_copy (inv.fit h hm)
  | deepcopy i =>
    rw [WOp.run] at hr
    refine mk1_spec inv ?_ hr
    intro h hm h' m' ha
    simp only [Except.ok.injEq] at ha
    have := Prod.mk.inj ha
    rw [← this.1, ← this.2]
    exact makes_deepcopy (inv.fit h hm)
  | subset i vars =>
    rw [WOp.run] at hr
    exact mk1_spec inv (fun h hm h' m' ha => (makes_subset ha).1) hr
  | copyBlank i ex =>
    rw [WOp.run] at hr
    exact mk1_spec inv (fun h hm h' m' ha => makes_copyBlank ha) hr
  | split i sep after =>
    rw [WOp.run] at hr
    exact mk1_spec inv (fun h hm h' m' ha => makes_split ha) hr

theorem start_inv (cell : Nat → K) (user : Nat) : WInv (World.start cell user) :=
  ⟨le_refl _, by simp [World.start], by simp [World.start], by simp [World.start],
   by simp [World.start]⟩

theorem runW_inv {w w' : World K} (inv : WInv w) (ops : List (WOp K)) (hr : runW w ops = .ok w') :
    WInv w' := by
  induction ops generalizing w with
  | nil => simp only [runW, Except.ok.injEq] at hr; subst hr; exact inv
  | cons o os ih =>
    simp only [runW] at hr
    cases h1 : o.run w with
    | error e => rw [h1] at hr; simp at hr
    | ok w1 => rw [h1] at hr; exact ih (run_spec inv o h1).1 hr

/-- Reads of an object depend only on its own cells. -/
theorem get_of_cells {m m' : Mem K} {h : Obj} (f : Fit h.toLayout)
    (hc : ∀ a, h.base ≤ a → a < h.base + h.size → m'.cell a = m.cell a) (x : String) (t : STy) :
    get m' h x t = get m h x t := by
  unfold get
  cases h1 : h.loc x with
  | none => rfl
  | some p =>
    cases h2 : h.typ x with
    | none => rfl
    | some t' =>
      simp only
      split_ifs with h3
      · subst h3
        cases h4 : t'.size? with
        | none => rfl
        | some n =>
          simp only
          congr 1
          have := f.inb x p t' n h1 h2 h4
          apply slice_congr
          intro k hk
          exact hc _ (by omega) (by omega)
      · rfl

/-! ## C07 -/

/-- C07. In any run, an object that owns its storage keeps all its values (and its
variables) through any further operations none of which acts on that object,
whatever is done to its copies, to the history it was copied from, or to views. -/
theorem C07_owner_isolated (cell : Nat → K) (user : Nat) (before after : List (WOp K))
    (w w' : World K) (h0 : runW (World.start cell user) before = .ok w)
    (h1 : runW w after = .ok w') (j : Nat) (h : Obj) (hj : w.objs[j]? = some h)
    (hown : h.store = true) (hno : ∀ o ∈ after, WOp.target o ≠ some j) :
    w'.objs[j]? = some h ∧ ∀ x t, get w'.mem h x t = get w.mem h x t := by
  have inv := runW_inv (start_inv cell user) before h0
  clear h0
  have hfit := inv.fit h (List.mem_of_getElem? hj)
  have hsz := (inv.own h (List.mem_of_getElem? hj) hown).2.1
  suffices hs : w'.objs[j]? = some h ∧
      ∀ a, h.base ≤ a → a < h.base + h.storesize → w'.mem.cell a = w.mem.cell a from
    ⟨hs.1, fun x t => get_of_cells hfit (fun a ha1 ha2 => hs.2 a ha1 (by omega)) x t⟩
  clear hfit hsz
  induction after generalizing w with
  | nil =>
    simp only [runW, Except.ok.injEq] at h1
    subst h1
    exact ⟨hj, fun _ _ _ => rfl⟩
  | cons o os ih =>
    simp only [runW] at h1
    cases h2 : o.run w with
    | error e => rw [h2] at h1; simp at h1
    | ok w1 =>
      rw [h2] at h1
      obtain ⟨inv1, fr⟩ := run_spec inv o h2
      have hne := hno o (by simp)
      obtain ⟨r1, r2⟩ := ih w1 h1 (fr.keep j h hj hne) (fun o ho => hno o (by simp [ho])) inv1
      exact ⟨r1, fun a ha1 ha2 => by rw [r2 a ha1 ha2, fr.data j h hj hne hown a ha1 ha2]⟩

/-- C07. The caller's storage is changed by an operation only if that operation
acts on a view, and then only inside that view's `size()` entries (before or after
the operation). -/
theorem C07_user_storage (cell : Nat → K) (user : Nat) (before : List (WOp K))
    (w w' : World K) (h0 : runW (World.start cell user) before = .ok w) (o : WOp K)
    (h1 : o.run w = .ok w') (a : Nat) (ha : a < w.user) (hch : w'.mem.cell a ≠ w.mem.cell a) :
    ∃ i, o.target = some i ∧ ∃ k, (w.objs[i]? = some k ∨ w'.objs[i]? = some k) ∧
      k.store = false ∧ k.base ≤ a ∧ a < k.base + k.size :=
  (run_spec (runW_inv (start_inv cell user) before h0) o h1).2.ext a ha hch

/-- C07. Writing a variable through a view puts the values into the caller's
storage at the view's offset plus the variable's location, and nowhere else. -/
theorem C07_view_writes_through (m : Mem K) (h : Obj) (name : String) (ty : STy)
    (v : List K) (m' : Mem K) (hw : set m h name ty v = .ok m') :
    ∃ p, h.loc name = some p ∧ m'.slice (h.base + p) v.length = v ∧
      ∀ a, ¬ (h.base + p ≤ a ∧ a < h.base + p + v.length) → m'.cell a = m.cell a := by
  unfold set at hw
  cases hl : h.loc name with
  | none => rw [hl] at hw; simp at hw
  | some p =>
    cases ht : h.typ name with
    | none => rw [hl, ht] at hw; simp at hw
    | some t =>
      rw [hl, ht] at hw
      simp only at hw
      split_ifs at hw with h1 h2
      simp only [Except.ok.injEq] at hw
      subst hw
      exact ⟨p, rfl, slice_put_same m _ v, fun a hn => if_neg hn⟩

/-- Reads through an object with the same maps over equal data agree. -/
theorem get_of_copy {m m' : Mem K} {h h' : Obj} (f : Fit h.toLayout)
    (hl : ∀ x, h'.loc x = h.loc x) (ht : ∀ x, h'.typ x = h.typ x)
    (hc : ∀ k < h.size, m'.cell (h'.base + k) = m.cell (h.base + k)) (x : String) (t : STy) :
    get m' h' x t = get m h x t := by
  unfold get
  rw [hl, ht]
  cases h1 : h.loc x with
  | none => rfl
  | some p =>
    cases h2 : h.typ x with
    | none => rfl
    | some t' =>
      simp only
      split_ifs with h3
      · subst h3
        cases h4 : t'.size? with
        | none => rfl
        | some n =>
          simp only
          congr 1
          have := f.inb x p t' n h1 h2 h4
          apply slice_congr
          intro k hk
          have := hc (p + k) (by omega)
          simpa [Nat.add_assoc] using this
      · rfl

/-- C07. `deepcopy` in any reachable state appends an owning object which reads
every name exactly as the original does. -/
theorem C07_deepcopy_equal (cell : Nat → K) (user : Nat) (before : List (WOp K))
    (w w' : World K) (h0 : runW (World.start cell user) before = .ok w) (i : Nat) (h : Obj)
    (hi : w.objs[i]? = some h) (h1 : (WOp.deepcopy i).run w = .ok w') :
    ∃ c, w'.objs[w.objs.length]? = some c ∧ c.store = true ∧ c.order = h.order ∧
      ∀ x t, get w'.mem c x t = get w.mem h x t := by
  have inv := runW_inv (start_inv cell user) before h0
  have hok := inv.ok (List.mem_of_getElem? hi)
  simp only [WOp.run, World.mk1, hi, guard] at h1
  split_ifs at h1 with hg
  simp only [Except.ok.injEq] at h1
  subst h1
  refine ⟨(Hist.deepcopy w.mem h).1, by simp, ?_, rfl, ?_⟩
  · obtain ⟨_, r2, _⟩ := reserve_spec (new_live w.mem) h.size
    exact r2
  · intro x t
    obtain ⟨r1, r2, r3, r4, r5, r6, r7⟩ := reserve_spec (new_live w.mem) h.size
    have hb : (new w.mem).2.brk = w.mem.brk := by simp [new, Mem.alloc]
    have hin := hok.inside
    have hsz := hok.size
    apply get_of_copy hok.fit
    · intro x
      show mapInsertAll (reserve (new w.mem).2 (new w.mem).1 h.size).1.loc h.loc x = h.loc x
      rw [r1]; rfl
    · intro x
      show mapInsertAll (reserve (new w.mem).2 (new w.mem).1 h.size).1.typ h.typ x = h.typ x
      rw [r1]; rfl
    · intro k hk
      refine (if_pos ⟨Nat.le_add_right _ _, Nat.add_lt_add_left hk _⟩ :
        ((reserve (new w.mem).2 (new w.mem).1 h.size).2.copy h.base
          (reserve (new w.mem).2 (new w.mem).1 h.size).1.base h.size).cell
          ((reserve (new w.mem).2 (new w.mem).1 h.size).1.base + k) = _).trans ?_
      rw [r4 _ (by omega)]
      simp [new, Mem.alloc]

/-- C07. The copy constructor: a copy of an owner owns a copy of the values; a
copy of a view is a view of the same storage. Either way it reads the same. -/
theorem C07_copy_equal (cell : Nat → K) (user : Nat) (before : List (WOp K))
    (w w' : World K) (h0 : runW (World.start cell user) before = .ok w) (i : Nat) (h : Obj)
    (hi : w.objs[i]? = some h) (h1 : (WOp.copy i).run w = .ok w') :
    ∃ c, w'.objs[w.objs.length]? = some c ∧ c.store = h.store ∧ c.order = h.order ∧
      (h.store = false → c.base = h.base) ∧ ∀ x t, get w'.mem c x t = get w.mem h x t := by
  have inv := runW_inv (start_inv cell user) before h0
  have hok := inv.ok (List.mem_of_getElem? hi)
  have hin := hok.inside
  have hsz := hok.size
  simp only [WOp.run, World.mk1, hi, guard] at h1
  split_ifs at h1 with hg
  simp only [Except.ok.injEq] at h1
  subst h1
  cases hs : h.store with
  | true =>
    refine ⟨(copyCtor w.mem h).1, by simp, by simp [copyCtor, hs], by simp [copyCtor, hs, Layout.copyMaps],
      by simp, ?_⟩
    intro x t
    have e : copyCtor w.mem h = ({ ({ Layout.empty with size := h.size } : Layout).copyMaps h.toLayout with
        storesize := h.size, store := true, base := w.mem.brk },
        Mem.copy { w.mem with brk := w.mem.brk + h.size } h.base w.mem.brk h.size) := by
      unfold copyCtor; rw [if_pos hs]; rfl
    show get (copyCtor w.mem h).2 (copyCtor w.mem h).1 x t = _
    rw [e]
    refine get_of_copy hok.fit (by intro _; rfl) (by intro _; rfl) ?_ x t
    intro k hk
    refine (if_pos ⟨Nat.le_add_right _ _, Nat.add_lt_add_left hk _⟩ :
      (Mem.copy { w.mem with brk := w.mem.brk + h.size } h.base w.mem.brk h.size).cell
        (w.mem.brk + k) = _).trans ?_
    simp
  | false =>
    refine ⟨(copyCtor w.mem h).1, by simp, by simp [copyCtor, hs], by simp [copyCtor, hs, Layout.copyMaps],
      by simp [copyCtor, hs], ?_⟩
    intro x t
    have e : copyCtor w.mem h = ({ ({ Layout.empty with size := h.size } : Layout).copyMaps h.toLayout with
        storesize := h.size, store := false, base := h.base }, w.mem) := by
      unfold copyCtor; rw [if_neg (by simp [hs])]
    show get (copyCtor w.mem h).2 (copyCtor w.mem h).1 x t = _
    rw [e]
    exact get_of_copy hok.fit (by intro _; rfl) (by intro _; rfl) (by intro _ _; rfl) x t

/-- Non-vacuity for C07: a history with two variables, its deep copy, and a view
over two caller cells; the copy and the view are written, the original is not. -/
example : ∃ w w' : World Int,
    runW (World.start (fun a => (a : Int)) 4)
      [.create, .add 0 "a" .scalar, .add 0 "b" .scalar, .write 0 "a" .scalar [1],
       .write 0 "b" .scalar [2], .deepcopy 0, .viewOf 2, .add 2 "c" .scalar] = .ok w ∧
    runW w [.write 1 "a" .scalar [7], .write 2 "c" .scalar [9]] = .ok w' ∧
    (w.objs[0]?.map Obj.store = some true) ∧
    (w'.objs[1]?.map (fun h => (get w'.mem h "a" .scalar).toOption) = some (some [7])) ∧
    (w'.objs[0]?.map (fun h => (get w'.mem h "a" .scalar).toOption) = some (some [1])) ∧
    w'.mem.cell 2 = 9 ∧ w'.mem.cell 1 = 1 ∧ w'.mem.cell 3 = 3 :=
  ⟨_, _, rfl, rfl, rfl, rfl, rfl, rfl, rfl, rfl⟩

end Neml.Hist
