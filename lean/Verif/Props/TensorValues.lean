import Verif.Props.TensorStore
import Mathlib.Tactic.Use

/-!
# C165: objects that own their memory behave as values; where the classes depart from this
-/

namespace Neml.TensorStore

variable {K : Type} [Field K]

/-! ## Sums -/

/-- Cell `i` of one pointer is cell `j` of another only for `i = j`: the ranges are apart or the same. -/
def Aligned (p q : Option (ℕ × ℕ)) (n : ℕ) : Prop :=
  ∀ b o o', p = some (b, o) → q = some (b, o') → ∀ i < n, ∀ j < n, o + i = o' + j → i = j

theorem addLoop_get (s : St K) (b o : ℕ) (q : Option (ℕ × ℕ)) (n : ℕ) (hq : Aligned (some (b, o)) q n) (m : ℕ) (hm : m ≤ n) :
    (∀ i < n, get (addLoop s (some (b, o)) q m) (some (b, o)) i =
      if i < m then Option.map₂ (· + ·) (get s (some (b, o)) i) (get s q i) else get s (some (b, o)) i) ∧
    (∀ c j, (c = b → ∀ i < m, j ≠ o + i) → (addLoop s (some (b, o)) q m).cell c j = s.cell c j) := by
  induction m with
  | zero => exact ⟨fun i _ => rfl, fun c j _ => rfl⟩
  | succ m ih =>
    obtain ⟨ih1, ih2⟩ := ih (by omega)
    have hqm : get (addLoop s (some (b, o)) q m) q m = get s q m := by
      rcases q with _ | ⟨c, o'⟩
      · rfl
      · refine ih2 c (o' + m) ?_
        rintro rfl i hi e
        have := hq c o o' rfl rfl i (by omega) m (by omega) e.symm
        omega
    constructor
    · intro i hi
      rw [addLoop]
      by_cases e : i = m
      · subst e
        have : get (store (addLoop s (some (b, o)) q i) (some (b, o + i)) 1
            fun _ => Option.map₂ (· + ·) (get (addLoop s (some (b, o)) q i) (some (b, o)) i) (get (addLoop s (some (b, o)) q i) q i))
            (some (b, o)) i = _ := get_store (b := b) (o := o + i) (i := 0) (n := 1) (by omega)
        rw [this, ih1 i hi, hqm]
        simp
      · rw [get_store_ne, ih1 i hi]
        · have : i < m + 1 ↔ i < m := by omega
          simp [this]
        · intro b' o1 c o2 h1 h2 _ j hj he
          cases h1
          cases h2
          omega
    · intro c j h
      rw [addLoop]
      simp only [store]
      rw [if_neg, ih2 c j fun e i hi => h e i (by omega)]
      rintro ⟨rfl, h1, h2⟩
      exact h rfl m (by omega) (by omega)

/-- **C165.** Adding adds the values, also of an object to itself, and writes the object and what shares its cells only. -/
theorem C165_add {s : St K} (h : Good s) {x y : ℕ} {a b : Obj} (hx : s.obj x = some a) (hy : s.obj y = some b) (hn : a.n = b.n)
    (hal : Aligned a.ptr b.ptr a.n) : ∃ t, step s (.add x y) = .ok t ∧
    val t x = some ((List.range a.n).map fun i => Option.map₂ (· + ·) (get s a.ptr i) (get s b.ptr i)) ∧
    ∀ z, Disjoint s x z → val t z = val s z := by
  have hv := h.found x a hx
  refine ⟨_, step_add hx hy hn hv (h.found y b hy), ?_, ?_⟩
  · rw [val_eq ((congrFun (addLoop_fields s a.ptr b.ptr a.n).2.2.2 x).trans hx)]
    congr 1
    refine List.map_congr_left fun i hi => ?_
    have hi := List.mem_range.1 hi
    obtain ⟨c, o, l, hp, _⟩ := valid_some hv (by omega)
    rw [hp] at hal ⊢
    rw [(addLoop_get s c o b.ptr a.n hal a.n le_rfl).1 i hi, if_pos hi]
  · intro z hz
    refine val_congr (congrFun (addLoop_fields s a.ptr b.ptr a.n).2.2.2 z) fun e he i hi => ?_
    by_cases h0 : a.n = 0
    · rw [h0]; rfl
    obtain ⟨c, o, l, hp, _⟩ := valid_some hv h0
    rcases hq : e.ptr with _ | ⟨c', o'⟩
    · rfl
    rw [hp] at hal ⊢
    refine (addLoop_get s c o b.ptr a.n hal a.n le_rfl).2 c' (o' + i) ?_
    rintro rfl j hj e1
    exact hz a e hx he c' o o' hp hq j hj i hi e1.symm

/-! ## Objects that own their memory are values -/

/-- A program's store seen as values. -/
abbrev Store (K : Type) := ℕ → Option (List (Option K))

/-- What an operation does to values. -/
def spec (a : Store K) : Op K → Store K
  | .make x _ v => Function.update a x (some (v.map some))
  | .copy x y => Function.update a x (a y)
  | .move x y => Function.update a x (a y)
  | .deepcopy x y => Function.update a x (a y)
  | .assign x y => if (a x).map List.length = (a y).map List.length then Function.update a x (a y) else a
  | .moveAssign x y => if (a x).map List.length = (a y).map List.length then Function.update a x (a y) else a
  | .destroy x => Function.update a x none
  | .scale x c => Function.update a x ((a x).map (List.map (Option.map (· * c))))
  | .add x y => if (a x).map List.length = (a y).map List.length then
      Function.update a x ((a x).bind fun u => (a y).map fun v => List.zipWith (Option.map₂ (· + ·)) u v) else a
  | .grow x k => Function.update a x ((a x).map (· ++ List.replicate k none))
  | _ => a

/-- Names are there when used and new when introduced; no operation makes an object look at memory of somebody else. -/
def Scoped (a : Store K) : Op K → Prop
  | .caller _ => True
  | .make x _ _ => a x = none
  | .copy x y => a x = none ∧ (a y).isSome
  | .move x y => a x = none ∧ (a y).isSome
  | .deepcopy x y => a x = none ∧ (a y).isSome
  | .assign x y => (a x).isSome ∧ (a y).isSome
  | .moveAssign x y => (a x).isSome ∧ (a y).isSome
  | .destroy x => (a x).isSome
  | .scale x _ => (a x).isSome
  | .add x y => (a x).isSome ∧ (a y).isSome
  | .grow x _ => (a x).isSome
  | .reserve x m => ∃ v, a x = some v ∧ v.length ≤ m
  | .makeStore x => (a x).isSome
  | .view .. => False
  | .copyData .. => False
  | .setData .. => False

/-- All objects own their memory, and cells not in use were never written. -/
def Owners (s : St K) : Prop := ∀ x o, s.obj x = some o →
  o.own = true ∧ ∀ b i, o.ptr = some (b, 0) → o.n ≤ i → s.cell b i = none

theorem val_isSome {s : St K} {x : ℕ} (h : (val s x).isSome) : ∃ o, s.obj x = some o := by
  unfold val at h
  rw [Option.isSome_map] at h
  exact Option.isSome_iff_exists.1 h

theorem val_none {s : St K} {x : ℕ} (h : val s x = none) : s.obj x = none := by
  unfold val at h
  simpa using h

theorem owners_apart {s : St K} (h : Good s) (ho : Owners s) {x z : ℕ} (e : z ≠ x) : Disjoint s x z := by
  intro a c ha hc b o o' h1 h2 i _ j _ _
  obtain ⟨b1, g1, _⟩ := h.own x a ha (ho x a ha).1
  obtain ⟨b2, g2, _⟩ := h.own z c hc (ho z c hc).1
  rw [h1] at g1
  rw [h2] at g2
  cases g1
  cases g2
  exact e (h.uniq z x c a hc ha (ho z c hc).1 (ho x a ha).1 (h2.trans h1.symm))

theorem owners_alone {s : St K} (h : Good s) (ho : Owners s) (x : ℕ) : Alone s x := by
  intro a ha hao z c hz hc
  refine .inr fun b hb i hi => ?_
  obtain ⟨b2, g2, _⟩ := h.own z c hc (ho z c hc).1
  rw [hi] at g2
  cases g2
  exact hz (h.uniq z x c a hc ha (ho z c hc).1 hao (hi.trans hb.symm))

theorem owners_aligned {s : St K} (h : Good s) (ho : Owners s) {x y : ℕ} {a b : Obj} (hx : s.obj x = some a)
    (hy : s.obj y = some b) (n : ℕ) : Aligned a.ptr b.ptr n := by
  intro c o o' h1 h2 i _ j _ e
  obtain ⟨b1, g1, _⟩ := h.own x a hx (ho x a hx).1
  obtain ⟨b2, g2, _⟩ := h.own y b hy (ho y b hy).1
  rw [h1] at g1
  rw [h2] at g2
  cases g1
  cases g2
  omega

theorem owners_block {s : St K} (h : Good s) (ho : Owners s) {x : ℕ} {o : Obj} (hx : s.obj x = some o) :
    ∃ b, o.ptr = some (b, 0) ∧ b ≠ s.next := by
  obtain ⟨b, h1, h2, _⟩ := h.own x o hx (ho x o hx).1
  refine ⟨b, h1, ?_⟩
  rintro rfl
  rw [h.fresh _ le_rfl] at h2
  cases h2

theorem owners_ne {s : St K} (h : Good s) (ho : Owners s) {x z b b' : ℕ} {o o' : Obj} (hx : s.obj x = some o)
    (hz : s.obj z = some o') (e : z ≠ x) (hb : o.ptr = some (b, 0)) (hb' : o'.ptr = some (b', 0)) : b' ≠ b := by
  rintro rfl
  exact e (h.uniq z x o' o hz hx (ho z o' hz).1 (ho x o hx).1 (hb'.trans hb.symm))

theorem owners_cells {s t : St K} (h : Good s) (ho : Owners s) {x : ℕ} {a : Obj} (hx : s.obj x = some a) (hobj : t.obj = s.obj)
    (hc : ∀ b, a.ptr = some (b, 0) → ∀ c j, (c = b → a.n ≤ j) → t.cell c j = s.cell c j) : Owners t := by
  intro z o hz
  rw [hobj] at hz
  refine ⟨(ho z o hz).1, fun b i hb hi => ?_⟩
  obtain ⟨b', hb', _⟩ := owners_block h ho hx
  rw [hc b' hb', (ho z o hz).2 b i hb hi]
  rintro rfl
  by_cases e : z = x
  · subst e
    rw [hx] at hz
    cases hz
    exact hi
  · exact absurd rfl (owners_ne h ho hx hz e hb' hb)

theorem owners_store {s : St K} (h : Good s) (ho : Owners s) {x : ℕ} {a : Obj} (hx : s.obj x = some a) (f : ℕ → Option K) :
    Owners (store s a.ptr a.n f) := by
  refine owners_cells h ho hx (store_fields _ _ _ _).2.2.2 fun b hb c j hj => ?_
  rw [hb]
  simp only [store]
  rw [if_neg]
  rintro ⟨h1, h2, h3⟩
  have := hj h1
  omega

/-- A new array for `x`: what the others own is as before. -/
theorem owners_new {s t : St K} (h : Good s) (ho : Owners s) (x : ℕ) (o : Obj) (hobj : t.obj = Function.update s.obj x (some o))
    (hc : ∀ c j, c ≠ s.next → t.cell c j = s.cell c j) (h1 : o.own = true) (h2 : o.ptr = some (s.next, 0))
    (h3 : ∀ i, o.n ≤ i → t.cell s.next i = none) : Owners t := by
  intro z o' hz
  rw [hobj] at hz
  by_cases e : z = x
  · subst e
    simp only [Function.update_self, Option.some.injEq] at hz
    subst hz
    refine ⟨h1, fun b i hb hi => ?_⟩
    rw [h2] at hb
    cases hb
    exact h3 i hi
  · rw [Function.update_of_ne e] at hz
    refine ⟨(ho z o' hz).1, fun b i hb hi => ?_⟩
    obtain ⟨b', g1, g2⟩ := owners_block h ho hz
    rw [g1] at hb
    cases hb
    rw [hc _ _ g2]
    exact (ho z o' hz).2 _ i g1 hi

theorem get_next {s t : St K} (h : Good s) {z : ℕ} {o : Obj} (hz : s.obj z = some o) (hc : ∀ c j, c ≠ s.next → t.cell c j = s.cell c j)
    (i : ℕ) (hi : i < o.n) : get t o.ptr i = get s o.ptr i := by
  obtain ⟨b, o', l, h1, h2, _⟩ := valid_some (h.found z o hz) (by omega)
  have : b ≠ s.next := by
    rintro rfl
    rw [h.fresh _ le_rfl] at h2
    cases h2
  rw [h1]
  exact hc _ _ this

theorem val_length {s : St K} {x : ℕ} {o : Obj} (h : s.obj x = some o) : (val s x).map List.length = some o.n := by
  simp [val_eq h]

theorem store_update {a a' : Store K} {x : ℕ} {v : Option (List (Option K))} (h1 : a' x = v) (h2 : ∀ z, z ≠ x → a' z = a z) :
    a' = Function.update a x v := by
  funext z
  by_cases e : z = x
  · subst e; simp [h1]
  · simp [e, h2 z e]

/-- **C165.** As long as no object refers to memory of somebody else, tensors, rotations and histories are values: every operation does
to the values what it says, whatever the program did before, and is defined. -/
theorem C165_values {s : St K} (h : Good s) (ho : Owners s) (op : Op K) (hs : Scoped (val s) op) :
    ∃ t, After s op t ∧ Good t ∧ Owners t ∧ val t = spec (val s) op := by
  have hal : Allowed s op := by
    cases op with
    | caller v => trivial
    | make x c v => exact val_none hs
    | copy x y => exact ⟨val_none hs.1, Option.isSome_iff_exists.2 (val_isSome hs.2)⟩
    | move x y => exact ⟨val_none hs.1, Option.isSome_iff_exists.2 (val_isSome hs.2)⟩
    | deepcopy x y => exact ⟨val_none hs.1, Option.isSome_iff_exists.2 (val_isSome hs.2)⟩
    | assign x y =>
      obtain ⟨a, ha⟩ := val_isSome hs.1
      obtain ⟨b, hb⟩ := val_isSome hs.2
      exact ⟨a, b, ha, hb⟩
    | moveAssign x y =>
      obtain ⟨a, ha⟩ := val_isSome hs.1
      obtain ⟨b, hb⟩ := val_isSome hs.2
      exact ⟨a, b, ha, hb, fun _ => (ho _ _ hb).1⟩
    | destroy x => exact ⟨Option.isSome_iff_exists.2 (val_isSome hs), owners_alone h ho x⟩
    | scale x c => exact Option.isSome_iff_exists.2 (val_isSome hs)
    | add x y =>
      obtain ⟨a, ha⟩ := val_isSome hs.1
      obtain ⟨b, hb⟩ := val_isSome hs.2
      exact ⟨a, b, ha, hb⟩
    | grow x k =>
      obtain ⟨a, ha⟩ := val_isSome hs
      exact ⟨a, ha, owners_alone h ho x, fun e => by rw [(ho x a ha).1] at e; cases e⟩
    | reserve x m =>
      obtain ⟨v, hv, hm⟩ := hs
      obtain ⟨a, hx⟩ := val_isSome (s := s) (x := x) (by rw [hv]; rfl)
      refine ⟨a, hx, owners_alone h ho x, (ho x a hx).1, ?_⟩
      rw [val_eq hx] at hv
      cases hv
      simpa using hm
    | makeStore x => exact Option.isSome_iff_exists.2 (val_isSome hs)
    | view x c p n => exact hs.elim
    | copyData x p => exact hs.elim
    | setData x p => exact hs.elim
  obtain ⟨t, ht, hg⟩ := C165_step h op hal
  refine ⟨t, ht, hg, ?_⟩
  have hok : ∀ {u}, step s op = .ok u → t = u := by
    intro u hu
    cases ht with
    | ok e => rw [hu] at e; cases e; rfl
    | exc e => rw [hu] at e; cases e
  have hexc : ∀ {u}, step s op = .exc u → t = u := by
    intro u hu
    cases ht with
    | ok e => rw [hu] at e; cases e
    | exc e => rw [hu] at e; cases e; rfl
  have howned : ∀ {x y o}, s.obj y = some o → step s op = .ok (owned s x o) →
      Owners t ∧ val t = Function.update (val s) x (val s y) := by
    intro x y o hy e
    rw [hok e]
    obtain ⟨h1, _, h3, _⟩ := owned_spec h (x := x) hy
    refine ⟨owners_new h ho x ⟨o.cls, o.n, o.n, true, some (s.next, 0)⟩ rfl ?_ rfl rfl ?_, store_update h1 h3⟩
    · intro c j hc
      simp [owned, bind, alloc, hc]
    · intro i hi
      obtain ⟨b, g1, _⟩ := owners_block h ho hy
      simp only [owned, bind, alloc, if_true, g1, get, Nat.zero_add]
      exact (ho y o hy).2 b i g1 hi
  have hass : ∀ {x y a b}, s.obj x = some a → s.obj y = some b → (op = .assign x y ∧ x ≠ y) ∨
      (op = .moveAssign x y ∧ (a.cls = .ten → b.own = true)) → Owners t ∧ val t =
        if (val s x).map List.length = (val s y).map List.length then Function.update (val s) x (val s y) else val s := by
    intro x y a b hx hy hop
    obtain ⟨h1, h2⟩ := C165_assign h hx hy op hop
    rw [val_length hx, val_length hy]
    by_cases hn : a.n = b.n
    · obtain ⟨u, e, g1, g2, g3⟩ := h1 hn
      rw [hok e, if_pos (by rw [hn])]
      refine ⟨?_, store_update g1 fun z hz => g2 z (owners_apart h ho hz)⟩
      have e2 : step s op = .ok (store s a.ptr a.n (get s b.ptr)) := by
        rcases hop with ⟨rfl, hne⟩ | ⟨rfl, hc⟩
        · exact step_assign hx hy hn hne (h.found x a hx) (h.found y b hy)
        · exact step_moveAssign hx hy hn hc (h.found x a hx) (h.found y b hy)
      rw [e] at e2
      cases e2
      exact owners_store h ho hx _
    · rw [hexc (h2 hn), if_neg (by simpa using hn)]
      exact ⟨ho, rfl⟩
  have hreg : ∀ {x b a}, a.ptr = some (b, 0) → s.obj x = some a → ∀ k m, a.n ≤ k → Owners (regrown s x b a k m) ∧
      val (regrown s x b a k m) =
        Function.update (val s) x (some ((List.range a.n).map (get s a.ptr) ++ List.replicate (k - a.n) none)) := by
    intro x b a h1 hx k m hk
    have hc : ∀ c j, c ≠ s.next → (regrown s x b a k m).cell c j = s.cell c j := fun c j e => by simp [regrown, bind, alloc, e]
    refine ⟨owners_new h ho x { a with n := k, cap := m, ptr := some (s.next, 0) } rfl hc (ho x a hx).1 rfl fun i hi => ?_,
      store_update ?_ fun z hz => val_congr ?_ fun o hzo i hi => get_next h hzo hc i hi⟩
    · have : ¬ i < a.n := by
        simp only at hi
        omega
      simp [regrown, bind, alloc, this]
    · rw [val_eq (o := { a with n := k, cap := m, ptr := some (s.next, 0) }) (by simp [regrown, bind])]
      congr 1
      obtain ⟨d, rfl⟩ := Nat.exists_eq_add_of_le hk
      simp only [List.range_add, List.map_append, List.map_map, Nat.add_sub_cancel_left]
      congr 1
      · refine List.map_congr_left fun i hi => ?_
        simp [get, regrown, bind, alloc, List.mem_range.1 hi]
      · refine List.eq_replicate_iff.2 ⟨by simp, fun c hc => ?_⟩
        simp only [List.mem_map, List.mem_range] at hc
        obtain ⟨i, hi, rfl⟩ := hc
        simp [get, regrown, bind, alloc]
    · simp [regrown, bind, alloc, hz]
  cases op with
  | caller v =>
    rw [hok rfl]
    have hc : ∀ c j, c ≠ s.next → (alloc s true v.length fun i => v[i]?).cell c j = s.cell c j := fun c j e => by simp [alloc, e]
    refine ⟨fun z o hz => ⟨(ho z o hz).1, fun b i hb hi => ?_⟩, funext fun z => val_congr rfl fun o hz i hi => get_next h hz hc i hi⟩
    obtain ⟨b', g1, g2⟩ := owners_block h ho hz
    rw [g1] at hb
    cases hb
    rw [hc _ _ g2]
    exact (ho z o hz).2 _ i g1 hi
  | make x c v =>
    rw [hok rfl]
    set u := bind (alloc s false v.length fun i => v[i]?) x (some ⟨c, v.length, v.length, true, some (s.next, 0)⟩) with hu
    have hc : ∀ c j, c ≠ s.next → u.cell c j = s.cell c j := fun c j e => by simp [hu, bind, alloc, e]
    refine ⟨owners_new h ho x _ rfl hc rfl rfl fun i hi => ?_, store_update ?_ fun z hz => val_congr ?_ fun o hzo i hi =>
      get_next h hzo hc i hi⟩
    · simpa [hu, bind, alloc] using hi
    · rw [val_eq (o := ⟨c, v.length, v.length, true, some (s.next, 0)⟩) (by simp [hu, bind])]
      congr 1
      refine List.ext_getElem (by simp) fun i h1 h2 => ?_
      simp only [List.length_map] at h2
      simp [get, hu, bind, alloc, h2]
    · simp [hu, bind, alloc, hz]
  | copy x y =>
    obtain ⟨o, hy⟩ := val_isSome hs.2
    exact howned hy (step_copy hy (h.found y o hy) (by simp [(ho y o hy).1]))
  | move x y =>
    obtain ⟨o, hy⟩ := val_isSome hs.2
    exact howned hy (step_move hy (h.found y o hy) (ho y o hy).1)
  | deepcopy x y =>
    obtain ⟨o, hy⟩ := val_isSome hs.2
    exact howned hy (step_deepcopy hy (h.found y o hy))
  | assign x y =>
    obtain ⟨a, hx⟩ := val_isSome hs.1
    obtain ⟨b, hy⟩ := val_isSome hs.2
    by_cases e : x = y
    · subst e
      rw [hok (u := s) (by simp [step, hx])]
      exact ⟨ho, by simp [spec]⟩
    · exact hass hx hy (.inl ⟨rfl, e⟩)
  | moveAssign x y =>
    obtain ⟨a, hx⟩ := val_isSome hs.1
    obtain ⟨b, hy⟩ := val_isSome hs.2
    exact hass hx hy (.inr ⟨rfl, fun _ => (ho _ _ hy).1⟩)
  | destroy x =>
    obtain ⟨a, hx⟩ := val_isSome hs
    obtain ⟨b, h1, h2, h3, hd, hg'⟩ := good_del h x a hx (ho x a hx).1 (owners_alone h ho x)
    have e : step s (.destroy x) = .ok (bind ({ s with len := Function.update s.len b none } : St K) x none) := by
      simp only [step, hx, (ho x a hx).1, hd, if_true]
    rw [hok e]
    refine ⟨fun z o hz => ?_, store_update ?_ fun z hz => val_congr ?_ fun o hzo i hi => rfl⟩
    · by_cases e : z = x
      · subst e
        simp [bind] at hz
      · simp only [bind, Function.update_of_ne e] at hz
        exact ho z o hz
    · simp [val, bind]
    · simp [bind, hz]
  | scale x c =>
    obtain ⟨a, hx⟩ := val_isSome hs
    obtain ⟨u, e, g1, g2⟩ := (C165_write h hx c a.ptr (h.found x a hx)).1
    rw [hok e]
    refine ⟨?_, store_update g1 fun z hz => g2 z (owners_apart h ho hz)⟩
    simp only [step, hx, h.found x a hx, if_true, Out.ok.injEq] at e
    rw [← e]
    exact owners_store h ho hx _
  | add x y =>
    obtain ⟨a, hx⟩ := val_isSome hs.1
    obtain ⟨b, hy⟩ := val_isSome hs.2
    show Owners t ∧ val t = if (val s x).map List.length = (val s y).map List.length then _ else _
    rw [val_length hx, val_length hy]
    by_cases hn : a.n = b.n
    · obtain ⟨u, e, g1, g2⟩ := C165_add h hx hy hn (owners_aligned h ho hx hy _)
      rw [hok e, if_pos (by rw [hn])]
      constructor
      · rw [step_add hx hy hn (h.found x a hx) (h.found y b hy)] at e
        cases e
        refine owners_cells h ho hx (addLoop_fields _ _ _ _).2.2.2 fun c hc d j hj => ?_
        have hal := owners_aligned h ho hx hy a.n
        rw [hc] at hal ⊢
        refine (addLoop_get s c 0 b.ptr a.n hal a.n le_rfl).2 d j fun e i hi => ?_
        have := hj e
        omega
      · refine store_update ?_ fun z hz => g2 z (owners_apart h ho hz)
        rw [g1, val_eq hx, val_eq hy, Option.bind_some, Option.map_some, ← hn, Option.some.injEq]
        refine List.ext_getElem (by simp) fun i h1 h2 => by simp
    · rw [hexc (u := s) (by simp [step, hx, hy, hn]), if_neg (by simpa using hn)]
      exact ⟨ho, rfl⟩
  | grow x k =>
    obtain ⟨a, hx⟩ := val_isSome hs
    by_cases hk : a.cap < a.n + k
    · obtain ⟨b, h1, hb, he, hg'⟩ := regrow_eq h hx (ho x a hx).1 (owners_alone h ho x) (a.n + k) (a.n + k) le_rfl (by omega)
      rw [hok ((step_grow hx (ho x a hx).1 hk).trans he)]
      have hv : val s x = some ((List.range a.n).map (get s a.ptr)) := val_eq hx
      obtain ⟨g1, g2⟩ := hreg h1 hx (a.n + k) (a.n + k) (by omega)
      refine ⟨g1, g2.trans ?_⟩
      simp [spec, hv]
    · have e := step_grow_fits hx (k := k) fun _ => not_lt.1 hk
      rw [hok e]
      obtain ⟨b, h1, hb⟩ := owners_block h ho hx
      refine ⟨fun z o hz => ?_, store_update ?_ fun z hz => val_congr ?_ fun o hzo i hi => rfl⟩
      · by_cases e : z = x
        · subst e
          simp only [bind, Function.update_self, Option.some.injEq] at hz
          subst hz
          exact ⟨(ho z a hx).1, fun b i hb hi => (ho z a hx).2 b i hb (by simp at hi; omega)⟩
        · simp only [bind, Function.update_of_ne e] at hz
          exact ho z o hz
      · rw [val_eq (o := { a with n := a.n + k }) (by simp [bind]), val_eq hx, Option.map_some, Option.some.injEq]
        simp only [List.range_add, List.map_append, List.map_map]
        congr 1
        refine List.eq_replicate_iff.2 ⟨by simp, fun c hc => ?_⟩
        simp only [List.mem_map, List.mem_range] at hc
        obtain ⟨i, hi, rfl⟩ := hc
        simp only [Function.comp, h1, get]
        exact (ho x a hx).2 b _ h1 (by omega)
      · simp [bind, hz]
  | reserve x m =>
    obtain ⟨v, hv, hm⟩ := hs
    obtain ⟨a, hx⟩ := val_isSome (s := s) (x := x) (by rw [hv]; rfl)
    have hv' : val s x = some ((List.range a.n).map (get s a.ptr)) := val_eq hx
    have hm' : a.n ≤ m := by
      rw [hv'] at hv
      cases hv
      simpa using hm
    obtain ⟨b, h1, hb, he, hg'⟩ := regrow_eq h hx (ho x a hx).1 (owners_alone h ho x) a.n m hm' hm'
    have e : step s (.reserve x m) = .ok (regrown s x b a a.n m) := by simp only [step, hx]; exact he
    rw [hok e]
    obtain ⟨g1, g2⟩ := hreg h1 hx a.n m le_rfl
    refine ⟨g1, g2.trans ?_⟩
    simp only [Nat.sub_self, List.replicate_zero, List.append_nil, spec]
    rw [← hv']
    simp
  | makeStore x =>
    obtain ⟨a, hx⟩ := val_isSome hs
    rw [hok (u := s) (by simp [step, hx, (ho x a hx).1])]
    exact ⟨ho, rfl⟩
  | view x c p n => exact hs.elim
  | copyData x p => exact hs.elim
  | setData x p => exact hs.elim

/-- Every operation of a program is scoped when it comes up, as far as the values tell. -/
def ScopedAll (a : Store K) : List (Op K) → Prop
  | [] => True
  | op :: ops => Scoped a op ∧ ScopedAll (spec a op) ops

/-- **C165.** A program whose objects all own their memory is defined from beginning to end, computes on the values, and has given back
all memory once it has destroyed its objects. -/
theorem C165_program (ops : List (Op K)) (hs : ScopedAll (fun _ => none) ops) : ∃ t, run init ops = .ok t ∧
    val t = ops.foldl spec (fun _ => none) ∧
    (ops.foldl spec (fun _ => none) = (fun _ => none) → ∀ b l, t.len b = some l → t.user b = true) := by
  have key : ∀ (ops : List (Op K)) (s : St K), Good s → Owners s → ScopedAll (val s) ops →
      ∃ t, run s ops = .ok t ∧ Good t ∧ val t = ops.foldl spec (val s) := by
    intro ops
    induction ops with
    | nil => exact fun s h _ _ => ⟨s, rfl, h, rfl⟩
    | cons op ops ih =>
      intro s h ho hs
      obtain ⟨t, ht, hg, ho', hv⟩ := C165_values h ho op hs.1
      obtain ⟨u, hu, hg', hv'⟩ := ih t hg ho' (by rw [hv]; exact hs.2)
      refine ⟨u, ?_, hg', by rw [hv', hv]; rfl⟩
      cases ht with
      | ok e => simp only [run, e, hu]
      | exc e => simp only [run, e, hu]
  have h0 : val (init : St K) = fun _ => none := rfl
  obtain ⟨t, h1, h2, h3⟩ := key ops init good_init (fun x o h => by cases h) (by rw [h0]; exact hs)
  refine ⟨t, h1, by rw [h3, h0], fun he => C165_end h2 fun x => val_none (s := t) ?_⟩
  rw [h3, h0, he]

/-! ## Objects that look at memory of somebody else -/

/-- **C165.** A rotation or history that looks at memory of somebody else is copied as such, and a tensor so moved: the copy has the
same cells, so writing the copy writes the original. -/
theorem C165_shared {s : St K} (h : Good s) {x y : ℕ} {o : Obj} (hxy : x ≠ y) (hy : s.obj y = some o) (hown : o.own = false)
    (op : Op K) (hop : (op = .copy x y ∧ o.cls ≠ .ten) ∨ op = .move x y) (c : K) :
    ∃ t u, step s op = .ok t ∧ val t x = val s y ∧ step t (.scale x c) = .ok u ∧
      val u y = (val s y).map (List.map (Option.map (· * c))) := by
  have e : step s op = .ok (bind s x (some { o with cap := o.n })) := by
    rcases hop with ⟨rfl, hc⟩ | rfl
    · simp [step, hy, hown, hc]
    · simp [step, hy, hown]
  have hx : (bind s x (some { o with cap := o.n })).obj x = some { o with cap := o.n } := by simp [bind]
  have hy' : (bind s x (some { o with cap := o.n })).obj y = some o := by simp [bind, hxy.symm, hy]
  have hv : valid (bind s x (some { o with cap := o.n })) o.ptr o.n = true := h.found y o hy
  refine ⟨_, _, e, ?_, by simp only [step, hx, hv, if_true]; rfl, ?_⟩
  · rw [val_eq hx, val_eq hy]; rfl
  · have := val_store_self hy' hv fun i => (get (bind s x (some { o with cap := o.n })) o.ptr i).map (· * c)
    rw [this, val_eq hy, Option.map_some, List.map_map]
    rfl

/-- **C165, disagreement.** Assigning a temporary tensor that looks at other memory to a tensor that owns its memory: the memory of
the left one stays alive without an owner, and the left one takes the other memory for its own. Destroying it is undefined, or frees
the memory of the true owner so that destroying that one is. -/
theorem C165_move_disagreement {s : St K} (h : Good s) {x y : ℕ} {a b : Obj} (hxy : x ≠ y) (hx : s.obj x = some a)
    (hy : s.obj y = some b) (hc : a.cls = .ten) (ha : a.own = true) (hb : b.own = false) (hn : a.n = b.n)
    (hapart : b.ptr ≠ a.ptr) :
    ∃ t, step s (.moveAssign x y) = .ok t ∧
      (∃ m, a.ptr = some (m, 0) ∧ t.len m = some a.cap ∧ t.user m = false ∧ ∀ z o, t.obj z = some o → o.own = true →
        o.ptr ≠ some (m, 0)) ∧
      ((∀ z o, s.obj z = some o → o.own = true → o.ptr ≠ b.ptr) → step t (.destroy x) = .ub) ∧
      ∀ z o, s.obj z = some o → o.own = true → o.ptr = b.ptr →
        ∃ u, step t (.destroy x) = .ok u ∧ step u (.destroy z) = .ub := by
  have e : step s (.moveAssign x y) = .ok (bind s x (some { a with ptr := b.ptr })) := by
    simp [step, hx, hy, hn, hc, hb]
  have hdes : ∀ (t : St K) z o, t.obj z = some o → o.own = true → step t (.destroy z) =
      match del t o.ptr with
      | some u => .ok (bind u z none)
      | none => .ub := by
    intro t z o hz ho
    simp only [step, hz]
    rw [if_pos ho]
    cases del t o.ptr <;> rfl
  obtain ⟨m, h1, h2, h3, h4⟩ := h.own x a hx ha
  have htx : (bind s x (some { a with ptr := b.ptr })).obj x = some { a with ptr := b.ptr } := by simp [bind]
  refine ⟨_, e, ⟨m, h1, h2, h4, ?_⟩, ?_, ?_⟩
  · intro z o hz ho
    by_cases ez : z = x
    · subst ez
      rw [htx] at hz
      cases hz
      rw [← h1]
      exact hapart
    · simp only [bind, Function.update_of_ne ez] at hz
      intro hm
      exact ez (h.uniq z x o a hz hx ho ha (hm.trans h1.symm))
  · intro hno
    rw [hdes _ _ _ htx ha]
    have : del (bind s x (some { a with ptr := b.ptr })) b.ptr = none := by
      rcases hp : b.ptr with _ | ⟨c, i⟩
      · rfl
      rcases i with _ | i
      · refine if_neg ?_
        simp only [bind, Bool.and_eq_true, Bool.not_eq_true', not_and, Bool.not_eq_false]
        intro hl
        obtain ⟨l, hl⟩ := Option.isSome_iff_exists.1 hl
        by_contra hu
        obtain ⟨z, o, hz, ho, hzp⟩ := h.leak c l hl (by simpa using hu)
        exact hno z o hz ho (hzp.trans hp.symm)
      · rfl
    rw [show ({ a with ptr := b.ptr } : Obj).ptr = b.ptr from rfl, this]
  · intro z o hz ho hp
    obtain ⟨m', g1, g2, g3, g4⟩ := h.own z o hz ho
    have hzx : z ≠ x := by
      rintro rfl
      rw [hx] at hz
      cases hz
      exact hapart hp.symm
    have hd : del (bind s x (some { a with ptr := b.ptr })) b.ptr =
        some { bind s x (some { a with ptr := b.ptr }) with len := Function.update s.len m' none } := by
      rw [← hp, g1]
      simp [del, bind, g2, g4]
    refine ⟨bind { bind s x (some { a with ptr := b.ptr }) with len := Function.update s.len m' none } x none, ?_, ?_⟩
    · rw [hdes _ _ _ htx ha, show ({ a with ptr := b.ptr } : Obj).ptr = b.ptr from rfl, hd]
    · have hz' : (bind ({ bind s x (some { a with ptr := b.ptr }) with len := Function.update s.len m' none } : St K) x none).obj z =
          some o := by simp [bind, hzx, hz]
      rw [hdes _ _ _ hz' ho, g1]
      simp [del, bind]

/-- **C165, disagreement.** Assigning one entry of a history to another, `h.get<Symmetric>("a") = h.get<Symmetric>("b")`, writes
nothing: both sides look at memory, and the left temporary is made to look elsewhere. A rotation entry is written. -/
theorem C165_entry_disagreement {s : St K} (h : Good s) {x y : ℕ} {a b : Obj} (hx : s.obj x = some a) (hy : s.obj y = some b)
    (hn : a.n = b.n) (hb : b.own = false) :
    (a.cls = .ten → ∃ t, step s (.moveAssign x y) = .ok t ∧ t.cell = s.cell ∧ ∀ z, z ≠ x → val t z = val s z) ∧
    (a.cls ≠ .ten → ∃ t, step s (.moveAssign x y) = .ok t ∧ ∀ i < a.n, get t a.ptr i = get s b.ptr i) := by
  constructor
  · intro hc
    refine ⟨bind s x (some { a with ptr := b.ptr }), by simp [step, hx, hy, hn, hc, hb], rfl, fun z hz => ?_⟩
    exact val_congr (by simp [bind, hz]) fun o _ i _ => rfl
  · intro hc
    have e := step_moveAssign hx hy hn (fun e => absurd e hc) (h.found x a hx) (h.found y b hy)
    refine ⟨_, e, fun i hi => ?_⟩
    obtain ⟨c, o, l, hp, _⟩ := valid_some (h.found x a hx) (by omega)
    rw [hp, get_store hi]

/-- **C165.** Taking over the memory with `make_store` loses the values: every entry is indeterminate until written. -/
theorem C165_makeStore {s : St K} {x : ℕ} {a : Obj} (hx : s.obj x = some a) (ha : a.own = false) :
    ∃ t, step s (.makeStore x) = .ok t ∧ val t x = some (List.replicate a.n none) := by
  refine ⟨_, by simp only [step, hx, ha]; rfl, ?_⟩
  rw [val_eq (o := { a with own := true, cap := a.n, ptr := some (s.next, 0) }) (by simp [bind])]
  congr 1
  refine List.eq_replicate_iff.2 ⟨by simp, fun c hc => ?_⟩
  simp only [List.mem_map, List.mem_range] at hc
  obtain ⟨i, hi, rfl⟩ := hc
  simp [get, bind, alloc]

/-! ## Cases -/

/-- Two tensors, a copy, a sum, an assignment from the temporary, and all of them destroyed. -/
example : ∃ t, run (init : St ℚ) [.make 0 .ten [1, 2], .make 1 .ten [3, 4], .copy 2 0, .add 2 1, .scale 0 5, .moveAssign 1 2,
      .destroy 2] = .ok t ∧ val t 0 = some [some 5, some 10] ∧ val t 1 = some [some 4, some 6] ∧ val t 2 = none := by
  obtain ⟨t, h1, h2, _⟩ := C165_program (K := ℚ) [.make 0 .ten [1, 2], .make 1 .ten [3, 4], .copy 2 0, .add 2 1, .scale 0 5,
    .moveAssign 1 2, .destroy 2] (by simp [ScopedAll, Scoped, spec])
  refine ⟨t, h1, ?_, ?_, ?_⟩ <;> rw [h2] <;> simp [spec] <;> norm_num

/-- A caller's array, a tensor that looks at its second half, and one of its own: the hypotheses of the disagreements. -/
def mixed : List (Op ℚ) := [.caller [1, 2, 3, 4], .make 0 .ten [5, 6], .view 1 .ten (some (0, 2)) 2]

example : ∃ t, run init mixed = .ok t ∧ val t 0 = some [some 5, some 6] ∧ val t 1 = some [some 3, some 4] ∧
    ∃ u, step t (.moveAssign 0 1) = .ok u ∧ val u 0 = some [some 3, some 4] ∧ step u (.destroy 0) = .ub := by
  refine ⟨_, rfl, ?_, ?_, _, rfl, ?_, ?_⟩ <;> rfl

/-- An allowed program with a view that is written through. -/
example : AllowedAll (init : St ℚ) [.caller [1, 2], .view 0 .ten (some (0, 0)) 2, .scale 0 3, .destroy 0] := by
  refine ⟨trivial, fun t ht => ⟨⟨?_, ?_⟩, fun t2 ht2 => ⟨?_, fun t3 ht3 => ⟨⟨?_, ?_⟩, fun _ _ => trivial⟩⟩⟩⟩ <;>
    rcases ht with ⟨⟨⟩⟩ | ⟨⟨⟩⟩
  · rfl
  · rfl
  · rcases ht2 with ⟨⟨⟩⟩ | ⟨⟨⟩⟩
    rfl
  · rcases ht2 with ⟨⟨⟩⟩ | ⟨⟨⟩⟩
    rcases ht3 with ⟨⟨⟩⟩ | ⟨⟨⟩⟩
    rfl
  · rcases ht2 with ⟨⟨⟩⟩ | ⟨⟨⟩⟩
    rcases ht3 with ⟨⟨⟩⟩ | ⟨⟨⟩⟩
    intro o ho hw
    cases ho
    cases hw

end Neml.TensorStore
