import Verif.Model.TensorStore
import Mathlib.Tactic.Ring
import Mathlib.Tactic.NormNum
import Mathlib.Data.Rat.Defs

/-!
# C165: tensors, rotations and histories own their memory or refer to somebody else's
-/

namespace Neml.TensorStore

variable {K : Type} [Field K]

/-! ## Specification -/

/-- The memory is in order: an object that owns memory owns a whole block from `new` that is alive and long enough; no two objects
own the same block; every block from `new` that is alive has an owner; blocks not yet handed out are not alive; every object finds
its cells. -/
structure Good (s : St K) : Prop where
  own : ∀ x o, s.obj x = some o → o.own = true →
    ∃ b, o.ptr = some (b, 0) ∧ s.len b = some o.cap ∧ o.n ≤ o.cap ∧ s.user b = false
  uniq : ∀ x y o o', s.obj x = some o → s.obj y = some o' → o.own = true → o'.own = true → o.ptr = o'.ptr → x = y
  leak : ∀ b l, s.len b = some l → s.user b = false → ∃ x o, s.obj x = some o ∧ o.own = true ∧ o.ptr = some (b, 0)
  fresh : ∀ b, s.next ≤ b → s.len b = none
  found : ∀ x o, s.obj x = some o → valid s o.ptr o.n = true

/-- No object but `x` looks into the block of `x`. -/
def Alone (s : St K) (x : ℕ) : Prop := ∀ o, s.obj x = some o → o.own = true → ∀ y o', y ≠ x → s.obj y = some o' →
  o'.n = 0 ∨ ∀ b, o.ptr = some (b, 0) → ∀ i, o'.ptr ≠ some (b, i)

/-- What a program has to see to: objects are there when used and new names are new, memory referred to is there, memory that others
look into is not given back, and no tensor is assigned a temporary tensor that owns no memory. That the compiler asks for the same
class on both sides and has `grow`, `setData`, `makeStore` for histories only is not needed. -/
def Allowed (s : St K) : Op K → Prop
  | .caller _ => True
  | .make x _ _ => s.obj x = none
  | .view x _ p n => s.obj x = none ∧ valid s p n = true
  | .copy x y => s.obj x = none ∧ (s.obj y).isSome
  | .move x y => s.obj x = none ∧ (s.obj y).isSome
  | .deepcopy x y => s.obj x = none ∧ (s.obj y).isSome
  | .assign x y => ∃ a b, s.obj x = some a ∧ s.obj y = some b
  | .moveAssign x y => ∃ a b, s.obj x = some a ∧ s.obj y = some b ∧ (a.cls = .ten → b.own = true)
  | .destroy x => (s.obj x).isSome ∧ Alone s x
  | .scale x _ => (s.obj x).isSome
  | .add x y => ∃ a b, s.obj x = some a ∧ s.obj y = some b
  | .copyData x p => ∃ a, s.obj x = some a ∧ valid s p a.n = true
  | .grow x k => ∃ a, s.obj x = some a ∧ Alone s x ∧ (a.own = false → valid s a.ptr (a.n + k) = true)
  | .reserve x m => ∃ a, s.obj x = some a ∧ Alone s x ∧ a.own = true ∧ a.n ≤ m
  | .setData x p => ∃ a, s.obj x = some a ∧ Alone s x ∧ valid s p a.n = true ∧
      (a.own = true → a.n = 0 ∨ ∀ b i, a.ptr = some (b, 0) → p ≠ some (b, i))
  | .makeStore x => (s.obj x).isSome

/-- The value of an object. -/
def val (s : St K) (x : ℕ) : Option (List (Option K)) := (s.obj x).map fun o => (List.range o.n).map (get s o.ptr)

/-- The state after an operation that was not undefined. -/
inductive After (s : St K) (op : Op K) : St K → Prop
  | ok {t} : step s op = .ok t → After s op t
  | exc {t} : step s op = .exc t → After s op t

/-! ## Validity of pointers -/

theorem valid_zero (s : St K) (p : Option (ℕ × ℕ)) : valid s p 0 = true := by simp [valid]

theorem valid_iff (s : St K) (p : Option (ℕ × ℕ)) (n : ℕ) : valid s p n = true ↔
    n = 0 ∨ ∃ b o l, p = some (b, o) ∧ s.len b = some l ∧ o + n ≤ l := by
  unfold valid
  rcases p with _ | ⟨b, o⟩
  · simp
  · cases h : s.len b <;> simp [h]

theorem valid_mono {s t : St K} {p : Option (ℕ × ℕ)} {n : ℕ} (h : valid s p n = true)
    (ht : n ≠ 0 → ∀ b o l, p = some (b, o) → s.len b = some l → t.len b = some l) : valid t p n = true := by
  rw [valid_iff] at h ⊢
  rcases h with h | ⟨b, o, l, h1, h2, h3⟩
  · exact .inl h
  · by_cases h0 : n = 0
    · exact .inl h0
    · exact .inr ⟨b, o, l, h1, ht h0 b o l h1 h2, h3⟩

theorem valid_of_len {s t : St K} (h : s.len = t.len) (p : Option (ℕ × ℕ)) (n : ℕ) : valid s p n = valid t p n := by
  unfold valid
  rw [h]

theorem valid_alloc {s : St K} (hf : ∀ b, s.next ≤ b → s.len b = none) (u : Bool) (l : ℕ) (f : ℕ → Option K)
    {p : Option (ℕ × ℕ)} {n : ℕ} (h : valid s p n = true) : valid (alloc s u l f) p n = true := by
  refine valid_mono h fun _ b o l' _ hl => ?_
  have : b ≠ s.next := by
    rintro rfl
    rw [hf _ le_rfl] at hl
    cases hl
  simpa [alloc, this] using hl

theorem store_fields (s : St K) (p : Option (ℕ × ℕ)) (n : ℕ) (f : ℕ → Option K) : (store s p n f).len = s.len ∧
    (store s p n f).user = s.user ∧ (store s p n f).next = s.next ∧ (store s p n f).obj = s.obj := by
  rcases p with _ | ⟨b, o⟩ <;> exact ⟨rfl, rfl, rfl, rfl⟩

theorem addLoop_fields (s : St K) (p q : Option (ℕ × ℕ)) (n : ℕ) : (addLoop s p q n).len = s.len ∧
    (addLoop s p q n).user = s.user ∧ (addLoop s p q n).next = s.next ∧ (addLoop s p q n).obj = s.obj := by
  induction n with
  | zero => exact ⟨rfl, rfl, rfl, rfl⟩
  | succ n ih => rcases p with _ | ⟨b, o⟩ <;> exact ih

/-! ## The memory stays in order -/

theorem good_of_fields {s t : St K} (h : Good s) (h1 : t.len = s.len) (h2 : t.user = s.user) (h3 : t.next = s.next)
    (h4 : t.obj = s.obj) : Good t := by
  refine ⟨?_, ?_, ?_, ?_, ?_⟩
  · rw [h1, h2, h4]; exact h.own
  · rw [h4]; exact h.uniq
  · rw [h1, h2, h4]; exact h.leak
  · rw [h1, h3]; exact h.fresh
  · intro x o hx
    rw [h4] at hx
    rw [valid_of_len h1]
    exact h.found x o hx

theorem good_user {s : St K} (h : Good s) (l : ℕ) (f : ℕ → Option K) : Good (alloc s true l f) := by
  refine ⟨?_, h.uniq, ?_, ?_, ?_⟩
  · intro x o hx ho
    obtain ⟨b, h1, h2, h3, h4⟩ := h.own x o hx ho
    have hb : b ≠ s.next := by
      rintro rfl
      rw [h.fresh _ le_rfl] at h2
      cases h2
    exact ⟨b, h1, by simpa [alloc, hb] using h2, h3, by simpa [alloc, hb] using h4⟩
  · intro b l' h1 h2
    have hb : b ≠ s.next := by
      rintro rfl
      simp [alloc] at h2
    exact h.leak b l' (by simpa [alloc, hb] using h1) (by simpa [alloc, hb] using h2)
  · intro b hb
    replace hb : s.next + 1 ≤ b := hb
    have : b ≠ s.next := by omega
    simpa [alloc, this] using h.fresh b (by omega)
  · exact fun x o hx => valid_alloc h.fresh _ _ _ (h.found x o hx)

theorem good_new {s : St K} (h : Good s) (x : ℕ) (hx : ∀ o, s.obj x = some o → o.own = false) (c : Cls) (n l : ℕ) (hn : n ≤ l)
    (f : ℕ → Option K) : Good (bind (alloc s false l f) x (some ⟨c, n, l, true, some (s.next, 0)⟩)) := by
  have hnx : ∀ y o b, s.obj y = some o → o.own = true → o.ptr = some (b, 0) → b ≠ s.next := by
    rintro y o b hy ho hb rfl
    obtain ⟨b', h1, h2, _⟩ := h.own y o hy ho
    rw [hb] at h1
    cases h1
    rw [h.fresh _ le_rfl] at h2
    cases h2
  refine ⟨?_, ?_, ?_, ?_, ?_⟩
  · intro y o hy ho
    by_cases e : y = x
    · subst e
      simp only [bind, Function.update_self, Option.some.injEq] at hy
      subst hy
      exact ⟨s.next, rfl, by simp [bind, alloc], hn, by simp [bind, alloc]⟩
    · simp only [bind, Function.update_of_ne e] at hy
      obtain ⟨b, h1, h2, h3, h4⟩ := h.own y o hy ho
      have hb := hnx y o b hy ho h1
      exact ⟨b, h1, by simpa [bind, alloc, hb] using h2, h3, by simpa [bind, alloc, hb] using h4⟩
  · intro y z o o' hy hz ho ho' e
    by_cases e1 : y = x <;> by_cases e2 : z = x
    · rw [e1, e2]
    · subst e1
      simp only [bind, Function.update_self, Option.some.injEq, Function.update_of_ne e2] at hy hz
      subst hy
      exact absurd rfl (hnx z o' _ hz ho' e.symm)
    · subst e2
      simp only [bind, Function.update_self, Option.some.injEq, Function.update_of_ne e1] at hy hz
      subst hz
      exact absurd rfl (hnx y o _ hy ho e)
    · simp only [bind, Function.update_of_ne e1, Function.update_of_ne e2] at hy hz
      exact h.uniq y z o o' hy hz ho ho' e
  · intro b l' h1 h2
    by_cases hb : b = s.next
    · subst hb
      exact ⟨x, ⟨c, n, l, true, some (s.next, 0)⟩, by simp [bind], rfl, rfl⟩
    · obtain ⟨y, o, hy, ho, hp⟩ := h.leak b l' (by simpa [bind, alloc, hb] using h1) (by simpa [bind, alloc, hb] using h2)
      have : y ≠ x := by
        rintro rfl
        rw [hx o hy] at ho
        cases ho
      exact ⟨y, o, by simpa [bind, alloc, this] using hy, ho, hp⟩
  · intro b hb
    replace hb : s.next + 1 ≤ b := hb
    have : b ≠ s.next := by omega
    simpa [bind, alloc, this] using h.fresh b (by omega)
  · intro y o hy
    by_cases e : y = x
    · subst e
      simp only [bind, Function.update_self, Option.some.injEq] at hy
      subst hy
      rw [valid_iff]
      exact .inr ⟨s.next, 0, l, rfl, by simp [bind, alloc], by simpa using hn⟩
    · simp only [bind, Function.update_of_ne e] at hy
      exact valid_alloc h.fresh false l f (h.found y o hy)

theorem good_bind_view {s : St K} (h : Good s) (x : ℕ) (hx : ∀ o, s.obj x = some o → o.own = false) (o' : Option Obj)
    (ho' : ∀ o, o' = some o → o.own = false ∧ valid s o.ptr o.n = true) : Good (bind s x o') := by
  have hne : ∀ y o, (bind s x o').obj y = some o → o.own = true → y ≠ x ∧ s.obj y = some o := by
    intro y o hy ho
    by_cases e : y = x
    · subst e
      simp only [bind, Function.update_self] at hy
      rw [(ho' o hy).1] at ho
      cases ho
    · exact ⟨e, by simpa [bind, e] using hy⟩
  refine ⟨?_, ?_, ?_, h.fresh, ?_⟩
  · intro y o hy ho
    exact h.own y o (hne y o hy ho).2 ho
  · intro y z o o2 hy hz ho ho2 e
    exact h.uniq y z o o2 (hne y o hy ho).2 (hne z o2 hz ho2).2 ho ho2 e
  · intro b l h1 h2
    obtain ⟨y, o, hy, ho, hp⟩ := h.leak b l h1 h2
    have : y ≠ x := by
      rintro rfl
      rw [hx o hy] at ho
      cases ho
    exact ⟨y, o, by simpa [bind, this] using hy, ho, hp⟩
  · intro y o hy
    by_cases e : y = x
    · subst e
      simp only [bind, Function.update_self] at hy
      exact (ho' o hy).2
    · exact h.found y o (by simpa [bind, e] using hy)

/-- Deleting the memory of an object together with the object. -/
theorem good_del {s : St K} (h : Good s) (x : ℕ) (o : Obj) (hx : s.obj x = some o) (ho : o.own = true) (ha : Alone s x) :
    ∃ b, o.ptr = some (b, 0) ∧ s.len b = some o.cap ∧ s.user b = false ∧
      del s o.ptr = some { s with len := Function.update s.len b none } ∧
      Good (bind ({ s with len := Function.update s.len b none } : St K) x none) := by
  obtain ⟨b, h1, h2, h3, h4⟩ := h.own x o hx ho
  refine ⟨b, h1, h2, h4, by simp [h1, del, h2, h4], ?_⟩
  have hne : ∀ y o2, (bind ({ s with len := Function.update s.len b none } : St K) x none).obj y = some o2 →
      y ≠ x ∧ s.obj y = some o2 := by
    intro y o2 hy
    by_cases e : y = x
    · subst e
      simp [bind] at hy
    · exact ⟨e, by simpa [bind, e] using hy⟩
  refine ⟨?_, ?_, ?_, ?_, ?_⟩
  · intro y o2 hy ho2
    have ⟨e, hy'⟩ := hne y o2 hy
    clear hy
    obtain ⟨b2, g1, g2, g3, g4⟩ := h.own y o2 hy' ho2
    have hb : b2 ≠ b := by
      rintro rfl
      exact e (h.uniq y x o2 o hy' hx ho2 ho (g1.trans h1.symm))
    exact ⟨b2, g1, by simpa [bind, hb] using g2, g3, g4⟩
  · intro y z o2 o3 hy hz g2 g3 e
    exact h.uniq y z o2 o3 (hne y o2 hy).2 (hne z o3 hz).2 g2 g3 e
  · intro b2 l g1 g2
    have hb : b2 ≠ b := by
      rintro rfl
      simp [bind] at g1
    obtain ⟨y, o2, hy, ho2, hp⟩ := h.leak b2 l (by simpa [bind, hb] using g1) g2
    have : y ≠ x := by
      rintro rfl
      rw [hx] at hy
      cases hy
      rw [h1] at hp
      cases hp
      exact hb rfl
    exact ⟨y, o2, by simpa [bind, this] using hy, ho2, hp⟩
  · intro b2 hb2
    by_cases e : b2 = b
    · simp [bind, e]
    · simpa [bind, e] using h.fresh b2 hb2
  · intro y o2 hy
    have ⟨e, hy'⟩ := hne y o2 hy
    clear hy
    refine valid_mono (h.found y o2 hy') fun h0 b2 i l g1 g2 => ?_
    have hb : b2 ≠ b := by
      rintro rfl
      rcases ha o hx ho y o2 e hy' with g | g
      · exact h0 g
      · exact g b2 h1 i g1
    simpa [bind, hb] using g2

theorem bind_bind (s : St K) (x : ℕ) (o o' : Option Obj) : bind (bind s x o) x o' = bind s x o' := by
  simp [bind]

/-! ## The steps -/

/-- An object of its own with the cells of `o`. -/
def owned (s : St K) (x : ℕ) (o : Obj) : St K :=
  bind (alloc s false o.n (get s o.ptr)) x (some ⟨o.cls, o.n, o.n, true, some (s.next, 0)⟩)

theorem own_eq {s : St K} {o : Obj} (x : ℕ) (hv : valid s o.ptr o.n = true) : own s x o = .ok (owned s x o) := by
  rw [own, if_pos hv]; rfl

theorem step_copy {s : St K} {x y : ℕ} {o : Obj} (hy : s.obj y = some o) (hv : valid s o.ptr o.n = true)
    (hc : (o.own || o.cls == .ten) = true) : step s (.copy x y) = .ok (owned s x o) := by
  simp only [step, hy, hc, if_true, own_eq x hv]

theorem step_move {s : St K} {x y : ℕ} {o : Obj} (hy : s.obj y = some o) (hv : valid s o.ptr o.n = true)
    (hc : o.own = true) : step s (.move x y) = .ok (owned s x o) := by
  simp only [step, hy, hc, if_true, own_eq x hv]

theorem step_deepcopy {s : St K} {x y : ℕ} {o : Obj} (hy : s.obj y = some o) (hv : valid s o.ptr o.n = true) :
    step s (.deepcopy x y) = .ok (owned s x o) := by
  simp only [step, hy, own_eq x hv]

theorem step_assign {s : St K} {x y : ℕ} {a b : Obj} (hx : s.obj x = some a) (hy : s.obj y = some b) (hn : a.n = b.n)
    (e : x ≠ y) (h1 : valid s a.ptr a.n = true) (h2 : valid s b.ptr b.n = true) :
    step s (.assign x y) = .ok (store s a.ptr a.n (get s b.ptr)) := by
  simp only [step, hx, hy]
  rw [if_neg (not_not.2 hn), if_neg e, copyOver, h1, h2]
  rfl

theorem step_moveAssign {s : St K} {x y : ℕ} {a b : Obj} (hx : s.obj x = some a) (hy : s.obj y = some b) (hn : a.n = b.n)
    (hc : a.cls = .ten → b.own = true) (h1 : valid s a.ptr a.n = true) (h2 : valid s b.ptr b.n = true) :
    step s (.moveAssign x y) = .ok (store s a.ptr a.n (get s b.ptr)) := by
  have hc' : ¬ (a.cls = .ten ∧ b.own = false) := fun e => by rw [hc e.1] at e; exact absurd e.2 (by simp)
  simp only [step, hx, hy]
  rw [if_neg (not_not.2 hn), if_neg hc', copyOver, h1, h2]
  rfl

theorem step_add {s : St K} {x y : ℕ} {a b : Obj} (hx : s.obj x = some a) (hy : s.obj y = some b) (hn : a.n = b.n)
    (h1 : valid s a.ptr a.n = true) (h2 : valid s b.ptr b.n = true) :
    step s (.add x y) = .ok (addLoop s a.ptr b.ptr a.n) := by
  simp only [step, hx, hy]
  rw [if_neg (not_not.2 hn), h1, h2]
  rfl

theorem step_grow_fits {s : St K} {x k : ℕ} {a : Obj} (hx : s.obj x = some a) (hk : a.own = true → a.n + k ≤ a.cap) :
    step s (.grow x k) = .ok (bind s x (some { a with n := a.n + k })) := by
  have : ¬ (a.own && decide (a.cap < a.n + k)) = true := by
    simp only [Bool.and_eq_true, decide_eq_true_eq, not_and, not_lt]
    exact hk
  simp only [step, hx]
  rw [if_neg this]

/-- The state after an array was replaced. -/
def regrown (s : St K) (x b : ℕ) (o : Obj) (k m : ℕ) : St K :=
  let f := fun i => if i < o.n then get s o.ptr i else none
  bind { alloc s false m f with len := Function.update (alloc s false m f).len b none } x
    (some { o with n := k, cap := m, ptr := some (s.next, 0) })

theorem regrow_eq {s : St K} (h : Good s) {x : ℕ} {a : Obj} (hx : s.obj x = some a) (ho : a.own = true) (ha : Alone s x)
    (k m : ℕ) (hk : k ≤ m) (hm : a.n ≤ m) : ∃ b, a.ptr = some (b, 0) ∧ b ≠ s.next ∧ regrow s x a k m = .ok (regrown s x b a k m) ∧
    Good (regrown s x b a k m) := by
  obtain ⟨b, h1, h2, h3, hd, hg⟩ := good_del h x a hx ho ha
  have hb : b ≠ s.next := by
    rintro rfl
    rw [h.fresh _ le_rfl] at h2
    cases h2
  set f : ℕ → Option K := fun i => if i < a.n then get s a.ptr i else none with hf
  have hd2 : del (alloc s false m f) a.ptr =
      some { alloc s false m f with len := Function.update (alloc s false m f).len b none } := by
    simp [h1, del, alloc, hb, h2, h3]
  refine ⟨b, h1, hb, ?_, ?_⟩
  · rw [regrow, if_pos (by simp [h.found x a hx, hm]), ← hf, hd2]
    rfl
  · have := good_new hg x (fun o e => by simp [bind] at e) a.cls k m hk f
    convert this using 1
    simp only [regrown, ← hf, bind, alloc, ho]
    congr 1
    · exact (Function.update_comm hb _ _ _).symm
    · simp

theorem step_grow {s : St K} {x k : ℕ} {a : Obj} (hx : s.obj x = some a) (ho : a.own = true) (hk : a.cap < a.n + k) :
    step s (.grow x k) = regrow s x a (a.n + k) (a.n + k) := by
  have : (a.own && decide (a.cap < a.n + k)) = true := by simp [ho, hk]
  simp only [step, hx]
  rw [if_pos this]

theorem step_setData {s t : St K} {x : ℕ} {p : Option (ℕ × ℕ)} {a : Obj} (hx : s.obj x = some a) (ho : a.own = true)
    (hd : del s a.ptr = some t) :
    step s (.setData x p) = .ok (bind t x (some { a with own := false, cap := 0, ptr := p })) := by
  simp only [step, hx]
  rw [if_pos ho, hd]

/-- **C165.** Memory in order stays in order: no allowed operation is undefined, leaves memory without an owner or memory with two
owners. -/
theorem C165_step {s : St K} (h : Good s) (op : Op K) (ha : Allowed s op) : ∃ t, After s op t ∧ Good t := by
  cases op with
  | caller v => exact ⟨_, .ok rfl, good_user h _ _⟩
  | make x c v => exact ⟨_, .ok rfl, good_new h x (fun o e => by rw [show s.obj x = none from ha] at e; cases e) _ _ _ le_rfl _⟩
  | view x c p n =>
    refine ⟨_, .ok rfl, good_bind_view h x (fun o e => by rw [ha.1] at e; cases e) _ fun o e => ?_⟩
    cases e
    exact ⟨rfl, ha.2⟩
  | copy x y =>
    obtain ⟨hx, hy⟩ := ha
    obtain ⟨o, ho⟩ := Option.isSome_iff_exists.1 hy
    have hx' : ∀ o, s.obj x = some o → o.own = false := fun o e => by rw [hx] at e; cases e
    have hv := h.found y o ho
    by_cases hc : (o.own || o.cls == .ten) = true
    · exact ⟨_, .ok (step_copy ho hv hc), good_new h x hx' _ _ _ le_rfl _⟩
    · refine ⟨_, .ok (by simp only [step, ho, hc]; rfl), good_bind_view h x hx' _ fun o' e => ?_⟩
      cases e
      simp only [Bool.or_eq_true, not_or, Bool.not_eq_true] at hc
      exact ⟨hc.1, hv⟩
  | move x y =>
    obtain ⟨hx, hy⟩ := ha
    obtain ⟨o, ho⟩ := Option.isSome_iff_exists.1 hy
    have hx' : ∀ o, s.obj x = some o → o.own = false := fun o e => by rw [hx] at e; cases e
    have hv := h.found y o ho
    by_cases hc : o.own = true
    · exact ⟨_, .ok (step_move ho hv hc), good_new h x hx' _ _ _ le_rfl _⟩
    · refine ⟨_, .ok (by simp only [step, ho, hc]; rfl), good_bind_view h x hx' _ fun o' e => ?_⟩
      cases e
      exact ⟨by simpa using hc, hv⟩
  | deepcopy x y =>
    obtain ⟨hx, hy⟩ := ha
    obtain ⟨o, ho⟩ := Option.isSome_iff_exists.1 hy
    have hx' : ∀ o, s.obj x = some o → o.own = false := fun o e => by rw [hx] at e; cases e
    have hv := h.found y o ho
    exact ⟨_, .ok (step_deepcopy ho hv), good_new h x hx' _ _ _ le_rfl _⟩
  | assign x y =>
    obtain ⟨a, b, hx, hy⟩ := ha
    by_cases hn : a.n = b.n
    · by_cases e : x = y
      · exact ⟨s, .ok (by simp [step, hx, hy, hn, e]), h⟩
      · obtain ⟨f1, f2, f3, f4⟩ := store_fields s a.ptr a.n (get s b.ptr)
        exact ⟨_, .ok (step_assign hx hy hn e (h.found x a hx) (h.found y b hy)), good_of_fields h f1 f2 f3 f4⟩
    · exact ⟨s, .exc (by simp [step, hx, hy, hn]), h⟩
  | moveAssign x y =>
    obtain ⟨a, b, hx, hy, hc⟩ := ha
    by_cases hn : a.n = b.n
    · obtain ⟨f1, f2, f3, f4⟩ := store_fields s a.ptr a.n (get s b.ptr)
      exact ⟨_, .ok (step_moveAssign hx hy hn hc (h.found x a hx) (h.found y b hy)), good_of_fields h f1 f2 f3 f4⟩
    · exact ⟨s, .exc (by simp [step, hx, hy, hn]), h⟩
  | destroy x =>
    obtain ⟨hx, hal⟩ := ha
    obtain ⟨o, ho⟩ := Option.isSome_iff_exists.1 hx
    by_cases hc : o.own = true
    · obtain ⟨b, _, _, _, hd, hg⟩ := good_del h x o ho hc hal
      exact ⟨_, .ok (by simp only [step, ho, hc, hd, if_true]), hg⟩
    · refine ⟨_, .ok (by simp only [step, ho, hc]; rfl), good_bind_view h x (fun o' e => ?_) _ fun o' e => by cases e⟩
      rw [ho] at e
      cases e
      simpa using hc
  | scale x c =>
    obtain ⟨o, ho⟩ := Option.isSome_iff_exists.1 ha
    obtain ⟨f1, f2, f3, f4⟩ := store_fields s o.ptr o.n fun i => (get s o.ptr i).map (· * c)
    exact ⟨_, .ok (by simp only [step, ho, h.found x o ho, if_true]), good_of_fields h f1 f2 f3 f4⟩
  | add x y =>
    obtain ⟨a, b, hx, hy⟩ := ha
    by_cases hn : a.n = b.n
    · obtain ⟨f1, f2, f3, f4⟩ := addLoop_fields s a.ptr b.ptr a.n
      exact ⟨_, .ok (step_add hx hy hn (h.found x a hx) (h.found y b hy)), good_of_fields h f1 f2 f3 f4⟩
    · exact ⟨s, .exc (by simp [step, hx, hy, hn]), h⟩
  | copyData x p =>
    obtain ⟨a, hx, hp⟩ := ha
    obtain ⟨f1, f2, f3, f4⟩ := store_fields s a.ptr a.n (get s p)
    exact ⟨_, .ok (by simp only [step, hx, h.found x a hx, hp]; rfl), good_of_fields h f1 f2 f3 f4⟩
  | grow x k =>
    obtain ⟨a, hx, hal, hv⟩ := ha
    by_cases hc : a.own = true
    · by_cases hk : a.cap < a.n + k
      · obtain ⟨b, _, _, he, hg⟩ := regrow_eq h hx hc hal (a.n + k) (a.n + k) le_rfl (by omega)
        exact ⟨_, .ok ((step_grow hx hc hk).trans he), hg⟩
      · refine ⟨_, .ok (step_grow_fits hx fun _ => not_lt.1 hk), ?_⟩
        obtain ⟨b, h1, h2, h3, h4⟩ := h.own x a hx hc
        have hget : ∀ y o, (bind s x (some { a with n := a.n + k })).obj y = some o →
            (y = x ∧ o = { a with n := a.n + k }) ∨ (y ≠ x ∧ s.obj y = some o) := by
          intro y o hy
          by_cases e : y = x
          · subst e
            simp only [bind, Function.update_self, Option.some.injEq] at hy
            exact .inl ⟨rfl, hy.symm⟩
          · exact .inr ⟨e, by simpa [bind, e] using hy⟩
        refine ⟨?_, ?_, ?_, h.fresh, ?_⟩
        · intro y o hy ho
          rcases hget y o hy with ⟨rfl, rfl⟩ | ⟨_, hy⟩
          · exact ⟨b, h1, h2, by simpa using hk, h4⟩
          · exact h.own y o hy ho
        · intro y z o o' hy hz ho ho' e
          rcases hget y o hy with ⟨rfl, rfl⟩ | ⟨_, hy'⟩ <;> rcases hget z o' hz with ⟨rfl, rfl⟩ | ⟨_, hz'⟩
          · rfl
          · exact h.uniq _ _ _ _ hx hz' hc ho' e
          · exact h.uniq _ _ _ _ hy' hx ho hc e
          · exact h.uniq _ _ _ _ hy' hz' ho ho' e
        · intro b' l g1 g2
          obtain ⟨y, o, hy, ho, hp⟩ := h.leak b' l g1 g2
          by_cases e : y = x
          · subst e
            rw [hx] at hy
            cases hy
            exact ⟨y, { a with n := a.n + k }, by simp [bind], hc, hp⟩
          · exact ⟨y, o, by simpa [bind, e] using hy, ho, hp⟩
        · intro y o hy
          rcases hget y o hy with ⟨rfl, rfl⟩ | ⟨_, hy⟩
          · rw [valid_iff]
            exact .inr ⟨b, 0, a.cap, h1, h2, by simpa using hk⟩
          · exact h.found y o hy
    · refine ⟨_, .ok (by simp only [step, hx, hc]; rfl), good_bind_view h x (fun o e => ?_) _ fun o e => ?_⟩
      · rw [hx] at e
        cases e
        simpa using hc
      · cases e
        exact ⟨by simpa using hc, hv (by simpa using hc)⟩
  | reserve x m =>
    obtain ⟨a, hx, hal, ho, hm⟩ := ha
    obtain ⟨b, _, _, he, hg⟩ := regrow_eq h hx ho hal a.n m hm hm
    exact ⟨_, .ok (by simp only [step, hx]; exact he), hg⟩
  | setData x p =>
    obtain ⟨a, hx, hal, hv, hp⟩ := ha
    by_cases hc : a.own = true
    · obtain ⟨b, h1, h2, h3, hd, hg⟩ := good_del h x a hx hc hal
      refine ⟨_, .ok (step_setData hx hc hd), ?_⟩
      rw [← bind_bind _ _ none]
      refine good_bind_view hg x (fun o e => by simp [bind] at e) _ fun o e => ?_
      cases e
      refine ⟨rfl, valid_mono hv fun h0 b2 i l g1 g2 => ?_⟩
      have hb : b2 ≠ b := by
        rintro rfl
        rcases hp hc with g | g
        · exact h0 g
        · exact g b2 i h1 g1
      simpa [bind, hb] using g2
    · refine ⟨_, .ok (by simp only [step, hx, hc]; rfl), good_bind_view h x (fun o e => ?_) _ fun o e => ?_⟩
      · rw [hx] at e
        cases e
        simpa using hc
      · cases e
        exact ⟨by simpa using hc, hv⟩
  | makeStore x =>
    obtain ⟨a, hx⟩ := Option.isSome_iff_exists.1 ha
    by_cases hc : a.own = true
    · exact ⟨s, .ok (by simp [step, hx, hc]), h⟩
    · refine ⟨_, .ok (by simp only [step, hx, hc]; rfl), good_new h x (fun o e => ?_) _ _ _ le_rfl _⟩
      rw [hx] at e
      cases e
      simpa using hc

/-- Every operation of a program is allowed when it comes up. -/
def AllowedAll (s : St K) : List (Op K) → Prop
  | [] => True
  | op :: ops => Allowed s op ∧ ∀ t, After s op t → AllowedAll t ops

theorem good_init : Good (init : St K) := by
  refine ⟨?_, ?_, ?_, ?_, ?_⟩
  · intro x o h; cases h
  · intro x y o o' h; cases h
  · intro b l h; cases h
  · intro b _; rfl
  · intro x o h; cases h

/-- **C165.** Programs of allowed operations are never undefined, and the memory is in order at their end. -/
theorem C165_run {s : St K} (h : Good s) (ops : List (Op K)) (ha : AllowedAll s ops) : ∃ t, run s ops = .ok t ∧ Good t := by
  induction ops generalizing s with
  | nil => exact ⟨s, rfl, h⟩
  | cons op ops ih =>
    obtain ⟨t, ht, hg⟩ := C165_step h op ha.1
    obtain ⟨u, hu, hg'⟩ := ih hg (ha.2 t ht)
    refine ⟨u, ?_, hg'⟩
    cases ht with
    | ok e => simp only [run, e, hu]
    | exc e => simp only [run, e, hu]

/-- **C165.** When all objects are gone, all memory from `new` has been given back. -/
theorem C165_end {s : St K} (h : Good s) (ho : ∀ x, s.obj x = none) (b l : ℕ) (hb : s.len b = some l) : s.user b = true := by
  by_contra hu
  obtain ⟨x, o, hx, _⟩ := h.leak b l hb (by simpa using hu)
  rw [ho x] at hx
  cases hx

/-! ## Values -/

theorem val_eq {s : St K} {x : ℕ} {o : Obj} (h : s.obj x = some o) : val s x = some ((List.range o.n).map (get s o.ptr)) := by
  simp [val, h]

theorem val_congr {s t : St K} {x : ℕ} (ho : t.obj x = s.obj x)
    (hg : ∀ o, s.obj x = some o → ∀ i < o.n, get t o.ptr i = get s o.ptr i) : val t x = val s x := by
  unfold val
  rw [ho]
  cases h : s.obj x with
  | none => rfl
  | some o =>
    simp only [Option.map_some, Option.some.injEq]
    exact List.map_congr_left fun i hi => hg o h i (List.mem_range.1 hi)

theorem get_store {s : St K} {b o n : ℕ} {f : ℕ → Option K} {i : ℕ} (hi : i < n) :
    get (store s (some (b, o)) n f) (some (b, o)) i = f i := by
  simp [get, store, hi]

theorem get_store_ne {s : St K} {p q : Option (ℕ × ℕ)} {n : ℕ} {f : ℕ → Option K} {i : ℕ}
    (h : ∀ b o c o', p = some (b, o) → q = some (c, o') → c = b → ∀ j < n, o' + i ≠ o + j) :
    get (store s p n f) q i = get s q i := by
  rcases p with _ | ⟨b, o⟩
  · rfl
  rcases q with _ | ⟨c, o'⟩
  · rfl
  simp only [get, store]
  rw [if_neg]
  rintro ⟨h1, h2, h3⟩
  exact h b o c o' rfl rfl h1 (o' + i - o) (by omega) (by omega)

theorem valid_some {s : St K} {p : Option (ℕ × ℕ)} {n : ℕ} (h : valid s p n = true) (hn : n ≠ 0) : ∃ b o l, p = some (b, o) ∧
    s.len b = some l ∧ o + n ≤ l := ((valid_iff s p n).1 h).resolve_left hn

/-- The value of an object after writing to its cells. -/
theorem val_store_self {s : St K} {x : ℕ} {a : Obj} (hx : s.obj x = some a) (hv : valid s a.ptr a.n = true) (f : ℕ → Option K) :
    val (store s a.ptr a.n f) x = some ((List.range a.n).map f) := by
  rw [val_eq ((congrFun (store_fields s a.ptr a.n f).2.2.2 x).trans hx)]
  congr 1
  refine List.map_congr_left fun i hi => ?_
  have hi := List.mem_range.1 hi
  obtain ⟨b, o, l, hp, _⟩ := valid_some hv (by omega)
  rw [hp, get_store hi]

/-- No cell of `z` is a cell of `x`. -/
def Disjoint (s : St K) (x z : ℕ) : Prop := ∀ a c, s.obj x = some a → s.obj z = some c →
  ∀ b o o', a.ptr = some (b, o) → c.ptr = some (b, o') → ∀ i < a.n, ∀ j < c.n, o + i ≠ o' + j

theorem val_store_ne {s : St K} {x z : ℕ} {a : Obj} (hx : s.obj x = some a) (hd : Disjoint s x z) (f : ℕ → Option K) :
    val (store s a.ptr a.n f) z = val s z := by
  refine val_congr (congrFun (store_fields s a.ptr a.n f).2.2.2 z) fun o ho i hi => get_store_ne ?_
  intro b o1 c o2 h1 h2 e j hj he
  exact hd a o hx ho b o1 o2 h1 (e ▸ h2) j hj i hi he.symm

theorem obj_owned_ne {s : St K} {x z : ℕ} {o : Obj} (e : z ≠ x) : (owned s x o).obj z = s.obj z := by
  simp [owned, bind, alloc, e]

theorem get_owned {s : St K} {x : ℕ} {o : Obj} (b i j : ℕ) (e : b ≠ s.next) :
    get (owned s x o) (some (b, i)) j = get s (some (b, i)) j := by
  simp [owned, bind, alloc, get, e]

/-- The outcome of copying: the copy has the value of the original and cells of its own, everything else is as before. -/
theorem owned_spec {s : St K} (h : Good s) {x y : ℕ} {o : Obj} (hy : s.obj y = some o) :
    val (owned s x o) x = val s y ∧ Alone (owned s x o) x ∧ (∀ z, z ≠ x → val (owned s x o) z = val s z) ∧
    ∀ z, z ≠ x → Disjoint (owned s x o) x z := by
  have hne : ∀ z c b i, s.obj z = some c → c.ptr = some (b, i) → c.n ≠ 0 → b ≠ s.next := by
    rintro z c b i hz hp hn rfl
    obtain ⟨b, o', l, h1, h2, _⟩ := valid_some (h.found z c hz) hn
    rw [hp] at h1
    cases h1
    rw [h.fresh _ le_rfl] at h2
    cases h2
  have hox : (owned s x o).obj x = some ⟨o.cls, o.n, o.n, true, some (s.next, 0)⟩ := by simp [owned, bind]
  refine ⟨?_, ?_, ?_, ?_⟩
  · rw [val_eq hox, val_eq hy]
    congr 1
    refine List.map_congr_left fun i _ => ?_
    simp [owned, bind, alloc, get]
  · intro a ha _ z c hz hc
    rw [hox] at ha
    cases ha
    rw [obj_owned_ne hz] at hc
    by_cases h0 : c.n = 0
    · exact .inl h0
    · refine .inr fun b hb i hp => ?_
      cases hb
      exact hne z c _ i hc hp h0 rfl
  · intro z hz
    refine val_congr (obj_owned_ne hz) fun c hc i hi => ?_
    cases hp : c.ptr with
    | none => rfl
    | some q => exact get_owned _ _ _ (hne z c q.1 q.2 hc hp (by omega))
  · intro z hz a c ha hc b o1 o2 h1 h2 i hi j hj
    rw [hox] at ha
    cases ha
    cases h1
    rw [obj_owned_ne hz] at hc
    exact absurd rfl (hne z c _ o2 hc h2 (by omega))

/-- The operation makes a copy with memory of its own: a tensor copied, an object that owns its memory copied or moved, a deep
copy. -/
inductive Copies (s : St K) (x y : ℕ) : Op K → Prop
  | tensor {o} : s.obj y = some o → o.cls = .ten → Copies s x y (.copy x y)
  | copy {o} : s.obj y = some o → o.own = true → Copies s x y (.copy x y)
  | move {o} : s.obj y = some o → o.own = true → Copies s x y (.move x y)
  | deep {o} : s.obj y = some o → Copies s x y (.deepcopy x y)

/-- **C165.** A copy has the value of the original, memory of its own that nobody else looks into, and changes nothing else. -/
theorem C165_copy {s : St K} (h : Good s) {x y : ℕ} {op : Op K} (hc : Copies s x y op) : ∃ t, step s op = .ok t ∧
    val t x = val s y ∧ Alone t x ∧ (∃ o, t.obj x = some o ∧ o.own = true) ∧ (∀ z, z ≠ x → val t z = val s z) ∧
    ∀ z, z ≠ x → Disjoint t x z := by
  have hex : ∃ o, s.obj y = some o ∧ step s op = .ok (owned s x o) := by
    cases hc with
    | tensor hy e => exact ⟨_, hy, step_copy hy (h.found _ _ hy) (by simp [e])⟩
    | copy hy e => exact ⟨_, hy, step_copy hy (h.found _ _ hy) (by simp [e])⟩
    | move hy e => exact ⟨_, hy, step_move hy (h.found _ _ hy) e⟩
    | deep hy => exact ⟨_, hy, step_deepcopy hy (h.found _ _ hy)⟩
  obtain ⟨o, hy, e⟩ := hex
  obtain ⟨h1, h2, h3, h4⟩ := owned_spec h (x := x) hy
  exact ⟨_, e, h1, h2, ⟨⟨o.cls, o.n, o.n, true, some (s.next, 0)⟩, by simp [owned, bind], rfl⟩, h3, h4⟩

/-- **C165.** Assignment between objects of the same length gives the left one the value of the right one and changes no object
without common cells, from an object or from a temporary, and no object starts to look elsewhere. Between objects of different
length it raises and changes nothing. -/
theorem C165_assign {s : St K} (h : Good s) {x y : ℕ} {a b : Obj} (hx : s.obj x = some a) (hy : s.obj y = some b) (op : Op K)
    (hop : (op = .assign x y ∧ x ≠ y) ∨ (op = .moveAssign x y ∧ (a.cls = .ten → b.own = true))) :
    (a.n = b.n → ∃ t, step s op = .ok t ∧ val t x = val s y ∧ (∀ z, Disjoint s x z → val t z = val s z) ∧ t.obj = s.obj) ∧
    (a.n ≠ b.n → step s op = .exc s) := by
  constructor
  · intro hn
    have e : step s op = .ok (store s a.ptr a.n (get s b.ptr)) := by
      rcases hop with ⟨rfl, hne⟩ | ⟨rfl, hc⟩
      · exact step_assign hx hy hn hne (h.found x a hx) (h.found y b hy)
      · exact step_moveAssign hx hy hn hc (h.found x a hx) (h.found y b hy)
    refine ⟨_, e, ?_, fun z hz => val_store_ne hx hz _, (store_fields _ _ _ _).2.2.2⟩
    rw [val_store_self hx (h.found x a hx), val_eq hy, hn]
  · intro hn
    rcases hop with ⟨rfl, _⟩ | ⟨rfl, _⟩ <;> simp [step, hx, hy, hn]

/-- **C165.** Scaling and copying data write the object and what shares its cells only. -/
theorem C165_write {s : St K} (h : Good s) {x : ℕ} {a : Obj} (hx : s.obj x = some a) (c : K) (p : Option (ℕ × ℕ))
    (hp : valid s p a.n = true) :
    (∃ t, step s (.scale x c) = .ok t ∧ val t x = (val s x).map (List.map (Option.map (· * c))) ∧
      ∀ z, Disjoint s x z → val t z = val s z) ∧
    ∃ t, step s (.copyData x p) = .ok t ∧ val t x = some ((List.range a.n).map (get s p)) ∧
      ∀ z, Disjoint s x z → val t z = val s z := by
  have hv := h.found x a hx
  constructor
  · refine ⟨_, by simp only [step, hx, hv, if_true]; rfl, ?_, fun z hz => val_store_ne hx hz _⟩
    rw [val_store_self hx hv, val_eq hx, Option.map_some, List.map_map]
    rfl
  · exact ⟨_, by simp only [step, hx, hv, hp]; rfl, val_store_self hx hv _, fun z hz => val_store_ne hx hz _⟩

/-- **C165, disagreement.** `increase_store` (history.cxx:176-183) does not ask who owns the memory: for a history on an array of
the caller it deletes that array, whatever the new size. -/
theorem C165_reserve_disagreement {s : St K} {x b o : ℕ} {a : Obj} (hx : s.obj x = some a)
    (hp : a.ptr = some (b, o)) (hb : b < s.next) (hu : s.user b = true) (m : ℕ) : step s (.reserve x m) = .ub := by
  have hd : ∀ f, del (alloc s false m f) (some (b, o)) = none := fun f => by
    have e : b ≠ s.next := by omega
    rcases o with _ | o <;> simp [del, alloc, e, hu]
  simp [step, hx, regrow, hp, hd]

example : run (init : St ℚ) [.caller [1, 2], .view 0 .hist (some (0, 0)) 2, .reserve 0 4] = .ub := rfl

end Neml.TensorStore
