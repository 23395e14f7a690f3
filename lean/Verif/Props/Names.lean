import Verif.Model.Names
import Verif.Props.HistoryLayout
import Mathlib.Data.List.Nodup

/-!
# C169: the names of internal variables keep the parts of a composed model apart
-/

namespace Neml.Names

open Neml.Hist

variable {K : Type}

/-! ## The specification -/

/-- The prefix of member `k` of a superposition. -/
def tag (k : Nat) : String := "model" ++ Nat.repr k ++ "_"

/-- Variables under a prefix. -/
def full (p : String) (vs : List (V K)) : List (V K) := vs.map fun v => { v with name := p ++ v.name }

/-- Name, type and size of variables. -/
def toVars (vs : List (V K)) : List Var := vs.map fun v => (v.name, v.ty, v.init.length)

/-- A rule or model without combined hardening, superposition or regime model inside. -/
inductive Carried : Node K → Prop
  | own (i vars) : Carried (.own i vars)
  | pass (i) {o} (h : Carried o) : Carried (.pass i o)
  | creep (i) {o} (h : Carried o) : Carried (.creep i o)
  | damage (i d0) {o} (h : Carried o) : Carried (.damage i d0 o)

/-- All the variables of such a rule or model, in the order in which it reports them. -/
def listed [Zero K] : Node K → List (V K)
  | .own _ vars => vars
  | .pass _ o => listed o
  | .creep _ o => listed o ++ [⟨"plastic_strain", .symmetric, List.replicate 6 0⟩]
  | .damage _ d0 o => ⟨"damage", .scalar, [d0]⟩ :: listed o
  | _ => []

/-- All the objects of such a rule or model. -/
def ids : Node K → List Nat
  | .own i _ => [i]
  | .pass i o => i :: ids o
  | .creep i o => i :: ids o
  | .damage i _ o => i :: ids o
  | _ => []

/-- The variables of the members `k`, `k+1`, ... of a superposition. -/
def labelled [Zero K] : Nat → List (Node K) → List (V K)
  | _, [] => []
  | k, r :: rs => full (tag k) (listed r) ++ labelled (k + 1) rs

/-- No two members have an object in common. -/
def Apart (rs : List (Node K)) : Prop := rs.Pairwise fun a b => ∀ i ∈ ids a, i ∉ ids b

/-! ## Names -/

theorem tag_toList (k : Nat) (a : String) :
    (tag k ++ a).toList = "model".toList ++ (Nat.toDigits 10 k ++ '_' :: a.toList) := by
  simp [tag, String.toList_append, Nat.toList_repr]

theorem takeWhile_digits (k : Nat) (r : List Char) :
    (Nat.toDigits 10 k ++ '_' :: r).takeWhile (· ≠ '_') = Nat.toDigits 10 k := by
  rw [List.takeWhile_append_of_pos]
  · simp
  · intro c hc
    have : c ≠ '_' := fun h => Nat.underscore_not_in_toDigits (h ▸ hc)
    simp [this]

/-- Different members never use the same name. -/
theorem tag_inj {j k : Nat} {a b : String} (h : tag j ++ a = tag k ++ b) : j = k ∧ a = b := by
  have h1 := congrArg String.toList h
  rw [tag_toList, tag_toList] at h1
  have h2 := List.append_cancel_left h1
  have h3 := congrArg (List.takeWhile (· ≠ '_')) h2
  rw [takeWhile_digits, takeWhile_digits] at h3
  have h4 : j = k := by
    have := congrArg (fun l => Nat.ofDigitChars 10 l 0) h3
    simpa [Nat.ofDigitChars_ten_toDigits] using this
  subst h4
  have h5 := List.append_cancel_left h2
  simp only [List.cons.injEq, true_and] at h5
  exact ⟨rfl, String.toList_inj.1 h5⟩

theorem names_toVars (vs : List (V K)) : names (toVars vs) = vs.map V.name := by
  simp [names, toVars]

theorem toVars_append (a b : List (V K)) : toVars (a ++ b) = toVars a ++ toVars b := by
  simp [toVars]

theorem prefix_inj {p a b : String} (h : p ++ a = p ++ b) : a = b := by
  have h1 := congrArg String.toList h
  rw [String.toList_append, String.toList_append] at h1
  exact String.toList_inj.1 (List.append_cancel_left h1)

theorem full_nodup {p : String} {vs : List (V K)} :
    ((full p vs).map V.name).Nodup ↔ (vs.map V.name).Nodup := by
  have : (full p vs).map V.name = (vs.map V.name).map (p ++ ·) := by simp [full]
  rw [this]
  exact ⟨fun h => h.of_map _, fun h => h.map (fun _ _ e => prefix_inj e)⟩

theorem mem_labelled [Zero K] {k : Nat} {rs : List (Node K)} {x : String}
    (h : x ∈ (labelled k rs).map V.name) : ∃ j, k ≤ j ∧ ∃ a, x = tag j ++ a := by
  induction rs generalizing k with
  | nil => simp [labelled] at h
  | cons r rs ih =>
    simp only [labelled, List.map_append, List.mem_append] at h
    rcases h with h | h
    · simp only [full, List.map_map, List.mem_map, Function.comp] at h
      obtain ⟨v, -, rfl⟩ := h
      exact ⟨k, le_rfl, v.name, rfl⟩
    · obtain ⟨j, hj, a, ha⟩ := ih h
      exact ⟨j, by omega, a, ha⟩

theorem labelled_nodup [Zero K] (rs : List (Node K)) (k : Nat)
    (h : ∀ r ∈ rs, ((listed r).map V.name).Nodup) : ((labelled k rs).map V.name).Nodup := by
  induction rs generalizing k with
  | nil => simp [labelled]
  | cons r rs ih =>
    simp only [labelled, List.map_append]
    rw [List.nodup_append]
    refine ⟨full_nodup.2 (h r (by simp)), ih (k + 1) (fun r hr => h r (by simp [hr])), ?_⟩
    rintro x hx y hy rfl
    obtain ⟨j, hj, a, ha⟩ := mem_labelled hy
    simp only [full, List.map_map, List.mem_map, Function.comp] at hx
    obtain ⟨v, -, hv⟩ := hx
    have := (tag_inj (hv.trans ha)).1
    omega

/-! ## Listing the variables -/

theorem addVars_ok (p : String) (xs : List (V K)) {l : Layout} {vs : List Var} (t : Tiled l vs)
    (hn : (names (vs ++ toVars (full p xs))).Nodup) :
    ∃ l', addVars p xs l = .ok l' ∧ Tiled l' (vs ++ toVars (full p xs)) := by
  induction xs generalizing l vs with
  | nil => exact ⟨l, rfl, by simpa [toVars, full] using t⟩
  | cons x xs ih =>
    have e : vs ++ toVars (full p (x :: xs)) =
        (vs ++ [(p ++ x.name, x.ty, x.init.length)]) ++ toVars (full p xs) := by
      simp [toVars, full]
    rw [e] at hn
    have hf : p ++ x.name ∉ names vs := by
      rw [names_append, names_append] at hn
      have := (List.nodup_append.1 (List.nodup_append.1 hn).1).2.2
      intro hm
      exact this _ hm _ (by simp [names]) rfl
    obtain ⟨l1, h1, t1⟩ := t.add (ty := x.ty) (n := x.init.length) hf
    obtain ⟨l2, h2, t2⟩ := ih t1 hn
    refine ⟨l2, ?_, e ▸ t2⟩
    simp only [addVars, h1, h2]

theorem addVars_error (p : String) (xs : List (V K)) {l : Layout} {vs : List Var} (t : Tiled l vs)
    (hn : ¬ (names (vs ++ toVars (full p xs))).Nodup) : addVars p xs l = .error .nameExists := by
  induction xs generalizing l vs with
  | nil => exact absurd t.nodup (by simpa [toVars, full] using hn)
  | cons x xs ih =>
    have e : vs ++ toVars (full p (x :: xs)) =
        (vs ++ [(p ++ x.name, x.ty, x.init.length)]) ++ toVars (full p xs) := by
      simp [toVars, full]
    rw [e] at hn
    simp only [addVars]
    by_cases hf : p ++ x.name ∈ names vs
    · rw [t.add_error hf]
    · obtain ⟨l1, h1, t1⟩ := t.add (ty := x.ty) (n := x.init.length) hf
      rw [h1]
      exact ih t1 hn

/-- The prefixes after a tree has listed its variables. -/
def spread (o : Node K) (pre : Prefixes) : Prefixes := fun j => if j ∈ ids o then pre o.id else pre j

theorem id_mem {o : Node K} (h : Carried o) : o.id ∈ ids o := by
  cases h <;> simp [Node.id, ids]

theorem spread_set {o : Node K} (h : Carried o) (i : Nat) (pre : Prefixes) :
    spread o (setPrefix pre o.id (pre i)) = fun j => if j ∈ i :: ids o then pre i else pre j := by
  funext j
  simp only [spread, setPrefix, if_true, List.mem_cons]
  by_cases hj : j ∈ ids o
  · simp [hj]
  · have : j ≠ o.id := fun e => hj (e ▸ id_mem h)
    by_cases hi : j = i
    · simp [hj, hi]
    · simp [hj, this, hi]

theorem full_append (p : String) (a b : List (V K)) : full p (a ++ b) = full p a ++ full p b := by
  simp [full]

theorem populate_ok [Zero K] {o : Node K} (h : Carried o) (pre : Prefixes) {l : Layout}
    {vs : List Var} (t : Tiled l vs)
    (hn : (names (vs ++ toVars (full (pre o.id) (listed o)))).Nodup) :
    ∃ l', populate o pre l = .ok (spread o pre, l') ∧
      Tiled l' (vs ++ toVars (full (pre o.id) (listed o))) := by
  induction h generalizing pre l vs with
  | own i vars =>
    obtain ⟨l', h1, t1⟩ := addVars_ok (pre i) vars t hn
    refine ⟨l', ?_, t1⟩
    simp only [populate, h1]
    congr 2
    funext j
    by_cases hj : j = i <;> simp [spread, ids, Node.id, hj]
  | @pass i o ho ih =>
    rw [show (Node.pass i o).id = i from rfl, show listed (.pass i o) = listed o from rfl] at hn ⊢
    obtain ⟨l', h1, t1⟩ := ih (setPrefix pre o.id (pre i)) t (by simpa [setPrefix] using hn)
    refine ⟨l', ?_, by simpa [setPrefix] using t1⟩
    simp only [populate, h1, spread_set ho]
    rfl
  | @creep i o ho ih =>
    have e : vs ++ toVars (full (pre i) (listed (.creep i o))) =
        (vs ++ toVars (full (pre i) (listed o))) ++ [(pre i ++ "plastic_strain", .symmetric, 6)] := by
      simp [listed, full_append, toVars_append, toVars, full]
    rw [show (Node.creep i o).id = i from rfl, e] at hn ⊢
    obtain ⟨hn1, -, hn2⟩ := List.nodup_append.1 (names_append _ _ ▸ hn)
    obtain ⟨l', h1, t1⟩ := ih (setPrefix pre o.id (pre i)) t (by simpa [setPrefix] using hn1)
    simp only [setPrefix, if_true] at t1
    have hp : spread o (setPrefix pre o.id (pre i)) i = pre i := by
      rw [spread_set ho]; simp
    obtain ⟨l2, h2, t2⟩ := t1.add (name := pre i ++ "plastic_strain") (ty := .symmetric) (n := 6)
      (fun hm => hn2 _ hm _ (by simp [names]) rfl)
    refine ⟨l2, ?_, t2⟩
    simp only [populate, h1, hp, h2]
    rw [spread_set ho]
    rfl
  | @damage i d0 o ho ih =>
    have e : vs ++ toVars (full (pre i) (listed (.damage i d0 o))) =
        (vs ++ [(pre i ++ "damage", .scalar, 1)]) ++ toVars (full (pre i) (listed o)) := by
      simp [listed, toVars, full]
    rw [show (Node.damage i d0 o).id = i from rfl, e] at hn ⊢
    have hn2 := (List.nodup_append.1 (names_append _ _ ▸ (List.nodup_append.1
      (names_append _ _ ▸ hn)).1)).2.2
    obtain ⟨l1, h1, t1⟩ := t.add (name := pre i ++ "damage") (ty := .scalar) (n := 1)
      (fun hm => hn2 _ hm _ (by simp [names]) rfl)
    obtain ⟨l', h2, t2⟩ := ih (setPrefix pre o.id (pre i)) t1 (by simpa [setPrefix] using hn)
    refine ⟨l', ?_, by simpa [setPrefix] using t2⟩
    simp only [populate, h1, h2, spread_set ho]
    rfl

theorem populateAll_ok [Zero K] (rs : List (Node K)) (k : Nat) (hc : ∀ r ∈ rs, Carried r)
    (ha : Apart rs) (pre : Prefixes) {l : Layout} {vs : List Var} (t : Tiled l vs)
    (hp : ∀ j (hj : j < rs.length), pre rs[j].id = tag (k + j))
    (hn : (names (vs ++ toVars (labelled k rs))).Nodup) :
    ∃ pre' l', populateAll rs pre l = .ok (pre', l') ∧ Tiled l' (vs ++ toVars (labelled k rs)) ∧
      (∀ j (hj : j < rs.length), ∀ i ∈ ids rs[j], pre' i = tag (k + j)) ∧
      ∀ i, (∀ r ∈ rs, i ∉ ids r) → pre' i = pre i := by
  induction rs generalizing k pre l vs with
  | nil =>
    exact ⟨pre, l, rfl, by simpa [labelled, toVars] using t, by simp, fun _ _ => rfl⟩
  | cons r rs ih =>
    have hp0 : pre r.id = tag k := hp 0 (by simp)
    have e : vs ++ toVars (labelled k (r :: rs)) =
        (vs ++ toVars (full (pre r.id) (listed r))) ++ toVars (labelled (k + 1) rs) := by
      simp [labelled, toVars_append, hp0]
    rw [e] at hn ⊢
    obtain ⟨hn1, -, -⟩ := List.nodup_append.1 (names_append _ _ ▸ hn)
    obtain ⟨l1, h1, t1⟩ := populate_ok (hc r (by simp)) pre t hn1
    obtain ⟨ha1, ha2⟩ := List.pairwise_cons.1 ha
    have hkeep : ∀ i, i ∉ ids r → spread r pre i = pre i := fun i hi => by simp [spread, hi]
    obtain ⟨pre', l', h2, t2, p2, q2⟩ := ih (k + 1) (fun r hr => hc r (by simp [hr])) ha2
      (spread r pre) t1 (fun j hj => by
        have hm : rs[j] ∈ rs := List.getElem_mem hj
        rw [hkeep _ fun hi => ha1 _ hm _ hi (id_mem (hc _ (by simp [hm])))]
        have := hp (j + 1) (by simpa using hj)
        simpa [Nat.add_assoc, Nat.add_comm 1 j] using this) hn
    refine ⟨pre', l', ?_, t2, ?_, ?_⟩
    · simp only [populateAll, h1, h2]
    · intro j hj i hi
      cases j with
      | zero =>
        rw [q2 i fun r' hr' h' => ha1 r' hr' i hi h']
        have hi' : i ∈ ids r := hi
        simp [spread, hi', hp0]
      | succ j =>
        have := p2 j (by simpa using hj) i hi
        simpa [Nat.add_assoc, Nat.add_comm 1 j] using this
    · intro i hi
      rw [q2 i fun r' hr' => hi r' (by simp [hr']), hkeep i (hi r (by simp))]

theorem numberMembers_other (rs : List (Node K)) (k : Nat) (pre : Prefixes) (i : Nat)
    (h : ∀ r ∈ rs, r.id ≠ i) : numberMembers rs k pre i = pre i := by
  induction rs generalizing k pre with
  | nil => rfl
  | cons r rs ih =>
    simp only [numberMembers]
    rw [ih _ _ fun r hr => h r (by simp [hr])]
    simp [setPrefix, Ne.symm (h r (by simp))]

theorem numberMembers_at (rs : List (Node K)) (k : Nat) (pre : Prefixes)
    (hd : rs.Pairwise fun a b => a.id ≠ b.id) (j : Nat) (hj : j < rs.length) :
    numberMembers rs k pre rs[j].id = tag (k + j) := by
  induction rs generalizing k pre j with
  | nil => simp at hj
  | cons r rs ih =>
    obtain ⟨h1, h2⟩ := List.pairwise_cons.1 hd
    simp only [numberMembers]
    cases j with
    | zero =>
      show numberMembers rs (k + 1) _ r.id = _
      rw [numberMembers_other _ _ _ _ fun r' hr' => (h1 r' hr').symm]
      simp [setPrefix, tag]
    | succ j =>
      have := ih (k + 1) (setPrefix pre r.id ("model" ++ Nat.repr k ++ "_")) h2 j (by simpa using hj)
      simpa [Nat.add_assoc, Nat.add_comm 1 j] using this

theorem roots_apart {rs : List (Node K)} (hc : ∀ r ∈ rs, Carried r) (ha : Apart rs) :
    rs.Pairwise fun a b => a.id ≠ b.id := by
  refine List.Pairwise.imp_of_mem ?_ ha
  intro a b hx hy h e
  exact h _ (id_mem (hc a hx)) (e ▸ id_mem (hc b hy))

theorem make_many [Zero K] (i : Nat) (rs : List (Node K)) (h : Heap) (hc : ∀ r ∈ rs, Carried r)
    (ha : Apart rs) (hn : ∀ r ∈ rs, ((listed r).map V.name).Nodup) :
    ∃ h', make (.many i rs) h = .ok h' ∧
      (∃ l, h'.stored i = some l ∧ Tiled l (toVars (labelled 0 rs))) ∧
      (∀ j (hj : j < rs.length), ∀ a ∈ ids rs[j], h'.pre a = tag j) ∧
      ∀ a, a ≠ i → h'.stored a = h.stored a := by
  obtain ⟨pre', l', h1, t1, p1, -⟩ := populateAll_ok rs 0 hc ha
    (numberMembers rs 0 (setPrefix h.pre i "")) (l := Layout.empty) (vs := []) tiled_empty
    (numberMembers_at rs 0 _ (roots_apart hc ha))
    (by simpa [names_toVars] using labelled_nodup rs 0 hn)
  refine ⟨⟨pre', fun a => if a = i then some l' else h.stored a⟩, ?_, ⟨l', by simp, by simpa using t1⟩,
    ?_, fun a ha => by simp [ha]⟩
  · simp only [make, Node.id, populate, h1]
    rfl
  · intro j hj a hj'
    simpa using p1 j hj a hj'

/-! ## Initial values -/

/-- The variable's cells hold its initial values. -/
def Holds (vs : List Var) (m : Nat → K) (v : V K) : Prop :=
  ∃ p, startOf vs v.name = some p ∧ ∀ k (hk : k < v.init.length), m (p + k) = v.init[k]

/-- The cell belongs to none of the variables. -/
def Outside (vs : List Var) (xs : List (V K)) (a : Nat) : Prop :=
  ∀ v ∈ xs, ∀ p, startOf vs v.name = some p → ¬ (p ≤ a ∧ a < p + v.init.length)

theorem assign_ok {l : Layout} {vs : List Var} (t : Tiled l vs) (v : V K)
    (hv : (v.name, v.ty, v.init.length) ∈ vs) (m : Nat → K) :
    ∃ m', assign l v.name v.ty v.init m = .ok m' ∧ Holds vs m' v ∧
      ∀ a, Outside vs [v] a → m' a = m a := by
  obtain ⟨p, hp, -⟩ := startOf_le t.nodup hv
  have hty := typeOf_mem t.nodup hv
  simp only at hp hty
  refine ⟨fun b => if p ≤ b ∧ b < p + v.init.length then (v.init[b - p]?).getD (m b) else m b,
    ?_, ⟨p, hp, ?_⟩, ?_⟩
  · simp only [assign, t.loc, hp, t.typ, hty, if_true]
  · intro k hk
    simp only [Nat.le_add_right, Nat.add_lt_add_iff_left, hk, and_self, if_true,
      Nat.add_sub_cancel_left, List.getElem?_eq_getElem hk, Option.getD_some]
  · intro a ha
    simp only [if_neg (ha v (by simp) p hp)]

/-- Writing elsewhere keeps a variable. -/
theorem Holds.keep {vs : List Var} (hn : (names vs).Nodup) {m m' : Nat → K} {v : V K}
    (hv : (v.name, v.ty, v.init.length) ∈ vs) (h : Holds vs m v) {xs : List (V K)}
    (hx : ∀ w ∈ xs, (w.name, w.ty, w.init.length) ∈ vs ∧ w.name ≠ v.name)
    (hm : ∀ a, Outside vs xs a → m' a = m a) : Holds vs m' v := by
  obtain ⟨p, hp, hk⟩ := h
  refine ⟨p, hp, fun k hk' => ?_⟩
  rw [hm, hk k hk']
  intro w hw q hq
  obtain ⟨hw1, hw2⟩ := hx w hw
  have := startOf_disjoint hn hv hw1 (Ne.symm hw2) hp hq
  simp only at this
  omega

theorem Outside.mono {vs : List Var} {xs ys : List (V K)} {a : Nat} (h : Outside vs ys a)
    (hs : ∀ v ∈ xs, v ∈ ys) : Outside vs xs a := fun v hv => h v (hs v hv)

/-- One writing step followed by others. -/
theorem chain {vs : List Var} (hn : (names vs).Nodup) {xs ys : List (V K)}
    (hx : ∀ v ∈ xs, (v.name, v.ty, v.init.length) ∈ vs)
    (hy : ∀ v ∈ ys, (v.name, v.ty, v.init.length) ∈ vs)
    (hd : ∀ v ∈ xs, ∀ w ∈ ys, w.name ≠ v.name)
    {m m1 m2 : Nat → K} (h1 : ∀ v ∈ xs, Holds vs m1 v) (k1 : ∀ a, Outside vs xs a → m1 a = m a)
    (h2 : ∀ v ∈ ys, Holds vs m2 v) (k2 : ∀ a, Outside vs ys a → m2 a = m1 a) :
    (∀ v ∈ xs ++ ys, Holds vs m2 v) ∧ ∀ a, Outside vs (xs ++ ys) a → m2 a = m a := by
  refine ⟨fun v hv => ?_, fun a ha => ?_⟩
  · rcases List.mem_append.1 hv with hv | hv
    · exact (h1 v hv).keep hn (hx v hv) (fun w hw => ⟨hy w hw, hd v hv w hw⟩) k2
    · exact h2 v hv
  · rw [k2 a (ha.mono (by simp +contextual)), k1 a (ha.mono (by simp +contextual))]

theorem initVars_ok {l : Layout} {vs : List Var} (t : Tiled l vs) (p : String) (xs : List (V K))
    (hx : ∀ v ∈ full p xs, (v.name, v.ty, v.init.length) ∈ vs)
    (hd : ((full p xs).map V.name).Nodup) (m : Nat → K) :
    ∃ m', initVars l p xs m = .ok m' ∧ (∀ v ∈ full p xs, Holds vs m' v) ∧
      ∀ a, Outside vs (full p xs) a → m' a = m a := by
  induction xs generalizing m with
  | nil => exact ⟨m, rfl, by simp [full], fun _ _ => rfl⟩
  | cons x xs ih =>
    have e : full p (x :: xs) = [{ x with name := p ++ x.name }] ++ full p xs := rfl
    rw [e] at hx hd ⊢
    rw [List.map_append, List.nodup_append] at hd
    obtain ⟨m1, h1, a1, b1⟩ := assign_ok t { x with name := p ++ x.name } (hx _ (by simp)) m
    obtain ⟨m2, h2, a2, b2⟩ := ih (fun v hv => hx v (by simp [hv])) hd.2.1 m1
    obtain ⟨c1, c2⟩ := chain t.nodup (xs := [{ x with name := p ++ x.name }])
      (fun v hv => hx v (by simp at hv; simp [hv])) (fun v hv => hx v (by simp [hv]))
      (fun v hv w hw he => hd.2.2 v.name (List.mem_map_of_mem hv) w.name (List.mem_map_of_mem hw) he.symm)
      (by simpa using a1) b1 a2 b2
    refine ⟨m2, ?_, c1, c2⟩
    simp only at h1
    simp only [initVars, h1, h2]

theorem initState_ok [Zero K] {o : Node K} (h : Carried o) (p : String) (pre : Prefixes)
    (hp : ∀ i ∈ ids o, pre i = p) {l : Layout} {vs : List Var} (t : Tiled l vs)
    (hx : ∀ v ∈ full p (listed o), (v.name, v.ty, v.init.length) ∈ vs)
    (hd : ((full p (listed o)).map V.name).Nodup) (m : Nat → K) :
    ∃ m', initState o pre l m = .ok m' ∧ (∀ v ∈ full p (listed o), Holds vs m' v) ∧
      ∀ a, Outside vs (full p (listed o)) a → m' a = m a := by
  induction h generalizing m with
  | own i vars =>
    have := hp i (by simp [ids])
    simp only [initState, this]
    exact initVars_ok t p vars hx hd m
  | @pass i o ho ih => exact ih (fun j hj => hp j (by simp [ids, hj])) hx hd m
  | @creep i o ho ih =>
    have hpi := hp i (by simp [ids])
    have e : full p (listed (.creep i o)) = full p (listed o) ++
        [⟨p ++ "plastic_strain", .symmetric, List.replicate 6 0⟩] := by
      simp [listed, full]
    rw [e] at hx hd ⊢
    rw [List.map_append, List.nodup_append] at hd
    obtain ⟨m1, h1, a1, b1⟩ := assign_ok t ⟨p ++ "plastic_strain", .symmetric, List.replicate 6 (0 : K)⟩
      (hx _ (by simp)) m
    obtain ⟨m2, h2, a2, b2⟩ := ih (fun j hj => hp j (by simp [ids, hj]))
      (fun v hv => hx v (by simp [hv])) hd.1 m1
    obtain ⟨c1, c2⟩ := chain t.nodup
      (xs := [⟨p ++ "plastic_strain", .symmetric, List.replicate 6 (0 : K)⟩])
      (fun v hv => hx v (by simp at hv; simp [hv])) (fun v hv => hx v (by simp [hv]))
      (fun v hv w hw he => hd.2.2 w.name (List.mem_map_of_mem hw) v.name (List.mem_map_of_mem hv) he)
      (by simpa using a1) b1 a2 b2
    refine ⟨m2, ?_, fun v hv => c1 v ?_, fun a ha => c2 a (ha.mono ?_)⟩
    · simp only at h1
      simp only [initState, hpi, h1, h2]
    · simp only [List.mem_append] at hv ⊢; exact hv.symm
    · intro v hv; simp only [List.mem_append] at hv ⊢; exact hv.symm
  | @damage i d0 o ho ih =>
    have hpi := hp i (by simp [ids])
    have e : full p (listed (.damage i d0 o)) =
        [⟨p ++ "damage", .scalar, [d0]⟩] ++ full p (listed o) := by
      simp [listed, full]
    rw [e] at hx hd ⊢
    rw [List.map_append, List.nodup_append] at hd
    obtain ⟨m1, h1, a1, b1⟩ := assign_ok t ⟨p ++ "damage", .scalar, [d0]⟩ (hx _ (by simp)) m
    obtain ⟨m2, h2, a2, b2⟩ := ih (fun j hj => hp j (by simp [ids, hj]))
      (fun v hv => hx v (by simp [hv])) hd.2.1 m1
    obtain ⟨c1, c2⟩ := chain t.nodup (xs := [⟨p ++ "damage", .scalar, [d0]⟩])
      (fun v hv => hx v (by simp at hv; simp [hv])) (fun v hv => hx v (by simp [hv]))
      (fun v hv w hw he => hd.2.2 v.name (List.mem_map_of_mem hv) w.name (List.mem_map_of_mem hw) he.symm)
      (by simpa using a1) b1 a2 b2
    refine ⟨m2, ?_, c1, c2⟩
    simp only at h1
    simp only [initState, hpi, h1, h2]

theorem initAll_ok [Zero K] (rs : List (Node K)) (k : Nat) (hc : ∀ r ∈ rs, Carried r)
    (pre : Prefixes) (hp : ∀ j (hj : j < rs.length), ∀ i ∈ ids rs[j], pre i = tag (k + j))
    {l : Layout} {vs : List Var} (t : Tiled l vs)
    (hx : ∀ v ∈ labelled k rs, (v.name, v.ty, v.init.length) ∈ vs)
    (hd : ((labelled k rs).map V.name).Nodup) (m : Nat → K) :
    ∃ m', initAll rs pre l m = .ok m' ∧ (∀ v ∈ labelled k rs, Holds vs m' v) ∧
      ∀ a, Outside vs (labelled k rs) a → m' a = m a := by
  induction rs generalizing k m with
  | nil => exact ⟨m, rfl, by simp [labelled], fun _ _ => rfl⟩
  | cons r rs ih =>
    simp only [labelled] at hx hd ⊢
    rw [List.map_append, List.nodup_append] at hd
    obtain ⟨m1, h1, a1, b1⟩ := initState_ok (hc r (by simp)) (tag k) pre
      (fun i hi => hp 0 (by simp) i hi) t (fun v hv => hx v (by simp [hv])) hd.1 m
    obtain ⟨m2, h2, a2, b2⟩ := ih (k + 1) (fun r hr => hc r (by simp [hr]))
      (fun j hj i hi => by
        have := hp (j + 1) (by simpa using hj) i hi
        simpa [Nat.add_assoc, Nat.add_comm 1 j] using this)
      (fun v hv => hx v (by simp [hv])) hd.2.1 m1
    obtain ⟨c1, c2⟩ := chain t.nodup (fun v hv => hx v (by simp [hv])) (fun v hv => hx v (by simp [hv]))
      (fun v hv w hw he => hd.2.2 v.name (List.mem_map_of_mem hv) w.name (List.mem_map_of_mem hw) he.symm)
      a1 b1 a2 b2
    exact ⟨m2, by simp only [initAll, h1, h2], c1, c2⟩

/-- Cells that hold all the variables hold the concatenation of the initial values. -/
theorem flat_of_holds (xs : List (V K)) (hn : (xs.map V.name).Nodup) (m : Nat → K) (o : Nat)
    (h : ∀ v ∈ xs, ∃ p, startOf (toVars xs) v.name = some p ∧
      ∀ k (hk : k < v.init.length), m (o + (p + k)) = v.init[k]) (a : Nat)
    (ha : a < (xs.flatMap V.init).length) : m (o + a) = (xs.flatMap V.init)[a] := by
  induction xs generalizing o a with
  | nil => simp at ha
  | cons x xs ih =>
    simp only [List.map_cons, List.nodup_cons] at hn
    by_cases hlt : a < x.init.length
    · obtain ⟨p, hp, hk⟩ := h x (by simp)
      simp only [toVars, List.map_cons, startOf, if_true, Option.some.injEq] at hp
      subst hp
      have := hk a hlt
      simp only [Nat.zero_add] at this
      rw [this]
      simp [List.getElem_append, hlt]
    · have hlen : a - x.init.length < (xs.flatMap V.init).length := by
        simp only [List.flatMap_cons, List.length_append] at ha; omega
      have := ih hn.2 (o + x.init.length) (fun v hv => by
        obtain ⟨p, hp, hk⟩ := h v (by simp [hv])
        have hne : v.name ≠ x.name := fun e => hn.1 (e ▸ List.mem_map_of_mem hv)
        simp only [toVars, List.map_cons, startOf, hne, if_false, Option.map_eq_some_iff] at hp
        obtain ⟨q, hq, rfl⟩ := hp
        refine ⟨q, hq, fun k hk' => ?_⟩
        have := hk k hk'
        simpa [Nat.add_assoc] using this) _ hlen
      rw [show o + a = o + x.init.length + (a - x.init.length) by omega, this]
      simp [List.flatMap_cons, List.getElem_append, hlt]

theorem total_toVars (xs : List (V K)) : total (toVars xs) = (xs.flatMap V.init).length := by
  simp [total, toVars, List.length_flatMap, Function.comp_def]

theorem outside_of_ge (xs : List (V K)) (hn : (xs.map V.name).Nodup) (a : Nat)
    (ha : (xs.flatMap V.init).length ≤ a) : Outside (toVars xs) xs a := by
  intro v hv p hp
  obtain ⟨q, hq, hle⟩ := startOf_le (vs := toVars xs) (by rwa [names_toVars])
    (v := (v.name, v.ty, v.init.length)) (by
      simp only [toVars, List.mem_map]; exact ⟨v, hv, rfl⟩)
  simp only at hq hle
  rw [hp] at hq
  obtain rfl := Option.some.inj hq
  rw [total_toVars] at hle
  omega

/-- Storage filled with `vals` from the start, the rest as before. -/
def filled (vals : List K) (m : Nat → K) : Nat → K := fun a => (vals[a]?).getD (m a)

theorem filled_of {xs : List (V K)} (hn : (xs.map V.name).Nodup) {m m' : Nat → K}
    (h : ∀ v ∈ xs, Holds (toVars xs) m' v) (k : ∀ a, Outside (toVars xs) xs a → m' a = m a) :
    m' = filled (xs.flatMap V.init) m := by
  funext a
  by_cases ha : a < (xs.flatMap V.init).length
  · have := flat_of_holds xs hn m' 0 (fun v hv => by
      obtain ⟨p, hp, hk⟩ := h v hv
      exact ⟨p, hp, fun k hk' => by simpa using hk k hk'⟩) a ha
    simp only [Nat.zero_add] at this
    rw [this, filled, List.getElem?_eq_getElem ha, Option.getD_some]
  · rw [k a (outside_of_ge xs hn a (by omega)), filled, List.getElem?_eq_none (by omega),
      Option.getD_none]

theorem flatMap_full (p : String) (xs : List (V K)) : (full p xs).flatMap V.init = xs.flatMap V.init := by
  simp [full, List.flatMap_map]

theorem flatMap_labelled [Zero K] (k : Nat) (rs : List (Node K)) :
    (labelled k rs).flatMap V.init = rs.flatMap fun r => (listed r).flatMap V.init := by
  induction rs generalizing k with
  | nil => rfl
  | cons r rs ih => simp [labelled, List.flatMap_append, flatMap_full, ih]

theorem mem_toVars {v : V K} {xs : List (V K)} (h : v ∈ xs) :
    (v.name, v.ty, v.init.length) ∈ toVars xs := by
  simp only [toVars, List.mem_map]; exact ⟨v, h, rfl⟩

/-! ## C169 -/

/-- C169: superimposing rules. Whatever number of rules are superimposed, and whatever has been made
before, the superposition is made; its variables are those of its members, back to back in the order
of the members, each under its own name with `model0_`, `model1_`, ... in front, and all these names
are different. Missing: members with combined hardening, superpositions as members and the same
object twice, for which it is false. -/
theorem C169_names_partial [Zero K] (i : Nat) (rs : List (Node K)) (h : Heap)
    (hc : ∀ r ∈ rs, Carried r) (ha : Apart rs)
    (hn : ∀ r ∈ rs, ((listed r).map V.name).Nodup) :
    ∃ h' l, make (.many i rs) h = .ok h' ∧ h'.stored i = some l ∧
      Tiled l (toVars (labelled 0 rs)) ∧ ((labelled 0 rs).map V.name).Nodup := by
  obtain ⟨h', h1, ⟨l, h2, h3⟩, -, -⟩ := make_many i rs h hc ha hn
  exact ⟨h', l, h1, h2, h3, labelled_nodup rs 0 hn⟩

theorem startOf_full (p : String) (xs : List (V K)) (x : String) :
    startOf (toVars (full p xs)) (p ++ x) = startOf (toVars xs) x := by
  induction xs with
  | nil => rfl
  | cons v xs ih =>
    have : (p ++ x = p ++ v.name) ↔ x = v.name := ⟨prefix_inj, fun h => by rw [h]⟩
    simp only [toVars, full, List.map_cons, startOf, this] at ih ⊢
    rw [ih]

theorem startOf_labelled [Zero K] (rs : List (Node K)) (k j : Nat) (hj : j < rs.length) (x : String) :
    startOf (toVars (labelled k rs)) (tag (k + j) ++ x) =
      (startOf (toVars (listed rs[j])) x).map
        (fun p => ((rs.take j).map fun r => total (toVars (listed r))).sum + p) := by
  induction rs generalizing k j with
  | nil => simp at hj
  | cons r rs ih =>
    simp only [labelled, toVars_append]
    rw [startOf_append]
    cases j with
    | zero =>
      simp only [Nat.add_zero, startOf_full, List.getElem_cons_zero, List.take_zero, List.map_nil,
        List.sum_nil, Nat.zero_add]
      cases hs : startOf (toVars (listed r)) x with
      | some p => simp
      | none =>
        have : startOf (toVars (labelled (k + 1) rs)) (tag k ++ x) = none := by
          rw [startOf_eq_none, names_toVars]
          intro hm
          obtain ⟨q, hq, a, he⟩ := mem_labelled hm
          have := (tag_inj he).1
          omega
        simp [this]
    | succ j =>
      have h0 : startOf (toVars (full (tag k) (listed r))) (tag (k + (j + 1)) ++ x) = none := by
        rw [startOf_eq_none, names_toVars]
        intro hm
        simp only [full, List.map_map, List.mem_map, Function.comp] at hm
        obtain ⟨v, -, he⟩ := hm
        have := (tag_inj he).1
        omega
      rw [h0, show k + (j + 1) = k + 1 + j by omega, ih (k + 1) j (by simpa using hj)]
      simp only [Option.map_map, List.getElem_cons_succ, List.take_succ_cons, List.map_cons,
        List.sum_cons]
      have ht : total (toVars (full (tag k) (listed r))) = total (toVars (listed r)) := by
        rw [total_toVars, total_toVars, flatMap_full]
      cases startOf (toVars (listed (rs[j]'(by simpa using hj)))) x with
      | none => rfl
      | some p => simp [ht, Nat.add_assoc]

/-- A rule made on its own stores a layout of the size of its variables. -/
theorem C169_size [Zero K] (o : Node K) (h : Heap) (hc : Carried o)
    (hn : ((listed o).map V.name).Nodup) :
    ∃ h' l, make o h = .ok h' ∧ h'.stored o.id = some l ∧ Tiled l (toVars (listed o)) ∧
      l.size = ((listed o).flatMap V.init).length ∧ h'.pre o.id = "" := by
  have hf : full "" (listed o) = listed o := by simp [full]
  obtain ⟨l, h1, t1⟩ := populate_ok hc (setPrefix h.pre o.id "") (l := Layout.empty) (vs := [])
    tiled_empty (by simpa [setPrefix, names_toVars, full_nodup] using hn)
  simp only [setPrefix, if_true, hf, List.nil_append] at t1
  refine ⟨⟨spread o (setPrefix h.pre o.id ""), fun i => if i = o.id then some l else h.stored i⟩, l, ?_, by simp,
    t1, by rw [t1.size, total_toVars], by simp [spread, setPrefix, id_mem hc]⟩
  cases hc <;> simp only [make, h1]

/-- C169: the offsets at which a superposition hands its storage to its members, computed from the
sizes of the members before the superposition is made, are the places of the members' variables in
the layout it reports: variable `x` of member `k` is at the member's offset plus its place in the
member alone. -/
theorem C169_offsets_partial [Zero K] (i : Nat) (rs : List (Node K)) (h : Heap)
    (hc : ∀ r ∈ rs, Carried r) (ha : Apart rs)
    (hn : ∀ r ∈ rs, ((listed r).map V.name).Nodup)
    (hs : ∀ r ∈ rs, ∃ l, h.stored r.id = some l ∧ Tiled l (toVars (listed r)))
    (k : Nat) (hk : k < rs.length) (x : String) :
    ∃ h' l m, make (.many i rs) h = .ok h' ∧ h'.stored i = some l ∧ h.stored rs[k].id = some m ∧
      l.loc (tag k ++ x) = (m.loc x).map (fun p => offset rs h k + p) := by
  obtain ⟨h', h1, ⟨l, h2, h3⟩, -, -⟩ := make_many i rs h hc ha hn
  obtain ⟨m, m1, m2⟩ := hs rs[k] (List.getElem_mem hk)
  refine ⟨h', l, m, h1, h2, m1, ?_⟩
  have := startOf_labelled rs 0 k hk x
  rw [Nat.zero_add] at this
  rw [h3.loc, this, m2.loc]
  have ho : ((rs.take k).map fun r => total (toVars (listed r))).sum = offset rs h k := by
    unfold offset
    congr 1
    refine List.map_congr_left fun r hr => ?_
    obtain ⟨l, l1, l2⟩ := hs r (List.mem_of_mem_take hr)
    simp [l1, l2.size]
  rw [ho]

/-- C169: initial values. The storage of a superposition is filled with what the members ask for, in
the order of the members, and nothing after it is touched. -/
theorem C169_initial_partial [Zero K] (i : Nat) (rs : List (Node K)) (h : Heap)
    (hc : ∀ r ∈ rs, Carried r) (ha : Apart rs)
    (hn : ∀ r ∈ rs, ((listed r).map V.name).Nodup) (m : Nat → K) :
    ∃ h', make (.many i rs) h = .ok h' ∧
      initStore (.many i rs) h'.pre m =
        .ok (filled (rs.flatMap fun r => (listed r).flatMap V.init) m) := by
  obtain ⟨h', h1, -, p1, -⟩ := make_many i rs h hc ha hn
  refine ⟨h', h1, ?_⟩
  have hnd := labelled_nodup rs 0 hn
  obtain ⟨pre', l', h2, t2, p2, -⟩ := populateAll_ok rs 0 hc ha h'.pre (l := Layout.empty) (vs := [])
    tiled_empty (fun j hj => by
      simpa using p1 j hj _ (id_mem (hc _ (List.getElem_mem hj)))) (by simpa [names_toVars] using hnd)
  rw [List.nil_append] at t2
  obtain ⟨m', h3, a3, b3⟩ := initAll_ok rs 0 hc pre' p2 t2 (fun v hv => mem_toVars hv) hnd m
  simp only [initStore, populate, h2, initState, h3]
  rw [filled_of hnd a3 b3, flatMap_labelled]

/-- C169: renaming. A rule, or a model of creep, damage and an integrator, may be given any prefix:
what its storage is filled with does not depend on it. -/
theorem C169_renamed [Zero K] (o : Node K) (hc : Carried o) (hn : ((listed o).map V.name).Nodup)
    (pre : Prefixes) (m : Nat → K) :
    initStore o pre m = .ok (filled ((listed o).flatMap V.init) m) := by
  have hnd : ((full (pre o.id) (listed o)).map V.name).Nodup := full_nodup.2 hn
  obtain ⟨l, h1, t1⟩ := populate_ok hc pre (l := Layout.empty) (vs := []) tiled_empty
    (by simpa [names_toVars] using hnd)
  rw [List.nil_append] at t1
  obtain ⟨m', h2, a2, b2⟩ := initState_ok hc (pre o.id) (spread o pre)
    (fun i hi => by simp [spread, hi]) t1 (fun v hv => mem_toVars hv) hnd m
  simp only [initStore, h1, h2]
  rw [filled_of hnd a2 b2, flatMap_full]

/-- C169: the same for a model with its stress in front. -/
theorem C169_renamed_model [Zero K] (o : Node K) (hc : Carried o)
    (hn : (("small_stress") :: (listed o).map V.name).Nodup) (pre : Prefixes) (m : Nat → K) :
    initModel o pre m =
      .ok (filled (List.replicate 6 0 ++ (listed o).flatMap V.init) m) := by
  set ss : V K := ⟨"small_stress", .symmetric, List.replicate 6 0⟩ with hss
  have hnd : ((full (pre o.id) (ss :: listed o)).map V.name).Nodup := full_nodup.2 (by simpa using hn)
  obtain ⟨l0, h0, t0⟩ := tiled_empty.add (name := pre o.id ++ "small_stress") (ty := .symmetric) (n := 6)
    (by simp [names])
  have hps : populateStatic (pre o.id) Layout.empty = .ok l0 := by
    rw [← h0]; rfl
  have e : [(pre o.id ++ "small_stress", STy.symmetric, 6)] ++ toVars (full (pre o.id) (listed o)) =
      toVars (full (pre o.id) (ss :: listed o)) := by
    simp [toVars, full, hss]
  rw [List.nil_append] at t0
  obtain ⟨l, h1, t1⟩ := populate_ok hc pre t0 (by rw [e, names_toVars]; exact hnd)
  rw [e] at t1
  have hid : spread o pre o.id = pre o.id := by simp [spread, id_mem hc]
  have hsplit : full (pre o.id) (ss :: listed o) =
      [{ ss with name := pre o.id ++ ss.name }] ++ full (pre o.id) (listed o) := rfl
  obtain ⟨m1, h2, a2, b2⟩ := assign_ok t1 { ss with name := pre o.id ++ ss.name }
    (mem_toVars (by rw [hsplit]; simp)) (zeroAll l m)
  have hd := hnd
  rw [hsplit, List.map_append, List.nodup_append] at hd
  obtain ⟨m2, h3, a3, b3⟩ := initState_ok hc (pre o.id) (spread o pre)
    (fun i hi => by simp [spread, hi]) t1 (fun v hv => mem_toVars (by rw [hsplit]; simp [hv])) hd.2.1 m1
  obtain ⟨c1, c2⟩ := chain t1.nodup (xs := [{ ss with name := pre o.id ++ ss.name }])
    (fun v hv => mem_toVars (by rw [hsplit]; simp only [List.mem_append]; exact Or.inl hv))
    (fun v hv => mem_toVars (by rw [hsplit]; simp only [List.mem_append]; exact Or.inr hv))
    (fun v hv w hw he => hd.2.2 v.name (List.mem_map_of_mem hv) w.name (List.mem_map_of_mem hw) he.symm)
    (by simpa using a2) b2 a3 b3
  simp only [hss] at h2
  simp only [initModel, hps, h1, hid, h2, h3]
  have hz : m2 = filled ((full (pre o.id) (ss :: listed o)).flatMap V.init) (zeroAll l m) :=
    filled_of hnd (by rw [hsplit] at c1 ⊢; exact c1) (by rw [hsplit] at c2 ⊢; exact c2)
  rw [hz, flatMap_full]
  congr 1
  funext a
  have hfl : (ss :: listed o).flatMap V.init = List.replicate 6 0 ++ (listed o).flatMap V.init := by
    simp [hss]
  rw [hfl]
  simp only [filled]
  by_cases ha : a < (List.replicate 6 0 ++ (listed o).flatMap V.init).length
  · rw [List.getElem?_eq_getElem ha]; rfl
  · rw [List.getElem?_eq_none (by omega)]
    simp only [Option.getD_none, zeroAll]
    rw [if_neg]
    rw [t1.size, total_toVars, flatMap_full, hfl]
    exact ha

/-- A Chaboche flow rule with one backstress and an initial value of 3, and a Yaguchi rule. -/
def pair : List (Node Rat) :=
  [.pass 1 (.own 2 [⟨"alpha", .scalar, [3]⟩, ⟨"backstress_0", .symmetric, [0, 0, 0, 0, 0, 0]⟩]),
   .own 3 [⟨"X1", .symmetric, [0, 0, 0, 0, 0, 0]⟩, ⟨"X2", .symmetric, [0, 0, 0, 0, 0, 0]⟩,
     ⟨"Q", .scalar, [0]⟩, ⟨"sa", .scalar, [5]⟩]]

/-- They can be superimposed, and on top of what there is their storage starts as 3, six zeros,
twelve zeros, 0, 5. -/
example (h : Heap) (m : Nat → Rat) : (∀ r ∈ pair, Carried r) ∧ Apart pair ∧
    (∀ r ∈ pair, ((listed r).map V.name).Nodup) ∧
    (labelled 0 pair).map V.name = ["model0_alpha", "model0_backstress_0", "model1_X1", "model1_X2",
      "model1_Q", "model1_sa"] ∧
    ∃ h', make (.many 0 pair) h = .ok h' ∧ initStore (.many 0 pair) h'.pre m =
      .ok (filled [3, 0, 0, 0, 0, 0, 0, 0, 0, 0, 0, 0, 0, 0, 0, 0, 0, 0, 0, 0, 5] m) := by
  have h1 : ∀ r ∈ pair, Carried r := by
    intro r hr
    simp only [pair, List.mem_cons, List.not_mem_nil, or_false] at hr
    rcases hr with rfl | rfl
    · exact .pass _ (.own _ _)
    · exact .own _ _
  have h2 : Apart pair := by simp [Apart, pair, ids]
  have h3 : ∀ r ∈ pair, ((listed r).map V.name).Nodup := by
    intro r hr
    simp only [pair, List.mem_cons, List.not_mem_nil, or_false] at hr
    rcases hr with rfl | rfl <;> simp [listed]
  refine ⟨h1, h2, h3, by decide +kernel, ?_⟩
  obtain ⟨h', k1, k2⟩ := C169_initial_partial 0 pair h h1 h2 h3 m
  exact ⟨h', k1, k2⟩

/-- A damage model with initial damage 1/100 around a plastic model, under a prefix. -/
example (m : Nat → Rat) : initModel (.damage 0 (1 / 100) (.pass 1 (.own 2 [⟨"alpha", .scalar, [7]⟩])))
    (fun i => if i = 0 then "left_" else "") m =
    .ok (filled [0, 0, 0, 0, 0, 0, 1 / 100, 7] m) :=
  C169_renamed_model _ (.damage _ _ (.pass _ (.own _ _))) (by simp [listed]) _ m

/-! ## Where the names fail -/

theorem many_id (i : Nat) (rs : List (Node K)) : (Node.many i rs).id = i := rfl

theorem regime_id (i : Nat) (f : Node K) (os : List Nat) : (Node.regime i f os).id = i := rfl

theorem addVars_cases (p : String) (xs : List (V K)) {l : Layout} {vs : List Var} (t : Tiled l vs) :
    addVars p xs l = .error .nameExists ∨
      ∃ l', addVars p xs l = .ok l' ∧ Tiled l' (vs ++ toVars (full p xs)) := by
  by_cases hn : (names (vs ++ toVars (full p xs))).Nodup
  · exact Or.inr (addVars_ok p xs t hn)
  · exact Or.inl (addVars_error p xs t hn)

theorem not_nodup_of_common {vs ws : List Var} {x : String} (h1 : x ∈ names vs) (h2 : x ∈ names ws) :
    ¬ (names (vs ++ ws)).Nodup := by
  rw [names_append, List.nodup_append]
  rintro ⟨-, -, h⟩
  exact h x h1 x h2 rfl

theorem mem_full {p x : String} {vs : List (V K)} (h : x ∈ vs.map V.name) :
    p ++ x ∈ names (toVars (full p vs)) := by
  rw [names_toVars]
  simp only [List.mem_map] at h
  obtain ⟨v, hv, rfl⟩ := h
  simp only [full, List.map_map, List.mem_map, Function.comp]
  exact ⟨v, hv, rfl⟩

/-- C169, failure: combined hardening does not hand its prefix on. Two rules with combined hardening
whose isotropic parts have a variable of the same name cannot be superimposed. -/
theorem C169_combined_disagreement (i i1 j1 a1 b1 i2 j2 a2 b2 : Nat)
    (va vb vc vd : List (V K)) (h : Heap) (ha1 : h.pre a1 = "") (ha2 : h.pre a2 = "")
    (x : String) (hx1 : x ∈ va.map V.name) (hx2 : x ∈ vc.map V.name)
    (hne1 : a1 ≠ i1 ∧ a1 ≠ i2 ∧ a1 ≠ j1) (hne2 : a2 ≠ i1 ∧ a2 ≠ i2 ∧ a2 ≠ j1 ∧ a2 ≠ j2) :
    make (.many i [.pass i1 (.both j1 (.own a1 va) (.own b1 vb)),
      .pass i2 (.both j2 (.own a2 vc) (.own b2 vd))]) h = .error .nameExists := by
  simp only [make, Node.id, numberMembers, populate, populateAll]
  have e1 : ∀ p q r : String, setPrefix (setPrefix (setPrefix (setPrefix h.pre i "") i1 p) i2 q) j1 r a1 = "" := by
    intro p q r
    simp only [setPrefix]
    rw [if_neg hne1.2.2, if_neg hne1.2.1, if_neg hne1.1, ha1, ite_self]
  have e2 : ∀ p q r s : String, setPrefix (setPrefix (setPrefix (setPrefix (setPrefix h.pre i "") i1 p) i2 q)
      j1 r) j2 s a2 = "" := by
    intro p q r s
    simp only [setPrefix]
    rw [if_neg hne2.2.2.2, if_neg hne2.2.2.1, if_neg hne2.2.1, if_neg hne2.1, ha2, ite_self]
  rw [e1]
  rcases addVars_cases "" va tiled_empty with h1 | ⟨l1, h1, t1⟩
  · rw [h1]
  rw [h1]
  simp only
  generalize setPrefix (setPrefix (setPrefix (setPrefix h.pre i "") i1 _) i2 _) j1 _ b1 = q
  rcases addVars_cases q vb t1 with h2 | ⟨l2, h2, t2⟩
  · rw [h2]
  rw [h2]
  simp only
  rw [e2]
  rw [addVars_error "" vc t2 (not_nodup_of_common (x := x) ?_ ?_)]
  · rw [names_append, List.mem_append]
    left
    simpa using mem_full (p := "") hx1
  · simpa using mem_full (p := "") hx2

/-- Two flow rules with a hardening that combines Voce hardening and a backstress. -/
example : make (.many 0 [.pass 1 (.both 2 (.own 3 [⟨"alpha", .scalar, [(0 : Rat)]⟩])
      (.own 4 [⟨"backstress", .symmetric, [0, 0, 0, 0, 0, 0]⟩])),
    .pass 5 (.both 6 (.own 7 [⟨"alpha", .scalar, [0]⟩])
      (.own 8 [⟨"backstress", .symmetric, [0, 0, 0, 0, 0, 0]⟩]))]) ⟨fun _ => "", fun _ => none⟩ =
    .error .nameExists :=
  C169_combined_disagreement 0 1 2 3 4 5 6 7 8 _ _ _ _ _ rfl rfl "alpha" (by simp) (by simp) (by decide)
    (by decide)

theorem populate_error [Zero K] {o : Node K} (h : Carried o) (pre : Prefixes) {l : Layout}
    {vs : List Var} (t : Tiled l vs)
    (hn : ¬ (names (vs ++ toVars (full (pre o.id) (listed o)))).Nodup) :
    populate o pre l = .error .nameExists := by
  induction h generalizing pre l vs with
  | own i vars =>
    simp only [populate]
    rw [show pre (Node.own i vars).id = pre i from rfl] at hn
    rw [addVars_error (pre i) vars t hn]
  | @pass i o ho ih =>
    rw [show (Node.pass i o).id = i from rfl, show listed (.pass i o) = listed o from rfl] at hn
    exact ih (setPrefix pre o.id (pre i)) t (by simpa [setPrefix] using hn)
  | @creep i o ho ih =>
    have e : vs ++ toVars (full (pre i) (listed (.creep i o))) =
        (vs ++ toVars (full (pre i) (listed o))) ++ [(pre i ++ "plastic_strain", .symmetric, 6)] := by
      simp [listed, full_append, toVars_append, toVars, full]
    rw [show (Node.creep i o).id = i from rfl, e] at hn
    by_cases h1 : (names (vs ++ toVars (full (pre i) (listed o)))).Nodup
    · obtain ⟨l', h2, t2⟩ := populate_ok ho (setPrefix pre o.id (pre i)) t (by simpa [setPrefix] using h1)
      simp only [setPrefix, if_true] at t2
      have hp : spread o (setPrefix pre o.id (pre i)) i = pre i := by
        rw [spread_set ho]; simp
      simp only [populate, h2, hp]
      rw [t2.add_error]
      by_contra hm
      obtain ⟨l3, -, t3⟩ := t2.add (ty := .symmetric) (n := 6) hm
      exact hn t3.nodup
    · simp only [populate]
      rw [ih (setPrefix pre o.id (pre i)) t (by simpa [setPrefix] using h1)]
  | @damage i d0 o ho ih =>
    have e : vs ++ toVars (full (pre i) (listed (.damage i d0 o))) =
        (vs ++ [(pre i ++ "damage", .scalar, 1)]) ++ toVars (full (pre i) (listed o)) := by
      simp [listed, toVars, full]
    rw [show (Node.damage i d0 o).id = i from rfl, e] at hn
    simp only [populate]
    by_cases h1 : pre i ++ "damage" ∈ names vs
    · rw [t.add_error h1]
    · obtain ⟨l1, h2, t2⟩ := t.add (ty := .scalar) (n := 1) h1
      rw [h2]
      exact ih (setPrefix pre o.id (pre i)) t2 (by simpa [setPrefix] using hn)

/-- C169, failure: the same rule cannot be superimposed on itself, unless it has no variables. -/
theorem C169_twice_disagreement [Zero K] (i : Nat) (r : Node K) (h : Heap) (hc : Carried r)
    (hn : ((listed r).map V.name).Nodup) (hv : listed r ≠ []) :
    make (.many i [r, r]) h = .error .nameExists := by
  simp only [make, many_id, numberMembers, populate, populateAll]
  generalize hpre : setPrefix (setPrefix (setPrefix h.pre i "") r.id _) r.id _ = pre
  obtain ⟨l, h1, t1⟩ := populate_ok hc pre (l := Layout.empty) (vs := []) tiled_empty
    (by simpa [names_toVars, full_nodup] using hn)
  rw [List.nil_append] at t1
  have hid : spread r pre r.id = pre r.id := by simp [spread, id_mem hc]
  rw [h1]
  simp only
  obtain ⟨v, vs, hv'⟩ := List.exists_cons_of_ne_nil hv
  rw [populate_error hc (spread r pre) t1]
  rw [hid]
  exact not_nodup_of_common (x := pre r.id ++ v.name) (mem_full (by simp [hv'])) (mem_full (by simp [hv']))

/-- C169, failure: a superposition does not hand its prefix on. If a superposition of two rules is
superimposed on a third, the second and the third use the prefix `model1_`; if they have a variable of
the same name the model cannot be made. -/
theorem C169_nested_disagreement [Zero K] (i j : Nat) (a b c : Node K) (h : Heap)
    (hc : ∀ r ∈ [a, b, c], Carried r) (ha : Apart [a, b, c])
    (hn : ∀ r ∈ [a, b, c], ((listed r).map V.name).Nodup)
    (hj : ∀ r ∈ [a, b, c], j ∉ ids r) (hi : ∀ r ∈ [a, b, c], i ∉ ids r)
    (x : String) (hb : x ∈ (listed b).map V.name) (hx : x ∈ (listed c).map V.name) :
    ∃ h1, make (.many j [a, b]) h = .ok h1 ∧
      make (.many i [.many j [a, b], c]) h1 = .error .nameExists := by
  have hca := hc a (by simp)
  have hcb := hc b (by simp)
  have hcc := hc c (by simp)
  have hab : ∀ r ∈ [a, b], Carried r := fun r hr => hc r (by
    simp only [List.mem_cons, List.not_mem_nil, or_false] at hr ⊢; tauto)
  have hnab : ∀ r ∈ [a, b], ((listed r).map V.name).Nodup := fun r hr => hn r (by
    simp only [List.mem_cons, List.not_mem_nil, or_false] at hr ⊢; tauto)
  simp only [Apart, List.pairwise_cons, List.mem_cons, List.not_mem_nil, or_false] at ha
  have hap : Apart [a, b] := by
    simp only [Apart, List.pairwise_cons, List.mem_cons, List.not_mem_nil, or_false]
    exact ⟨fun y hy => ha.1 y (Or.inl hy), by simp⟩
  obtain ⟨h1, m1, -, p1, -⟩ := make_many j [a, b] h hab hap hnab
  refine ⟨h1, m1, ?_⟩
  simp only [make, many_id, numberMembers]
  generalize hpre : setPrefix (setPrefix (setPrefix h1.pre i "") j _) c.id _ = pre
  have hkeep : ∀ k, k ≠ i → k ≠ j → k ≠ c.id → pre k = h1.pre k := by
    intro k k1 k2 k3
    rw [← hpre]
    simp [setPrefix, k1, k2, k3]
  have hcid : pre c.id = tag 1 := by
    rw [← hpre]; simp [setPrefix, tag]
  have ne : ∀ {r : Node K} {k : Nat}, k ∉ ids r → Carried r → r.id ≠ k := fun h1 h2 e => h1 (e ▸ id_mem h2)
  have hpa : pre a.id = tag 0 := by
    rw [hkeep _ (ne (hi a (by simp)) hca) (ne (hj a (by simp)) hca)
      (fun e => ha.1 c (Or.inr rfl) _ (id_mem hca) (e ▸ id_mem hcc))]
    exact p1 0 (by simp) _ (id_mem hca)
  have hpb : pre b.id = tag 1 := by
    rw [hkeep _ (ne (hi b (by simp)) hcb) (ne (hj b (by simp)) hcb)
      (fun e => ha.2.1 c rfl _ (id_mem hcb) (e ▸ id_mem hcc))]
    exact p1 1 (by simp) _ (id_mem hcb)
  obtain ⟨pre', l', h2, t2, -, q2⟩ := populateAll_ok [a, b] 0 hab hap pre (l := Layout.empty) (vs := [])
    tiled_empty (fun k hk => by
      match k, hk with
      | 0, _ => exact hpa
      | 1, _ => exact hpb) (by simpa [names_toVars] using labelled_nodup [a, b] 0 hnab)
  rw [List.nil_append] at t2
  simp only [populate, populateAll] at h2 ⊢
  rw [h2]
  simp only
  have hc' : pre' c.id = tag 1 := by
    rw [q2 c.id, hcid]
    intro r hr
    simp only [List.mem_cons, List.not_mem_nil, or_false] at hr
    rcases hr with rfl | rfl
    · exact fun hm => ha.1 c (Or.inr rfl) _ hm (id_mem hcc)
    · exact fun hm => ha.2.1 c rfl _ hm (id_mem hcc)
  rw [populate_error hcc pre' t2]
  rw [hc']
  refine not_nodup_of_common (x := tag 1 ++ x) ?_ (mem_full hx)
  simp only [labelled, toVars_append, names_append, List.mem_append]
  exact Or.inr (Or.inl (mem_full hb))

/-- C169, failure: the regime model looks for the stress without its prefix, so that with a prefix its
storage cannot be initialised. -/
theorem C169_regime_disagreement [Zero K] (i : Nat) (f : Node K) (os : List Nat) (pre : Prefixes)
    (hp : pre i ≠ "") (m : Nat → K) : initModel (.regime i f os) pre m = .error .nameExists := by
  obtain ⟨l0, h0, t0⟩ := tiled_empty.add (name := pre i ++ "small_stress") (ty := .symmetric) (n := 6)
    (by simp [names])
  have hps : populateStatic (pre i) Layout.empty = .ok l0 := by
    rw [← h0]; rfl
  have hset : ∀ (is : List Nat) (q : Prefixes), q f.id = pre i →
      is.foldl (fun q k => setPrefix q k (pre i)) q f.id = pre i := by
    intro is
    induction is with
    | nil => exact fun q hq => hq
    | cons k is ih =>
      intro q hq
      refine ih _ ?_
      by_cases hk : f.id = k <;> simp [setPrefix, hk, hq]
  have hfid : setPrefixes pre (f.id :: os) (pre i) f.id = pre i :=
    hset os _ (by simp [setPrefix])
  have hne : pre i ++ "small_stress" ≠ "small_stress" := by
    intro e
    have := congrArg (fun s => s.toList.length) e
    simp only [String.toList_append, List.length_append] at this
    have h0 : (pre i).toList = [] := List.length_eq_zero_iff.1 (by omega)
    exact hp (String.toList_inj.1 (by simpa using h0))
  have hc0 : ¬ l0.contains "small_stress" = true := by
    rw [t0.contains_iff]
    simp [names, Ne.symm hne]
  have hps2 : populateStatic (pre i) l0 = .error .nameExists := by
    rw [populateStatic, if_neg hc0, t0.add_error (by simp [names])]
  simp only [initModel, regime_id, hps, populate, hfid, hps2]

/-- A regime model named by its user. -/
example (m : Nat → Rat) : initModel (.regime 0 (.pass 1 (.own 2 [⟨"alpha", .scalar, [0]⟩])) [3])
    (fun i => if i = 0 then "left_" else "") m = .error .nameExists :=
  C169_regime_disagreement 0 _ _ _ (by decide) m

theorem mapM_ok {α β : Type} (f : α → Except Err β) (xs : List α) (g : ∀ x ∈ xs, ∃ y, f x = .ok y) :
    ∃ ys, xs.mapM f = .ok ys ∧ ys.length = xs.length ∧
      ∀ k (hk : k < xs.length) (hk' : k < ys.length), f xs[k] = .ok ys[k] := by
  induction xs with
  | nil => exact ⟨[], rfl, rfl, by simp⟩
  | cons x xs ih =>
    obtain ⟨y, hy⟩ := g x (by simp)
    obtain ⟨ys, h1, h2, h3⟩ := ih fun x hx => g x (by simp [hx])
    refine ⟨y :: ys, ?_, by simp [h2], ?_⟩
    · rw [List.mapM_cons, hy, h1]; rfl
    · intro k hk hk'
      cases k with
      | zero => exact hy
      | succ k => exact h3 k (by simpa using hk) (by simpa using hk')

theorem mapM_error {α β : Type} (f : α → Except Err β) (e : Err) (xs : List α)
    (he : ∀ x e', f x = .error e' → e' = e) (hx : ∃ x ∈ xs, f x = .error e) :
    xs.mapM f = .error e := by
  induction xs with
  | nil => simp at hx
  | cons x xs ih =>
    rw [List.mapM_cons]
    cases hfx : f x with
    | error e' => obtain rfl := he x e' hfx; rfl
    | ok y =>
      rw [ih]
      · rfl
      · obtain ⟨z, hz, hz'⟩ := hx
        rcases List.mem_cons.1 hz with rfl | hz
        · rw [hfx] at hz'; exact absurd hz' (by simp)
        · exact ⟨z, hz, hz'⟩

/-- C169: a Walker rule on its own finds its variables where they are stored. -/
theorem C169_reads [Zero K] (w : Nat) (vars : List (V K)) (h : Heap)
    (hn : (vars.map V.name).Nodup) :
    ∃ h', make (.own w vars) h = .ok h' ∧
      ∃ places, readVars h' w vars = .ok places ∧ places.length = vars.length ∧
        ∀ k (hk : k < vars.length) (hk' : k < places.length),
          places[k] = ((vars.take k).flatMap V.init).length := by
  obtain ⟨h', l, h1, h2, t2, -, hp⟩ := C169_size (.own w vars) h (.own w vars) hn
  have h2' : h'.stored w = some l := h2
  have hp' : h'.pre w = "" := hp
  have t3 : Tiled l (toVars vars) := t2
  obtain ⟨ys, m1, m2, m3⟩ := mapM_ok (fun v : V K =>
    match (h'.stored w).getD Layout.empty |>.loc (h'.pre w ++ v.name) with
    | none => .error .noSuchName
    | some a => .ok a) vars (fun v hv => by
      obtain ⟨p, hp1, -⟩ := startOf_le t3.nodup (mem_toVars hv)
      simp only at hp1
      simp only [h2', hp', Option.getD_some, String.empty_append, t3.loc, hp1]
      exact ⟨p, rfl⟩)
  refine ⟨h', h1, ys, m1, m2, fun k hk hk' => ?_⟩
  have := m3 k hk hk'
  have hs := startOf_getElem (vs := toVars vars) t3.nodup k (by simpa [toVars] using hk)
  have hg : ((toVars vars)[k]'(by simpa [toVars] using hk)).1 = vars[k].name := by simp [toVars]
  have ht : (toVars vars).take k = toVars (vars.take k) := by simp [toVars]
  rw [hg, ht, total_toVars] at hs
  simp only [h2', hp', Option.getD_some, String.empty_append, t3.loc, hs, Except.ok.injEq] at this
  exact this.symm

theorem exists_longest (vars : List (V K)) (hv : vars ≠ []) :
    ∃ v ∈ vars, ∀ w ∈ vars, w.name.toList.length ≤ v.name.toList.length := by
  induction vars with
  | nil => exact absurd rfl hv
  | cons x xs ih =>
    by_cases hx : xs = []
    · subst hx; exact ⟨x, by simp, by simp⟩
    · obtain ⟨v, h1, h2⟩ := ih hx
      by_cases hle : x.name.toList.length ≤ v.name.toList.length
      · exact ⟨v, by simp [h1], fun w hw => by
          rcases List.mem_cons.1 hw with rfl | hw
          · exact hle
          · exact h2 w hw⟩
      · exact ⟨x, by simp, fun w hw => by
          rcases List.mem_cons.1 hw with rfl | hw
          · exact le_rfl
          · exact (h2 w hw).trans (by omega)⟩

/-- C169, failure: a Walker rule keeps looking in the layout it stored when it was made, but under the
prefix it has been given since. Once it is a member of a superposition every evaluation fails. -/
theorem C169_walker_disagreement [Zero K] (i w : Nat) (vars : List (V K)) (rs : List (Node K)) (h : Heap)
    (hc : ∀ r ∈ rs, Carried r) (ha : Apart rs) (hn : ∀ r ∈ rs, ((listed r).map V.name).Nodup)
    (hw : .own w vars ∈ rs) (hv : vars ≠ []) (hi : w ≠ i)
    (hs : ∃ l, h.stored w = some l ∧ Tiled l (toVars vars)) :
    ∃ h', make (.many i rs) h = .ok h' ∧ readVars h' w vars = .error .noSuchName := by
  obtain ⟨h', h1, -, p1, s1⟩ := make_many i rs h hc ha hn
  obtain ⟨l, hl, tl⟩ := hs
  obtain ⟨k, hk, hkw⟩ := List.getElem_of_mem hw
  have hp : h'.pre w = tag k := p1 k hk w (by rw [hkw]; simp [ids])
  refine ⟨h', h1, mapM_error _ _ _ ?_ ?_⟩
  · intro v e' he
    revert he
    cases (h'.stored w).getD Layout.empty |>.loc (h'.pre w ++ v.name) <;> simp +contextual [eq_comm]
  · obtain ⟨v, hv1, hv2⟩ := exists_longest vars hv
    refine ⟨v, hv1, ?_⟩
    have : l.loc (tag k ++ v.name) = none := by
      rw [tl.loc, startOf_eq_none, names_toVars]
      intro hm
      obtain ⟨u, hu, he⟩ := List.mem_map.1 hm
      have h3 := hv2 u hu
      have h4 := congrArg (fun s => s.toList.length) he
      simp only [tag_toList, List.length_append, List.length_cons] at h4
      omega
    rw [s1 w hi, hl, hp]
    simp [this]

/-- Such a rule, as the first of two members. -/
example : ∃ h h' : Heap, make (.many 0 [.own 3 [⟨"alpha", .scalar, [(0 : Rat)]⟩], .own 4 []]) h = .ok h' ∧
    readVars h' 3 [⟨"alpha", .scalar, [(0 : Rat)]⟩] = .error .noSuchName := by
  obtain ⟨h, l, -, h2, h3, -⟩ := C169_size (.own 3 [⟨"alpha", .scalar, [(0 : Rat)]⟩])
    ⟨fun _ => "", fun _ => none⟩ (.own _ _) (by simp [listed])
  obtain ⟨h', h4, h5⟩ := C169_walker_disagreement 0 3 [⟨"alpha", .scalar, [(0 : Rat)]⟩]
    [.own 3 [⟨"alpha", .scalar, [(0 : Rat)]⟩], .own 4 []] h (by
      intro r hr
      simp only [List.mem_cons, List.not_mem_nil, or_false] at hr
      rcases hr with rfl | rfl <;> exact .own _ _) (by simp [Apart, ids]) (by simp [listed]) (by simp) (by simp)
    (by decide) ⟨l, h2, h3⟩
  exact ⟨h, h', h4, h5⟩

end Neml.Names
