import Verif.Model.PyCreate
import Verif.Props.Objects

/-!
# C167: an object made from Python gets what was written in the call
-/

namespace Neml.PyCreate

open Objects

variable {Py D O : Type}

/-! ## Specification -/

/-- Spec: the value the call gives a parameter: the keyword, else the positional argument of that name. -/
def chosen (c : Cls) (args : List Py) (kw : List (String × Py)) (n : String) : Option Py :=
  (kw.lookup n).or ((c.pos.zip args).lookup n)

/-- Spec: a call that should work: as many positional arguments as the class takes, only declared names, values of the declared
kinds, and everything without a default given. -/
def WellCalled (cs : Casts Py D O) (c : Cls) (args : List Py) (kw : List (String × Py)) : Prop :=
  args.length = c.pos.length ∧
  (∀ x ∈ c.pos.zip args ++ kw, ∃ q ∈ c.params, q.name = x.1 ∧ (castAs cs q.kind x.2).isSome) ∧
  ∀ q ∈ c.params, q.dflt = none → q.name ∈ c.pos ++ kw.map Prod.fst

/-- Spec: a class whose declaration, binding and constructor agree: names are declared once, the positional arguments are the
parameters without a default, each once, defaults are of the declared kind (or empty), everything read is declared with the
kind it is read as, and everything declared is read. -/
def Consistent (c : Cls) : Prop :=
  (c.params.map (·.name)).Nodup ∧
  c.pos.Perm ((c.params.filter (·.dflt.isNone)).map (·.name)) ∧
  (∀ q ∈ c.params, q.dflt = none ∨ q.dflt = some none ∨ q.dflt = some (some q.kind)) ∧
  (∀ r ∈ c.reads, ∃ q ∈ c.params, q.name = r.1 ∧ q.kind = r.2) ∧
  ∀ q ∈ c.params, ∃ r ∈ c.reads, r.1 = q.name

instance (c : Cls) : Decidable (Consistent c) := by unfold Consistent; infer_instance

/-- Spec: the defaults are stored as the class says. -/
def Defaults (c : Cls) (dv : String → Val D O) : Prop := ∀ q ∈ c.params, ∀ s, q.dflt = some s → (dv q.name).kind = s

/-! ## Maps -/

theorem sorted_ext {α : Type} {l m : List (String × α)} (hl : Sorted l) (hm : Sorted m) (h : ∀ n, find n l = find n m) :
    l = m := by
  induction l generalizing m with
  | nil =>
    cases m with
    | nil => rfl
    | cons b m => have := h b.1; simp [find] at this
  | cons a l ih =>
    cases m with
    | nil => have := h a.1; simp [find] at this
    | cons b m =>
      have ha := h a.1
      have hb := h b.1
      have hl' := hl
      have hm' := hm
      unfold Sorted at hl hm
      rw [List.pairwise_cons] at hl hm
      have key : a.1 = b.1 := by
        by_contra hne
        simp only [find, if_true, if_neg hne] at ha
        simp only [find, if_true, if_neg (Ne.symm hne)] at hb
        obtain ⟨v, hv⟩ := (find_isSome_iff a.1 m).mp (by rw [← ha]; rfl)
        obtain ⟨w, hw⟩ := (find_isSome_iff b.1 l).mp (by rw [hb]; rfl)
        exact lt_asymm (hm.1 (a.1, v) hv) (hl.1 (b.1, w) hw)
      obtain ⟨a1, a2⟩ := a
      obtain ⟨b1, b2⟩ := b
      obtain rfl : a1 = b1 := key
      simp only [find, if_true, Option.some.injEq] at ha
      subst ha
      refine congrArg _ (ih hl.2 hm.2 fun n => ?_)
      by_cases hn : n = a1
      · subst hn; rw [find_none_of_sorted hl', find_none_of_sorted hm']
      · have := h n
        simpa only [find, if_neg hn] using this

/-! ## Declarations -/

theorem runOps_provide (dv : String → Val D O) (qs : List Param) (p : PSet D O) (hd : p.deferred = []) (hs : Sorted p.params)
    (hn : ∀ q ∈ qs, q.name ∉ p.names) (hnd : (qs.map (·.name)).Nodup) :
    let r := runOps p (qs.map fun q => match q.dflt with
      | none => .declare q.name q.kind
      | some _ => .option q.name q.kind (dv q.name))
    r.type = p.type ∧ r.names = p.names ++ qs.map (·.name) ∧ r.deferred = [] ∧ Sorted r.params ∧
    (∀ n, n ∉ qs.map (·.name) → find n r.types = find n p.types ∧ find n r.params = find n p.params) ∧
    ∀ q ∈ qs, find q.name r.types = some q.kind ∧
      find q.name r.params = if q.dflt.isSome then some (dv q.name) else find q.name p.params := by
  induction qs generalizing p with
  | nil => simp [runOps, hd, hs]
  | cons q qs ih =>
    rw [List.map_cons, List.nodup_cons] at hnd
    have hq := hn q List.mem_cons_self
    obtain ⟨p', hp', ht', hn', hd', hs', hty, hpa⟩ : ∃ p' : PSet D O, (match q.dflt with
        | none => Op.declare q.name q.kind
        | some _ => .option q.name q.kind (dv q.name)).run p = .ok p' ∧ p'.type = p.type ∧ p'.names = p.names ++ [q.name] ∧
        p'.deferred = [] ∧ Sorted p'.params ∧ (∀ n, find n p'.types = if n = q.name then some q.kind else find n p.types) ∧
        ∀ n, find n p'.params = if n = q.name ∧ q.dflt.isSome then some (dv q.name) else find n p.params := by
      cases hdf : q.dflt with
      | none =>
        exact ⟨_, rfl, rfl, rfl, hd, hs, fun n => find_insertKey _ _ _ _, fun n => by simp [PSet.addParameter, PSet.params]⟩
      | some s =>
        refine ⟨.mk p.type (p.names ++ [q.name]) (insertKey q.name q.kind p.types) (insertKey q.name (dv q.name) p.params)
          p.deferred, ?_, rfl, rfl, hd, insertKey_sorted _ _ hs, fun n => find_insertKey _ _ _ _, fun n => ?_⟩
        · simp only [Op.run, PSet.addOptional, PSet.assign]
          rw [if_neg (by simp [PSet.addParameter, PSet.names])]
          rfl
        · simp [PSet.params, find_insertKey]
    have h := ih p' hd' hs' (by
      intro r hr
      rw [hn', List.mem_append, List.mem_singleton]
      rintro (h | h)
      · exact hn r (List.mem_cons_of_mem _ hr) h
      · exact hnd.1 (h ▸ List.mem_map_of_mem hr)) hnd.2
    simp only [List.map_cons, runOps]
    rw [hp']
    dsimp only at h ⊢
    obtain ⟨h1, h2, h3, h4, h5, h6⟩ := h
    refine ⟨h1.trans ht', by rw [h2, hn']; simp, h3, h4, ?_, ?_⟩
    · intro n hnn
      simp only [List.mem_cons, not_or] at hnn
      obtain ⟨ha, hb⟩ := h5 n hnn.2
      exact ⟨by rw [ha, hty, if_neg hnn.1], by rw [hb, hpa, if_neg fun h => hnn.1 h.1]⟩
    · intro r hr
      rcases List.mem_cons.mp hr with rfl | hr
      · obtain ⟨ha, hb⟩ := h5 r.name hnd.1
        refine ⟨by rw [ha, hty, if_pos rfl], ?_⟩
        rw [hb, hpa]
        simp
      · obtain ⟨ha, hb⟩ := h6 r hr
        refine ⟨ha, ?_⟩
        rw [hb, hpa]
        have : r.name ≠ q.name := fun h => hnd.1 (h ▸ List.mem_map_of_mem hr)
        simp [this]

theorem provide_spec (c : Cls) (dv : String → Val D O) (hnd : (c.params.map (·.name)).Nodup) :
    (c.provide dv).type = c.name ∧ (c.provide dv).names = c.params.map (·.name) ∧ (c.provide dv).deferred = [] ∧
    Sorted (c.provide dv).params ∧
    (∀ n, n ∉ c.params.map (·.name) → find n (c.provide dv).types = none ∧ find n (c.provide dv).params = none) ∧
    ∀ q ∈ c.params, find q.name (c.provide dv).types = some q.kind ∧
      find q.name (c.provide dv).params = if q.dflt.isSome then some (dv q.name) else none := by
  have h := runOps_provide dv c.params (.empty c.name) rfl List.Pairwise.nil (fun _ _ => List.not_mem_nil) hnd
  exact h

/-! ## Assignments -/

theorem assignPython_ok (cs : Casts Py D O) (p p' : PSet D O) (n : String) (v : Py) (h : assignPython cs p n v = .ok p') :
    n ∈ p.names ∧ ∃ x, castAs cs (objectType p n) v = some x ∧
      p' = .mk p.type p.names p.types (insertKey n x p.params) p.deferred := by
  unfold assignPython at h
  cases hc : castAs cs (objectType p n) v with
  | none => rw [hc] at h; cases h
  | some x =>
    rw [hc] at h
    dsimp only at h
    unfold PSet.assign at h
    by_cases hm : n ∈ p.names
    · rw [if_neg (not_not.mpr hm)] at h
      cases h
      exact ⟨hm, x, rfl, rfl⟩
    · rw [if_pos hm] at h; cases h

theorem assignPython_of (cs : Casts Py D O) (p : PSet D O) (n : String) (v : Py) (x : Val D O) (hn : n ∈ p.names)
    (hc : castAs cs (objectType p n) v = some x) :
    assignPython cs p n v = .ok (.mk p.type p.names p.types (insertKey n x p.params) p.deferred) := by
  unfold assignPython
  rw [hc]
  dsimp only
  unfold PSet.assign
  rw [if_neg (not_not.mpr hn)]

/-- Spec: the last value a list gives to a name. -/
def lastOf (l : List (String × Py)) (n : String) : Option Py := l.reverse.lookup n

theorem lastOf_cons (a : String × Py) (l : List (String × Py)) (n : String) :
    lastOf (a :: l) n = (lastOf l n).or (if n = a.1 then some a.2 else none) := by
  obtain ⟨k, v⟩ := a
  unfold lastOf
  rw [List.reverse_cons, List.lookup_append]
  by_cases h : n = k
  · subst h; simp
  · simp [h, List.lookup, beq_false_of_ne h]

theorem assignAll_spec (cs : Casts Py D O) (l : List (String × Py)) (p : PSet D O) :
    (∀ p', assignAll cs p l = .ok p' →
      p'.type = p.type ∧ p'.names = p.names ∧ p'.types = p.types ∧ p'.deferred = p.deferred ∧
      (Sorted p.params → Sorted p'.params) ∧
      (∀ x ∈ l, x.1 ∈ p.names ∧ (castAs cs (objectType p x.1) x.2).isSome) ∧
      ∀ n, find n p'.params = match lastOf l n with
        | some v => castAs cs (objectType p n) v
        | none => find n p.params) ∧
    ((∀ x ∈ l, x.1 ∈ p.names ∧ (castAs cs (objectType p x.1) x.2).isSome) → ∃ p', assignAll cs p l = .ok p') := by
  induction l generalizing p with
  | nil => simp [assignAll, lastOf]
  | cons a l ih =>
    obtain ⟨k, v⟩ := a
    constructor
    · intro p' h
      rw [assignAll] at h
      cases ha : assignPython cs p k v with
      | error e => rw [ha] at h; cases h
      | ok p1 =>
        rw [ha] at h
        obtain ⟨hk, x, hx, rfl⟩ := assignPython_ok cs p p1 k v ha
        obtain ⟨h1, h2, h3, h4, h5, h6, h7⟩ := (ih _).1 p' h
        refine ⟨h1, h2, h3, h4, fun hs => h5 (insertKey_sorted _ _ hs), ?_, fun n => ?_⟩
        · rintro y hy
          rcases List.mem_cons.mp hy with rfl | hy
          · exact ⟨hk, by rw [hx]; rfl⟩
          · exact h6 y hy
        · rw [h7 n, lastOf_cons]
          cases lastOf l n with
          | some w => rfl
          | none =>
            by_cases hn : n = k
            · subst hn
              simp only [Option.none_or, if_true]
              rw [hx]
              simp [PSet.params, find_insertKey]
            · simp only [Option.none_or, if_neg hn]
              simp [PSet.params, find_insertKey, hn]
    · intro h
      obtain ⟨hk, hc⟩ := h (k, v) List.mem_cons_self
      obtain ⟨x, hx⟩ := Option.isSome_iff_exists.mp hc
      obtain ⟨p', hp'⟩ := (ih (.mk p.type p.names p.types (insertKey k x p.params) p.deferred)).2
        fun y hy => h y (List.mem_cons_of_mem _ hy)
      exact ⟨p', by rw [assignAll, assignPython_of cs p k v x hk hx]; exact hp'⟩

theorem lastOf_eq_lookup (l : List (String × Py)) (h : (l.map Prod.fst).Nodup) (n : String) : lastOf l n = l.lookup n := by
  induction l with
  | nil => rfl
  | cons a l ih =>
    obtain ⟨k, v⟩ := a
    rw [List.map_cons, List.nodup_cons] at h
    rw [lastOf_cons, ih h.2]
    by_cases hn : n = k
    · subst hn
      have : l.lookup n = none := by
        rw [List.lookup_eq_none_iff]
        intro p hp
        simp only [bne_iff_ne, ne_eq, beq_eq_false_iff_ne]
        rintro rfl
        exact h.1 (List.mem_map.mpr ⟨p, hp, rfl⟩)
      simp [this]
    · simp [hn, List.lookup, beq_false_of_ne hn]

theorem lookup_iff (l : List (String × Py)) (h : (l.map Prod.fst).Nodup) (n : String) (v : Py) :
    l.lookup n = some v ↔ (n, v) ∈ l := by
  induction l with
  | nil => simp
  | cons a l ih =>
    obtain ⟨k, w⟩ := a
    rw [List.map_cons, List.nodup_cons] at h
    by_cases hn : n = k
    · subst hn
      simp only [List.lookup, beq_self_eq_true, Option.some.injEq, List.mem_cons, Prod.mk.injEq, true_and]
      constructor
      · exact fun h => Or.inl h.symm
      · rintro (h' | h')
        · exact h'.symm
        · exact absurd (List.mem_map.mpr ⟨_, h', rfl⟩) h.1
    · simp only [List.lookup, beq_false_of_ne hn, List.mem_cons, Prod.mk.injEq, hn, false_and, false_or]
      exact ih h.2

theorem lookup_perm {l m : List (String × Py)} (h : (l.map Prod.fst).Nodup) (hp : l.Perm m) (n : String) :
    l.lookup n = m.lookup n := by
  have h' : (m.map Prod.fst).Nodup := (hp.map Prod.fst).nodup_iff.mp h
  refine Option.ext fun v => ?_
  rw [lookup_iff l h, lookup_iff m h', hp.mem_iff]

theorem lookup_isSome (l : List (String × Py)) (n : String) : (l.lookup n).isSome ↔ n ∈ l.map Prod.fst := by
  rw [← not_iff_not, Option.not_isSome_iff_eq_none, List.lookup_eq_none_iff]
  simp only [bne_iff_ne, ne_eq, List.mem_map, Prod.exists, exists_and_right, exists_eq_right, not_exists, Prod.forall]
  constructor
  · exact fun h v hv => h n v hv rfl
  · rintro h k v hv rfl
    exact h v hv

theorem same_param {qs : List Param} (h : (qs.map (·.name)).Nodup) {a b : Param} (ha : a ∈ qs) (hb : b ∈ qs)
    (hn : a.name = b.name) : a = b := by
  induction qs with
  | nil => cases ha
  | cons q qs ih =>
    rw [List.map_cons, List.nodup_cons] at h
    rcases List.mem_cons.mp ha with rfl | ha' <;> rcases List.mem_cons.mp hb with rfl | hb'
    · rfl
    · exact absurd (List.mem_map.mpr ⟨b, hb', hn.symm⟩) h.1
    · exact absurd (List.mem_map.mpr ⟨a, ha', hn⟩) h.1
    · exact ih h.2 ha' hb'

theorem zip_fst {c : Cls} {args : List Py} (h : args.length = c.pos.length) : (c.pos.zip args).map Prod.fst = c.pos :=
  List.map_fst_zip (le_of_eq h.symm)

/-! ## The call -/

/-- Spec: the parameter set the constructor must be given. -/
def Given (cs : Casts Py D O) (dv : String → Val D O) (c : Cls) (args : List Py) (kw : List (String × Py))
    (p : PSet D O) : Prop :=
  p.type = c.name ∧ p.names = c.params.map (·.name) ∧ p.types = (c.provide dv).types ∧ p.deferred = [] ∧ Sorted p.params ∧
  (∀ n, n ∉ p.names → find n p.params = none) ∧
  ∀ q ∈ c.params, find q.name p.params = match chosen c args kw q.name with
    | some v => castAs cs q.kind v
    | none => if q.dflt.isSome then some (dv q.name) else none

theorem objectType_provide (c : Cls) (dv : String → Val D O) (hnd : (c.params.map (·.name)).Nodup) (q : Param)
    (hq : q ∈ c.params) : objectType (c.provide dv) q.name = q.kind := by
  unfold objectType
  rw [((provide_spec c dv hnd).2.2.2.2.2 q hq).1]
  rfl

theorem objectType_congr {p p' : PSet D O} (h : p'.types = p.types) : objectType p' = objectType p := by
  funext n
  unfold objectType
  rw [h]

/-- What the two loops leave. -/
theorem assign_both (cs : Casts Py D O) (dv : String → Val D O) (c : Cls) (hnd : (c.params.map (·.name)).Nodup)
    (hpos : c.pos.Nodup) (args : List Py) (kw : List (String × Py)) (hkw : (kw.map Prod.fst).Nodup)
    (ha : args.length = c.pos.length) :
    (∀ p1 p2, assignAll cs (c.provide dv) (c.pos.zip args) = .ok p1 → assignAll cs p1 kw = .ok p2 →
      (∀ x ∈ c.pos.zip args ++ kw, ∃ q ∈ c.params, q.name = x.1 ∧ (castAs cs q.kind x.2).isSome) ∧
      Given cs dv c args kw p2) ∧
    ((∀ x ∈ c.pos.zip args ++ kw, ∃ q ∈ c.params, q.name = x.1 ∧ (castAs cs q.kind x.2).isSome) →
      ∃ p1 p2, assignAll cs (c.provide dv) (c.pos.zip args) = .ok p1 ∧ assignAll cs p1 kw = .ok p2) := by
  obtain ⟨g1, g2, g3, g4, g5, g6⟩ := provide_spec c dv hnd
  have hmem : ∀ n, n ∈ (c.provide dv).names ↔ ∃ q ∈ c.params, q.name = n := by
    intro n; rw [g2, List.mem_map]
  constructor
  · intro p1 p2 h1 h2
    obtain ⟨a1, a2, a3, a4, a5, a6, a7⟩ := (assignAll_spec cs _ _).1 p1 h1
    obtain ⟨b1, b2, b3, b4, b5, b6, b7⟩ := (assignAll_spec cs _ _).1 p2 h2
    have ht := objectType_congr a3
    refine ⟨?_, b1.trans (a1.trans g1), b2.trans (a2.trans g2), b3.trans a3, b4.trans (a4.trans g3), b5 (a5 g4), ?_, ?_⟩
    · intro x hx
      have hx' : x.1 ∈ (c.provide dv).names ∧ (castAs cs (objectType (c.provide dv) x.1) x.2).isSome := by
        rcases List.mem_append.mp hx with hx | hx
        · exact a6 x hx
        · have := b6 x hx
          rwa [a2, ht] at this
      obtain ⟨q, hq, hqn⟩ := (hmem _).mp hx'.1
      refine ⟨q, hq, hqn, ?_⟩
      rw [← objectType_provide c dv hnd q hq, hqn]
      exact hx'.2
    · intro n hn
      rw [b2, a2] at hn
      have l2 : lastOf kw n = none := by
        rw [lastOf_eq_lookup kw hkw, ← Option.not_isSome_iff_eq_none, lookup_isSome]
        intro hm
        obtain ⟨x, hx, rfl⟩ := List.mem_map.mp hm
        exact hn (a2 ▸ (b6 x hx).1)
      have l1 : lastOf (c.pos.zip args) n = none := by
        rw [lastOf_eq_lookup _ (by rw [zip_fst ha]; exact hpos), ← Option.not_isSome_iff_eq_none, lookup_isSome]
        intro hm
        obtain ⟨x, hx, rfl⟩ := List.mem_map.mp hm
        exact hn (a6 x hx).1
      rw [b7, l2]
      dsimp only
      rw [a7, l1]
      rw [g2] at hn
      exact (g5 n hn).2
    · intro q hq
      have l2 := lastOf_eq_lookup kw hkw q.name
      have l1 := lastOf_eq_lookup (c.pos.zip args) (by rw [zip_fst ha]; exact hpos) q.name
      have hk := objectType_provide c dv hnd q hq
      rw [b7, ht, l2, a7, l1, hk, (g6 q hq).2]
      unfold chosen
      cases kw.lookup q.name with
      | some v => rfl
      | none => rfl
  · intro h
    have h' : ∀ x ∈ c.pos.zip args ++ kw, x.1 ∈ (c.provide dv).names ∧
        (castAs cs (objectType (c.provide dv) x.1) x.2).isSome := by
      intro x hx
      obtain ⟨q, hq, hqn, hc⟩ := h x hx
      refine ⟨(hmem _).mpr ⟨q, hq, hqn⟩, ?_⟩
      rw [← hqn, objectType_provide c dv hnd q hq]
      exact hc
    obtain ⟨p1, h1⟩ := (assignAll_spec cs (c.pos.zip args) (c.provide dv)).2 fun x hx => h' x (List.mem_append_left _ hx)
    obtain ⟨a1, a2, a3, a4, a5, a6, a7⟩ := (assignAll_spec cs _ _).1 p1 h1
    obtain ⟨p2, h2⟩ := (assignAll_spec cs kw p1).2 fun x hx => by
      rw [a2, objectType_congr a3]
      exact h' x (List.mem_append_right _ hx)
    exact ⟨p1, p2, h1, h2⟩

theorem create_plain (env : Creators D O) (p : PSet D O) (hd : p.deferred = []) :
    create env p = if missing p.names p.params ≠ [] then .error (.undefinedParameters p.type (missing p.names p.params))
      else match env p.type with
        | none => .error .badFunctionCall
        | some c => c p := by
  obtain ⟨t, n, ty, ps, d⟩ := p
  simp only [PSet.deferred] at hd
  subst hd
  rw [create, resolve]
  rfl

theorem given_complete (cs : Casts Py D O) (dv : String → Val D O) (c : Cls) (args : List Py) (kw : List (String × Py))
    (p : PSet D O) (hg : Given cs dv c args kw p) (ha : args.length = c.pos.length)
    (hnd : (c.params.map (·.name)).Nodup)
    (hx : ∀ x ∈ c.pos.zip args ++ kw, ∃ q ∈ c.params, q.name = x.1 ∧ (castAs cs q.kind x.2).isSome)
    (hkw : (kw.map Prod.fst).Nodup) (hpos : c.pos.Nodup) :
    missing p.names p.params = [] ↔ ∀ q ∈ c.params, q.dflt = none → q.name ∈ c.pos ++ kw.map Prod.fst := by
  obtain ⟨-, g2, -, -, -, -, g6⟩ := hg
  rw [missing_eq_nil, g2]
  have hch : ∀ q : Param, (chosen c args kw q.name).isSome ↔ q.name ∈ c.pos ++ kw.map Prod.fst := by
    intro q
    unfold chosen
    rw [Option.isSome_or, Bool.or_eq_true, lookup_isSome, lookup_isSome, zip_fst ha, List.mem_append, or_comm]
  have hcast : ∀ q ∈ c.params, ∀ v, chosen c args kw q.name = some v → (castAs cs q.kind v).isSome := by
    intro q hq v hv
    have hm : (q.name, v) ∈ c.pos.zip args ++ kw := by
      unfold chosen at hv
      rw [Option.or_eq_some_iff] at hv
      rcases hv with hv | ⟨-, hv⟩
      · exact List.mem_append_right _ ((lookup_iff kw hkw _ _).mp hv)
      · exact List.mem_append_left _ ((lookup_iff _ (by rw [zip_fst ha]; exact hpos) _ _).mp hv)
    obtain ⟨r, hr, hrn, hc⟩ := hx _ hm
    rwa [same_param hnd hr hq hrn] at hc
  constructor
  · intro h q hq hdf
    have h' := h q.name (List.mem_map_of_mem hq)
    rw [g6 q hq] at h'
    rw [← hch]
    cases hc : chosen c args kw q.name with
    | some v => rfl
    | none => rw [hc, hdf] at h'; simp at h'
  · intro h n hn
    obtain ⟨q, hq, rfl⟩ := List.mem_map.mp hn
    rw [g6 q hq]
    cases hc : chosen c args kw q.name with
    | some v => exact hcast q hq v hc
    | none =>
      dsimp only
      cases hdf : q.dflt with
      | some s => rfl
      | none =>
        have := (hch q).mpr (h q hq hdf)
        rw [hc] at this
        cases this

/-- **C167** a call that keeps to the declarations hands the constructor exactly what was written: under every declared name the
keyword if there is one, else the positional argument, else the default; and nothing under any other name. -/
theorem C167_made (env : Creators D O) (cs : Casts Py D O) (dv : String → Val D O) (c : Cls)
    (hnd : (c.params.map (·.name)).Nodup) (hpos : c.pos.Nodup) (args : List Py) (kw : List (String × Py))
    (hkw : (kw.map Prod.fst).Nodup) (hw : WellCalled cs c args kw) :
    ∃ p, Given cs dv c args kw p ∧ createPython env cs dv c args kw = match env c.name with
      | none => .error (.neml .badFunctionCall)
      | some k => match k p with
        | .error e => .error (.neml e)
        | .ok o => .ok o := by
  obtain ⟨ha, hx, hr⟩ := hw
  have hb := assign_both cs dv c hnd hpos args kw hkw ha
  obtain ⟨p1, p2, h1, h2⟩ := hb.2 hx
  obtain ⟨-, hg⟩ := hb.1 p1 p2 h1 h2
  refine ⟨p2, hg, ?_⟩
  unfold createPython
  rw [if_neg (not_not.mpr ha), h1]
  dsimp only
  rw [h2]
  dsimp only
  rw [create_plain env p2 hg.2.2.2.1, if_neg (not_not.mpr ((given_complete cs dv c args kw p2 hg ha hnd hx hkw hpos).mpr hr)),
    hg.1]
  cases env c.name <;> rfl

/-- **C167** every other call is refused: nothing is made from a wrong number of positional arguments, a name the class does not
declare, a value of the wrong kind, or with a parameter left out. -/
theorem C167_refused (env : Creators D O) (cs : Casts Py D O) (dv : String → Val D O) (c : Cls)
    (hnd : (c.params.map (·.name)).Nodup) (hpos : c.pos.Nodup) (args : List Py) (kw : List (String × Py))
    (hkw : (kw.map Prod.fst).Nodup) (o : O) (h : createPython env cs dv c args kw = .ok o) : WellCalled cs c args kw := by
  unfold createPython at h
  by_cases ha : args.length = c.pos.length
  · rw [if_neg (not_not.mpr ha)] at h
    cases h1 : assignAll cs (c.provide dv) (c.pos.zip args) with
    | error e => rw [h1] at h; cases h
    | ok p1 =>
      rw [h1] at h
      dsimp only at h
      cases h2 : assignAll cs p1 kw with
      | error e => rw [h2] at h; cases h
      | ok p2 =>
        rw [h2] at h
        dsimp only at h
        obtain ⟨hx, hg⟩ := (assign_both cs dv c hnd hpos args kw hkw ha).1 p1 p2 h1 h2
        refine ⟨ha, hx, (given_complete cs dv c args kw p2 hg ha hnd hx hkw hpos).mp ?_⟩
        by_contra hm
        rw [create_plain env p2 hg.2.2.2.1, if_pos hm] at h
        cases h
  · rw [if_pos ha] at h; cases h

/-- **C167** the error of a call with the wrong number of positional arguments, whatever else is wrong. -/
theorem C167_arity (env : Creators D O) (cs : Casts Py D O) (dv : String → Val D O) (c : Cls) (args : List Py)
    (kw : List (String × Py)) (ha : args.length ≠ c.pos.length) : createPython env cs dv c args kw = .error .arity := by
  unfold createPython
  rw [if_pos ha]

theorem given_unique (cs : Casts Py D O) (dv : String → Val D O) (c : Cls) (args : List Py) (kw kw' : List (String × Py))
    (p p' : PSet D O) (hp : Given cs dv c args kw p) (hp' : Given cs dv c args kw' p')
    (h : ∀ n, kw.lookup n = kw'.lookup n) : p = p' := by
  obtain ⟨a1, a2, a3, a4, a5, a6, a7⟩ := hp
  obtain ⟨b1, b2, b3, b4, b5, b6, b7⟩ := hp'
  have hf : p.params = p'.params := by
    refine sorted_ext a5 b5 fun n => ?_
    by_cases hn : n ∈ p.names
    · rw [a2] at hn
      obtain ⟨q, hq, rfl⟩ := List.mem_map.mp hn
      rw [a7 q hq, b7 q hq]
      unfold chosen
      rw [h]
    · rw [a6 n hn, b6 n (by rw [b2, ← a2]; exact hn)]
  obtain ⟨t, n, ty, ps, d⟩ := p
  obtain ⟨t', n', ty', ps', d'⟩ := p'
  simp only [PSet.type, PSet.names, PSet.types, PSet.deferred, PSet.params] at *
  subst a1 a2 a3 a4 hf
  rw [b1, b2, b3, b4]

/-- **C167** the order in which the keywords are written does not matter. -/
theorem C167_order (env : Creators D O) (cs : Casts Py D O) (dv : String → Val D O) (c : Cls)
    (hnd : (c.params.map (·.name)).Nodup) (hpos : c.pos.Nodup) (args : List Py) (kw kw' : List (String × Py))
    (hkw : (kw.map Prod.fst).Nodup) (hp : kw.Perm kw') (o : O) :
    createPython env cs dv c args kw = .ok o ↔ createPython env cs dv c args kw' = .ok o := by
  have hkw' : (kw'.map Prod.fst).Nodup := (hp.map Prod.fst).nodup_iff.mp hkw
  have hwell : WellCalled cs c args kw ↔ WellCalled cs c args kw' := by
    unfold WellCalled
    refine and_congr_right fun _ => and_congr ?_ ?_
    · exact forall_congr' fun x => imp_congr ((List.Perm.append_left _ hp).mem_iff) Iff.rfl
    · exact forall_congr' fun q => imp_congr_right fun _ => imp_congr_right fun _ =>
        (List.Perm.append_left _ (hp.map Prod.fst)).mem_iff
  have key : WellCalled cs c args kw → createPython env cs dv c args kw = createPython env cs dv c args kw' := by
    intro hw
    obtain ⟨p, hg, h⟩ := C167_made env cs dv c hnd hpos args kw hkw hw
    obtain ⟨p', hg', h'⟩ := C167_made env cs dv c hnd hpos args kw' hkw' (hwell.mp hw)
    rw [h, h', given_unique cs dv c args kw kw' p p' hg hg' (lookup_perm hkw hp)]
  constructor
  · intro h
    rw [← key (C167_refused env cs dv c hnd hpos args kw hkw o h)]
    exact h
  · intro h
    rw [key (hwell.mpr (C167_refused env cs dv c hnd hpos args kw' hkw' o h))]
    exact h

/-- Spec: what a reader finds in an entry; the blank entry has nothing in it (an empty list for the kinds it is used with). -/
def stored : Val D O → Option (Val D O)
  | .blank => none
  | v => some v

/-- **C167** what a number, or a list of numbers, stands for where an object or a list of objects is declared: the constant, or
one constant for each number in order. Other values stand for the objects they are. -/
theorem C167_numbers (cs : Casts Py D O) (v : Py) :
    (∀ d, cs.toDouble v = some d → castAs cs .object v = some (.object (cs.const d)) ∧
      castAs cs .double v = some (.double d)) ∧
    (∀ o, cs.toDouble v = none → cs.toObject v = some o → castAs cs .object v = some (.object o)) ∧
    (∀ ds, cs.toVecDouble v = some ds → ∃ os, castAs cs .vecObject v = some (.vecObject os) ∧ os.length = ds.length ∧
      ∀ (i : Nat) d, ds[i]? = some d → os[i]? = some (cs.const d)) ∧
    (∀ os, cs.toVecDouble v = none → cs.toVecObject v = some os → castAs cs .vecObject v = some (.vecObject os)) := by
  refine ⟨fun d h => ?_, fun o h h' => ?_, fun ds h => ⟨ds.map cs.const, ?_, by simp, fun i d hd => by simp [hd]⟩,
    fun os h h' => ?_⟩
  · simp [castAs, h]
  · simp [castAs, h, h']
  · simp [castAs, h]
  · simp [castAs, h, h']

/-- Python numbers as naturals, and lists of them. -/
example : ∃ cs : Casts (List Nat) Nat Nat, cs.toDouble [3] = some 3 ∧ cs.toVecDouble [3, 4] = some [3, 4] ∧
    castAs cs .vecObject [3, 4] = some (.vecObject [103, 104]) :=
  ⟨⟨List.head?, fun _ => none, fun _ => none, some, fun _ => none, fun _ => none, fun _ => none, fun _ => none, fun _ => none,
    fun _ => none, fun _ => none, (· + 100)⟩, rfl, rfl, rfl⟩

theorem castAs_kind (cs : Casts Py D O) (k : Kind) (v : Py) (x : Val D O) (h : castAs cs k v = some x) : x.kind = some k := by
  cases k <;> simp only [castAs] at h
  case object =>
    cases hd : cs.toDouble v with
    | some d => rw [hd] at h; cases h; rfl
    | none => rw [hd] at h; obtain ⟨y, -, rfl⟩ := Option.map_eq_some_iff.mp h; rfl
  case vecObject =>
    cases hd : cs.toVecDouble v with
    | some d => rw [hd] at h; cases h; rfl
    | none => rw [hd] at h; obtain ⟨y, -, rfl⟩ := Option.map_eq_some_iff.mp h; rfl
  all_goals
    obtain ⟨y, -, rfl⟩ := Option.map_eq_some_iff.mp h
    rfl

theorem consistent_pos (c : Cls) (hc : Consistent c) : c.pos.Nodup := by
  rw [hc.2.1.nodup_iff]
  exact hc.1.sublist (List.Sublist.map _ List.filter_sublist)

/-- **C167** for a consistent class, everything the constructor asks for is there, in the kind it asks for: the value of the call
converted to that kind, or the default. -/
theorem C167_reads (env : Creators D O) (cs : Casts Py D O) (dv : String → Val D O) (c : Cls) (hc : Consistent c)
    (hdv : Defaults c dv) (args : List Py) (kw : List (String × Py)) (hkw : (kw.map Prod.fst).Nodup)
    (hw : WellCalled cs c args kw) (p : PSet D O) (hg : Given cs dv c args kw p) (r : String × Kind) (hr : r ∈ c.reads) :
    get env p r.1 r.2 = .ok (match chosen c args kw r.1 with
      | some v => castAs cs r.2 v
      | none => stored (dv r.1), p) := by
  have hpos := consistent_pos c hc
  have hcomp := (given_complete cs dv c args kw p hg hw.1 hc.1 hw.2.1 hkw hpos).mpr hw.2.2
  obtain ⟨h1, h2, h3, h4, -⟩ := hc
  obtain ⟨q, hq, hqn, hqk⟩ := h4 r hr
  obtain ⟨n, k⟩ := r
  dsimp only at hqn hqk ⊢
  subst hqn hqk
  have hfind := hg.2.2.2.2.2.2 q hq
  have hsome := (missing_eq_nil _ _).mp hcomp q.name (by rw [hg.2.1]; exact List.mem_map_of_mem hq)
  cases hch : chosen c args kw q.name with
  | some v =>
    rw [hch] at hfind
    dsimp only at hfind ⊢
    rw [hfind] at hsome
    obtain ⟨x, hx⟩ := Option.isSome_iff_exists.mp hsome
    rw [hx] at hfind ⊢
    rw [C09_get env p q.name q.kind x hg.2.2.2.1 hfind, if_pos (castAs_kind cs q.kind v x hx)]
  | none =>
    rw [hch] at hfind
    dsimp only at hfind ⊢
    rw [hfind] at hsome
    cases hdf : q.dflt with
    | none => rw [hdf] at hsome; cases hsome
    | some s =>
      rw [hdf] at hfind
      simp only [Option.isSome_some, if_true] at hfind
      rw [C09_get env p q.name q.kind _ hg.2.2.2.1 hfind]
      have hk := hdv q hq s hdf
      rcases h3 q hq with h | h | h
      · rw [hdf] at h; cases h
      · rw [hdf] at h
        cases h
        cases hd : dv q.name <;> rw [hd] at hk <;> first | rfl | cases hk
      · rw [hdf] at h
        cases h
        rw [if_pos hk]
        cases hd : dv q.name <;> first | rfl | (rw [hd] at hk; cases hk)

set_option maxRecDepth 100000 in
/-- **C167** for every class Python can make, the declaration, the binding and the constructor agree, but for the two lattices
with free slip systems. -/
theorem C167_classes : ∀ c ∈ classes, Consistent c ↔ c.name ∉ ["GeneralLattice", "CubicLattice"] := by decide +kernel

/-! ## Where the code disagrees -/

/-- **C167** disagreement: no call gives a general or cubic lattice twin systems. The constructor reads them from a slot nothing
was written to, and the systems passed for them must look like slip systems. -/
theorem C167_twins_disagreement (env : Creators D O) (cs : Casts Py D O) (dv : String → Val D O) (c : Cls)
    (hc : c = cGeneralLattice ∨ c = cCubicLattice) (args : List Py) (kw : List (String × Py))
    (hkw : (kw.map Prod.fst).Nodup) (v : Py) (hv : ("twin_systems", v) ∈ kw) :
    (∀ o, createPython env cs dv c args kw = .ok o → (cs.toSlip v).isSome) ∧
    ∀ p, WellCalled cs c args kw → Given cs dv c args kw p → get env p "twin_systems" .twin = .ok (none, p) := by
  have hnd : (c.params.map (·.name)).Nodup := by rcases hc with rfl | rfl <;> decide
  have hpos : c.pos.Nodup := by rcases hc with rfl | rfl <;> decide
  have hq : (⟨"twin_systems", .slip, some (some .twin)⟩ : Param) ∈ c.params := by rcases hc with rfl | rfl <;> decide
  have hcast : WellCalled cs c args kw → (castAs cs .slip v).isSome := by
    intro hw
    obtain ⟨q, hq', hqn, h⟩ := hw.2.1 _ (List.mem_append_right _ hv)
    rwa [same_param hnd hq' hq hqn] at h
  constructor
  · intro o h
    have := hcast (C167_refused env cs dv c hnd hpos args kw hkw o h)
    simpa [castAs] using this
  · intro p hw hg
    have hf := hg.2.2.2.2.2.2 _ hq
    dsimp only at hf
    have hl : chosen c args kw "twin_systems" = some v := by
      unfold chosen
      rw [(lookup_iff kw hkw _ _).mpr hv]
      rfl
    rw [hl] at hf
    dsimp only at hf
    obtain ⟨x, hx⟩ := Option.isSome_iff_exists.mp (hcast hw)
    rw [hx] at hf
    rw [C09_get env p _ _ x hg.2.2.2.1 hf, if_neg]
    rw [castAs_kind cs _ _ _ hx]
    decide

/-- **C167** disagreement: twin systems added to a general or cubic lattice later are not written when the lattice is pickled or
saved: what is written for them is empty whatever they are. -/
theorem C167_pickle_disagreement (env : Creators D O) (cs : Casts Py D O) (dv : String → Val D O) (c : Cls)
    (hc : c = cGeneralLattice ∨ c = cCubicLattice) (args : List Py) (kw : List (String × Py)) (p : PSet D O)
    (hg : Given cs dv c args kw p) (slip : List (List Int × List Int))
    (twin : List (List Int × List Int × List Int × List Int)) :
    ∃ p', currentLattice p slip twin = .ok p' ∧ written env p' "slip_systems" = .ok (some (.slip slip), p') ∧
      written env p' "twin_systems" = .ok (none, p') := by
  have hnd : (c.params.map (·.name)).Nodup := by rcases hc with rfl | rfl <;> decide
  obtain ⟨g1, g2, g3, g4, g5, g6, g7⟩ := hg
  have hq : (⟨"twin_systems", .slip, some (some .twin)⟩ : Param) ∈ c.params := by rcases hc with rfl | rfl <;> decide
  have hs : (⟨"slip_systems", .slip, some (some .slip)⟩ : Param) ∈ c.params := by rcases hc with rfl | rfl <;> decide
  have kt := objectType_provide c dv hnd _ hq
  have ks := objectType_provide c dv hnd _ hs
  rw [← objectType_congr g3] at kt ks
  have nt : "twin_systems" ∈ p.names := by rw [g2]; exact List.mem_map_of_mem hq
  have ns : "slip_systems" ∈ p.names := by rw [g2]; exact List.mem_map_of_mem hs
  set p' : PSet D O := .mk p.type p.names p.types
    (insertKey "twin_systems" (.twin twin) (insertKey "slip_systems" (.slip slip) p.params)) p.deferred with hp'
  have ht : objectType p' = objectType p := objectType_congr rfl
  refine ⟨p', ?_, ?_, ?_⟩
  · unfold currentLattice PSet.assign
    rw [if_neg (not_not.mpr ns)]
    exact if_neg (not_not.mpr nt)
  · unfold written
    have hf : find "slip_systems" p'.params = some (.slip slip) := by
      simp [hp', PSet.params, find_insertKey]
    rw [C09_get env p' _ _ _ (by rw [hp']; exact g4) hf, ht, ks]
    rfl
  · unfold written
    have hf : find "twin_systems" p'.params = some (.twin twin) := by
      simp [hp', PSet.params, find_insertKey]
    rw [C09_get env p' _ _ _ (by rw [hp']; exact g4) hf, ht, kt]
    rfl

/-- **C167** disagreement: a keyword that repeats a positional argument is not an error as it is in Python; the keyword wins. -/
theorem C167_repeated_disagreement (c : Cls) (args : List Py) (kw : List (String × Py)) (n : String) (v w : Py)
    (hkw : (kw.map Prod.fst).Nodup) (hn : (n, v) ∈ c.pos.zip args) (hw : (n, w) ∈ kw) (env : Creators D O)
    (cs : Casts Py D O) (dv : String → Val D O) (hnd : (c.params.map (·.name)).Nodup) (hpos : c.pos.Nodup)
    (hwell : WellCalled cs c args kw) (q : Param) (hq : q ∈ c.params) (hqn : q.name = n) :
    ∃ p, find n p.params = castAs cs q.kind w ∧ createPython env cs dv c args kw = match env c.name with
      | none => .error (.neml .badFunctionCall)
      | some k => match k p with
        | .error e => .error (.neml e)
        | .ok o => .ok o := by
  obtain ⟨p, hg, h⟩ := C167_made env cs dv c hnd hpos args kw hkw hwell
  refine ⟨p, ?_, h⟩
  have hl : chosen c args kw n = some w := by
    unfold chosen
    rw [(lookup_iff kw hkw _ _).mpr hw]
    rfl
  have := hg.2.2.2.2.2.2 q hq
  rw [hqn, hl] at this
  exact this

/-- **C167** disagreement: the error for a keyword the class does not have depends on the value: only a number gets the error
that names the keyword. -/
theorem C167_unknown_disagreement (cs : Casts Py D O) (p : PSet D O) (n : String) (v : Py) (hn : n ∉ p.names)
    (ht : find n p.types = none) : assignPython cs p n v = match cs.toDouble v with
      | some _ => .error (.neml (.unknownParameter p.type n))
      | none => .error .cast := by
  unfold assignPython objectType
  rw [ht]
  simp only [Option.getD_none, castAs]
  cases cs.toDouble v with
  | none => rfl
  | some d =>
    simp only [Option.map_some]
    unfold PSet.assign
    rw [if_pos hn]

/-! ## Cases -/

/-- Python values that are numbers or lists of systems; everything else fails to convert. -/
inductive Demo
  | num (x : Int)
  | slips (l : List (List Int × List Int))
  | twins (l : List (List Int × List Int × List Int × List Int))

/-- Their conversions. -/
def demoCasts : Casts Demo Int Nat where
  toDouble | .num x => some x | _ => none
  toInt | .num x => some x | _ => none
  toBool _ := none
  toVecDouble _ := none
  toObject _ := none
  toVecObject _ := none
  toString _ := none
  toSlip | .slips l => some l | _ => none
  toTwin | .twins l => some l | _ => none
  toSize _ := none
  toVecSize _ := none
  const x := x.toNat

/-- A consistent class with a default, called with a keyword. -/
example : Consistent cSigmoidTransformation ∧
    WellCalled demoCasts cSigmoidTransformation [.num 3, .num 2] [("cut", .num 1)] ∧
    Defaults (D := Int) (O := Nat) cSigmoidTransformation (fun _ => .double 0) := by
  refine ⟨by decide, ⟨rfl, ?_, ?_⟩, ?_⟩
  · simp [cSigmoidTransformation, castAs, demoCasts]
  · simp [cSigmoidTransformation]
  · simp [Defaults, cSigmoidTransformation, Val.kind]

/-- Slip systems passed as twin systems are accepted and lost. -/
example : WellCalled demoCasts cCubicLattice [.num 1] [("twin_systems", .slips [([1, 1, 0], [1, 1, 1])])] := by
  refine ⟨rfl, ?_, ?_⟩
  · simp [cCubicLattice, castAs, demoCasts]
  · simp [cCubicLattice]

/-- Twin systems are refused. -/
example : ¬ WellCalled demoCasts cCubicLattice [.num 1] [("twin_systems", .twins [([1], [1], [1], [1])])] := by
  rintro ⟨-, h, -⟩
  have := h ("twin_systems", .twins [([1], [1], [1], [1])]) (by simp)
  simp [cCubicLattice, castAs, demoCasts] at this

end Neml.PyCreate
