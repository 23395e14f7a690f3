import Verif.Props.HistoryOps
import Mathlib.Data.List.Nodup
import Mathlib.Data.List.Perm.Basic
import Mathlib.Data.List.Forall2

/-!
# Properties C01 - C06 of the history container

Specification side: a history is meant to be a list of variables, each with a
name, a type and a number of entries, stored back to back. `names`, `total` and
`STy.size?` are the only helpers used in the statements.
-/

namespace Neml.Hist

variable {K : Type}

/-! ## C01: variables tile the storage -/

/-- C01. After any successful sequence of additions, the order is the order of
addition, variable number `i` starts after the entries of the variables before
it, and the size is the total number of entries. -/
theorem C01_layout (m m' : Mem K) (adds : List Var) (h : Obj)
    (hrun : addAll (new m).2 (new m).1 adds = .ok (h, m')) :
    h.order = names adds ∧ h.size = total adds ∧
    ∀ (i : Nat) (hi : i < adds.length),
      h.loc (adds[i]).1 = some (total (adds.take i)) ∧ h.typ (adds[i]).1 = some (adds[i]).2.1 := by
  obtain ⟨t, _⟩ := addAll_spec adds (new_live m) rfl tiled_empty hrun
  simp only [List.nil_append] at t
  refine ⟨t.order, t.size, fun i hi => ⟨?_, ?_⟩⟩
  · rw [t.loc]; exact startOf_getElem t.nodup i hi
  · rw [t.typ]; exact typeOf_mem t.nodup (List.getElem_mem hi)

/-- C01. The blocks `[start, start + entries)` of two different variables never
overlap, every block is inside the storage, and every storage entry belongs to
exactly one variable. -/
theorem C01_tiling (m m' : Mem K) (adds : List Var) (h : Obj)
    (hrun : addAll (new m).2 (new m).1 adds = .ok (h, m')) :
    (∀ v ∈ adds, ∃ p, h.loc v.1 = some p ∧ p + v.2.2 ≤ h.size) ∧
    (∀ v ∈ adds, ∀ w ∈ adds, v.1 ≠ w.1 → ∀ p q, h.loc v.1 = some p → h.loc w.1 = some q →
      p + v.2.2 ≤ q ∨ q + w.2.2 ≤ p) ∧
    (∀ a, a < h.size → ∃ v ∈ adds, ∃ p, h.loc v.1 = some p ∧ p ≤ a ∧ a < p + v.2.2 ∧
      ∀ w ∈ adds, ∀ q, h.loc w.1 = some q → q ≤ a → a < q + w.2.2 → w = v) := by
  obtain ⟨t, _⟩ := addAll_spec adds (new_live m) rfl tiled_empty hrun
  simp only [List.nil_append] at t
  have hdis : ∀ v ∈ adds, ∀ w ∈ adds, v.1 ≠ w.1 → ∀ p q, h.loc v.1 = some p → h.loc w.1 = some q →
      p + v.2.2 ≤ q ∨ q + w.2.2 ≤ p := by
    intro v hv w hw hne p q hp hq
    rw [t.loc] at hp hq
    exact startOf_disjoint t.nodup hv hw hne hp hq
  refine ⟨?_, hdis, ?_⟩
  · intro v hv
    rw [t.loc, t.size]
    exact startOf_le t.nodup hv
  · intro a ha
    rw [t.size] at ha
    obtain ⟨v, hv, p, hp, h1, h2⟩ := startOf_cover t.nodup ha
    refine ⟨v, hv, p, by rw [t.loc]; exact hp, h1, h2, ?_⟩
    intro w hw q hq h3 h4
    by_contra hne
    have hne' : w.1 ≠ v.1 := fun he => hne (mem_unique t.nodup hw hv he)
    have := hdis w hw v hv hne' q p hq (by rw [t.loc]; exact hp)
    omega

/-- Non-vacuity for C01 and C03: a scalar, a symmetric tensor and a rotation. -/
example : ∃ r, addAll (new (⟨fun _ => 0, 3⟩ : Mem Int)).2 (new (⟨fun _ => 0, 3⟩ : Mem Int)).1
    [("a", .scalar, 1), ("b", .symmetric, 6), ("c", .rot, 4)] = .ok r ∧
    r.1.loc "c" = some 7 ∧ r.1.size = 11 ∧
    ∀ v ∈ ([("a", .scalar, 1), ("b", .symmetric, 6), ("c", .rot, 4)] : List Var),
      v.2.1.size? = some v.2.2 :=
  ⟨_, rfl, rfl, rfl, by decide⟩

/-! ## C03: bad accesses are refused -/

/-- C03. A sequence of additions succeeds exactly when the names are distinct. -/
theorem C03_add_iff (m : Mem K) (adds : List Var) :
    (∃ r, addAll (new m).2 (new m).1 adds = .ok r) ↔ (names adds).Nodup := by
  have := addAll_ok_iff adds (m := (new m).2) (h := (new m).1) tiled_empty
  simpa using this

/-- C03. On any history built by additions, adding one more variable fails with
"already stored" exactly when the name was added before, and succeeds otherwise. -/
theorem C03_add_refused (m m' : Mem K) (adds : List Var) (h : Obj)
    (hrun : addAll (new m).2 (new m).1 adds = .ok (h, m')) (name : String) (ty : STy) (n : Nat) :
    (add m' h name ty n = .error .nameExists ↔ name ∈ names adds) ∧
    ((∃ r, add m' h name ty n = .ok r) ↔ name ∉ names adds) := by
  obtain ⟨t, _⟩ := addAll_spec adds (new_live m) rfl tiled_empty hrun
  simp only [List.nil_append] at t
  by_cases hf : name ∈ names adds
  · have : add m' h name ty n = .error .nameExists := by
      unfold add; rw [t.add_error hf]
    simp [this, hf]
  · obtain ⟨l, h1, _⟩ := t.add (ty := ty) (n := n) hf
    have : ∃ r, add m' h name ty n = .ok r := by
      unfold add; rw [h1]; exact ⟨_, rfl⟩
    obtain ⟨r, hr⟩ := this
    simp [hr, hf]

/-- C03. Reading: "no such variable" exactly for names never added, "wrong type"
exactly for a name added with another type, success exactly for a typed variable
read as its own type. -/
theorem C03_get_iff (m m' : Mem K) (adds : List Var) (h : Obj)
    (hsized : ∀ v ∈ adds, v.2.1.size? = some v.2.2)
    (hrun : addAll (new m).2 (new m).1 adds = .ok (h, m')) (x : String) (ty : STy) :
    (get m' h x ty = .error .noSuchName ↔ x ∉ names adds) ∧
    (get m' h x ty = .error .wrongType ↔ ∃ v ∈ adds, v.1 = x ∧ v.2.1 ≠ ty) ∧
    ((∃ r, get m' h x ty = .ok r) ↔ ∃ v ∈ adds, v.1 = x ∧ v.2.1 = ty) := by
  obtain ⟨t, _⟩ := addAll_spec adds (new_live m) rfl tiled_empty hrun
  simp only [List.nil_append] at t
  by_cases hx : x ∈ names adds
  · obtain ⟨v, hv, rfl⟩ := mem_of_name hx
    have huniq : ∀ w ∈ adds, w.1 = v.1 → w = v := fun w hw he => mem_unique t.nodup hw hv he
    by_cases hty : v.2.1 = ty
    · subst hty
      obtain ⟨p, hp, _⟩ := startOf_le t.nodup hv
      rw [get_tiled t hv (hsized v hv) hp]
      refine ⟨by simp [hx], ?_, ?_⟩
      · simp only [reduceCtorEq, false_iff, not_exists, not_and]
        intro w hw he hne
        exact hne (by rw [huniq w hw he])
      · simp only [Except.ok.injEq, exists_eq', true_iff]
        exact ⟨v, hv, rfl, rfl⟩
    · rw [get_wrong t hv hty]
      refine ⟨by simp [hx], ?_, ?_⟩
      · simp only [true_iff]; exact ⟨v, hv, rfl, hty⟩
      · simp only [reduceCtorEq, exists_false, false_iff, not_exists, not_and]
        intro w hw he hne
        rw [huniq w hw he] at hne
        exact hty hne
  · rw [get_missing t hx]
    have hno : ∀ w ∈ adds, w.1 ≠ x := fun w hw he => hx (he ▸ List.mem_map_of_mem hw)
    refine ⟨by simp [hx], ?_, ?_⟩
    · simp only [Except.error.injEq, reduceCtorEq, false_iff, not_exists, not_and]
      intro w hw he; exact absurd he (hno w hw)
    · simp only [reduceCtorEq, exists_false, false_iff, not_exists, not_and]
      intro w hw he; exact absurd he (hno w hw)

/-! ## C02: last write wins -/

/-- The operations a client performs on one history. -/
inductive Op (K : Type)
  | add (name : String) (ty : STy)
  | addBlank (name : String) (n : Nat)
  | write (name : String) (ty : STy) (v : List K)

/-- Run one operation; any error aborts. -/
def Op.run (s : Obj × Mem K) : Op K → Except Err (Obj × Mem K)
  | .add name ty => addT s.2 s.1 name ty
  | .addBlank name n => Hist.add s.2 s.1 name .blank n
  | .write name ty v => match set s.2 s.1 name ty v with
    | .error e => .error e
    | .ok m' => .ok (s.1, m')

/-- Run a list of operations. -/
def runOps (s : Obj × Mem K) : List (Op K) → Except Err (Obj × Mem K)
  | [] => .ok s
  | o :: os => match o.run s with
    | .error e => .error e
    | .ok s' => runOps s' os

/-- The name an operation writes to. -/
def Op.target : Op K → Option String
  | .write name _ _ => some name
  | _ => none

theorem runOps_append (s : Obj × Mem K) (a b : List (Op K)) :
    runOps s (a ++ b) = match runOps s a with
      | .error e => .error e
      | .ok s' => runOps s' b := by
  induction a generalizing s with
  | nil => rfl
  | cons o os ih =>
    simp only [List.cons_append, runOps]
    cases o.run s with
    | error e => rfl
    | ok s' => exact ih s'

/-- The invariant carried along any run. -/
structure Inv (s : Obj × Mem K) (vs : List Var) : Prop where
  live : Live s.2 s.1
  store : s.1.store = true
  tiled : Tiled s.1.toLayout vs
  sized : Sized vs

theorem Inv.add {s s' : Obj × Mem K} {vs : List Var} (i : Inv s vs) {name : String} {ty : STy}
    {n : Nat} (hsz : ty.size? = some n ∨ ty = .blank)
    (h : Hist.add s.2 s.1 name ty n = .ok s') :
    Inv s' (vs ++ [(name, ty, n)]) ∧
      ∀ x t r, get s.2 s.1 x t = .ok r → get s'.2 s'.1 x t = .ok r := by
  obtain ⟨h', m'⟩ := s'
  obtain ⟨hf, t1, l1, s1, _, _, d1, _⟩ := add_spec i.live i.store i.tiled h
  have hs' : Sized (vs ++ [(name, ty, n)]) := by
    intro v hv
    rcases List.mem_append.1 hv with hv | hv
    · exact i.sized v hv
    · simp only [List.mem_singleton] at hv; subst hv; exact hsz
  refine ⟨⟨l1, s1, t1, hs'⟩, ?_⟩
  intro x t r hg
  obtain ⟨v, hv, rfl, rfl, hvs, p, hp, rfl⟩ := get_ok i.tiled i.sized hg
  obtain ⟨p', hp', hle⟩ := startOf_le i.tiled.nodup hv
  rw [hp] at hp'
  obtain rfl : p = p' := by simpa using hp'
  have hq : startOf (vs ++ [(name, ty, n)]) v.1 = some p := by rw [startOf_append, hp]
  rw [get_tiled t1 (List.mem_append_left _ hv) hvs hq]
  congr 1
  apply slice_congr
  intro k hk
  have := d1 (p + k) (by rw [i.tiled.size]; omega)
  simpa [Nat.add_assoc] using this

theorem Inv.step {s s' : Obj × Mem K} {vs : List Var} (i : Inv s vs) (o : Op K)
    (h : o.run s = .ok s') :
    ∃ vs', Inv s' vs' ∧ ∀ x t r, o.target ≠ some x → get s.2 s.1 x t = .ok r →
      get s'.2 s'.1 x t = .ok r := by
  cases o with
  | add name ty =>
    simp only [Op.run, addT] at h
    cases hsz : ty.size? with
    | none => rw [hsz] at h; simp at h
    | some n =>
      rw [hsz] at h
      obtain ⟨h1, h2⟩ := i.add (Or.inl hsz) h
      exact ⟨_, h1, fun x t r _ => h2 x t r⟩
  | addBlank name n =>
    simp only [Op.run] at h
    obtain ⟨h1, h2⟩ := i.add (Or.inr rfl) h
    exact ⟨_, h1, fun x t r _ => h2 x t r⟩
  | write name ty v =>
    simp only [Op.run] at h
    cases hset : set s.2 s.1 name ty v with
    | error e => rw [hset] at h; simp at h
    | ok m' =>
      rw [hset] at h
      simp only [Except.ok.injEq] at h
      subst h
      obtain ⟨hb, _⟩ := set_frame i.tiled i.sized hset
      refine ⟨vs, ⟨⟨?_, ?_⟩, i.store, i.tiled, i.sized⟩, ?_⟩
      · have := i.live.inside; rw [← hb] at this; exact this
      · intro hs; have := i.live.room hs; rw [← hb] at this; exact this
      · intro x t r hne hg
        have hxy : x ≠ name := by
          intro he; apply hne; simp [Op.target, he]
        show get m' s.1 x t = .ok r
        rw [get_set_other i.tiled i.sized hset hxy]
        exact hg

theorem Inv.run {s s' : Obj × Mem K} (ops : List (Op K)) {vs : List Var} (i : Inv s vs)
    (h : runOps s ops = .ok s') :
    ∃ vs', Inv s' vs' ∧ ∀ x t r, (∀ o ∈ ops, Op.target o ≠ some x) → get s.2 s.1 x t = .ok r →
      get s'.2 s'.1 x t = .ok r := by
  induction ops generalizing s vs with
  | nil =>
    simp only [runOps, Except.ok.injEq] at h
    subst h
    exact ⟨vs, i, fun _ _ _ _ hg => hg⟩
  | cons o os ih =>
    simp only [runOps] at h
    cases ho : o.run s with
    | error e => rw [ho] at h; simp at h
    | ok s1 =>
      rw [ho] at h
      obtain ⟨vs1, i1, f1⟩ := i.step o ho
      obtain ⟨vs2, i2, f2⟩ := ih i1 h
      refine ⟨vs2, i2, ?_⟩
      intro x t r hne hg
      exact f2 x t r (fun o' ho' => hne o' (by simp [ho'])) (f1 x t r (hne o (by simp)) hg)

theorem inv_new (m : Mem K) : Inv (new m) [] :=
  ⟨new_live m, rfl, tiled_empty, by intro v hv; simp at hv⟩

/-- C02. In any run of additions and writes on a fresh history, a variable reads
back the value of the last write to its name. -/
theorem C02_last_write (m : Mem K) (pre post : List (Op K)) (name : String) (ty : STy)
    (v : List K) (s : Obj × Mem K)
    (hrun : runOps (new m) (pre ++ .write name ty v :: post) = .ok s)
    (hlast : ∀ o ∈ post, Op.target o ≠ some name) :
    get s.2 s.1 name ty = .ok v := by
  rw [runOps_append] at hrun
  cases hpre : runOps (new m) pre with
  | error e => rw [hpre] at hrun; simp at hrun
  | ok s1 =>
    rw [hpre] at hrun
    obtain ⟨vs1, i1, _⟩ := (inv_new m).run pre hpre
    simp only [runOps, Op.run] at hrun
    cases hset : set s1.2 s1.1 name ty v with
    | error e => rw [hset] at hrun; simp at hrun
    | ok m2 =>
      rw [hset] at hrun
      simp only at hrun
      have hw : Op.run s1 (.write name ty v) = .ok (s1.1, m2) := by simp [Op.run, hset]
      obtain ⟨vs2, i2, _⟩ := i1.step _ hw
      have hg := get_set_same i1.tiled i1.sized hset
      obtain ⟨_, _, f3⟩ := i2.run post hrun
      exact f3 name ty v hlast hg

/-- C02. On any reachable history a write to one variable leaves what is read
from every other name unchanged. -/
theorem C02_write_frame (m : Mem K) (ops : List (Op K)) (s : Obj × Mem K)
    (hrun : runOps (new m) ops = .ok s) (name : String) (ty : STy) (v : List K) (m' : Mem K)
    (hw : set s.2 s.1 name ty v = .ok m') (other : String) (hne : other ≠ name) (t : STy) :
    get m' s.1 other t = get s.2 s.1 other t := by
  obtain ⟨vs, i, _⟩ := (inv_new m).run ops hrun
  exact get_set_other i.tiled i.sized hw hne

/-- C02. On any reachable history the write succeeds whenever the variable exists
with that type and the value has the right number of entries. -/
theorem C02_write_ok (m : Mem K) (ops : List (Op K)) (s : Obj × Mem K)
    (hrun : runOps (new m) ops = .ok s) (name : String) (ty : STy) (v r : List K)
    (hex : get s.2 s.1 name ty = .ok r) (hlen : ty.size? = some v.length) :
    ∃ m', set s.2 s.1 name ty v = .ok m' := by
  obtain ⟨vs, i, _⟩ := (inv_new m).run ops hrun
  obtain ⟨w, hw, rfl, rfl, hsz, p, hp, _⟩ := get_ok i.tiled i.sized hex
  unfold set
  rw [i.tiled.loc, i.tiled.typ, hp, typeOf_mem i.tiled.nodup hw]
  simp [hlen]

/-- Non-vacuity for C02: two writes to `a`, one to `b` in between and one after, and
an addition after the last write. -/
example : ∃ s : Obj × Mem Int,
    runOps (new ⟨fun _ => 0, 0⟩)
      ([.add "a" .scalar, .add "b" .vector, .write "a" .scalar [1]] ++
        .write "a" .scalar [5] :: [.write "b" .vector [7, 8, 9], .add "c" .symmetric]) = .ok s ∧
    (∀ o ∈ ([.write "b" .vector [7, 8, 9], .add "c" .symmetric] : List (Op Int)),
      Op.target o ≠ some "a") ∧
    get s.2 s.1 "a" .scalar = .ok [5] :=
  ⟨_, rfl, by decide, rfl⟩

/-! ## C04: reorder -/

/-- The history with scalars `a = 1`, `b = 2`. -/
def exampleOps : List (Op Int) :=
  [.add "a" .scalar, .add "b" .scalar, .write "a" .scalar [1], .write "b" .scalar [2]]

/-- C04 fails: after `reorder ["b","a"]` on the history `a = 1, b = 2`, reading
`a` gives 2. (`copy_maps` uses `insert`, which keeps the old locations.) -/
theorem C04_reorder_loses_names :
    ∃ s s', runOps (new ⟨fun _ => 0, 0⟩) exampleOps = .ok s ∧
      reorder s.2 s.1 ["b", "a"] = .ok s' ∧
      get s.2 s.1 "a" .scalar = .ok [(1 : Int)] ∧ get s'.2 s'.1 "a" .scalar = .ok [(2 : Int)] :=
  ⟨_, _, rfl, rfl, rfl, rfl⟩

/-- C04, the part that holds. Reordering a reachable history by any permutation of
its typed variables succeeds; the reported order is the requested one and the raw
storage is the concatenation, in the requested order, of the values the variables
had. Missing: reads by name after the reorder. -/
theorem C04_reorder_raw_partial (m : Mem K) (ops : List (Op K)) (s : Obj × Mem K)
    (hrun : runOps (new m) ops = .ok s) (vars : List String) (hperm : vars.Perm s.1.order)
    (hty : ∀ x ∈ vars, s.1.typ x ≠ some .blank) :
    ∃ s', reorder s.2 s.1 vars = .ok s' ∧ s'.1.order = vars ∧ s'.1.size = s.1.size ∧
      ∃ vals : List (List K),
        List.Forall₂ (fun x r => ∃ t, get s.2 s.1 x t = .ok r) vars vals ∧
        s'.2.slice s'.1.base s'.1.size = vals.flatten := by
  obtain ⟨vs, i, _⟩ := (inv_new m).run ops hrun
  have hnd : vars.Nodup := hperm.nodup_iff.2 (by rw [i.tiled.order]; exact i.tiled.nodup)
  have hsrc : ∀ x ∈ vars, ∃ v ∈ vs, v.1 = x ∧ v.2.1 ≠ .blank := by
    intro x hx
    have : x ∈ names vs := by rw [← i.tiled.order]; exact hperm.mem_iff.1 hx
    obtain ⟨v, hv, rfl⟩ := mem_of_name this
    refine ⟨v, hv, rfl, ?_⟩
    intro hb
    apply hty v.1 hx
    rw [i.tiled.typ, typeOf_mem i.tiled.nodup hv, hb]
  obtain ⟨⟨n, m1⟩, hsub⟩ : ∃ r, subset s.2 s.1 vars = .ok r := by
    unfold subset
    exact subset_total i.tiled i.sized vars tiled_empty (by simpa [names] using hnd) hsrc
  obtain ⟨rest, hrest, inv⟩ := subset_spec i.tiled i.sized i.live hsub
  -- sizes agree
  have hpermv : rest.Perm vs := by
    have hn1 : (names rest).Nodup := inv.tiled.nodup
    apply (List.perm_ext_iff_of_nodup (List.Nodup.of_map _ hn1)
      (List.Nodup.of_map _ i.tiled.nodup)).2
    intro v
    constructor
    · intro hv; exact (inv.sub v hv).1
    · intro hv
      have : v.1 ∈ names rest := by
        rw [hrest]; apply hperm.mem_iff.2; rw [i.tiled.order]; exact List.mem_map_of_mem hv
      obtain ⟨w, hw, he⟩ := mem_of_name this
      have := mem_unique i.tiled.nodup (inv.sub w hw).1 hv he
      rw [← this]; exact hw
  have htot : total rest = s.1.size := by
    rw [i.tiled.size]
    unfold total
    exact (hpermv.map _).sum_eq
  have hro : reorder s.2 s.1 vars = .ok
      ({ s.1 with toLayout := s.1.toLayout.copyMaps n.toLayout }, m1.copy n.base s.1.base s.1.size) := by
    simp only [reorder, hsub]
    rw [if_neg (by rw [inv.tiled.size, htot]; omega)]
  refine ⟨_, hro, ?_, rfl, ?_⟩
  · show n.order = vars
    rw [inv.tiled.order, hrest]
  · -- the raw storage is a copy of the subset's storage
    have hraw : (m1.copy n.base s.1.base s.1.size).slice s.1.base s.1.size =
        m1.slice n.base (total rest) := by
      rw [htot]
      apply slice_congr
      intro k hk
      simp only [Mem.copy]
      rw [if_pos ⟨by omega, by omega⟩]
      congr 1; omega
    refine ⟨rest.map (fun v => m1.slice (n.base + (startOf rest v.1).getD 0) v.2.2), ?_, ?_⟩
    · rw [← hrest]
      unfold names
      rw [List.forall₂_map_left_iff, List.forall₂_map_right_iff, List.forall₂_same]
      intro v hv
      obtain ⟨hvm, hsz⟩ := inv.sub v hv
      obtain ⟨q, hq, _⟩ := startOf_le inv.tiled.nodup hv
      obtain ⟨p, hp, _⟩ := startOf_le i.tiled.nodup hvm
      refine ⟨v.2.1, ?_⟩
      rw [get_tiled i.tiled hvm hsz hp]
      congr 1
      rw [hq]
      apply slice_congr
      intro k hk
      rw [Option.getD_some]
      exact (inv.data v hv p q hp hq k hk).symm
    · show (m1.copy n.base s.1.base s.1.size).slice s.1.base s.1.size = _
      rw [hraw]
      -- a tiled region is the concatenation of its blocks
      have key : ∀ (l : List Var) (b : Nat), (names l).Nodup →
          m1.slice b (total l) =
            (l.map (fun v => m1.slice (b + (startOf l v.1).getD 0) v.2.2)).flatten := by
        intro l
        induction l with
        | nil => intro b _; simp [total, Mem.slice]
        | cons u r ih =>
          intro b hnd
          simp only [names_cons, List.nodup_cons] at hnd
          simp only [List.map_cons, List.flatten_cons, startOf, if_true, Option.getD_some, add_zero]
          have h1 : m1.slice b (total (u :: r)) = m1.slice b u.2.2 ++ m1.slice (b + u.2.2) (total r) := by
            rw [total_cons]
            unfold Mem.slice
            rw [List.range_add, List.map_append, List.map_map]
            congr 1
            apply List.map_congr_left
            intro k _
            simp [Function.comp, Nat.add_assoc]
          rw [h1, ih (b + u.2.2) hnd.2]
          congr 2
          apply List.map_congr_left
          intro v hv
          have hne : v.1 ≠ u.1 := by
            intro he; apply hnd.1; rw [← he]; exact List.mem_map_of_mem hv
          obtain ⟨q, hq, _⟩ := startOf_le hnd.2 hv
          simp [hne, hq, Nat.add_assoc]
      exact key rest n.base inv.tiled.nodup

/-- Non-vacuity for C04: a scalar and a symmetric tensor, swapped. -/
example : ∃ s : Obj × Mem Int,
    runOps (new ⟨fun _ => 0, 0⟩)
      [.add "a" .scalar, .add "b" .symmetric, .write "a" .scalar [7],
       .write "b" .symmetric [1, 2, 3, 4, 5, 6]] = .ok s ∧
    ["b", "a"].Perm s.1.order ∧ ∀ x ∈ ["b", "a"], s.1.typ x ≠ some .blank :=
  ⟨_, rfl, by decide, by decide⟩

/-! ## C05: assignment -/

/-- C05 fails in general: assigning `b = 5, a = 6` to the history `a = 1, b = 2`
leaves a history that reads `a` as 5. -/
theorem C05_assign_wrong :
    ∃ (s₁ s₂ : Obj × Mem Int) (r : Obj × Mem Int),
      runOps (new ⟨fun _ => 0, 0⟩) exampleOps = .ok s₁ ∧
      runOps (new s₁.2) [.add "b" .scalar, .add "a" .scalar, .write "b" .scalar [5],
        .write "a" .scalar [6]] = .ok s₂ ∧
      assign s₂.2 s₁.1 s₂.1 = .ok r ∧
      get s₂.2 s₂.1 "a" .scalar = .ok [6] ∧ get r.2 r.1 "a" .scalar = .ok [5] :=
  ⟨_, _, _, rfl, rfl, rfl, rfl, rfl⟩

/-- C05. Assignment between histories of different size is refused; between
histories of equal size it succeeds. -/
theorem C05_assign_iff (m : Mem K) (h other : Obj) :
    ((∃ r, assign m h other = .ok r) ↔ h.size = other.size) ∧
    (assign m h other = .error .sizeMismatch ↔ h.size ≠ other.size) := by
  unfold assign
  by_cases hs : h.size = other.size <;> simp [hs]

/-- C05, the part that holds: if both histories were built by the same additions,
then after the assignment every name reads through the target as it reads through
the source (including errors), and the target's order is the source's.
Missing: targets with a different layout, see `C05_assign_wrong`. -/
theorem C05_assign_same_layout_partial (m : Mem K) (h other : Obj) (vs : List Var)
    (th : Tiled h.toLayout vs) (tw : Tiled other.toLayout vs) (hs : Sized vs)
    (r : Obj × Mem K) (ha : assign m h other = .ok r) (x : String) (ty : STy) :
    get r.2 r.1 x ty = get m other x ty ∧ r.1.order = other.order := by
  unfold assign at ha
  rw [if_neg (by rw [th.size, tw.size]; simp)] at ha
  simp only [Except.ok.injEq] at ha
  subst ha
  refine ⟨?_, rfl⟩
  apply get_congr (vs := vs) (copyMaps_same th tw) tw hs
  intro k hk
  simp only [Mem.copy]
  rw [if_pos ⟨by omega, by rw [th.size]; omega⟩]
  congr 1; omega

/-- C05 for a target with no variables yet: cannot be assigned a non-empty history
(the sizes differ), so `C05_assign_same_layout_partial` covers the only use that
keeps the values. -/
theorem C05_assign_to_empty (m : Mem K) (m0 : Mem K) (other : Obj) (hne : other.size ≠ 0) :
    assign m (new m0).1 other = .error .sizeMismatch := by
  rw [(C05_assign_iff m (new m0).1 other).2]
  simpa [new, Layout.empty] using Ne.symm hne

/-- Non-vacuity for C05: two histories with the same variables. -/
example : ∃ (s₁ s₂ r : Obj × Mem Int),
    runOps (new ⟨fun _ => 0, 0⟩) exampleOps = .ok s₁ ∧
    runOps (new s₁.2) [.add "a" .scalar, .add "b" .scalar, .write "a" .scalar [5],
      .write "b" .scalar [6]] = .ok s₂ ∧
    assign s₂.2 s₁.1 s₂.1 = .ok r ∧ get r.2 r.1 "b" .scalar = .ok [6] :=
  ⟨_, _, _, rfl, rfl, rfl, rfl⟩

/-! ## C06: subset, union, split -/

/-- C06. `subset` of a reachable history: succeeds for distinct names of typed
variables; the result lists exactly those names in the requested order, reads each
of them exactly as the source does, knows no other name, and the source still
reads the same. -/
theorem C06_subset (m : Mem K) (ops : List (Op K)) (s : Obj × Mem K)
    (hrun : runOps (new m) ops = .ok s) (vars : List String) (hnd : vars.Nodup)
    (hin : ∀ x ∈ vars, x ∈ s.1.order) (hty : ∀ x ∈ vars, s.1.typ x ≠ some .blank) :
    ∃ r, subset s.2 s.1 vars = .ok r ∧ r.1.order = vars ∧
      (∀ x ∈ vars, ∀ t, get r.2 r.1 x t = get s.2 s.1 x t) ∧
      (∀ x, x ∉ vars → ∀ t, get r.2 r.1 x t = .error .noSuchName) ∧
      (∀ x t, get r.2 s.1 x t = get s.2 s.1 x t) := by
  obtain ⟨vs, i, _⟩ := (inv_new m).run ops hrun
  have hsrc : ∀ x ∈ vars, ∃ v ∈ vs, v.1 = x ∧ v.2.1 ≠ .blank := by
    intro x hx
    have : x ∈ names vs := by rw [← i.tiled.order]; exact hin x hx
    obtain ⟨v, hv, rfl⟩ := mem_of_name this
    refine ⟨v, hv, rfl, ?_⟩
    intro hb
    apply hty v.1 hx
    rw [i.tiled.typ, typeOf_mem i.tiled.nodup hv, hb]
  obtain ⟨⟨n, m1⟩, hsub⟩ : ∃ r, subset s.2 s.1 vars = .ok r := by
    unfold subset
    exact subset_total i.tiled i.sized vars tiled_empty (by simpa [names] using hnd) hsrc
  obtain ⟨rest, hrest, inv⟩ := subset_spec i.tiled i.sized i.live hsub
  refine ⟨_, hsub, by rw [inv.tiled.order, hrest], ?_, ?_, ?_⟩
  · intro x hx t
    rw [← hrest] at hx
    obtain ⟨v, hv, rfl⟩ := mem_of_name hx
    obtain ⟨hvm, hsz⟩ := inv.sub v hv
    obtain ⟨q, hq, _⟩ := startOf_le inv.tiled.nodup hv
    obtain ⟨p, hp, _⟩ := startOf_le i.tiled.nodup hvm
    exact get_congr_var inv.tiled i.tiled hv hvm hq hp (inv.data v hv p q hp hq) (Or.inl hsz) t
  · intro x hx t
    exact get_missing inv.tiled (by rw [hrest]; exact hx) t
  · intro x t
    apply get_congr i.tiled i.tiled i.sized
    intro k hk
    apply inv.frame
    have := i.live.inside
    rw [i.tiled.size] at this
    omega

/-- C06. `subset` with a name the history does not have is refused. -/
theorem C06_subset_missing (m : Mem K) (ops : List (Op K)) (s : Obj × Mem K)
    (hrun : runOps (new m) ops = .ok s) (x : String) (rest : List String)
    (hx : x ∉ s.1.order) : subset s.2 s.1 (x :: rest) = .error .noSuchName := by
  obtain ⟨vs, i, _⟩ := (inv_new m).run ops hrun
  unfold subset
  simp only [subsetLoop]
  rw [i.tiled.loc, startOf_eq_none.2 (by rw [← i.tiled.order]; exact hx)]

end Neml.Hist
