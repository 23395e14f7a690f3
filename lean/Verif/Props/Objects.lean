import Verif.Model.Objects
import Mathlib.Data.String.Basic
import Mathlib.Tactic.Common

/-!
# C09: objects are built exactly when their parameters are complete
-/

namespace Neml.Objects

variable {D O : Type}

/-! ## Maps -/

theorem find_insertKey {α : Type} (k j : String) (v : α) (l : List (String × α)) :
    find j (insertKey k v l) = if j = k then some v else find j l := by
  induction l with
  | nil => simp [insertKey, find]
  | cons x l ih =>
    obtain ⟨k', v'⟩ := x
    simp only [insertKey]
    by_cases h1 : k = k'
    · subst h1
      by_cases h2 : j = k <;> simp [find, h2]
    · rw [if_neg h1]
      by_cases h3 : k < k'
      · rw [if_pos h3]; by_cases h2 : j = k <;> simp [find, h2]
      · rw [if_neg h3]
        simp only [find, ih]
        by_cases h2 : j = k
        · subst h2; simp [h1, Ne.symm h1]
        · rw [if_neg h2, if_neg h2]

/-- Keys in strictly increasing order. -/
def Sorted {α : Type} (l : List (String × α)) : Prop := l.Pairwise fun a b => a.1 < b.1

theorem insertKey_keys {α : Type} (k : String) (v : α) (l : List (String × α)) (x : String × α)
    (hx : x ∈ insertKey k v l) : x = (k, v) ∨ x ∈ l := by
  induction l with
  | nil => simpa [insertKey] using hx
  | cons y l ih =>
    obtain ⟨k', v'⟩ := y
    simp only [insertKey] at hx
    split_ifs at hx
    · rcases List.mem_cons.mp hx with h | h
      · exact Or.inl h
      · exact Or.inr (List.mem_cons_of_mem _ h)
    · rcases List.mem_cons.mp hx with h | h
      · exact Or.inl h
      · exact Or.inr h
    · rcases List.mem_cons.mp hx with h | h
      · exact Or.inr (h ▸ List.mem_cons_self ..)
      · exact (ih h).imp_right (List.mem_cons_of_mem _)

theorem insertKey_sorted {α : Type} (k : String) (v : α) {l : List (String × α)} (h : Sorted l) :
    Sorted (insertKey k v l) := by
  induction l with
  | nil => simp [insertKey, Sorted]
  | cons y l ih =>
    obtain ⟨k', v'⟩ := y
    unfold Sorted at h ih ⊢
    rw [List.pairwise_cons] at h
    simp only [insertKey]
    split_ifs with h1 h2
    · subst h1
      exact List.pairwise_cons.mpr h
    · refine List.pairwise_cons.mpr ⟨?_, List.pairwise_cons.mpr h⟩
      intro x hx
      rcases List.mem_cons.mp hx with rfl | hx
      · exact h2
      · exact lt_trans h2 (h.1 x hx)
    · refine List.pairwise_cons.mpr ⟨?_, ih h.2⟩
      intro x hx
      rcases insertKey_keys _ _ _ _ hx with rfl | hx
      · exact lt_of_le_of_ne (not_lt.mp h2) (Ne.symm h1)
      · exact h.1 x hx

theorem find_none_of_sorted {α : Type} {k : String} {v : α} {l : List (String × α)}
    (h : Sorted ((k, v) :: l)) : find k l = none := by
  unfold Sorted at h
  rw [List.pairwise_cons] at h
  replace h := h.1
  induction l with
  | nil => rfl
  | cons y l ih =>
    have h1 := h y (List.mem_cons_self ..)
    simp only [find]
    rw [if_neg (ne_of_lt h1), ih fun a ha => h a (List.mem_cons_of_mem _ ha)]

theorem find_isSome_iff {α : Type} (k : String) (l : List (String × α)) :
    (find k l).isSome ↔ ∃ v, (k, v) ∈ l := by
  induction l with
  | nil => simp [find]
  | cons y l ih =>
    obtain ⟨k', v'⟩ := y
    simp only [find]
    by_cases h : k = k'
    · subst h; simp
    · rw [if_neg h, ih]; simp [h]

/-! ## Assignments -/

/-- Spec: was `name` declared by these operations? -/
def declared (name : String) : List (Op D O) → Bool
  | [] => false
  | .declare n _ :: rest => n == name || declared name rest
  | .option n _ _ :: rest => n == name || declared name rest
  | _ :: rest => declared name rest

/-- Spec, on operations latest first: the value of the latest assignment to `name` (or default) made when
`name` was declared. -/
def lastValue (name : String) : List (Op D O) → Option (Val D O)
  | [] => none
  | .option n _ v :: rest => if n = name then some v else lastValue name rest
  | .assign n v :: rest => if n = name ∧ declared name rest then some v else lastValue name rest
  | _ :: rest => lastValue name rest

/-- Spec, latest first: the parameter set of the latest deferral of `name`. -/
def lastDeferred (name : String) : List (Op D O) → Option (PSet D O)
  | [] => none
  | .defer n q :: rest => if n = name then some q else lastDeferred name rest
  | _ :: rest => lastDeferred name rest

theorem runOps_append (p : PSet D O) (a b : List (Op D O)) : runOps p (a ++ b) = runOps (runOps p a) b := by
  induction a generalizing p with
  | nil => rfl
  | cons op a ih =>
    simp only [List.cons_append, runOps]
    cases op.run p <;> exact ih _

theorem runOps_state (t : String) (ops : List (Op D O)) (name : String) :
    (runOps (.empty t) ops.reverse).type = t ∧
    (name ∈ (runOps (.empty t) ops.reverse).names ↔ declared name ops = true) ∧
    find name (runOps (.empty t) ops.reverse).params = lastValue name ops ∧
    find name (runOps (.empty t) ops.reverse).deferred = lastDeferred name ops ∧
    Sorted (runOps (.empty t) ops.reverse).deferred := by
  induction ops generalizing name with
  | nil => simp [runOps, PSet.empty, PSet.names, PSet.params, PSet.deferred, PSet.type, declared,
      lastValue, lastDeferred, find, Sorted]
  | cons op ops ih =>
    rw [List.reverse_cons, runOps_append]
    obtain ⟨h1, h2, h3, h4, h5⟩ := ih name
    have hn := fun n => (ih n).2.1
    generalize runOps (.empty t) ops.reverse = p at *
    cases op with
    | declare n k =>
      simp only [runOps, Op.run, PSet.addParameter, PSet.names, PSet.params, PSet.deferred, PSet.type,
        declared, lastValue, lastDeferred, List.mem_append, List.mem_singleton] at *
      refine ⟨h1, ?_, h3, h4, h5⟩
      rw [h2]
      by_cases h : n = name
      · simp [h]
      · simp [h, Ne.symm h]
    | option n k v =>
      have hm : n ∈ (p.addParameter n k).names := by simp [PSet.addParameter, PSet.names]
      simp only [runOps, Op.run, PSet.addOptional, PSet.assign]
      rw [if_neg (not_not.mpr hm)]
      simp only [PSet.addParameter, PSet.names, PSet.params, PSet.deferred, PSet.type,
        declared, lastValue, lastDeferred, List.mem_append, List.mem_singleton, find_insertKey] at *
      refine ⟨h1, ?_, ?_, h4, h5⟩
      · rw [h2]
        by_cases h : n = name
        · simp [h]
        · simp [h, Ne.symm h]
      · by_cases h : n = name
        · simp [h]
        · rw [if_neg (Ne.symm h), if_neg h, h3]
    | assign n v =>
      simp only [runOps, Op.run, PSet.assign]
      by_cases hm : n ∈ p.names
      · rw [if_neg (not_not.mpr hm)]
        have hd := (hn n).mp hm
        simp only [PSet.names, PSet.params, PSet.deferred, PSet.type, declared, lastValue, lastDeferred,
          find_insertKey] at *
        refine ⟨h1, h2, ?_, h4, h5⟩
        by_cases h : n = name
        · subst h; simp [hd]
        · rw [if_neg (Ne.symm h), if_neg (fun hh => h hh.1), h3]
      · rw [if_pos hm]
        have hd : ¬ declared n ops = true := fun h => hm ((hn n).mpr h)
        simp only [declared, lastValue, lastDeferred]
        refine ⟨h1, h2, ?_, h4, h5⟩
        rw [if_neg, h3]
        rintro ⟨rfl, h⟩
        exact hd h
    | defer n q =>
      simp only [runOps, Op.run, PSet.defer, PSet.names, PSet.params, PSet.deferred, PSet.type,
        declared, lastValue, lastDeferred, find_insertKey] at *
      refine ⟨h1, h2, h3, ?_, insertKey_sorted _ _ h5⟩
      by_cases h : n = name
      · simp [h]
      · rw [if_neg (Ne.symm h), if_neg h, h4]

/-- **C09** for every sequence of declarations, defaults, assignments and deferrals: a parameter holds
the last value assigned to it since it was declared (a default counts as an assignment), and an object
deferred to a name is the last one deferred. -/
theorem C09_last_value (t : String) (ops : List (Op D O)) (name : String) :
    find name (runOps (.empty t) ops).params = lastValue name ops.reverse ∧
    find name (runOps (.empty t) ops).deferred = lastDeferred name ops.reverse := by
  have h := runOps_state t ops.reverse name
  rw [List.reverse_reverse] at h
  exact ⟨h.2.2.1, h.2.2.2.1⟩

/-- **C09** an assignment is refused exactly for names that were never declared, and the error names the
type and the parameter. -/
theorem C09_unknown_refused (t : String) (ops : List (Op D O)) (name : String) (v : Val D O) :
    (runOps (.empty t) ops).assign name v = .error (.unknownParameter t name) ↔
      declared name ops.reverse = false := by
  have h := runOps_state t ops.reverse name
  rw [List.reverse_reverse] at h
  unfold PSet.assign
  by_cases hm : name ∈ (runOps (.empty t) ops).names
  · rw [if_neg (not_not.mpr hm)]
    simp [h.2.1.mp hm]
  · rw [if_pos hm, h.1]
    have : ¬ declared name ops.reverse = true := fun hd => hm (h.2.1.mpr hd)
    simpa using this

/-- **C09** reading a parameter back: without pending objects, a value is read back as the kind it was
stored as and the set does not change; asked for as any other kind nothing defined comes back. -/
theorem C09_get (env : Creators D O) (p : PSet D O) (name : String) (k : Kind) (v : Val D O)
    (hd : p.deferred = []) (hv : find name p.params = some v) :
    get env p name k = .ok (if v.kind = some k then some v else none, p) := by
  obtain ⟨t, n, ty, ps, d⟩ := p
  simp only [PSet.deferred, PSet.params] at hd hv
  subst hd
  simp [get, PSet.deferred, PSet.params, PSet.type, PSet.names, PSet.types, resolve, hv]

/-! ## Creation -/

/-- Spec: a parameter set from which an object can be made: the type is registered, every declared
parameter has a value or a pending object, and the pending objects can be made. -/
inductive Ready (env : Creators D O) : PSet D O → Prop
  | mk {t : String} {names : List String} {types : List (String × Kind)}
      {params : List (String × Val D O)} {deferred : List (String × PSet D O)}
      (registered : (env t).isSome)
      (complete : ∀ n ∈ names, (∃ v, (n, v) ∈ params) ∨ ∃ q, (n, q) ∈ deferred)
      (pending : ∀ n q, (n, q) ∈ deferred → Ready env q) :
      Ready env (.mk t names types params deferred)

/-- What a successful resolution of the pending objects leaves. -/
theorem resolve_ok (env : Creators D O) (ds : List (String × PSet D O))
    (params params' : List (String × Val D O)) (h : resolve env ds params = .ok params') :
    (∀ n q, (n, q) ∈ ds → ∃ o, create env q = .ok o) ∧
    (∀ n, (find n params').isSome ↔ (find n params).isSome ∨ (find n ds).isSome) := by
  induction ds generalizing params with
  | nil => simp only [resolve, Except.ok.injEq] at h; subst h; simp [find]
  | cons d ds ih =>
    obtain ⟨name, q⟩ := d
    rcases hc : create env q with e | o <;> simp only [resolve, hc] at h
    · cases h
    · obtain ⟨h1, h2⟩ := ih _ h
      refine ⟨?_, ?_⟩
      · intro n q' hq
        rcases List.mem_cons.mp hq with hq | hq
        · cases hq; exact ⟨o, hc⟩
        · exact h1 n q' hq
      · intro n
        rw [h2, find_insertKey, find]
        by_cases hn : n = name <;> simp [hn]

theorem resolve_of_create (env : Creators D O) (ds : List (String × PSet D O))
    (h : ∀ n q, (n, q) ∈ ds → ∃ o, create env q = .ok o) (params : List (String × Val D O)) :
    ∃ params', resolve env ds params = .ok params' := by
  induction ds generalizing params with
  | nil => exact ⟨params, rfl⟩
  | cons d ds ih =>
    obtain ⟨name, q⟩ := d
    obtain ⟨o, ho⟩ := h name q (List.mem_cons_self ..)
    simp only [resolve, ho]
    exact ih (fun n q' hq => h n q' (List.mem_cons_of_mem _ hq)) _

theorem missing_eq_nil (names : List String) (params : List (String × Val D O)) :
    missing names params = [] ↔ ∀ n ∈ names, (find n params).isSome := by
  simp [missing, List.filter_eq_nil_iff, ← Option.isSome_iff_ne_none]

/-- Constructors that accept every complete parameter set. -/
def Accepting (env : Creators D O) : Prop :=
  ∀ t c, env t = some c → ∀ p, ∃ o, c p = .ok o

theorem ready_of_create_size (env : Creators D O) (k : Nat) :
    ∀ p : PSet D O, sizeOf p < k → (∃ o, create env p = .ok o) → Ready env p := by
  induction k with
  | zero => intro p h; exact absurd h (Nat.not_lt_zero _)
  | succ k ih =>
    rintro ⟨t, names, types, params, deferred⟩ hk ⟨o, h⟩
    rcases hr : resolve env deferred params with e | params' <;> simp only [create, hr] at h
    · cases h
    · obtain ⟨h1, h2⟩ := resolve_ok env deferred params params' hr
      by_cases hm : missing names params' = []
      · rw [if_neg (not_not.mpr hm)] at h
        refine .mk ?_ ?_ ?_
        · cases he : env t with
          | none => simp [he] at h
          | some c => rfl
        · intro n hn
          have := (h2 n).mp ((missing_eq_nil _ _).mp hm n hn)
          exact this.imp (find_isSome_iff _ _).mp (find_isSome_iff _ _).mp
        · intro n q hq
          refine ih q ?_ (h1 n q hq)
          have := List.sizeOf_lt_of_mem hq
          simp only [Prod.mk.sizeOf_spec] at this
          simp only [PSet.mk.sizeOf_spec] at hk
          omega
      · rw [if_pos hm] at h; cases h

theorem ready_of_create (env : Creators D O) (p : PSet D O) (h : ∃ o, create env p = .ok o) :
    Ready env p := ready_of_create_size env _ p (Nat.lt_succ_self _) h

/-- **C09** an object is made from a parameter set exactly when the type is registered and every declared
parameter has a value, at every depth of pending objects. -/
theorem C09_create_iff (env : Creators D O) (hacc : Accepting env) (p : PSet D O) :
    (∃ o, create env p = .ok o) ↔ Ready env p := by
  refine ⟨ready_of_create env p, ?_⟩
  intro h
  induction h with
  | @mk t names types params deferred hreg hcomp hpend ih =>
    obtain ⟨params', hr⟩ := resolve_of_create env deferred ih params
    obtain ⟨-, h2⟩ := resolve_ok env deferred params params' hr
    have hm : missing names params' = [] := (missing_eq_nil _ _).mpr fun n hn => (h2 n).mpr
      ((hcomp n hn).imp (find_isSome_iff _ _).mpr (find_isSome_iff _ _).mpr)
    obtain ⟨c, hc⟩ := Option.isSome_iff_exists.mp hreg
    simp only [create, hr, hm, ne_eq, not_true_eq_false, if_false, hc]
    exact hacc t c hc _

/-- **C09** if the pending objects can be made but declared parameters have no value, the error names the
type and exactly the declared parameters without a value. -/
theorem C09_error_names (env : Creators D O) (t : String) (names : List String)
    (types : List (String × Kind)) (params : List (String × Val D O)) (deferred : List (String × PSet D O))
    (hpend : ∀ n q, (n, q) ∈ deferred → ∃ o, create env q = .ok o)
    (hmiss : ∃ n ∈ names, (¬ ∃ v, (n, v) ∈ params) ∧ ¬ ∃ q, (n, q) ∈ deferred) :
    ∃ ms, create env (.mk t names types params deferred) = .error (.undefinedParameters t ms) ∧
      ∀ n, n ∈ ms ↔ n ∈ names ∧ (¬ ∃ v, (n, v) ∈ params) ∧ ¬ ∃ q, (n, q) ∈ deferred := by
  obtain ⟨params', hr⟩ := resolve_of_create env deferred hpend params
  obtain ⟨-, h2⟩ := resolve_ok env deferred params params' hr
  have hmem : ∀ n, n ∈ missing names params' ↔
      n ∈ names ∧ (¬ ∃ v, (n, v) ∈ params) ∧ ¬ ∃ q, (n, q) ∈ deferred := by
    intro n
    have h3 := h2 n
    rw [find_isSome_iff n params, find_isSome_iff n deferred] at h3
    simp only [missing, List.mem_filter]
    refine and_congr_right fun _ => ?_
    rw [← not_or, ← h3]
    cases find n params' <;> simp
  obtain ⟨n, hn⟩ := hmiss
  have hne : missing names params' ≠ [] := List.ne_nil_of_mem ((hmem n).mpr hn)
  refine ⟨missing names params', ?_, hmem⟩
  simp only [create, hr]
  rw [if_pos hne]

/-- What the resolution of pending objects stores. -/
theorem resolve_values (env : Creators D O) (ds : List (String × PSet D O)) (hs : Sorted ds)
    (params params' : List (String × Val D O)) (h : resolve env ds params = .ok params') (n : String) :
    match find n ds with
    | none => find n params' = find n params
    | some q => ∃ o, create env q = .ok o ∧ find n params' = some (.object o) := by
  induction ds generalizing params with
  | nil => simp only [resolve, Except.ok.injEq] at h; subst h; simp [find]
  | cons d ds ih =>
    obtain ⟨name, q⟩ := d
    rcases hc : create env q with e | o <;> simp only [resolve, hc] at h
    · cases h
    · have h1 := ih (List.Pairwise.of_cons hs) _ h
      simp only [find]
      by_cases hn : n = name
      · subst hn
        rw [find_none_of_sorted hs] at h1
        simp only [if_true]
        refine ⟨o, hc, ?_⟩
        rw [h1, find_insertKey, if_pos rfl]
      · rw [if_neg hn]
        rw [find_insertKey, if_neg hn] at h1
        exact h1

/-- **C09** the constructor sees, under every name, the object made from the last deferral of that name if
there was one and otherwise the last value assigned. -/
theorem C09_constructor_sees (env : Creators D O) (t : String) (ops : List (Op D O)) (o : O)
    (h : create env (runOps (.empty t) ops) = .ok o) :
    ∃ c p, env t = some c ∧ c p = .ok o ∧ p.type = t ∧ p.deferred = [] ∧
      ∀ n, match lastDeferred n ops.reverse with
        | some q => ∃ o', create env q = .ok o' ∧ find n p.params = some (.object o')
        | none => find n p.params = lastValue n ops.reverse := by
  have hs := fun n => runOps_state t ops.reverse n
  simp only [List.reverse_reverse] at hs
  generalize hp : runOps (.empty t) ops = p at *
  obtain ⟨t', names, types, params, deferred⟩ := p
  have ht : t' = t := (hs "").1
  subst ht
  rcases hr : resolve env deferred params with e | params' <;> simp only [create, hr] at h
  · cases h
  · by_cases hm : missing names params' = []
    · rw [if_neg (not_not.mpr hm)] at h
      cases hc : env t' with
      | none => simp [hc] at h
      | some c =>
        simp only [hc] at h
        refine ⟨c, _, rfl, h, rfl, rfl, fun n => ?_⟩
        have hv := resolve_values env deferred (hs n).2.2.2.2 params params' hr n
        have h4 : find n deferred = lastDeferred n ops.reverse := (hs n).2.2.2.1
        have h3 : find n params = lastValue n ops.reverse := (hs n).2.2.1
        rw [h4, h3] at hv
        cases hl : lastDeferred n ops.reverse <;> rw [hl] at hv <;> exact hv
    · rw [if_pos hm] at h; cases h

/-! ## Where the code disagrees -/

/-- **C09** disagreement: asking for an object of a type that is not registered, with nothing missing, ends
in `std::bad_function_call`; the error does not say which type. -/
theorem C09_unregistered_error (env : Creators D O) (t : String) (h : env t = none) :
    create env (.empty t) = .error .badFunctionCall := by
  simp [create, PSet.empty, resolve, missing, h]

/-- **C09** disagreement: a pending object is accepted under a name that was never declared. -/
theorem C09_unknown_deferred_accepted (p : PSet D O) (name : String) (q : PSet D O) :
    find name (p.defer name q).deferred = some q := by
  simp [PSet.defer, PSet.deferred, find_insertKey]

/-- **C09** disagreement: a value assigned after a pending object for the same name is lost. -/
theorem C09_later_value_lost (env : Creators D O) (t : String) (k : Kind) (v : Val D O) (q : PSet D O)
    (o : O) (hq : create env q = .ok o) :
    ∃ p', get env (runOps (.empty t) [.declare "x" k, .defer "x" q, .assign "x" v]) "x" .object =
      .ok (some (.object o), p') := by
  simp [runOps, Op.run, PSet.addParameter, PSet.defer, PSet.assign, PSet.empty, PSet.names, PSet.params,
    PSet.deferred, PSet.types, PSet.type, insertKey, get, resolve, hq, find, Val.kind]

/-- **C09** disagreement: reading a declared parameter that has no value makes it count as assigned, so
that the object is then made without it. -/
theorem C09_reading_completes (env : Creators D O) (hacc : Accepting env) (t : String)
    (ht : (env t).isSome) (k : Kind) :
    (∃ e, create env (runOps (.empty t) [.declare "x" k]) = .error e) ∧
    ∃ p', get env (runOps (.empty t) [.declare "x" k]) "x" k = .ok (none, p') ∧
      ∃ o, create env p' = .ok o := by
  obtain ⟨c, hc⟩ := Option.isSome_iff_exists.mp ht
  constructor
  · simp [runOps, Op.run, PSet.addParameter, PSet.empty, PSet.names, PSet.params, PSet.deferred, PSet.types,
      PSet.type, insertKey, create, resolve, missing, find]
  · refine ⟨_, rfl, ?_⟩
    obtain ⟨o, ho⟩ := hacc t c hc (.mk t ["x"] [("x", k)] [("x", .blank)] [])
    refine ⟨o, ?_⟩
    simpa [runOps, Op.run, PSet.addParameter, PSet.empty, PSet.names, PSet.params, PSet.deferred,
      PSet.types, PSet.type, insertKey, create, resolve, missing, find, hc] using ho

/-! ## Cases -/

/-- A table with one type, whose objects count their parameters. -/
def demoEnv : Creators Int Nat := fun t => if t = "A" then some (fun p => .ok p.params.length) else none

theorem demo_accepting : Accepting demoEnv := by
  intro t c h p
  unfold demoEnv at h
  split_ifs at h
  · cases h; exact ⟨_, rfl⟩

/-- A ready set with a default, an assignment and a pending object. -/
example : Ready demoEnv (runOps (.empty "A")
    [.declare "x" .double, .option "y" .int (.int 3), .declare "z" .object,
      .assign "x" (.double 1), .assign "x" (.double 2), .assign "w" (.int 1), .defer "z" (.empty "A")]) := by
  rw [← C09_create_iff demoEnv demo_accepting]
  exact ⟨3, by decide⟩

example : lastValue "x" ([.declare "x" .double, .option "y" .int (.int 3), .declare "z" .object,
    .assign "x" (.double 1), .assign "x" (.double 2)] : List (Op Int Nat)).reverse =
      some (.double 2) := rfl

/-- A set with two of three parameters missing. -/
example : create demoEnv (runOps (.empty "A") [.declare "x" .double, .declare "y" .int,
    .declare "z" .bool, .assign "y" (.int 1)]) = .error (.undefinedParameters "A" ["x", "z"]) := rfl

end Neml.Objects
