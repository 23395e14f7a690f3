import Verif.Model.History

/-!
# Model of the names of the internal variables of composed rules and models

Every rule keeps its variables in a history, under names that begin with the rule's prefix
(history.cxx:483-486). Rules hand their prefix to the rules inside them when they list their
variables; a superposition of flow rules sets the prefixes of its members when it is made. Objects are
shared pointers, so they are numbered here and the prefixes and the stored layouts are kept in a
heap: the same object may occur twice in a tree.

Simplifications: the number of entries of a variable is the length of its list of initial values; a
rule that lists no inner rule is an `own` with its list of variables, whatever its class.
-/

namespace Neml.Names

open Neml.Hist

/-- A variable of one rule: its name without prefix, its type and its initial values. -/
structure V (K : Type) where
  name : String
  ty : STy
  init : List K

/-- Rules and models as trees of numbered objects. -/
inductive Node (K : Type)
  /-- a rule that lists its own variables: isotropic and kinematic hardening (hardening.cxx:24-32,
  305-313), the Chaboche hardenings (643-655, 1015-1027), the linear viscous, Yaguchi and Walker flow
  rules (visco_flow.cxx:911-919, 1337-1357, walker.cxx:1701-1711, 1849-1868) -/
  | own (id : Nat) (vars : List (V K))
  /-- a rule that lists the variables of one inner rule: Perzyna and Chaboche flow
  (visco_flow.cxx:708-723, 1118-1133), the general flow rules (general_flow.cxx:65-74,
  walker.cxx:38-47), rate independent flow (ri_flow.cxx:42-55, 212-225) and the integrators
  (models.cxx:797-806, 1463-1472) -/
  | pass (id : Nat) (inner : Node K)
  /-- combined hardening (hardening.cxx:394-404) -/
  | both (id : Nat) (iso kin : Node K)
  /-- superimposed flow rules (visco_flow.cxx:150-160) -/
  | many (id : Nat) (rules : List (Node K))
  /-- creep plus plasticity (models.cxx:1120-1131) -/
  | creep (id : Nat) (plastic : Node K)
  /-- scalar damage (damage.cxx:17-28, 142-150) -/
  | damage (id : Nat) (d0 : K) (base : Node K)
  /-- the regime model (models.cxx:1677-1688); of the other members only the objects matter -/
  | regime (id : Nat) (first : Node K) (others : List Nat)

/-- The object a tree is rooted at. -/
def Node.id {K : Type} : Node K → Nat
  | .own i _ | .pass i _ | .both i _ _ | .many i _ | .creep i _ | .damage i _ _ | .regime i _ _ => i

/-- The prefixes of the objects, history.cxx:471-481. -/
abbrev Prefixes := Nat → String

/-- history.cxx:471-474 `set_variable_prefix`. -/
def setPrefix (pre : Prefixes) (i : Nat) (p : String) : Prefixes :=
  fun j => if j = i then p else pre j

/-- `set_variable_prefix` on several objects. -/
def setPrefixes (pre : Prefixes) (is : List Nat) (p : String) : Prefixes :=
  is.foldl (fun pre i => setPrefix pre i p) pre

variable {K : Type}

/-- Adding variables under a prefix, as in hardening.cxx:643-648. -/
def addVars (p : String) : List (V K) → Layout → Except Err Layout
  | [], l => .ok l
  | v :: vs, l =>
    match l.add (p ++ v.name) v.ty v.init.length with
    | .error e => .error e
    | .ok l => addVars p vs l

/-- models.cxx:161-167 `populate_static`: the test is made without the prefix. -/
def populateStatic (p : String) (l : Layout) : Except Err Layout :=
  if l.contains "small_stress" then .ok l else l.add (p ++ "small_stress") .symmetric 6

mutual
/-- `populate_hist` of rules and `populate_state` of models (places as in `Node`). -/
def populate : Node K → Prefixes → Layout → Except Err (Prefixes × Layout)
  | .own i vars, pre, l =>
    match addVars (pre i) vars l with
    | .error e => .error e
    | .ok l => .ok (pre, l)
  | .pass i o, pre, l => populate o (setPrefix pre o.id (pre i)) l
  | .both _ a b, pre, l =>
    match populate a pre l with
    | .error e => .error e
    | .ok (pre, l) => populate b pre l
  | .many _ rs, pre, l => populateAll rs pre l
  | .creep i o, pre, l =>
    match populate o (setPrefix pre o.id (pre i)) l with
    | .error e => .error e
    | .ok (pre, l) =>
      match l.add (pre i ++ "plastic_strain") .symmetric 6 with
      | .error e => .error e
      | .ok l => .ok (pre, l)
  | .damage i _ o, pre, l =>
    match l.add (pre i ++ "damage") .scalar 1 with
    | .error e => .error e
    | .ok l => populate o (setPrefix pre o.id (pre i)) l
  | .regime i f os, pre, l =>
    let pre := setPrefixes pre (f.id :: os) (pre i)
    match populateStatic (pre f.id) l with
    | .error e => .error e
    | .ok l => populate f pre l
/-- The loop of visco_flow.cxx:152-153. -/
def populateAll : List (Node K) → Prefixes → Layout → Except Err (Prefixes × Layout)
  | [], pre, l => .ok (pre, l)
  | r :: rs, pre, l =>
    match populate r pre l with
    | .error e => .error e
    | .ok (pre, l) => populateAll rs pre l
end

/-- `hist.get<T>(name) = value`: include/history.h:120-127. -/
def assign (l : Layout) (name : String) (ty : STy) (vals : List K) (m : Nat → K) :
    Except Err (Nat → K) :=
  match l.loc name with
  | none => .error .noSuchName
  | some a =>
    if l.typ name = some ty then
      .ok (fun b => if a ≤ b ∧ b < a + vals.length then (vals[b - a]?).getD (m b) else m b)
    else .error .wrongType

/-- Initial values of the variables of one rule, as in hardening.cxx:650-655. -/
def initVars (l : Layout) (p : String) : List (V K) → (Nat → K) → Except Err (Nat → K)
  | [], m => .ok m
  | v :: vs, m =>
    match assign l (p ++ v.name) v.ty v.init m with
    | .error e => .error e
    | .ok m => initVars l p vs m

/-- history.cxx:262-266 `zero`. -/
def zeroAll [Zero K] (l : Layout) (m : Nat → K) : Nat → K := fun a => if a < l.size then 0 else m a

mutual
/-- `init_hist` of rules and `init_state` of models (places as in `Node`). -/
def initState [Zero K] : Node K → Prefixes → Layout → (Nat → K) → Except Err (Nat → K)
  | .own i vars, pre, l, m => initVars l (pre i) vars m
  | .pass _ o, pre, l, m => initState o pre l m
  | .both _ a b, pre, l, m =>
    match initState a pre l m with
    | .error e => .error e
    | .ok m => initState b pre l m
  | .many _ rs, pre, l, m => initAll rs pre l m
  | .creep i o, pre, l, m =>
    match assign l (pre i ++ "plastic_strain") .symmetric (List.replicate 6 0) m with
    | .error e => .error e
    | .ok m => initState o pre l m
  | .damage i d0 o, pre, l, m =>
    match assign l (pre i ++ "damage") .scalar [d0] m with
    | .error e => .error e
    | .ok m => initState o pre l m
  | .regime _ f _, pre, l, m =>
    match assign l (pre f.id ++ "small_stress") .symmetric (List.replicate 6 0) (zeroAll l m) with
    | .error e => .error e
    | .ok m => initState f pre l m
/-- The loop of visco_flow.cxx:158-159. -/
def initAll [Zero K] : List (Node K) → Prefixes → Layout → (Nat → K) → Except Err (Nat → K)
  | [], _, _, m => .ok m
  | r :: rs, pre, l, m =>
    match initState r pre l m with
    | .error e => .error e
    | .ok m => initAll rs pre l m
end

/-- history.cxx:458-463 `init_store` of a rule. -/
def initStore [Zero K] (o : Node K) (pre : Prefixes) (m : Nat → K) : Except Err (Nat → K) :=
  match populate o pre Layout.empty with
  | .error e => .error e
  | .ok (pre, l) => initState o pre l m

/-- history.cxx:458-463 `init_store` of a model, with models.cxx:28-39. -/
def initModel [Zero K] (o : Node K) (pre : Prefixes) (m : Nat → K) : Except Err (Nat → K) :=
  match populateStatic (pre o.id) Layout.empty with
  | .error e => .error e
  | .ok l =>
    match populate o pre l with
    | .error e => .error e
    | .ok (pre, l) =>
      match assign l (pre o.id ++ "small_stress") .symmetric (List.replicate 6 0) (zeroAll l m) with
      | .error e => .error e
      | .ok m => initState o pre l m

/-! ## Making the objects -/

/-- What has been made so far: prefixes and stored layouts (history.cxx:493-498). -/
structure Heap where
  pre : Prefixes
  stored : Nat → Option Layout

/-- visco_flow.cxx:119-120: the members get the prefixes `model0_`, `model1_`, ... -/
def numberMembers : List (Node K) → Nat → Prefixes → Prefixes
  | [], _, pre => pre
  | r :: rs, k, pre => numberMembers rs (k + 1) (setPrefix pre r.id ("model" ++ Nat.repr k ++ "_"))

/-- history.cxx:438-441, 493-498: the constructor of an object whose parts exist. All the rules that
are ever asked for their stored layout store it; storing it for the others as well changes nothing
that they do. -/
def make (o : Node K) (h : Heap) : Except Err Heap :=
  let pre := setPrefix h.pre o.id ""
  let pre := match o with
    | .many _ rs => numberMembers rs 0 pre
    | _ => pre
  match populate o pre Layout.empty with
  | .error e => .error e
  | .ok (pre, l) => .ok ⟨pre, fun i => if i = o.id then some l else h.stored i⟩

/-- visco_flow.cxx:113-117 `offsets_`: where the variables of member `k` begin, from the sizes the
members had when they were made. -/
def offset (rs : List (Node K)) (h : Heap) (k : Nat) : Nat :=
  ((rs.take k).map fun r => ((h.stored r.id).map Layout.size).getD 0).sum

/-- walker.cxx:1500-1505 with 1713-1722 and 1870-2100: the Walker rules look their variables up, by
the names they have now, in the layout stored when they were made. -/
def readVars (h : Heap) (i : Nat) (vars : List (V K)) : Except Err (List Nat) :=
  vars.mapM fun v =>
    match (h.stored i).getD Layout.empty |>.loc (h.pre i ++ v.name) with
    | none => .error .noSuchName
    | some a => .ok a

end Neml.Names
