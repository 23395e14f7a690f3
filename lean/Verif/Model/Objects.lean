import Mathlib.Data.List.Basic

/-!
# Model of ParameterSet and Factory: src/objects.cxx, include/objects.h

`D` stands for doubles and `O` for created objects. `std::map` is an association list kept in key order.
-/

namespace Neml.Objects

/-- objects.h:87-99 `ParamType`. -/
inductive Kind
  | double | int | bool | vecDouble | object | vecObject | string | slip | sizeType | vecSizeType | twin
  deriving DecidableEq, Repr

/-- objects.h:35-82 `param_type`: a value with the slot it was stored in. `blank` is the default
constructed value, in which no slot has been written. -/
inductive Val (D O : Type)
  | blank
  | double (x : D)
  | int (x : Int)
  | bool (x : Bool)
  | vecDouble (x : List D)
  | object (x : O)
  | vecObject (x : List O)
  | string (x : String)
  | slip (x : List (List Int × List Int))
  | sizeType (x : Nat)
  | vecSizeType (x : List Nat)
  | twin (x : List (List Int × List Int × List Int × List Int))

/-- The slot a value is stored in. -/
def Val.kind {D O : Type} : Val D O → Option Kind
  | .blank => none
  | .double _ => some .double
  | .int _ => some .int
  | .bool _ => some .bool
  | .vecDouble _ => some .vecDouble
  | .object _ => some .object
  | .vecObject _ => some .vecObject
  | .string _ => some .string
  | .slip _ => some .slip
  | .sizeType _ => some .sizeType
  | .vecSizeType _ => some .vecSizeType
  | .twin _ => some .twin

/-- Exceptions. `badFunctionCall` is `std::bad_function_call` from an empty `std::function`;
`construct` is an exception of the constructor of the object. -/
inductive Err
  | unknownParameter (object name : String)
  | undefinedParameters (object : String) (names : List String)
  | badFunctionCall
  | construct (msg : String)
  deriving DecidableEq

/-- objects.h:165-273 `ParameterSet`: the five data members, lines 268-272. -/
inductive PSet (D O : Type)
  | mk (type : String) (names : List String) (types : List (String × Kind))
      (params : List (String × Val D O)) (deferred : List (String × PSet D O))

/-- `map[k] = v` on an association list in key order. -/
def insertKey {α : Type} (k : String) (v : α) : List (String × α) → List (String × α)
  | [] => [(k, v)]
  | (k', v') :: rest =>
    if k = k' then (k, v) :: rest
    else if k < k' then (k, v) :: (k', v') :: rest
    else (k', v') :: insertKey k v rest

/-- `map.find`. -/
def find {α : Type} (k : String) : List (String × α) → Option α
  | [] => none
  | (k', v) :: rest => if k = k' then some v else find k rest

namespace PSet

variable {D O : Type}

/-- objects.cxx:42-45 `type`. -/
def type : PSet D O → String | mk t _ _ _ _ => t
/-- objects.h:261 `param_names`. -/
def names : PSet D O → List String | mk _ n _ _ _ => n
/-- objects.h:270 `param_types_`. -/
def types : PSet D O → List (String × Kind) | mk _ _ t _ _ => t
/-- objects.h:271 `params_`. -/
def params : PSet D O → List (String × Val D O) | mk _ _ _ p _ => p
/-- objects.h:272 `defered_params_`. -/
def deferred : PSet D O → List (String × PSet D O) | mk _ _ _ _ d => d

/-- objects.cxx:31-35, the constructor. -/
def empty (t : String) : PSet D O := mk t [] [] [] []

/-- objects.h:178-183 `add_parameter`. -/
def addParameter (p : PSet D O) (name : String) (k : Kind) : PSet D O :=
  mk p.type (p.names ++ [name]) (insertKey name k p.types) p.params p.deferred

/-- objects.h:186-192 `assign_parameter`. -/
def assign (p : PSet D O) (name : String) (v : Val D O) : Except Err (PSet D O) :=
  if name ∉ p.names then .error (.unknownParameter p.type name)
  else .ok (mk p.type p.names p.types (insertKey name v p.params) p.deferred)

/-- objects.h:195-200 `add_optional_parameter`. -/
def addOptional (p : PSet D O) (name : String) (k : Kind) (v : Val D O) : Except Err (PSet D O) :=
  (p.addParameter name k).assign name v

/-- objects.cxx:47-50 `assign_defered_parameter`. -/
def defer (p : PSet D O) (name : String) (q : PSet D O) : PSet D O :=
  mk p.type p.names p.types p.params (insertKey name q p.deferred)

end PSet

variable {D O : Type}

/-- The factory's table of constructors, objects.h:324. -/
abbrev Creators (D O : Type) := String → Option (PSet D O → Except Err O)

/-- objects.cxx:63-76: the declared names without an entry in `params_`. -/
def missing (names : List String) (params : List (String × Val D O)) : List String :=
  names.filter fun n => (find n params).isNone

mutual

/-- objects.cxx:109-116 `Factory::create`; `create_unique` (118-125) is the same. `fully_assigned`
(78-87) and `unassigned_parameters` (63-76) first resolve the deferred objects. Calling an empty
`std::function` throws. -/
def create (env : Creators D O) : PSet D O → Except Err O
  | .mk type names types params deferred =>
    match resolve env deferred params with
    | .error e => .error e
    | .ok params' =>
      if missing names params' ≠ [] then .error (.undefinedParameters type (missing names params'))
      else match env type with
        | none => .error .badFunctionCall
        | some c => c (.mk type names types params' [])

/-- objects.cxx:89-95 `resolve_objects_`: the loop over the deferred objects, in key order. -/
def resolve (env : Creators D O) : List (String × PSet D O) → List (String × Val D O) →
    Except Err (List (String × Val D O))
  | [], params => .ok params
  | (name, q) :: rest, params =>
    match create env q with
    | .error e => .error e
    | .ok o => resolve env rest (insertKey name (.object o) params)

end

/-- objects.h:203-208 `get_parameter<T>`: resolve, then `params_[name]`, which makes a blank entry if there
is none, then the slot of type `T`. Result `none` is a slot nobody has written. -/
def get (env : Creators D O) (p : PSet D O) (name : String) (k : Kind) :
    Except Err (Option (Val D O) × PSet D O) :=
  match resolve env p.deferred p.params with
  | .error e => .error e
  | .ok params =>
    match find name params with
    | some v => .ok (if v.kind = some k then some v else none, .mk p.type p.names p.types params [])
    | none => .ok (none, .mk p.type p.names p.types (insertKey name .blank params) [])

/-- A use of a parameter set before an object is made from it. -/
inductive Op (D O : Type)
  | declare (name : String) (k : Kind)
  | option (name : String) (k : Kind) (v : Val D O)
  | assign (name : String) (v : Val D O)
  | defer (name : String) (q : PSet D O)

/-- One operation; an operation that throws leaves the set as it was. -/
def Op.run (p : PSet D O) : Op D O → Except Err (PSet D O)
  | .declare n k => .ok (p.addParameter n k)
  | .option n k v => p.addOptional n k v
  | .assign n v => p.assign n v
  | .defer n q => .ok (p.defer n q)

/-- A sequence of operations; a thrown error is caught and the next operation follows. -/
def runOps (p : PSet D O) : List (Op D O) → PSet D O
  | [] => p
  | op :: rest => match op.run p with
    | .ok p' => runOps p' rest
    | .error _ => runOps p rest

end Neml.Objects
