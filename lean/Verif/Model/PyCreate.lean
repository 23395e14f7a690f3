import Verif.Model.Classes

/-!
# Model of the construction of objects from Python (include/pyhelp.h)

`Py` stands for Python objects. The conversions of pybind11 are parameters: `none` is `py::cast_error`. The last step of the
construction, the cast of the new object to its own class, always succeeds and is left out.
-/

namespace Neml.PyCreate

open Objects

variable {Py D O : Type}

/-- `py::cast` to the types of the parameters, and `make_constant` (interpolate.h). -/
structure Casts (Py D O : Type) where
  toDouble : Py → Option D
  toInt : Py → Option Int
  toBool : Py → Option Bool
  toVecDouble : Py → Option (List D)
  toObject : Py → Option O
  toVecObject : Py → Option (List O)
  toString : Py → Option String
  toSlip : Py → Option (List (List Int × List Int))
  toTwin : Py → Option (List (List Int × List Int × List Int × List Int))
  toSize : Py → Option Nat
  toVecSize : Py → Option (List Nat)
  const : D → O

/-- Exceptions: the number of arguments, a conversion, or an error of the parameter set or the factory. -/
inductive PyErr
  | arity
  | cast
  | neml (e : Err)
  deriving DecidableEq

/-- pyhelp.h:114-179, the cases of `assign_python_parameter`: the value for a parameter of the given kind. -/
def castAs (cs : Casts Py D O) : Kind → Py → Option (Val D O)
  | .double, v => (cs.toDouble v).map .double
  | .int, v => (cs.toInt v).map .int
  | .bool, v => (cs.toBool v).map .bool
  | .vecDouble, v => (cs.toVecDouble v).map .vecDouble
  | .object, v => match cs.toDouble v with
    | some d => some (.object (cs.const d))
    | none => (cs.toObject v).map .object
  | .vecObject, v => match cs.toVecDouble v with
    | some ds => some (.vecObject (ds.map cs.const))
    | none => (cs.toVecObject v).map .vecObject
  | .string, v => (cs.toString v).map .string
  | .slip, v => (cs.toSlip v).map .slip
  | .twin, v => (cs.toTwin v).map .twin
  | .sizeType, v => (cs.toSize v).map .sizeType
  | .vecSizeType, v => (cs.toVecSize v).map .vecSizeType

/-- objects.cxx:52-55 `get_object_type`: a name that is not there gets the first of the kinds. -/
def objectType (p : PSet D O) (name : String) : Kind := (find name p.types).getD .double

/-- pyhelp.h:111-180 `assign_python_parameter`. -/
def assignPython (cs : Casts Py D O) (p : PSet D O) (name : String) (v : Py) : Except PyErr (PSet D O) :=
  match castAs cs (objectType p name) v with
  | none => .error .cast
  | some x => match p.assign name x with
    | .error e => .error (.neml e)
    | .ok p => .ok p

/-- The loops of `create_object_python` (pyhelp.h:195-202). -/
def assignAll (cs : Casts Py D O) (p : PSet D O) : List (String × Py) → Except PyErr (PSet D O)
  | [] => .ok p
  | (n, v) :: rest => match assignPython cs p n v with
    | .error e => .error e
    | .ok p => assignAll cs p rest

/-- The declarations of a class: its static method `parameters` (none of them throws). `dv` are the defaults. -/
def Cls.ops (c : Cls) (dv : String → Val D O) : List (Op D O) :=
  c.params.map fun q => match q.dflt with
    | none => .declare q.name q.kind
    | some _ => .option q.name q.kind (dv q.name)

/-- objects.cxx:103-107 `provide_parameters`. -/
def Cls.provide (c : Cls) (dv : String → Val D O) : PSet D O := runOps (.empty c.name) (c.ops dv)

/-- pyhelp.h:183-206 `create_object_python`. -/
def createPython (env : Creators D O) (cs : Casts Py D O) (dv : String → Val D O) (c : Cls) (args : List Py)
    (kwargs : List (String × Py)) : Except PyErr O :=
  if args.length ≠ c.pos.length then .error .arity
  else match assignAll cs (c.provide dv) (c.pos.zip args) with
    | .error e => .error e
    | .ok p => match assignAll cs p kwargs with
      | .error e => .error e
      | .ok p => match create env p with
        | .error e => .error (.neml e)
        | .ok o => .ok o

/-- deparse.cxx:43-102: what is written for a parameter is read from the slot of its declared kind. -/
def written (env : Creators D O) (p : PSet D O) (name : String) : Except Err (Option (Val D O) × PSet D O) :=
  get env p name (objectType p name)

/-- crystallography.cxx:646-651, 689-694 `current_parameters` of the general and the cubic lattice: the systems the lattice has
now. -/
def currentLattice (p : PSet D O) (slip : List (List Int × List Int))
    (twin : List (List Int × List Int × List Int × List Int)) : Except Err (PSet D O) :=
  match p.assign "slip_systems" (.slip slip) with
  | .error e => .error e
  | .ok p => p.assign "twin_systems" (.twin twin)

end Neml.PyCreate
