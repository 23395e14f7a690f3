import Mathlib.Data.List.Basic

/-!
# Model of the stored-variable layout of composed small strain models

`populate_state`/`init_state` build the list a model reports; `update_sd_actual` addresses a flat
array by offsets. Both are modelled here, as lists of named groups of numbers, so that they can be
compared. Variable prefixes are left out.
-/

namespace Neml.Layout

/-- One stored variable: its name and its initial values (one number for a scalar, six for a
symmetric tensor, ...). -/
structure Var (K : Type) where
  name : String
  init : List K
  deriving DecidableEq

/-- Small strain models as trees. `leaf` stands for any model that owns its variables: elasticity,
perfect plasticity, rate independent plasticity, the general integrator. -/
inductive Tree (K : Type)
  | leaf (vars : List (Var K))
  | creepPlastic (plastic : Tree K)
  | damage (d0 : K) (base : Tree K)
  /-- the regime model; the first member is kept apart since the code reads `models_[0]` -/
  | km (first : Tree K) (others : List (Tree K))

variable {K : Type} [Zero K]

/-- models.cxx:161-167 `populate_static` with 156-159 `init_static`. -/
def populateStatic (h : List (Var K)) : List (Var K) :=
  if h.any (fun v => v.name = "small_stress") then h
  else h ++ [⟨"small_stress", List.replicate 6 0⟩]

/-- history.cxx:262-266 `zero`: the values of everything in the list. -/
def zeroed (h : List (Var K)) : List (Var K) :=
  h.map (fun v => ⟨v.name, List.replicate v.init.length 0⟩)

/-- `populate_state` and `init_state`: models.cxx:1120-1131 (creep plus plasticity),
damage.cxx:17-28 and 144-152 (damage), models.cxx:1677-1688 (regime). Names are assumed distinct, so
initialization by name is initialization in place. The regime model hands over to `init_hist` of its
first member, which sets the whole history to zero (models.cxx:34-39), including what the models
around the regime model have already written. -/
def populateState : Tree K → List (Var K) → List (Var K)
  | .leaf vars, h => h ++ vars
  | .creepPlastic pl, h => populateState pl h ++ [⟨"plastic_strain", List.replicate 6 0⟩]
  | .damage d0 b, h => populateState b (h ++ [⟨"damage", [d0]⟩])
  | .km m _, h => populateState m (populateStatic (zeroed h))

/-- models.cxx:28-39 `populate_hist`/`init_hist`: what the model reports and how it is initialized. -/
def reported (m : Tree K) : List (Var K) := populateState m (populateStatic [])

/-- Flat storage of a list of variables. -/
def flat (vs : List (Var K)) : List K := vs.flatMap (fun v => v.init)

/-- models.cxx:69-72 `nstate`. -/
def nstate (m : Tree K) : Nat := (flat (populateState m [])).length

/-- models.cxx:74-77 `nstatic`. -/
def nstatic (_ : Tree K) : Nat := (flat (populateStatic ([] : List (Var K)))).length

/-- history.cxx `nstore`. -/
def nstore (m : Tree K) : Nat := (flat (reported m)).length

/-- The variables in the order in which `update_sd_actual` addresses its array:
models.cxx:1145-1155 and 1247-1267 (creep plus plasticity keeps its strain at offset 0 and hands
offset 6 to the plastic model), damage.cxx:175-252 (damage at 0, base model from 1),
models.cxx:1650-1675 (the regime model hands its array on; its members are taken to have the same
variables, which the code does not check). -/
def used : Tree K → List (Var K)
  | .leaf vars => vars
  | .creepPlastic pl => ⟨"plastic_strain", List.replicate 6 0⟩ :: used pl
  | .damage d0 b => ⟨"damage", [d0]⟩ :: used b
  | .km m _ => used m

/-- models.cxx:141-154 `update_sd` and 129: the stress slot, then the state from `nstatic`. -/
def usedStore (m : Tree K) : List (Var K) := ⟨"small_stress", List.replicate 6 0⟩ :: used m

end Neml.Layout
