import Mathlib.Data.List.Basic
import Mathlib.Logic.Function.Basic

/-!
# Model of `set_elastic_model` (src/models.cxx, src/damage.cxx, src/general_flow.cxx, src/walker.cxx)

Objects live in a memory and refer to each other by shared pointers, so two models may have a part in common. An object is made
after its parts, so the numbers of its parts are smaller than its own. Only objects that keep an elastic model are listed: yield
surfaces, hardening rules, viscoplastic flow rules and creep models keep none.
-/

namespace Neml.ElasticSwitch

/-- The classes with a member `elastic_`. -/
inductive Kind
  /-- `SmallStrainElasticity`, `SmallStrainPerfectPlasticity`, `SmallStrainRateIndependentPlasticity`: no parts (models.cxx:99) -/
  | simple
  /-- `SmallStrainCreepPlasticity`: the plastic model (models.cxx:1073-1086) -/
  | creepPlasticity
  /-- `GeneralIntegrator`: the flow rule (models.cxx:1311-1322) -/
  | integrator
  /-- `TVPFlowRule` and `WalkerKremplSwitchRule`: no parts (general_flow.cxx:36-42, walker.cxx:5-13) -/
  | flowRule
  /-- `KMRegimeModel`: the models (models.cxx:1610-1619) -/
  | regime
  /-- `NEMLScalarDamagedModel_sd`: the base model, then the damage model (damage.cxx:10-15, 37-41) -/
  | damaged
  /-- `ScalarDamage`, with the parts of a `CombinedDamage` (damage.cxx:327-332, 396-400) -/
  | damage
deriving DecidableEq

/-- An object: its class, its parts, the member `elastic_`, and the parameter `elastic` it keeps in `current_params_`
(objects.cxx:10-13). -/
structure Obj (E : Type) where
  kind : Kind
  parts : List ℕ
  elastic : E
  param : E

/-- Memory. -/
abbrev Heap (E : Type) := ℕ → Obj E

variable {E : Type}

/-- The parts `set_elastic_model` hands the new model to: models.cxx:190-193, 1304-1308, 1602-1607, 1706-1712,
general_flow.cxx:338-341, walker.cxx:328-331, damage.cxx:30-35. -/
def Obj.visits (o : Obj E) : List ℕ :=
  match o.kind with
  | .simple => []
  | .creepPlasticity => o.parts
  | .integrator => o.parts
  | .flowRule => []
  | .regime => o.parts
  | .damaged => o.parts.take 1
  | .damage => []

/-- `set_elastic_model`, `fuel` deep: the member of the object, then the parts in order. -/
def setElasticFuel (e : E) : ℕ → Heap E → ℕ → Heap E
  | 0, h, _ => h
  | fuel + 1, h, i =>
    (h i).visits.foldl (setElasticFuel e fuel) (Function.update h i { h i with elastic := e })

/-- `set_elastic_model` on object `i`: its parts are below it. -/
def setElastic (h : Heap E) (i : ℕ) (e : E) : Heap E := setElasticFuel e (i + 1) h i

/-- models.cxx:174-177 `elastic()`. -/
def elastic (h : Heap E) (i : ℕ) : E := (h i).elastic

/-- objects.cxx:15-23 `current_parameters` and `serialize`: the elastic model that is written out. -/
def savedElastic (h : Heap E) (i : ℕ) : E := (h i).param

end Neml.ElasticSwitch
