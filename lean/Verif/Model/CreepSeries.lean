import Verif.Model.Creep
import Verif.Model.SmallStrain

/-!
# Model of `SmallStrainCreepPlasticity` with its two solvers

`Model/SmallStrain.lean` has residual, tangent and update with the solver as a parameter. Here the solver is the
Newton iteration of `Model/Newton.lean` and the creep strain comes from `CreepModel::update`, which has a Newton
iteration of its own.
-/

namespace Neml.CreepSeries

open Neml.SmallStrain

/-- models.cxx:494-516 `SmallStrainElasticity::update_sd_actual` as a model without history. -/
noncomputable def elasticModel (el : Elastic ℝ (Fin 6)) (T1 : ℝ) : Model ℝ (Fin 6) Unit := fun e1 e0 s0 h0 u0 p0 =>
  let r := elasticUpdate el e1 e0 T1 s0 u0 p0
  some ⟨r.1, h0, r.2.1, r.2.2.1, r.2.2.2⟩

/-- models.cxx:1195-1245 `init_x` and `RJ` of `SmallStrainCreepPlasticity`: the system handed to the solver, which
starts from the old strain of the plastic part. -/
noncomputable def cpSystem {H : Type} (pl : Model ℝ (Fin 6) H) (cr : SmallStrain.Creep ℝ (Fin 6)) (scale : ℝ)
    (e1 e0 ep s0 : Fin 6 → ℝ) (h0 : H) : Newton.System 6 where
  init := ep
  RJ := cpRJ pl cr scale e1 e0 ep s0 h0

/-- models.cxx:1144-1150 the call of `solve`. -/
noncomputable def cpSolve {H : Type} (pl : Model ℝ (Fin 6) H) (cr : SmallStrain.Creep ℝ (Fin 6)) (scale : ℝ)
    (lin : Matrix (Fin 6) (Fin 6) ℝ → (Fin 6 → ℝ) → Option (Fin 6 → ℝ)) (p : Newton.Params) (fuel : ℕ)
    (e1 e0 ep s0 : Fin 6 → ℝ) (h0 : H) : Option (Fin 6 → ℝ) :=
  match Newton.newton (cpSystem pl cr scale e1 e0 ep s0 h0) lin p fuel with
  | some (.ok it) => some it.x
  | _ => none

/-- Settings of the two solvers: scale factor and parameters of the outer one (models.cxx:1100-1108), parameters of
the inner one (creep.cxx:837-841), bounds of the loops, and LAPACK. -/
structure Settings where
  scale : ℝ
  outer : Newton.Params
  inner : Newton.Params
  fuel : ℕ
  lin : Matrix (Fin 6) (Fin 6) ℝ → (Fin 6 → ℝ) → Option (Fin 6 → ℝ)
  inv : Matrix (Fin 6) (Fin 6) ℝ → Option (Matrix (Fin 6) (Fin 6) ℝ)

/-- creep.cxx:645-665 `CreepModel::update` at the temperature and times of a step. -/
noncomputable def creepOf (m : Creep.Model) (c : Settings) (T1 t1 t0 : ℝ) : SmallStrain.Creep ℝ (Fin 6) :=
  fun s en => Creep.update m c.lin c.inv c.inner c.fuel T1 t1 t0 s en

/-- models.cxx:1133-1187 `SmallStrainCreepPlasticity::update_sd_actual` with both solvers. -/
noncomputable def seriesUpdate {H : Type} (pl : Model ℝ (Fin 6) H) (m : Creep.Model) (c : Settings) (T1 t1 t0 : ℝ) :
    Model ℝ (Fin 6) ((Fin 6 → ℝ) × H) :=
  cpUpdate pl (creepOf m c T1 t1 t0) (cpSolve pl (creepOf m c T1 t1 t0) c.scale c.lin c.outer c.fuel) c.inv

end Neml.CreepSeries
