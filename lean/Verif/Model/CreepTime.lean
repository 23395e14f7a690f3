import Verif.Model.Creep

/-!
# Model of the time and temperature derivatives of creep models (src/creep.cxx:630-642, 950-988)
-/

namespace Neml.Creep

/-- creep.cxx:630-642: a creep model that does not say otherwise. -/
def defaultDf : (Fin 6 → ℝ) → (Fin 6 → ℝ) → ℝ → ℝ → Fin 6 → ℝ := fun _ _ _ _ _ => 0

/-- creep.cxx:950-968 `J2CreepModel::df_dt`. -/
noncomputable def j2dt (eps : ℝ) (r : Scalar) (s e : Fin 6 → ℝ) (t T : ℝ) : Fin 6 → ℝ :=
  fun i => sdir eps s i * (3 / 2 * r.dg_dt (seq s) (eeq e) t T)

/-- creep.cxx:970-988 `J2CreepModel::df_dT`. -/
noncomputable def j2dT (eps : ℝ) (r : Scalar) (s e : Fin 6 → ℝ) (t T : ℝ) : Fin 6 → ℝ :=
  fun i => sdir eps s i * (3 / 2 * r.dg_dT (seq s) (eeq e) t T)

end Neml.Creep
