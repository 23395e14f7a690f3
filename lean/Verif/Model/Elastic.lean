import Verif.Model.Mandel
import Mathlib.LinearAlgebra.Matrix.NonsingularInverse

/-!
# Model of the linear elastic models in src/elasticity.cxx

Moduli are values at a temperature. The 6 by 6 matrices act on Mandel vectors.
-/

namespace Neml.Elastic

open Matrix Neml.Mandel

/-- elasticity.h:80-81 `valid_types_`. -/
def validTypes : List String := ["bulk", "shear", "youngs", "poissons"]

/-- elasticity.cxx:185-241 `IsotropicLinearElasticModel::get_GK_`: shear and bulk modulus from two
named constants; `none` is the thrown error. -/
noncomputable def getGK (t1 t2 : String) (m1 m2 : ℝ) : Option (ℝ × ℝ) :=
  if t1 = "shear" ∧ t2 = "bulk" then some (m1, m2)
  else if t1 = "bulk" ∧ t2 = "shear" then some (m2, m1)
  else if t1 = "youngs" ∧ t2 = "poissons" then
    some (m1 / (2 * (1 + m2)), m1 / (3 * (1 - 2 * m2)))
  else if t1 = "poissons" ∧ t2 = "youngs" then
    some (m2 / (2 * (1 + m1)), m2 / (3 * (1 - 2 * m1)))
  else if t1 = "youngs" ∧ t2 = "shear" then some (m2, m1 * m2 / (3 * (3 * m2 - m1)))
  else if t1 = "shear" ∧ t2 = "youngs" then some (m1, m2 * m1 / (3 * (3 * m1 - m2)))
  else if t1 = "youngs" ∧ t2 = "bulk" then some (3 * m2 * m1 / (9 * m2 - m1), m2)
  else if t1 = "bulk" ∧ t2 = "youngs" then some (3 * m1 * m2 / (9 * m1 - m2), m1)
  else if t1 = "poissons" ∧ t2 = "shear" then
    some (m2, 2 * m2 * (1 + m1) / (3 * (1 - 2 * m1)))
  else if t1 = "shear" ∧ t2 = "poissons" then
    some (m1, 2 * m1 * (1 + m2) / (3 * (1 - 2 * m2)))
  else if t1 = "poissons" ∧ t2 = "bulk" then
    some (3 * m2 * (1 - 2 * m1) / (2 * (1 + m1)), m2)
  else if t1 = "bulk" ∧ t2 = "poissons" then
    some (3 * m1 * (1 - 2 * m2) / (2 * (1 + m2)), m1)
  else none

/-- elasticity.cxx:54-71, the constructor's checks; `true` if the model is built. -/
def isoAccepts (t1 t2 : String) : Bool :=
  if t1 = t2 then false
  else if ¬ validTypes.contains t1 then false
  else if ¬ validTypes.contains t2 then false
  else true

/-- elasticity.cxx:54-71 followed by 185-241: constructing the model and asking for the moduli. -/
noncomputable def isoModuli (t1 t2 : String) (m1 m2 : ℝ) : Option (ℝ × ℝ) :=
  if isoAccepts t1 t2 then getGK t1 t2 m1 m2 else none

/-- elasticity.cxx:111-117 `E`. -/
noncomputable def youngs (G K : ℝ) : ℝ := 9 * K * G / (3 * K + G)

/-- elasticity.cxx:119-125 `nu`. -/
noncomputable def poissons (G K : ℝ) : ℝ := (3 * K - 2 * G) / (2 * (3 * K + G))

/-- elasticity.cxx:135-156 `C_calc_`. -/
noncomputable def isoC (G K : ℝ) : Matrix (Fin 6) (Fin 6) ℝ :=
  let l := K - 2 / 3 * G
  !![2 * G + l, l, l, 0, 0, 0;
     l, 2 * G + l, l, 0, 0, 0;
     l, l, 2 * G + l, 0, 0, 0;
     0, 0, 0, 2 * G, 0, 0;
     0, 0, 0, 0, 2 * G, 0;
     0, 0, 0, 0, 0, 2 * G]

/-- elasticity.cxx:158-183 `S_calc_`. -/
noncomputable def isoS (G K : ℝ) : Matrix (Fin 6) (Fin 6) ℝ :=
  let l := K - 2 / 3 * G
  let a := (G + l) / (2 * G * G + 3 * G * l)
  let b := -l / (4 * G * G + 6 * G * l)
  let c := 1 / (2 * G)
  !![a, b, b, 0, 0, 0;
     b, a, b, 0, 0, 0;
     b, b, a, 0, 0, 0;
     0, 0, 0, c, 0, 0;
     0, 0, 0, 0, c, 0;
     0, 0, 0, 0, 0, c]

/-- elasticity.cxx:277-299 `CubicLinearElasticModel::C`. -/
def cubicC (C1 C2 C3 : ℝ) : Matrix (Fin 6) (Fin 6) ℝ :=
  !![C1, C2, C2, 0, 0, 0;
     C2, C1, C2, 0, 0, 0;
     C2, C2, C1, 0, 0, 0;
     0, 0, 0, C3, 0, 0;
     0, 0, 0, 0, C3, 0;
     0, 0, 0, 0, 0, C3]

/-- elasticity.cxx:307-328 `CubicLinearElasticModel::get_components_`. -/
noncomputable def cubicComponents (method : String) (m1 m2 m3 : ℝ) : Option (ℝ × ℝ × ℝ) :=
  if method = "moduli" then
    some (m1 / ((1 + m2) * (1 - 2 * m2)) * (1 - m2), m1 / ((1 + m2) * (1 - 2 * m2)) * m2, 2 * m3)
  else if method = "components" then some (m1, m2, m3)
  else none

/-- elasticity.cxx:369-390 `TransverseIsotropicLinearElasticModel::C`; the last entry is a
parameter here. -/
def hexC (C11 C33 C12 C13 C44 C66 : ℝ) : Matrix (Fin 6) (Fin 6) ℝ :=
  !![C11, C12, C13, 0, 0, 0;
     C12, C11, C13, 0, 0, 0;
     C13, C13, C33, 0, 0, 0;
     0, 0, 0, C44, 0, 0;
     0, 0, 0, 0, C44, 0;
     0, 0, 0, 0, 0, C66]

/-- elasticity.cxx:369-390, line 389: the last entry is half the difference. -/
noncomputable def transC (C11 C33 C12 C13 C44 : ℝ) : Matrix (Fin 6) (Fin 6) ℝ :=
  hexC C11 C33 C12 C13 C44 ((C11 - C12) / 2)

/-- elasticity.cxx:301-305 and 392-396 `S`: the stiffness through `invert_mat`. -/
def inverseS (inv : Matrix (Fin 6) (Fin 6) ℝ → Option (Matrix (Fin 6) (Fin 6) ℝ))
    (C : Matrix (Fin 6) (Fin 6) ℝ) : Option (Matrix (Fin 6) (Fin 6) ℝ) := inv C

end Neml.Elastic
