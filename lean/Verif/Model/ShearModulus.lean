import Verif.Model.Elastic
import Verif.Model.Rotation
import Verif.Model.Tensors

/-!
# Model of the rotated elastic tensors and the shear modulus of src/elasticity.cxx

`C` and `S` are the 6 by 6 matrices a linear elastic model returns at a temperature. `none` is an operation of the tensor
classes that has no overload (the code would not compile).
-/

namespace Neml.ShearModulus

open Matrix Neml.Rotation Neml.Tensors

/-- elasticity.cxx:31-39 `C(T, Q)` and `S(T, Q)`. -/
noncomputable def rotated (M : Matrix (Fin 6) (Fin 6) ℝ) (q : Quat) : Matrix (Fin 6) (Fin 6) ℝ := applySymSym q M

/-- elasticity.cxx:50 the direction `dir`. -/
noncomputable def dir (b n : Fin 3 → ℝ) : Ten := sdiv (.two (outer b n)) (norm3 b * norm3 n)

/-- elasticity.cxx:47-52 `G(T, Q, b, n)`. -/
noncomputable def shearAlong (C : Matrix (Fin 6) (Fin 6) ℝ) (q : Quat) (b n : Fin 3 → ℝ) : Option ℝ :=
  (mul (.ss (rotated C q)) (dir b n)).bind fun t => contract (dir b n) t

/-- elasticity.cxx:41-45 `G(T)`; the angles are Kocks angles in radians (rotations.h:135-137). -/
noncomputable def shear (C : Matrix (Fin 6) (Fin 6) ℝ) : Option ℝ :=
  (setEuler "radians" "kocks" 0 0 0).bind fun q => shearAlong C q ![1, 0, 0] ![0, 1, 0]

end Neml.ShearModulus
