import Mathlib.Data.Real.Sqrt
import Mathlib.LinearAlgebra.Matrix.Notation

/-!
# Model of the tensor conversion helpers of src/math/nemlmath.cxx and src/block.cxx

A flat row-major array of length 9 holding a second order tensor is a 3 by 3 matrix, or its flat
form `vec9`; a flat array of length 81 is a 9 by 9 matrix, one of length 36 a 6 by 6 matrix, one of
length 18 a 6 by 3 or 3 by 6 matrix (row index = index / row length). Entries are copied from the
source one by one.
-/

namespace Neml.Mandel

open Matrix

/-- `CINDEX(i,j,3)` (nemlmath.h:13): the flat form of a 3 by 3 matrix. -/
def vec9 (A : Matrix (Fin 3) (Fin 3) ℝ) : Fin 9 → ℝ :=
  ![A 0 0, A 0 1, A 0 2, A 1 0, A 1 1, A 1 2, A 2 0, A 2 1, A 2 2]

/-- The 3 by 3 matrix of a flat array of length 9. -/
def mat9 (v : Fin 9 → ℝ) : Matrix (Fin 3) (Fin 3) ℝ :=
  !![v 0, v 1, v 2; v 3, v 4, v 5; v 6, v 7, v 8]

/-- nemlmath.cxx:740-748 `sym`. -/
noncomputable def sym (A : Matrix (Fin 3) (Fin 3) ℝ) : Fin 6 → ℝ :=
  ![A 0 0, A 1 1, A 2 2, √2 * A 1 2, √2 * A 0 2, √2 * A 0 1]

/-- nemlmath.cxx:750-761 `usym`. -/
noncomputable def usym (v : Fin 6 → ℝ) : Matrix (Fin 3) (Fin 3) ℝ :=
  !![v 0, v 5 / √2, v 4 / √2; v 5 / √2, v 1, v 3 / √2; v 4 / √2, v 3 / √2, v 2]

/-- nemlmath.cxx:763-768 `skew`. -/
def skew (A : Matrix (Fin 3) (Fin 3) ℝ) : Fin 3 → ℝ := ![-A 1 2, A 0 2, -A 0 1]

/-- nemlmath.cxx:770-781 `uskew`. -/
def uskew (v : Fin 3 → ℝ) : Matrix (Fin 3) (Fin 3) ℝ :=
  !![0, -v 2, v 1; v 2, 0, -v 0; -v 1, v 0, 0]

/-- nemlmath.cxx:830-836 `dev_vec`. -/
noncomputable def devVec (a : Fin 6 → ℝ) : Fin 6 → ℝ :=
  let tr := (a 0 + a 1 + a 2) / 3
  ![a 0 - tr, a 1 - tr, a 2 - tr, a 3, a 4, a 5]

/-- nemlmath.cxx:642-726 `truesdell_mat`. -/
noncomputable def truesdellMat (D : Fin 6 → ℝ) (W : Fin 3 → ℝ) : Matrix (Fin 9) (Fin 9) ℝ :=
  !![-D 0 + D 1 + D 2 + 1, -√2 * D 5 / 2 + W 2, -√2 * D 4 / 2 - W 1, -√2 * D 5 / 2 + W 2, 0, 0, -√2
      * D 4 / 2 - W 1, 0, 0;
     -√2 * D 5 / 2 - W 2, D 2 + 1, -√2 * D 3 / 2 + W 0, 0, -√2 * D 5 / 2 + W 2, 0, 0, -√2 * D 4 / 2
      - W 1, 0;
     -√2 * D 4 / 2 + W 1, -√2 * D 3 / 2 - W 0, D 1 + 1, 0, 0, -√2 * D 5 / 2 + W 2, 0, 0, -√2 * D 4 /
      2 - W 1;
     -√2 * D 5 / 2 - W 2, 0, 0, D 2 + 1, -√2 * D 5 / 2 + W 2, -√2 * D 4 / 2 - W 1, -√2 * D 3 / 2 + W
      0, 0, 0;
     0, -√2 * D 5 / 2 - W 2, 0, -√2 * D 5 / 2 - W 2, D 0 - D 1 + D 2 + 1, -√2 * D 3 / 2 + W 0, 0,
      -√2 * D 3 / 2 + W 0, 0;
     0, 0, -√2 * D 5 / 2 - W 2, -√2 * D 4 / 2 + W 1, -√2 * D 3 / 2 - W 0, D 0 + 1, 0, 0, -√2 * D 3 /
      2 + W 0;
     -√2 * D 4 / 2 + W 1, 0, 0, -√2 * D 3 / 2 - W 0, 0, 0, D 1 + 1, -√2 * D 5 / 2 + W 2, -√2 * D 4 /
      2 - W 1;
     0, -√2 * D 4 / 2 + W 1, 0, 0, -√2 * D 3 / 2 - W 0, 0, -√2 * D 5 / 2 - W 2, D 0 + 1, -√2 * D 3 /
      2 + W 0;
     0, 0, -√2 * D 4 / 2 + W 1, 0, 0, -√2 * D 3 / 2 - W 0, -√2 * D 4 / 2 + W 1, -√2 * D 3 / 2 - W 0,
      D 0 + D 1 - D 2 + 1]

/-- nemlmath.cxx:728-738 `truesdell_rhs`. -/
noncomputable def truesdellRhs (D : Fin 6 → ℝ) (W : Fin 3 → ℝ) (Sn So : Fin 6 → ℝ) : Fin 6 → ℝ :=
  ![D 0 * Sn 0 - D 1 * Sn 0 - D 2 * Sn 0 + D 4 * Sn 4 + D 5 * Sn 5 + √2 * Sn 4 * W 1 - √2 * Sn 5 *
      W 2 + So 0, -D 0 * Sn 1 + D 1 * Sn 1 - D 2 * Sn 1 + D 3 * Sn 3 + D 5 * Sn 5 - √2 * Sn 3 * W 0 +
      √2 * Sn 5 * W 2 + So 1, -D 0 * Sn 2 - D 1 * Sn 2 + D 2 * Sn 2 + D 3 * Sn 3 + D 4 * Sn 4 + √2 *
      Sn 3 * W 0 - √2 * Sn 4 * W 1 + So 2, √2 * (-√2 * D 0 * Sn 3 / 2 + √2 * D 3 * Sn 1 / 2 + √2 * D
      3 * Sn 2 / 2 + D 4 * Sn 5 / 2 + D 5 * Sn 4 / 2 + Sn 1 * W 0 - Sn 2 * W 0 + √2 * Sn 4 * W 2 / 2
      - √2 * Sn 5 * W 1 / 2 + √2 * So 3 / 2), √2 * (-√2 * D 1 * Sn 4 / 2 + D 3 * Sn 5 / 2 + √2 * D 4
      * Sn 0 / 2 + √2 * D 4 * Sn 2 / 2 + D 5 * Sn 3 / 2 - Sn 0 * W 1 + Sn 2 * W 1 - √2 * Sn 3 * W 2 /
      2 + √2 * Sn 5 * W 0 / 2 + √2 * So 4 / 2), √2 * (-√2 * D 2 * Sn 5 / 2 + D 3 * Sn 4 / 2 + D 4 *
      Sn 3 / 2 + √2 * D 5 * Sn 0 / 2 + √2 * D 5 * Sn 1 / 2 + Sn 0 * W 2 - Sn 1 * W 2 + √2 * Sn 3 * W
      1 / 2 - √2 * Sn 4 * W 0 / 2 + √2 * So 5 / 2)]

/-- nemlmath.cxx:199-282 `truesdell_tangent_outer`. -/
noncomputable def truesdellTangentOuter (S : Fin 6 → ℝ) : Matrix (Fin 9) (Fin 9) ℝ :=
  !![S 0, √2 * S 5, √2 * S 4, 0, -S 0, 0, 0, 0, -S 0;
     0, S 1, √2 * S 3 / 2, S 0, 0, √2 * S 4 / 2, 0, 0, -√2 * S 5 / 2;
     0, √2 * S 3 / 2, S 2, 0, -√2 * S 4 / 2, 0, S 0, √2 * S 5 / 2, 0;
     0, S 1, √2 * S 3 / 2, S 0, 0, √2 * S 4 / 2, 0, 0, -√2 * S 5 / 2;
     -S 1, 0, 0, √2 * S 5, S 1, √2 * S 3, 0, 0, -S 1;
     -√2 * S 3 / 2, 0, 0, √2 * S 4 / 2, 0, S 2, √2 * S 5 / 2, S 1, 0;
     0, √2 * S 3 / 2, S 2, 0, -√2 * S 4 / 2, 0, S 0, √2 * S 5 / 2, 0;
     -√2 * S 3 / 2, 0, 0, √2 * S 4 / 2, 0, S 2, √2 * S 5 / 2, S 1, 0;
     -S 2, 0, 0, 0, -S 2, 0, √2 * S 4, √2 * S 3, S 2]

/-- nemlmath.cxx:498-536 `full2mandel`. -/
noncomputable def full2mandel (A : Matrix (Fin 9) (Fin 9) ℝ) : Matrix (Fin 6) (Fin 6) ℝ :=
  !![A 0 0, A 0 4, A 0 8, √2 * A 0 5, √2 * A 0 2, √2 * A 0 1;
     A 4 0, A 4 4, A 4 8, √2 * A 4 5, √2 * A 4 2, √2 * A 4 1;
     A 8 0, A 8 4, A 8 8, √2 * A 8 5, √2 * A 8 2, √2 * A 8 1;
     √2 * A 5 0, √2 * A 5 4, √2 * A 5 8, 2 * A 5 5, 2 * A 5 2, 2 * A 5 1;
     √2 * A 2 0, √2 * A 2 4, √2 * A 2 8, 2 * A 2 5, 2 * A 2 2, 2 * A 2 1;
     √2 * A 1 0, √2 * A 1 4, √2 * A 1 8, 2 * A 1 5, 2 * A 1 2, 2 * A 1 1]

/-- nemlmath.cxx:538-621 `mandel2full`. -/
noncomputable def mandel2full (M : Matrix (Fin 6) (Fin 6) ℝ) : Matrix (Fin 9) (Fin 9) ℝ :=
  !![M 0 0, √2 * M 0 5 / 2, √2 * M 0 4 / 2, √2 * M 0 5 / 2, M 0 1, √2 * M 0 3 / 2, √2 * M 0 4 / 2,
      √2 * M 0 3 / 2, M 0 2;
     √2 * M 5 0 / 2, M 5 5 / 2, M 5 4 / 2, M 5 5 / 2, √2 * M 5 1 / 2, M 5 3 / 2, M 5 4 / 2, M 5 3 /
      2, √2 * M 5 2 / 2;
     √2 * M 4 0 / 2, M 4 5 / 2, M 4 4 / 2, M 4 5 / 2, √2 * M 4 1 / 2, M 4 3 / 2, M 4 4 / 2, M 4 3 /
      2, √2 * M 4 2 / 2;
     √2 * M 5 0 / 2, M 5 5 / 2, M 5 4 / 2, M 5 5 / 2, √2 * M 5 1 / 2, M 5 3 / 2, M 5 4 / 2, M 5 3 /
      2, √2 * M 5 2 / 2;
     M 1 0, √2 * M 1 5 / 2, √2 * M 1 4 / 2, √2 * M 1 5 / 2, M 1 1, √2 * M 1 3 / 2, √2 * M 1 4 / 2,
      √2 * M 1 3 / 2, M 1 2;
     √2 * M 3 0 / 2, M 3 5 / 2, M 3 4 / 2, M 3 5 / 2, √2 * M 3 1 / 2, M 3 3 / 2, M 3 4 / 2, M 3 3 /
      2, √2 * M 3 2 / 2;
     √2 * M 4 0 / 2, M 4 5 / 2, M 4 4 / 2, M 4 5 / 2, √2 * M 4 1 / 2, M 4 3 / 2, M 4 4 / 2, M 4 3 /
      2, √2 * M 4 2 / 2;
     √2 * M 3 0 / 2, M 3 5 / 2, M 3 4 / 2, M 3 5 / 2, √2 * M 3 1 / 2, M 3 3 / 2, M 3 4 / 2, M 3 3 /
      2, √2 * M 3 2 / 2;
     M 2 0, √2 * M 2 5 / 2, √2 * M 2 4 / 2, √2 * M 2 5 / 2, M 2 1, √2 * M 2 3 / 2, √2 * M 2 4 / 2,
      √2 * M 2 3 / 2, M 2 2]

/-- nemlmath.cxx:284-304 `full2skew`. -/
noncomputable def full2skew (A : Matrix (Fin 9) (Fin 9) ℝ) : Matrix (Fin 6) (Fin 3) ℝ :=
  !![-A 0 5, A 0 2, -A 0 1;
     -A 4 5, A 4 2, -A 4 1;
     -A 8 5, A 8 2, -A 8 1;
     -√2 * A 5 5, √2 * A 5 2, -√2 * A 5 1;
     -√2 * A 2 5, √2 * A 2 2, -√2 * A 2 1;
     -√2 * A 1 5, √2 * A 1 2, -√2 * A 1 1]

/-- nemlmath.cxx:306-389 `skew2full`. -/
noncomputable def skew2full (M : Matrix (Fin 6) (Fin 3) ℝ) : Matrix (Fin 9) (Fin 9) ℝ :=
  !![0, -M 0 2, M 0 1, M 0 2, 0, -M 0 0, -M 0 1, M 0 0, 0;
     0, -√2 * M 5 2 / 2, √2 * M 5 1 / 2, √2 * M 5 2 / 2, 0, -√2 * M 5 0 / 2, -√2 * M 5 1 / 2, √2 * M
      5 0 / 2, 0;
     0, -√2 * M 4 2 / 2, √2 * M 4 1 / 2, √2 * M 4 2 / 2, 0, -√2 * M 4 0 / 2, -√2 * M 4 1 / 2, √2 * M
      4 0 / 2, 0;
     0, -√2 * M 5 2 / 2, √2 * M 5 1 / 2, √2 * M 5 2 / 2, 0, -√2 * M 5 0 / 2, -√2 * M 5 1 / 2, √2 * M
      5 0 / 2, 0;
     0, -M 1 2, M 1 1, M 1 2, 0, -M 1 0, -M 1 1, M 1 0, 0;
     0, -√2 * M 3 2 / 2, √2 * M 3 1 / 2, √2 * M 3 2 / 2, 0, -√2 * M 3 0 / 2, -√2 * M 3 1 / 2, √2 * M
      3 0 / 2, 0;
     0, -√2 * M 4 2 / 2, √2 * M 4 1 / 2, √2 * M 4 2 / 2, 0, -√2 * M 4 0 / 2, -√2 * M 4 1 / 2, √2 * M
      4 0 / 2, 0;
     0, -√2 * M 3 2 / 2, √2 * M 3 1 / 2, √2 * M 3 2 / 2, 0, -√2 * M 3 0 / 2, -√2 * M 3 1 / 2, √2 * M
      3 0 / 2, 0;
     0, -M 2 2, M 2 1, M 2 2, 0, -M 2 0, -M 2 1, M 2 0, 0]

/-- nemlmath.cxx:391-411 `full2wws`. -/
noncomputable def full2wws (A : Matrix (Fin 9) (Fin 9) ℝ) : Matrix (Fin 3) (Fin 6) ℝ :=
  !![-A 5 0, -A 5 4, -A 5 8, -√2 * A 5 5, -√2 * A 5 2, -√2 * A 5 1;
     A 2 0, A 2 4, A 2 8, √2 * A 2 5, √2 * A 2 2, √2 * A 2 1;
     -A 1 0, -A 1 4, -A 1 8, -√2 * A 1 5, -√2 * A 1 2, -√2 * A 1 1]

/-- nemlmath.cxx:413-496 `wws2full`. -/
noncomputable def wws2full (M : Matrix (Fin 3) (Fin 6) ℝ) : Matrix (Fin 9) (Fin 9) ℝ :=
  !![0, 0, 0, 0, 0, 0, 0, 0, 0;
     -M 2 0, -√2 * M 2 5 / 2, -√2 * M 2 4 / 2, -√2 * M 2 5 / 2, -M 2 1, -√2 * M 2 3 / 2, -√2 * M 2 4
      / 2, -√2 * M 2 3 / 2, -M 2 2;
     M 1 0, √2 * M 1 5 / 2, √2 * M 1 4 / 2, √2 * M 1 5 / 2, M 1 1, √2 * M 1 3 / 2, √2 * M 1 4 / 2,
      √2 * M 1 3 / 2, M 1 2;
     M 2 0, √2 * M 2 5 / 2, √2 * M 2 4 / 2, √2 * M 2 5 / 2, M 2 1, √2 * M 2 3 / 2, √2 * M 2 4 / 2,
      √2 * M 2 3 / 2, M 2 2;
     0, 0, 0, 0, 0, 0, 0, 0, 0;
     -M 0 0, -√2 * M 0 5 / 2, -√2 * M 0 4 / 2, -√2 * M 0 5 / 2, -M 0 1, -√2 * M 0 3 / 2, -√2 * M 0 4
      / 2, -√2 * M 0 3 / 2, -M 0 2;
     -M 1 0, -√2 * M 1 5 / 2, -√2 * M 1 4 / 2, -√2 * M 1 5 / 2, -M 1 1, -√2 * M 1 3 / 2, -√2 * M 1 4
      / 2, -√2 * M 1 3 / 2, -M 1 2;
     M 0 0, √2 * M 0 5 / 2, √2 * M 0 4 / 2, √2 * M 0 5 / 2, M 0 1, √2 * M 0 3 / 2, √2 * M 0 4 / 2,
      √2 * M 0 3 / 2, M 0 2;
     0, 0, 0, 0, 0, 0, 0, 0, 0]

/-- nemlmath.cxx:114-197 `transform_fourth`. -/
noncomputable def transformFourth (D : Matrix (Fin 6) (Fin 6) ℝ) (W : Matrix (Fin 6) (Fin 3) ℝ) : Matrix (Fin 9) (Fin 9) ℝ :=
  !![D 0 0, √2 * D 0 5 / 2 - W 0 2 / 2, √2 * D 0 4 / 2 + W 0 1 / 2, √2 * D 0 5 / 2 + W 0 2 / 2, D 0
      1, √2 * D 0 3 / 2 - W 0 0 / 2, √2 * D 0 4 / 2 - W 0 1 / 2, √2 * D 0 3 / 2 + W 0 0 / 2, D 0 2;
     √2 * D 5 0 / 2, D 5 5 / 2 - √2 * W 5 2 / 4, D 5 4 / 2 + √2 * W 5 1 / 4, D 5 5 / 2 + √2 * W 5 2
      / 4, √2 * D 5 1 / 2, D 5 3 / 2 - √2 * W 5 0 / 4, D 5 4 / 2 - √2 * W 5 1 / 4, D 5 3 / 2 + √2 * W
      5 0 / 4, √2 * D 5 2 / 2;
     √2 * D 4 0 / 2, D 4 5 / 2 - √2 * W 4 2 / 4, D 4 4 / 2 + √2 * W 4 1 / 4, D 4 5 / 2 + √2 * W 4 2
      / 4, √2 * D 4 1 / 2, D 4 3 / 2 - √2 * W 4 0 / 4, D 4 4 / 2 - √2 * W 4 1 / 4, D 4 3 / 2 + √2 * W
      4 0 / 4, √2 * D 4 2 / 2;
     √2 * D 5 0 / 2, D 5 5 / 2 - √2 * W 5 2 / 4, D 5 4 / 2 + √2 * W 5 1 / 4, D 5 5 / 2 + √2 * W 5 2
      / 4, √2 * D 5 1 / 2, D 5 3 / 2 - √2 * W 5 0 / 4, D 5 4 / 2 - √2 * W 5 1 / 4, D 5 3 / 2 + √2 * W
      5 0 / 4, √2 * D 5 2 / 2;
     D 1 0, √2 * D 1 5 / 2 - W 1 2 / 2, √2 * D 1 4 / 2 + W 1 1 / 2, √2 * D 1 5 / 2 + W 1 2 / 2, D 1
      1, √2 * D 1 3 / 2 - W 1 0 / 2, √2 * D 1 4 / 2 - W 1 1 / 2, √2 * D 1 3 / 2 + W 1 0 / 2, D 1 2;
     √2 * D 3 0 / 2, D 3 5 / 2 - √2 * W 3 2 / 4, D 3 4 / 2 + √2 * W 3 1 / 4, D 3 5 / 2 + √2 * W 3 2
      / 4, √2 * D 3 1 / 2, D 3 3 / 2 - √2 * W 3 0 / 4, D 3 4 / 2 - √2 * W 3 1 / 4, D 3 3 / 2 + √2 * W
      3 0 / 4, √2 * D 3 2 / 2;
     √2 * D 4 0 / 2, D 4 5 / 2 - √2 * W 4 2 / 4, D 4 4 / 2 + √2 * W 4 1 / 4, D 4 5 / 2 + √2 * W 4 2
      / 4, √2 * D 4 1 / 2, D 4 3 / 2 - √2 * W 4 0 / 4, D 4 4 / 2 - √2 * W 4 1 / 4, D 4 3 / 2 + √2 * W
      4 0 / 4, √2 * D 4 2 / 2;
     √2 * D 3 0 / 2, D 3 5 / 2 - √2 * W 3 2 / 4, D 3 4 / 2 + √2 * W 3 1 / 4, D 3 5 / 2 + √2 * W 3 2
      / 4, √2 * D 3 1 / 2, D 3 3 / 2 - √2 * W 3 0 / 4, D 3 4 / 2 - √2 * W 3 1 / 4, D 3 3 / 2 + √2 * W
      3 0 / 4, √2 * D 3 2 / 2;
     D 2 0, √2 * D 2 5 / 2 - W 2 2 / 2, √2 * D 2 4 / 2 + W 2 1 / 2, √2 * D 2 5 / 2 + W 2 2 / 2, D 2
      1, √2 * D 2 3 / 2 - W 2 0 / 2, √2 * D 2 4 / 2 - W 2 1 / 2, √2 * D 2 3 / 2 + W 2 0 / 2, D 2 2]

/-- nemlmath.cxx:12-50 `SymSymR4SkewmSkewSymR4SymR4`. -/
noncomputable def symSymSkew (M : Matrix (Fin 6) (Fin 6) ℝ) (W : Fin 3 → ℝ) : Matrix (Fin 6) (Fin 6) ℝ :=
  !![√2 * (-M 4 0 * W 1 + M 5 0 * W 2), √2 * (-M 4 1 * W 1 + M 5 1 * W 2), √2 * (-M 4 2 * W 1 + M 5
      2 * W 2), √2 * (-M 4 3 * W 1 + M 5 3 * W 2), √2 * (-M 4 4 * W 1 + M 5 4 * W 2), √2 * (-M 4 5 *
      W 1 + M 5 5 * W 2);
     √2 * (M 3 0 * W 0 - M 5 0 * W 2), √2 * (M 3 1 * W 0 - M 5 1 * W 2), √2 * (M 3 2 * W 0 - M 5 2 *
      W 2), √2 * (M 3 3 * W 0 - M 5 3 * W 2), √2 * (M 3 4 * W 0 - M 5 4 * W 2), √2 * (M 3 5 * W 0 - M
      5 5 * W 2);
     √2 * (-M 3 0 * W 0 + M 4 0 * W 1), √2 * (-M 3 1 * W 0 + M 4 1 * W 1), √2 * (-M 3 2 * W 0 + M 4
      2 * W 1), √2 * (-M 3 3 * W 0 + M 4 3 * W 1), √2 * (-M 3 4 * W 0 + M 4 4 * W 1), √2 * (-M 3 5 *
      W 0 + M 4 5 * W 1);
     √2 * M 2 0 * W 0 - M 4 0 * W 2 + M 5 0 * W 1 - √2 * M 1 0 * W 0, √2 * M 2 1 * W 0 - M 4 1 * W 2
      + M 5 1 * W 1 - √2 * M 1 1 * W 0, √2 * M 2 2 * W 0 - M 4 2 * W 2 + M 5 2 * W 1 - √2 * M 1 2 * W
      0, √2 * M 2 3 * W 0 - M 4 3 * W 2 + M 5 3 * W 1 - √2 * M 1 3 * W 0, -√2 * M 1 4 * W 0 + √2 * M
      2 4 * W 0 - M 4 4 * W 2 + M 5 4 * W 1, -√2 * M 1 5 * W 0 + √2 * M 2 5 * W 0 - M 4 5 * W 2 + M 5
      5 * W 1;
     √2 * M 0 0 * W 1 - √2 * M 2 0 * W 1 + M 3 0 * W 2 - M 5 0 * W 0, -√2 * M 2 1 * W 1 + M 3 1 * W
      2 + √2 * M 0 1 * W 1 - M 5 1 * W 0, -√2 * M 2 2 * W 1 + M 3 2 * W 2 + √2 * M 0 2 * W 1 - M 5 2
      * W 0, -√2 * M 2 3 * W 1 + M 3 3 * W 2 - M 5 3 * W 0 + √2 * M 0 3 * W 1, -√2 * M 2 4 * W 1 + M
      3 4 * W 2 - M 5 4 * W 0 + √2 * M 0 4 * W 1, -√2 * M 2 5 * W 1 + M 3 5 * W 2 - M 5 5 * W 0 + √2
      * M 0 5 * W 1;
     -√2 * M 0 0 * W 2 - M 3 0 * W 1 + M 4 0 * W 0 + √2 * M 1 0 * W 2, -M 3 1 * W 1 - √2 * M 0 1 * W
      2 + M 4 1 * W 0 + √2 * M 1 1 * W 2, -M 3 2 * W 1 + M 4 2 * W 0 - √2 * M 0 2 * W 2 + √2 * M 1 2
      * W 2, -M 3 3 * W 1 + M 4 3 * W 0 - √2 * M 0 3 * W 2 + √2 * M 1 3 * W 2, √2 * M 1 4 * W 2 - M 3
      4 * W 1 + M 4 4 * W 0 - √2 * M 0 4 * W 2, √2 * M 1 5 * W 2 - M 3 5 * W 1 + M 4 5 * W 0 - √2 * M
      0 5 * W 2]

/-- nemlmath.cxx:52-90 `SymSkewR4SymmSkewSymR4SymR4`. -/
noncomputable def symSkewSym (D : Fin 6 → ℝ) (M : Matrix (Fin 3) (Fin 6) ℝ) : Matrix (Fin 6) (Fin 6) ℝ :=
  !![√2 * (-D 4 * M 1 0 + D 5 * M 2 0), √2 * (-D 4 * M 1 1 + D 5 * M 2 1), √2 * (-D 4 * M 1 2 + D 5
      * M 2 2), √2 * (-D 4 * M 1 3 + D 5 * M 2 3), √2 * (-D 4 * M 1 4 + D 5 * M 2 4), √2 * (-D 4 * M
      1 5 + D 5 * M 2 5);
     √2 * (D 3 * M 0 0 - D 5 * M 2 0), √2 * (D 3 * M 0 1 - D 5 * M 2 1), √2 * (D 3 * M 0 2 - D 5 * M
      2 2), √2 * (D 3 * M 0 3 - D 5 * M 2 3), √2 * (D 3 * M 0 4 - D 5 * M 2 4), √2 * (D 3 * M 0 5 - D
      5 * M 2 5);
     √2 * (-D 3 * M 0 0 + D 4 * M 1 0), √2 * (-D 3 * M 0 1 + D 4 * M 1 1), √2 * (-D 3 * M 0 2 + D 4
      * M 1 2), √2 * (-D 3 * M 0 3 + D 4 * M 1 3), √2 * (-D 3 * M 0 4 + D 4 * M 1 4), √2 * (-D 3 * M
      0 5 + D 4 * M 1 5);
     -√2 * D 1 * M 0 0 + √2 * D 2 * M 0 0 - D 4 * M 2 0 + D 5 * M 1 0, -√2 * D 1 * M 0 1 + √2 * D 2
      * M 0 1 - D 4 * M 2 1 + D 5 * M 1 1, -√2 * D 1 * M 0 2 + √2 * D 2 * M 0 2 - D 4 * M 2 2 + D 5 *
      M 1 2, -√2 * D 1 * M 0 3 + √2 * D 2 * M 0 3 - D 4 * M 2 3 + D 5 * M 1 3, -√2 * D 1 * M 0 4 + √2
      * D 2 * M 0 4 - D 4 * M 2 4 + D 5 * M 1 4, -√2 * D 1 * M 0 5 + √2 * D 2 * M 0 5 - D 4 * M 2 5 +
      D 5 * M 1 5;
     √2 * D 0 * M 1 0 - √2 * D 2 * M 1 0 + D 3 * M 2 0 - D 5 * M 0 0, √2 * D 0 * M 1 1 - √2 * D 2 *
      M 1 1 + D 3 * M 2 1 - D 5 * M 0 1, √2 * D 0 * M 1 2 - √2 * D 2 * M 1 2 + D 3 * M 2 2 - D 5 * M
      0 2, √2 * D 0 * M 1 3 - √2 * D 2 * M 1 3 + D 3 * M 2 3 - D 5 * M 0 3, √2 * D 0 * M 1 4 - √2 * D
      2 * M 1 4 + D 3 * M 2 4 - D 5 * M 0 4, √2 * D 0 * M 1 5 - √2 * D 2 * M 1 5 + D 3 * M 2 5 - D 5
      * M 0 5;
     -√2 * D 0 * M 2 0 + √2 * D 1 * M 2 0 - D 3 * M 1 0 + D 4 * M 0 0, -√2 * D 0 * M 2 1 + √2 * D 1
      * M 2 1 - D 3 * M 1 1 + D 4 * M 0 1, -√2 * D 0 * M 2 2 + √2 * D 1 * M 2 2 - D 3 * M 1 2 + D 4 *
      M 0 2, -√2 * D 0 * M 2 3 + √2 * D 1 * M 2 3 - D 3 * M 1 3 + D 4 * M 0 3, -√2 * D 0 * M 2 4 + √2
      * D 1 * M 2 4 - D 3 * M 1 4 + D 4 * M 0 4, -√2 * D 0 * M 2 5 + √2 * D 1 * M 2 5 - D 3 * M 1 5 +
      D 4 * M 0 5]

/-- nemlmath.cxx:92-112 `SpecialSymSymR4Sym`. -/
noncomputable def specialSymSym (D : Fin 6 → ℝ) (M : Matrix (Fin 6) (Fin 6) ℝ) : Matrix (Fin 6) (Fin 3) ℝ :=
  !![-√2 * D 1 * M 0 3 / 2 + √2 * D 2 * M 0 3 / 2 + √2 * D 3 * M 0 1 / 2 - √2 * D 3 * M 0 2 / 2 + D
      4 * M 0 5 / 2 - D 5 * M 0 4 / 2, √2 * D 0 * M 0 4 / 2 - √2 * D 2 * M 0 4 / 2 - D 3 * M 0 5 / 2
      - √2 * D 4 * M 0 0 / 2 + √2 * D 4 * M 0 2 / 2 + D 5 * M 0 3 / 2, -√2 * D 0 * M 0 5 / 2 + √2 * D
      1 * M 0 5 / 2 + D 3 * M 0 4 / 2 - D 4 * M 0 3 / 2 + √2 * D 5 * M 0 0 / 2 - √2 * D 5 * M 0 1 / 2;
     -√2 * D 1 * M 1 3 / 2 + √2 * D 2 * M 1 3 / 2 + √2 * D 3 * M 1 1 / 2 - √2 * D 3 * M 1 2 / 2 + D
      4 * M 1 5 / 2 - D 5 * M 1 4 / 2, √2 * D 0 * M 1 4 / 2 - √2 * D 2 * M 1 4 / 2 - D 3 * M 1 5 / 2
      - √2 * D 4 * M 1 0 / 2 + √2 * D 4 * M 1 2 / 2 + D 5 * M 1 3 / 2, -√2 * D 0 * M 1 5 / 2 + √2 * D
      1 * M 1 5 / 2 + D 3 * M 1 4 / 2 - D 4 * M 1 3 / 2 + √2 * D 5 * M 1 0 / 2 - √2 * D 5 * M 1 1 / 2;
     -√2 * D 1 * M 2 3 / 2 + √2 * D 2 * M 2 3 / 2 + √2 * D 3 * M 2 1 / 2 - √2 * D 3 * M 2 2 / 2 + D
      4 * M 2 5 / 2 - D 5 * M 2 4 / 2, √2 * D 0 * M 2 4 / 2 - √2 * D 2 * M 2 4 / 2 - D 3 * M 2 5 / 2
      - √2 * D 4 * M 2 0 / 2 + √2 * D 4 * M 2 2 / 2 + D 5 * M 2 3 / 2, -√2 * D 0 * M 2 5 / 2 + √2 * D
      1 * M 2 5 / 2 + D 3 * M 2 4 / 2 - D 4 * M 2 3 / 2 + √2 * D 5 * M 2 0 / 2 - √2 * D 5 * M 2 1 / 2;
     -√2 * D 1 * M 3 3 / 2 + √2 * D 2 * M 3 3 / 2 + √2 * D 3 * M 3 1 / 2 - √2 * D 3 * M 3 2 / 2 + D
      4 * M 3 5 / 2 - D 5 * M 3 4 / 2, √2 * D 0 * M 3 4 / 2 - √2 * D 2 * M 3 4 / 2 - D 3 * M 3 5 / 2
      - √2 * D 4 * M 3 0 / 2 + √2 * D 4 * M 3 2 / 2 + D 5 * M 3 3 / 2, -√2 * D 0 * M 3 5 / 2 + √2 * D
      1 * M 3 5 / 2 + D 3 * M 3 4 / 2 - D 4 * M 3 3 / 2 + √2 * D 5 * M 3 0 / 2 - √2 * D 5 * M 3 1 / 2;
     -√2 * D 1 * M 4 3 / 2 + √2 * D 2 * M 4 3 / 2 + √2 * D 3 * M 4 1 / 2 - √2 * D 3 * M 4 2 / 2 + D
      4 * M 4 5 / 2 - D 5 * M 4 4 / 2, √2 * D 0 * M 4 4 / 2 - √2 * D 2 * M 4 4 / 2 - D 3 * M 4 5 / 2
      - √2 * D 4 * M 4 0 / 2 + √2 * D 4 * M 4 2 / 2 + D 5 * M 4 3 / 2, -√2 * D 0 * M 4 5 / 2 + √2 * D
      1 * M 4 5 / 2 + D 3 * M 4 4 / 2 - D 4 * M 4 3 / 2 + √2 * D 5 * M 4 0 / 2 - √2 * D 5 * M 4 1 / 2;
     -√2 * D 1 * M 5 3 / 2 + √2 * D 2 * M 5 3 / 2 + √2 * D 3 * M 5 1 / 2 - √2 * D 3 * M 5 2 / 2 + D
      4 * M 5 5 / 2 - D 5 * M 5 4 / 2, √2 * D 0 * M 5 4 / 2 - √2 * D 2 * M 5 4 / 2 - D 3 * M 5 5 / 2
      - √2 * D 4 * M 5 0 / 2 + √2 * D 4 * M 5 2 / 2 + D 5 * M 5 3 / 2, -√2 * D 0 * M 5 5 / 2 + √2 * D
      1 * M 5 5 / 2 + D 3 * M 5 4 / 2 - D 4 * M 5 3 / 2 + √2 * D 5 * M 5 0 / 2 - √2 * D 5 * M 5 1 / 2]

/-- nemlmath.h:33 `idsym`. -/
noncomputable def idsym : Matrix (Fin 9) (Fin 9) ℝ :=
  !![1, 0, 0, 0, 0, 0, 0, 0, 0;
     0, 1 / 2, 0, 1 / 2, 0, 0, 0, 0, 0;
     0, 0, 1 / 2, 0, 0, 0, 1 / 2, 0, 0;
     0, 1 / 2, 0, 1 / 2, 0, 0, 0, 0, 0;
     0, 0, 0, 0, 1, 0, 0, 0, 0;
     0, 0, 0, 0, 0, 1 / 2, 0, 1 / 2, 0;
     0, 0, 1 / 2, 0, 0, 0, 1 / 2, 0, 0;
     0, 0, 0, 0, 0, 1 / 2, 0, 1 / 2, 0;
     0, 0, 0, 0, 0, 0, 0, 0, 1]

/-- nemlmath.h:34 `idskew`. -/
noncomputable def idskew : Matrix (Fin 9) (Fin 9) ℝ :=
  !![0, 0, 0, 0, 0, 0, 0, 0, 0;
     0, 1 / 2, 0, -1 / 2, 0, 0, 0, 0, 0;
     0, 0, 1 / 2, 0, 0, 0, -1 / 2, 0, 0;
     0, -1 / 2, 0, 1 / 2, 0, 0, 0, 0, 0;
     0, 0, 0, 0, 0, 0, 0, 0, 0;
     0, 0, 0, 0, 0, 1 / 2, 0, -1 / 2, 0;
     0, 0, -1 / 2, 0, 0, 0, 1 / 2, 0, 0;
     0, 0, 0, 0, 0, -1 / 2, 0, 1 / 2, 0;
     0, 0, 0, 0, 0, 0, 0, 0, 0]

/-- block.cxx:12-14 `t2m_array`. -/
noncomputable def t2mArray (s22 : ℝ) : Matrix (Fin 9) (Fin 6) ℝ :=
  !![1, 0, 0, 0, 0, 0;
     0, 0, 0, 0, 0, s22;
     0, 0, 0, 0, s22, 0;
     0, 0, 0, 0, 0, s22;
     0, 1, 0, 0, 0, 0;
     0, 0, 0, s22, 0, 0;
     0, 0, 0, 0, s22, 0;
     0, 0, 0, s22, 0, 0;
     0, 0, 1, 0, 0, 0]

/-- block.cxx:17-19 `m2t_array`. -/
noncomputable def m2tArray (s22 : ℝ) : Matrix (Fin 6) (Fin 9) ℝ :=
  !![1, 0, 0, 0, 0, 0, 0, 0, 0;
     0, 0, 0, 0, 1, 0, 0, 0, 0;
     0, 0, 0, 0, 0, 0, 0, 0, 1;
     0, 0, 0, 0, 0, s22, 0, s22, 0;
     0, 0, s22, 0, 0, 0, s22, 0, 0;
     0, s22, 0, s22, 0, 0, 0, 0, 0]

/-- block.cxx:22-137 and 208-213 `m42t4` for one point. Every column of the 36 by 81 table has exactly
one non-zero entry; the zero products are left out. -/
noncomputable def m42t4 (s22 : ℝ) (M : Matrix (Fin 6) (Fin 6) ℝ) : Matrix (Fin 9) (Fin 9) ℝ :=
  !![M 0 0, s22 * M 0 5, s22 * M 0 4, s22 * M 0 5, M 0 1, s22 * M 0 3, s22 * M 0 4, s22 * M 0 3, M 0
      2;
     s22 * M 5 0, 1 / 2 * M 5 5, 1 / 2 * M 5 4, 1 / 2 * M 5 5, s22 * M 5 1, 1 / 2 * M 5 3, 1 / 2 * M
      5 4, 1 / 2 * M 5 3, s22 * M 5 2;
     s22 * M 4 0, 1 / 2 * M 4 5, 1 / 2 * M 4 4, 1 / 2 * M 4 5, s22 * M 4 1, 1 / 2 * M 4 3, 1 / 2 * M
      4 4, 1 / 2 * M 4 3, s22 * M 4 2;
     s22 * M 5 0, 1 / 2 * M 5 5, 1 / 2 * M 5 4, 1 / 2 * M 5 5, s22 * M 5 1, 1 / 2 * M 5 3, 1 / 2 * M
      5 4, 1 / 2 * M 5 3, s22 * M 5 2;
     M 1 0, s22 * M 1 5, s22 * M 1 4, s22 * M 1 5, M 1 1, s22 * M 1 3, s22 * M 1 4, s22 * M 1 3, M 1
      2;
     s22 * M 3 0, 1 / 2 * M 3 5, 1 / 2 * M 3 4, 1 / 2 * M 3 5, s22 * M 3 1, 1 / 2 * M 3 3, 1 / 2 * M
      3 4, 1 / 2 * M 3 3, s22 * M 3 2;
     s22 * M 4 0, 1 / 2 * M 4 5, 1 / 2 * M 4 4, 1 / 2 * M 4 5, s22 * M 4 1, 1 / 2 * M 4 3, 1 / 2 * M
      4 4, 1 / 2 * M 4 3, s22 * M 4 2;
     s22 * M 3 0, 1 / 2 * M 3 5, 1 / 2 * M 3 4, 1 / 2 * M 3 5, s22 * M 3 1, 1 / 2 * M 3 3, 1 / 2 * M
      3 4, 1 / 2 * M 3 3, s22 * M 3 2;
     M 2 0, s22 * M 2 5, s22 * M 2 4, s22 * M 2 5, M 2 1, s22 * M 2 3, s22 * M 2 4, s22 * M 2 3, M 2
      2]

/-- nemlmath.cxx:623-640 `truesdell_update_sym`. `solve` is `solve_mat` (`none`: singular matrix,
thrown as `LinalgError`). -/
noncomputable def truesdellUpdate
    (solve : Matrix (Fin 9) (Fin 9) ℝ → (Fin 9 → ℝ) → Option (Fin 9 → ℝ))
    (D : Fin 6 → ℝ) (W : Fin 3 → ℝ) (Sn So : Fin 6 → ℝ) : Option (Fin 6 → ℝ) :=
  (solve (truesdellMat D W) (vec9 (usym (truesdellRhs D W Sn So)))).map
    fun x => Sn + sym (mat9 x)

end Neml.Mandel
