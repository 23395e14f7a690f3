import Verif.Model.Rotation

/-!
# Model of the crystal symmetry groups (src/cp/crystallography.cxx, lines 13-249)

Exact real arithmetic; `Orientation({...})` is `normalize` of the four numbers (rotations.cxx:573-577).
Exceptions are `none`. The product of two orientations is the quaternion product.
-/

namespace Neml.Symmetry

open Neml.Rotation Real Matrix

/-- `Orientation({s, x, y, z})` -/
noncomputable def ori (s x y z : ℝ) : Quat := normalize ⟨s, x, y, z⟩

/-- crystallography.cxx:15 -/
noncomputable def a : ℝ := √2 / 2

/-- crystallography.cxx:16 -/
noncomputable def b : ℝ := √3 / 2

/-- crystallography.cxx:17 -/
noncomputable def h : ℝ := 0.5

/-- crystallography.cxx:18-27 -/
noncomputable def tetragonal : List Quat :=
  [ori 1 0 0 0, ori 0 0 1 0, ori 0 1 0 0, ori 0 0 0 1, ori a 0 0 (-a), ori a 0 0 a, ori 0 a a 0, ori 0 (-a) a 0]

/-- crystallography.cxx:28-41 -/
noncomputable def hexagonal : List Quat :=
  [ori 1 0 0 0, ori (-h) 0 0 b, ori h 0 0 b, ori b 0 0 (-h), ori 0 0 0 1, ori b 0 0 h, ori 0 (-h) b 0,
   ori 0 1 0 0, ori 0 h b 0, ori 0 b h 0, ori 0 0 1 0, ori 0 b (-h) 0]

/-- crystallography.cxx:42-67 -/
noncomputable def cubic : List Quat :=
  [ori 1 0 0 0, ori h h h h, ori (-h) h h h, ori h (-h) h h, ori h h (-h) h, ori (-h) (-h) (-h) h,
   ori h (-h) (-h) h, ori (-h) (-h) h h, ori (-h) h (-h) h, ori 0 0 1 0, ori 0 0 0 1, ori 0 1 0 0,
   ori 0 (-h) 0 h, ori 0 h 0 h, ori h 0 h 0, ori h 0 (-h) 0, ori 0 0 (-h) h, ori h h 0 0, ori h (-h) 0 0,
   ori 0 0 h h, ori 0 (-h) h 0, ori h 0 0 (-h), ori 0 h h 0, ori h 0 0 h]

/-- `for (int i=lo; i<hi; i++) res.push_back(l[i])` -/
def slice {α : Type} (lo hi : Nat) (l : List α) : List α := (l.drop lo).take (hi - lo)

/-- crystallography.cxx:69-131 `symmetry_rotations`, the selection among three tables. -/
def select {α : Type} (tet hex cub : List α) (sclass : String) : Option (List α) :=
  if sclass = "432" then some (slice 0 24 cub)
  else if sclass = "23" then some (slice 0 12 cub)
  else if sclass = "622" then some (slice 0 12 hex)
  else if sclass = "32" then some (slice 0 3 hex ++ slice 9 12 hex)
  else if sclass = "6" then some (slice 0 6 hex)
  else if sclass = "3" then some (slice 0 3 hex)
  else if sclass = "42" then some (slice 0 8 tet)
  else if sclass = "4" then some (slice 0 1 tet ++ slice 3 6 tet)
  else if sclass = "222" then some (slice 0 4 tet)
  else if sclass = "2" then some (slice 0 2 tet)
  else if sclass = "1" then some (slice 0 1 tet)
  else none

/-- crystallography.cxx:13-132 `symmetry_rotations`. -/
noncomputable def symmetryRotations (sclass : String) : Option (List Quat) :=
  select tetragonal hexagonal cubic sclass

/-- crystallography.cxx:138-143: the products of all pairs of operators. -/
def misops (ops : List Quat) : List Quat := ops.flatMap fun p => ops.map fun q => qmul p q

/-- crystallography.cxx:183-190, one pass: the best orientation so far and its angle. -/
noncomputable def misStep (ab : Quat) (st : Quat × ℝ) (m : Quat) : Quat × ℝ :=
  let trial := qmul m ab
  let ca := (toAxisAngle trial).2
  if ca < st.2 then (trial, ca) else st

/-- crystallography.cxx:175-193 `misorientation`. -/
noncomputable def misorientation (ops : List Quat) (p q : Quat) : Quat :=
  ((misops ops).foldl (misStep (qmul p (conj q))) (defaultQuat, 2 * π)).1

/-- crystallography.cxx:227-234, one pass; the first component of the state is the best column, absent
before the first improvement. -/
noncomputable def blockStep (v : Fin 4 → ℝ) (st : Option (Fin 4 → ℝ) × ℝ) (m : Quat) : Option (Fin 4 → ℝ) × ℝ :=
  let r := productMatrix m *ᵥ v
  let ang := 2 * arccos (max (-1) (min 1 (r 0)))
  if ang < st.2 then (some r, ang) else st

/-- crystallography.cxx:224-236, one pair; `none` is the read at index `-1`. -/
noncomputable def blockOne (ops : List Quat) (p q : Quat) : Option Quat :=
  ((misops ops).foldl (blockStep (toVec (qmul p (conj q)))) (none, 3 * π)).1.map fun r => ori (r 0) (r 1) (r 2) (r 3)

/-- crystallography.cxx:195-241 `misorientation_block`; `none` is the exception at 201. -/
noncomputable def misorientationBlock (ops : List Quat) (A B : List Quat) : Option (List (Option Quat)) :=
  if A.length = B.length then some (A.zipWith (blockOne ops) B) else none

end Neml.Symmetry
