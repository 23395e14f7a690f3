import Verif.Model.Lattice

/-!
# Model of pole figures (neml/cp/polefigures.py)

The points of the figures, before drawing. Exact reals. Exceptions are `none`. `matplotlib` is not modelled: a figure is
the list of points handed to it. Lattices are given by their symmetry operators and the function from Miller indices to
vectors. `np.isclose` with its default tolerances is `|x| ≤ 1e-8` when compared with zero.
-/

namespace Neml.PoleFigures

open Neml.Rotation Neml.Lattice Matrix

/-- polefigures.py:15-22 `project_stereographic`. -/
noncomputable def stereo (v : Vec) : Fin 2 → ℝ := ![v 0 / (1 + v 2), v 1 / (1 + v 2)]

/-- polefigures.py:24-33 `project_lambert_equal_area`. -/
noncomputable def lambert (v : Vec) : Fin 2 → ℝ := ![√(2 / (1 + v 2)) * v 0, √(2 / (1 + v 2)) * v 1]

/-- polefigures.py:35-45 `inverse_project_stereographic`. -/
noncomputable def stereoInv (p : Fin 2 → ℝ) : Vec :=
  let bot := 1 + p 0 ^ 2 + p 1 ^ 2
  ![2 * p 0 / bot, 2 * p 1 / bot, (p 0 ^ 2 + p 1 ^ 2 - 1) / bot]

/-- polefigures.py:47-57 `inverse_project_lambert_equal_area`. -/
noncomputable def lambertInv (p : Fin 2 → ℝ) : Vec :=
  let f := √(1 - (p 0 ^ 2 + p 1 ^ 2) / 4)
  ![f * p 0, f * p 1, -1 + (p 0 ^ 2 + p 1 ^ 2) / 2]

/-- polefigures.py:59-66 `cart2pol`: angle, then radius. -/
noncomputable def cart2pol (x : Fin 2 → ℝ) : ℝ × ℝ := (atan2 (x 1) (x 0), √(x 0 ^ 2 + x 1 ^ 2))

/-- polefigures.py:135-146 `pol2cart`. -/
noncomputable def pol2cart (R T : ℝ) : Fin 2 → ℝ := ![R * Real.cos T, R * Real.sin T]

/-- polefigures.py:427-431, the inverse projection of the colour chart. -/
noncomputable def ipop (p : Fin 2 → ℝ) : Vec :=
  let x := stereoInv p
  if x 2 < 0 then ![x 0, x 1, x 2 * -1] else x

/-- polefigures.py:107-114, projection and the radius of the figure. -/
noncomputable def chosen (projection : String) : Option ((Vec → Fin 2 → ℝ) × ℝ) :=
  if projection = "stereographic" then some (stereo, 1)
  else if projection = "lambert" then some (lambert, √2)
  else none

/-- polefigures.py:92-98, the poles; `sample` is the list of sample operators. -/
noncomputable def poles (ops sample : List Quat) (p : Vec) : List Vec :=
  ((equivalentVectors ops p).map unit).flatMap fun p => sample.map fun op => applyVec op p

/-- polefigures.py:101-104, the points on the upper half of the sphere. -/
noncomputable def polePoints (srot : Quat) (orientations : List Quat) (eq : List Vec) : List Vec :=
  (eq.flatMap fun pp => orientations.map fun o => applyVec srot (applyVec (conj o) pp)).filter fun p => p 2 ≥ 0

/-- polefigures.py:68-119 `pole_figure_discrete`, the points in the plane. -/
noncomputable def poleFigure (dirOf : List ℤ → Option Vec) (ops : List Quat) (orientations : List Quat) (pole : List ℤ)
    (projection : String) (sample : List Quat) (x y : Vec) : Option (List (Fin 2 → ℝ)) :=
  (setVectors x y).bind fun srot => (dirOf pole).bind fun p => (chosen projection).map fun pr =>
    (polePoints srot orientations (poles ops sample p)).map pr.1

/-- polefigures.py:305-313, crystal directions to plot coordinates. -/
noncomputable def frame (dirOf : List ℤ → Option Vec) (x y : List ℤ) : Option Quat :=
  (dirOf x).bind fun xv => (dirOf y).bind fun yv =>
    let xv := unit xv
    let yv := unit yv
    let zv := cross xv yv
    if |xv ⬝ᵥ yv| ≤ 1e-8 then
      some (setMatrix !![xv 0, xv 1, xv 2; yv 0, yv 1, yv 2; zv 0, zv 1, zv 2])
    else none

/-- polefigures.py:315-338, the directions in the crystal, upper half. -/
noncomputable def ipfPoints (trans q : Quat) (ops sample : List Quat) (d : Vec) : List Vec :=
  (sample.flatMap fun srot => ops.map fun op =>
    applyVec trans (applyVec op (applyVec q (applyVec srot (unit d))))).filter fun p => p 2 > 0

/-- polefigures.py:289-338 `project_ipf`. -/
noncomputable def projectIpf (dirOf : List ℤ → Option Vec) (ops : List Quat) (q : Quat) (d : Vec) (sample : List Quat)
    (x y : List ℤ) : Option (List Vec) :=
  (frame dirOf x y).map fun trans => ipfPoints trans q ops sample d

/-- polefigures.py:365, the test of one point. -/
def within (v0 v1 v2 : Vec) (p : Vec) : Prop :=
  p ⬝ᵥ cross v0 v1 ≥ 0 ∧ p ⬝ᵥ cross v1 v2 ≥ 0 ∧ p ⬝ᵥ cross v2 v0 ≥ 0

open Classical in
/-- polefigures.py:340-368 `reduce_points_triangle`. -/
noncomputable def reduceTriangle (pts : List Vec) (v0 v1 v2 : Vec) : List Vec :=
  pts.filter fun p => within (unit v0) (unit v1) (unit v2) p

/-- polefigures.py:179, the corners of the cubic triangle. -/
def corner : Fin 3 → Vec := ![![0, 0, 1], ![1, 0, 1], ![1, 1, 1]]

/-- polefigures.py:174-190 `inverse_pole_figure_discrete` with `reduce_figure = "cubic"`, the points in the plane. -/
noncomputable def cubicFigure (dirOf : List ℤ → Option Vec) (ops : List Quat) (orientations : List Quat) (d : Vec)
    (sample : List Quat) (x y : List ℤ) : Option (List (Fin 2 → ℝ)) :=
  (orientations.mapM fun q => projectIpf dirOf ops q d sample x y).map fun l =>
    (reduceTriangle l.flatten (corner 0) (corner 1) (corner 2)).map stereo

/-- polefigures.py:397-402, the smallest value over the corners. -/
noncomputable def smallest (vs : Fin 3 → Vec) (i : Fin 3) : ℝ :=
  (List.finRange 3).foldl (fun mf j => if unit (vs i) ⬝ᵥ unit (vs j) < mf then unit (vs i) ⬝ᵥ unit (vs j) else mf) 1

/-- polefigures.py:370-407 `ipf_color`, one point and colour. -/
noncomputable def color (vs : Fin 3 → Vec) (p : Vec) (i : Fin 3) : ℝ :=
  (unit (vs i) ⬝ᵥ p - smallest vs i) / (1 - smallest vs i)

end Neml.PoleFigures
