import Verif.Model.PoleFigures

/-!
# Model of `inverse_pole_figure_trajectory` (neml/cp/polefigures.py)

The points that are drawn for one trajectory in the cubic triangle. `none` is an exception. Drawing, colours and the
outline of the triangle are left out. The corners of the triangle are scaled in place by every call of
`reduce_points_triangle`; scaling twice changes nothing in exact numbers.
-/

namespace Neml.PoleFigures

open Neml.Rotation Neml.Lattice

open Classical in
/-- polefigures.py:259-270: a row of points for each step, made into one array and taken apart by three indices. Rows
of different lengths make no array with three indices, and neither do rows without points. -/
noncomputable def trajectory (dirOf : List ℤ → Option Vec) (ops : List Quat) (steps : List (List Quat)) (d : Vec)
    (sample : List Quat) (x y : List ℤ) : Option (List (List (Fin 2 → ℝ))) :=
  (steps.mapM fun qs => cubicFigure dirOf ops qs d sample x y).bind fun rows =>
    if rows ≠ [] ∧ ∃ n > 0, ∀ r ∈ rows, r.length = n then some rows else none

/-- polefigures.py:273: the points of the line with number `k`. -/
def line (rows : List (List (Fin 2 → ℝ))) (k : Nat) : List (Option (Fin 2 → ℝ)) := rows.map fun r => r[k]?

/-- polefigures.py:258-274: what is drawn for all trajectories, each with its colour. -/
noncomputable def trajectoryFigure {C : Type} (dirOf : List ℤ → Option Vec) (ops : List Quat)
    (all : List (List (List Quat))) (d : Vec) (sample : List Quat) (x y : List ℤ) (colors : List C) :
    Option (List (C × List (List (Fin 2 → ℝ)))) :=
  (all.zip colors).mapM fun tc => (trajectory dirOf ops tc.1 d sample x y).map fun rows => (tc.2, rows)

end Neml.PoleFigures
