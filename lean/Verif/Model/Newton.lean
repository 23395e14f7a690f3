import Mathlib.Data.Real.Sqrt
import Mathlib.Data.Matrix.Basic
import Mathlib.LinearAlgebra.Matrix.Notation

/-!
# Model of `newton` in src/solvers.cxx

The nonlinear system (`Solvable`) and the LAPACK solve are arbitrary functions which
may throw. Vectors are over `ℝ`: NaN residuals are not modelled. The `verbose`
branch is in `Model/NumJac.lean`.
-/

namespace Neml.Newton

/-- Exceptions that can leave `newton`. -/
inductive Err
  | maxIter   -- solvers.cxx:135 NonlinearSolverError
  | linalg    -- nemlmath.cxx:923 LinalgError from solve_mat
  | system    -- whatever `RJ` throws
  deriving DecidableEq

/-- solvers.h: a `Solvable`: start point and residual/Jacobian. -/
structure System (n : Nat) where
  init : Fin n → ℝ
  RJ : (Fin n → ℝ) → Option ((Fin n → ℝ) × Matrix (Fin n) (Fin n) ℝ)

/-- solvers.h `SolverParameters` (without `verbose`). -/
structure Params where
  rtol : ℝ
  atol : ℝ
  miter : Int
  linesearch : Bool

/-- nemlmath.cxx:813-816 `norm2_vec`. -/
noncomputable def norm2 {n : Nat} (a : Fin n → ℝ) : ℝ := Real.sqrt (∑ i, a i * a i)

/-- Iterate of the loop: point, residual, Jacobian, residual norm, and (ghost) the number
of calls of `RJ` so far. -/
structure It (n : Nat) where
  x : Fin n → ℝ
  R : Fin n → ℝ
  J : Matrix (Fin n) (Fin n) ℝ
  nR : ℝ
  calls : Nat

/-- solvers.cxx:71, the convergence test. In C, `nR / 0` is NaN or infinity and the
second comparison is then false. -/
def Conv {n : Nat} (p : Params) (nR0 : ℝ) (it : It n) : Prop :=
  it.nR < p.atol ∨ (nR0 ≠ 0 ∧ it.nR / nR0 < p.rtol)

/-- solvers.cxx:84-91, the line search loop; `left` is `mline - nsearch`. -/
noncomputable def lineSearch {n : Nat} (sys : System n) (xorig dir : Fin n → ℝ) (nR : ℝ) :
    (left : Nat) → (alpha : ℝ) → It n → Except Err (It n)
  | 0, _, it => .ok it
  | left + 1, alpha, it =>
    let x := fun j => xorig j - alpha * dir j
    match sys.RJ x with
    | none => .error .system
    | some (R, J) =>
      let it' : It n := ⟨x, R, J, norm2 R, it.calls + 1⟩
      if it'.nR < nR then .ok it' else lineSearch sys xorig dir nR left (alpha / 2) it'

/-- solvers.cxx:32. -/
def mline : Nat := 10

/-- solvers.cxx:73-108, the body of one iteration. `solve J R` is `solve_mat`
(LAPACK `dgesv`). -/
noncomputable def body {n : Nat} (sys : System n)
    (solve : Matrix (Fin n) (Fin n) ℝ → (Fin n → ℝ) → Option (Fin n → ℝ)) (p : Params)
    (it : It n) : Except Err (It n) :=
  match solve it.J it.R with
  | none => .error .linalg
  | some dir =>
    if p.linesearch then lineSearch sys it.x dir it.nR mline 1 it
    else
      let x := fun j => it.x j - dir j
      match sys.RJ x with
      | none => .error .system
      | some (R, J) => .ok ⟨x, R, J, norm2 R, it.calls + 1⟩

open Classical in
/-- solvers.cxx:69-120, the `while (true)` loop, with fuel (`none`: out of fuel). The result
is the counter `i` and the last iterate. -/
noncomputable def loop {n : Nat} (sys : System n)
    (solve : Matrix (Fin n) (Fin n) ℝ → (Fin n → ℝ) → Option (Fin n → ℝ)) (p : Params)
    (nR0 : ℝ) : (fuel : Nat) → (i : Int) → It n → Option (Except Err (Int × It n))
  | 0, _, _ => none
  | fuel + 1, i, it =>
    if Conv p nR0 it then some (.ok (i, it))
    else match body sys solve p it with
      | .error e => some (.error e)
      | .ok it' =>
        if i + 1 ≥ p.miter then some (.ok (i + 1, it'))
        else loop sys solve p nR0 fuel (i + 1) it'

/-- solvers.cxx:29-136 `newton`. -/
noncomputable def newton {n : Nat} (sys : System n)
    (solve : Matrix (Fin n) (Fin n) ℝ → (Fin n → ℝ) → Option (Fin n → ℝ)) (p : Params)
    (fuel : Nat) : Option (Except Err (It n)) :=
  match sys.RJ sys.init with
  | none => some (.error .system)
  | some (R, J) =>
    match loop sys solve p (norm2 R) fuel 0 ⟨sys.init, R, J, norm2 R, 1⟩ with
    | none => none
    | some (.error e) => some (.error e)
    | some (.ok (i, it)) => if i = p.miter then some (.error .maxIter) else some (.ok it)

end Neml.Newton
