import Verif.Model.Newton
import Mathlib.Data.Matrix.Basic

/-!
# Model of the numerical Jacobian and of verbose solves (src/solvers.cxx)

`diff_jac`, `diff_jac_check`, and `newton` with its `verbose` branch. As in `Model/Newton.lean` the system is an
arbitrary function which may throw, and numbers are exact. What is printed is left out except for the calls of the
system that are made for it. `condition` reads its argument, throws nothing (nemlmath.cxx:929-968) and is left out.
-/

namespace Neml.NumJac

open Neml.Newton

variable {n : Nat}

open Classical in
/-- solvers.cxx:156-157: the size of the step for a component with value `a`. -/
noncomputable def stepSize (eps a : ℝ) : ℝ := if eps * |a| < eps then eps else eps * |a|

/-- solvers.cxx:155-162: one column, where `R0` is the residual at `x`. -/
noncomputable def column (sys : System n) (x R0 : Fin n → ℝ) (eps : ℝ) (i : Fin n) : Option (Fin n → ℝ) :=
  let dx := stepSize eps (x i)
  (sys.RJ (Function.update x i (x i + dx))).map fun r => fun j => (r.1 j - R0 j) / dx

/-- solvers.cxx:154-163: the loop over the columns, writing into `nJ`. -/
noncomputable def columns (sys : System n) (x R0 : Fin n → ℝ) (eps : ℝ) :
    List (Fin n) → Matrix (Fin n) (Fin n) ℝ → Option (Matrix (Fin n) (Fin n) ℝ)
  | [], nJ => some nJ
  | i :: is, nJ =>
    match column sys x R0 eps i with
    | none => none
    | some c => columns sys x R0 eps is (Matrix.of fun j k => if k = i then c j else nJ j k)

/-- solvers.cxx:139-164 `diff_jac`; `nJ` is what the array held before. -/
noncomputable def diffJac (sys : System n) (x : Fin n → ℝ) (eps : ℝ) (nJ : Matrix (Fin n) (Fin n) ℝ) :
    Option (Matrix (Fin n) (Fin n) ℝ) :=
  match sys.RJ x with
  | none => none
  | some (R0, _) => columns sys x R0 eps (List.finRange n) nJ

/-- solvers.cxx:173-181: the relative squared difference of two matrices. -/
noncomputable def relDiff (J nJ : Matrix (Fin n) (Fin n) ℝ) : ℝ :=
  (∑ i, ∑ j, (J i j - nJ i j) ^ 2) / ∑ i, ∑ j, J i j ^ 2

/-- include/solvers.h:93. -/
noncomputable def defaultEps : ℝ := 1 / 10 ^ 9

/-- solvers.cxx:167-182 `diff_jac_check`. -/
noncomputable def diffJacCheck (sys : System n) (x : Fin n → ℝ) (J : Matrix (Fin n) (Fin n) ℝ) : Option ℝ :=
  (diffJac sys x defaultEps 0).map (relDiff J)

open Classical in
/-- solvers.cxx:69-120 with `verbose`: after each step the Jacobian is checked (lines 110-116). -/
noncomputable def loopV (sys : System n)
    (solve : Matrix (Fin n) (Fin n) ℝ → (Fin n → ℝ) → Option (Fin n → ℝ)) (p : Params)
    (nR0 : ℝ) : (fuel : Nat) → (i : Int) → It n → Option (Except Err (Int × It n))
  | 0, _, _ => none
  | fuel + 1, i, it =>
    if Conv p nR0 it then some (.ok (i, it))
    else match body sys solve p it with
      | .error e => some (.error e)
      | .ok it' =>
        match diffJacCheck sys it'.x it'.J with
        | none => some (.error .system)
        | some _ =>
          if i + 1 ≥ p.miter then some (.ok (i + 1, it'))
          else loopV sys solve p nR0 fuel (i + 1) it'

/-- solvers.cxx:29-136 `newton` with `verbose`: the Jacobian of the guess is checked as well (lines 54-67). -/
noncomputable def newtonV (sys : System n)
    (solve : Matrix (Fin n) (Fin n) ℝ → (Fin n → ℝ) → Option (Fin n → ℝ)) (p : Params)
    (fuel : Nat) : Option (Except Err (It n)) :=
  match sys.RJ sys.init with
  | none => some (.error .system)
  | some (R, J) =>
    match diffJacCheck sys sys.init J with
    | none => some (.error .system)
    | some _ =>
      match loopV sys solve p (norm2 R) fuel 0 ⟨sys.init, R, J, norm2 R, 1⟩ with
      | none => none
      | some (.error e) => some (.error e)
      | some (.ok (i, it)) => if i = p.miter then some (.error .maxIter) else some (.ok it)

end Neml.NumJac
