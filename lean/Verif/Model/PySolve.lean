import Mathlib.Data.Real.Sqrt
import Mathlib.LinearAlgebra.Matrix.NonsingularInverse

/-!
# Model of the Python nonlinear solvers (neml/nlsolvers.py; the copy in neml/arbbar.py)

Exact reals; NaN is not modelled. The residual function is arbitrary, may raise, and may leave something behind
in the object it belongs to (`σ`: the bar network keeps the last trial in its bars). `none` is an exception, or
a line search that has not finished within its fuel. Printing is left out.
-/

namespace Neml.PySolve

open Matrix

/-- What all the solvers have in common: the residual function (with what it leaves behind), the size of a
residual, and the way from one iterate to the next. -/
structure Iter (σ X R J : Type) where
  rj : σ → X → Option (R × J × σ)
  size : R → ℝ
  next : σ → X → R → J → Option (X × σ)

variable {σ X R J : Type}

/-- nlsolvers.py:48 (and :96, :174, :219; arbbar.py:376): the loop goes on while this fails. -/
def Done (rtol atol nR0 nR : ℝ) : Prop := ¬(rtol * nR0 < nR ∧ atol < nR)

open Classical in
/-- nlsolvers.py:48-59, 96-115, 174-185, 219-234; arbbar.py:376-398: the loop. The first argument is
`miter - i`: the iteration that makes `i` larger than `miter` raises whatever its outcome. -/
noncomputable def loop (it : Iter σ X R J) (rtol atol nR0 : ℝ) : Nat → σ → X → R → J → Option (X × σ)
  | 0, s, x, r, _ => if Done rtol atol nR0 (it.size r) then some (x, s) else none
  | k + 1, s, x, r, j =>
    if Done rtol atol nR0 (it.size r) then some (x, s)
    else
      match it.next s x r j with
      | none => none
      | some (x', s1) =>
        match it.rj s1 x' with
        | none => none
        | some (r', j', s2) => loop it rtol atol nR0 k s2 x' r' j'

/-- nlsolvers.py:84-120 and its siblings: evaluate at the guess, then loop. -/
noncomputable def solve (it : Iter σ X R J) (rtol atol : ℝ) (miter : Nat) (s : σ) (x0 : X) : Option (X × σ) :=
  match it.rj s x0 with
  | none => none
  | some (r, j, s1) => loop it rtol atol (it.size r) miter s1 x0 r j

/-! ## The vector solvers -/

variable {n : Nat}

/-- numpy `la.norm` of a vector. -/
noncomputable def norm2 (v : Fin n → ℝ) : ℝ := Real.sqrt (∑ i, v i ^ 2)

open Classical in
/-- numpy `la.solve`: raises for a singular matrix. -/
noncomputable def linSolve (A : Matrix (Fin n) (Fin n) ℝ) (b : Fin n → ℝ) : Option (Fin n → ℝ) :=
  if A.det = 0 then none else some (A⁻¹ *ᵥ b)

/-- A residual function of vectors. -/
abbrev VecRJ (σ : Type) (n : Nat) := σ → (Fin n → ℝ) → Option ((Fin n → ℝ) × Matrix (Fin n) (Fin n) ℝ × σ)

open Classical in
/-- nlsolvers.py:122-144 `backtrack`, from the value `alpha` on; the first argument is fuel. -/
noncomputable def backtrack (rj : VecRJ σ n) (R0 : Fin n → ℝ) (J0 : Matrix (Fin n) (Fin n) ℝ) (x a : Fin n → ℝ)
    (tau c : ℝ) : Nat → ℝ → σ → Option (ℝ × σ)
  | 0, _, _ => none
  | k + 1, alpha, s =>
    match rj s (x + alpha • a) with
    | none => none
    | some (r, _, s1) =>
      if norm2 (R0 + (c * alpha) • (J0 *ᵥ a)) < norm2 r then backtrack rj R0 J0 x a tau c k (alpha * tau) s1
      else some (alpha, s1)

/-- nlsolvers.py:97-107 without line search. -/
noncomputable def plain (rj : VecRJ σ n) : Iter σ (Fin n → ℝ) (Fin n → ℝ) (Matrix (Fin n) (Fin n) ℝ) where
  rj := rj
  size := norm2
  next s x r j := (linSolve j r).map fun a => (x - a, s)

/-- nlsolvers.py:97-107 with the backtracking line search. -/
noncomputable def searching (rj : VecRJ σ n) (tau c : ℝ) (fuel : Nat) :
    Iter σ (Fin n → ℝ) (Fin n → ℝ) (Matrix (Fin n) (Fin n) ℝ) where
  rj := rj
  size := norm2
  next s x r j :=
    match linSolve j r with
    | none => none
    | some a => (backtrack rj r j x (-a) tau c fuel 1 s).map fun p => (x - p.1 • a, p.2)

/-- nlsolvers.py:66-120 `newton` with `linesearch = 'none'`. -/
noncomputable def newton (rj : VecRJ σ n) (rtol atol : ℝ) (miter : Nat) (s : σ) (x0 : Fin n → ℝ) :
    Option ((Fin n → ℝ) × σ) := solve (plain rj) rtol atol miter s x0

/-- nlsolvers.py:66-120 `newton` with `linesearch = 'backtracking'`. -/
noncomputable def newtonSearch (rj : VecRJ σ n) (rtol atol : ℝ) (miter : Nat) (tau c : ℝ) (fuel : Nat) (s : σ)
    (x0 : Fin n → ℝ) : Option ((Fin n → ℝ) × σ) := solve (searching rj tau c fuel) rtol atol miter s x0

/-- nlsolvers.py:18-64 `newton_precalc`: the Jacobian is given by the action of its inverse. -/
noncomputable def precalc (rj : σ → (Fin n → ℝ) → Option ((Fin n → ℝ) × ((Fin n → ℝ) → (Fin n → ℝ)) × σ)) :
    Iter σ (Fin n → ℝ) (Fin n → ℝ) ((Fin n → ℝ) → (Fin n → ℝ)) where
  rj := rj
  size := norm2
  next s x r j := some (x - j r, s)

/-- nlsolvers.py:146-190 `quasi_newton`: every step uses the Jacobian `j0` of the guess. -/
noncomputable def quasi (rj : VecRJ σ n) (j0 : Matrix (Fin n) (Fin n) ℝ) :
    Iter σ (Fin n → ℝ) (Fin n → ℝ) (Matrix (Fin n) (Fin n) ℝ) where
  rj := rj
  size := norm2
  next s x r _ := (linSolve j0 r).map fun a => (x - a, s)

/-- nlsolvers.py:146-190 `quasi_newton`. -/
noncomputable def quasiNewton (rj : VecRJ σ n) (rtol atol : ℝ) (miter : Nat) (s : σ) (x0 : Fin n → ℝ) :
    Option ((Fin n → ℝ) × σ) :=
  match rj s x0 with
  | none => none
  | some (r, j, s1) => loop (quasi rj j) rtol atol (norm2 r) miter s1 x0 r j

open Classical in
/-- nlsolvers.py:192-239 `scalar_newton`; `q` is the optional factor `quasi`. A division by a zero derivative
gives no number; it is taken as an exception here. -/
noncomputable def scalar (rj : σ → ℝ → Option (ℝ × ℝ × σ)) (q : Option ℝ) : Iter σ ℝ ℝ ℝ where
  rj := rj
  size := fun r => |r|
  next s x r j :=
    if j = 0 then none
    else match q with
      | some q => some (x + q * (-r / j), s)
      | none => some (x - r / j, s)

/-! ## drivers.py: trying several solvers -/

/-- drivers.py:128-140: the guesses in order, each solver on each guess; the first success is the answer. -/
def firstSuccess (solvers : List (X → Option X)) : List X → Option X
  | [] => none
  | g :: gs =>
    match solvers.findSome? (fun f => f g) with
    | some x => some x
    | none => firstSuccess solvers gs

/-- drivers.py:90-140 `solve_try`: Newton, then Newton with the line search (tau 0.5, c 1e-4). The residual
function leaves nothing behind. -/
noncomputable def solveTry (rj : (Fin n → ℝ) → Option ((Fin n → ℝ) × Matrix (Fin n) (Fin n) ℝ)) (rtol atol : ℝ)
    (miter fuel : Nat) (x0 : Fin n → ℝ) (extra : List (Fin n → ℝ)) : Option (Fin n → ℝ) :=
  let f : VecRJ Unit n := fun _ x => (rj x).map fun p => (p.1, p.2, ())
  firstSuccess [fun g => (newton f rtol atol miter () g).map Prod.fst,
    fun g => (newtonSearch f rtol atol miter (1 / 2) (1 / 10000) fuel () g).map Prod.fst] (x0 :: extra)

end Neml.PySolve
