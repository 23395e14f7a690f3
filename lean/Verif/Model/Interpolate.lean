import Verif.Model.Poly
import Mathlib.Analysis.SpecialFunctions.Pow.Real
import Mathlib.Analysis.SpecialFunctions.Log.Base

/-!
# Model of src/interpolate.cxx and src/larsonmiller.cxx

`double` is modelled by `ℝ`. `none` is undefined behaviour: an out of range read
of a `std::vector`. An `Interpolate` object is the pair of its two virtual functions,
so objects that hold other interpolates (generic piecewise, MTS) take them as
arguments.
-/

namespace Neml.Interp

open Neml.Math

/-- interpolate.h: the two virtual functions of an `Interpolate` and `valid()`. -/
structure Fn where
  value : ℝ → Option ℝ
  deriv : ℝ → Option ℝ
  valid : Prop

/-- interpolate.cxx:109-113 (and 132-136, 190-194, 209-213, 269-273, 292-296,
357-361, 380-384): distance to the first point `≥ x`, or the length. -/
noncomputable def scan (x : ℝ) : List ℝ → Nat
  | [] => 0
  | p :: l => if x ≤ p then 0 else scan x l + 1

/-- interpolate.cxx:114-117: read entries `ind-1` and `ind`. `ind` is a `size_t`, so
`ind = 0` reads far out of range. -/
noncomputable def segment (pts vals : List ℝ) (ind : Nat)
    (seg : ℝ → ℝ → ℝ → ℝ → ℝ) : Option ℝ :=
  match ind with
  | 0 => none
  | k + 1 =>
    match pts[k]?, pts[k + 1]?, vals[k]?, vals[k + 1]? with
    | some x1, some x2, some y1, some y2 => some (seg x1 x2 y1 y2)
    | _, _, _, _ => none

/-- The control flow shared by interpolate.cxx:100-121, 123-144, 260-281, 283-304,
348-369, 371-392: compare with `front()`, then with `back()`, then scan. `lo` and
`hi` are what the two outer branches return. -/
noncomputable def table (pts vals : List ℝ) (lo hi : Option ℝ)
    (seg : ℝ → ℝ → ℝ → ℝ → ℝ) (x : ℝ) : Option ℝ :=
  match pts.head?, pts.getLast? with
  | some f, some b =>
    if x ≤ f then lo
    else if b ≤ x then hi
    else segment pts vals (scan x pts) seg
  | _, _ => none

/-- interpolate.cxx:65-144 `PiecewiseLinearInterpolate`. -/
noncomputable def linear (pts vals : List ℝ) : Fn where
  value x := table pts vals vals.head? vals.getLast?
    (fun x1 x2 y1 y2 => (y2 - y1) / (x2 - x1) * (x - x1) + y1) x
  deriv x := table pts vals (some 0) (some 0)
    (fun x1 x2 y1 y2 => (y2 - y1) / (x2 - x1)) x
  valid := pts.Pairwise (· ≤ ·) ∧ pts.length = vals.length

/-- interpolate.cxx:146-217 `GenericPiecewiseInterpolate`. -/
noncomputable def genericPick (pts : List ℝ) (fns : List Fn) (x : ℝ) : Option Fn :=
  match pts.head?, pts.getLast? with
  | some f, some b =>
    if x ≤ f then fns[0]?
    else if b ≤ x then fns.getLast?
    else fns[scan x pts]?
  | _, _ => none

/-- interpolate.cxx:146-217 `GenericPiecewiseInterpolate`. -/
noncomputable def generic (pts : List ℝ) (fns : List Fn) : Fn where
  value x := (genericPick pts fns x).bind (fun f => f.value x)
  deriv x := (genericPick pts fns x).bind (fun f => f.deriv x)
  valid := pts.Pairwise (· ≤ ·) ∧ pts.length = fns.length + 1

/-- interpolate.cxx:219-304 `PiecewiseLogLinearInterpolate`. The constructor replaces
the values by their logarithms (line 236). Lean's `log 0 = 0` differs from C's
`-inf`; the theorems are about positive data. -/
noncomputable def logLinear (pts vals : List ℝ) : Fn where
  value x := table pts (vals.map Real.log) ((vals.map Real.log).head?.map Real.exp)
    ((vals.map Real.log).getLast?.map Real.exp)
    (fun x1 x2 y1 y2 => Real.exp ((y2 - y1) / (x2 - x1) * (x - x1) + y1)) x
  deriv x := table pts (vals.map Real.log) (some 0) (some 0)
    (fun x1 x2 y1 y2 =>
      Real.exp ((y2 - y1) / (x2 - x1) * (x - x1) + y1) * (y2 - y1) / (x2 - x1)) x
  valid := pts.Pairwise (· ≤ ·) ∧ pts.length = vals.length ∧ ∀ v ∈ vals, ¬ v < 0

/-- C's `log10`. -/
noncomputable def log10 (x : ℝ) : ℝ := Real.logb 10 x

/-- interpolate.cxx:306-392 `PiecewiseSemiLogXLinearInterpolate`. -/
noncomputable def semiLogX (pts vals : List ℝ) : Fn where
  value x := table pts vals vals.head? vals.getLast?
    (fun x1 x2 y1 y2 =>
      (y2 - y1) / (log10 x2 - log10 x1) * (log10 x - log10 x1) + y1) x
  deriv x := table pts vals (some 0) (some 0)
    (fun x1 x2 y1 y2 => (y2 - y1) / (log10 x2 - log10 x1) / (x * Real.log 10)) x
  valid := pts.Pairwise (· ≤ ·) ∧ pts.length = vals.length ∧ ∀ p ∈ pts, ¬ p < 0

/-- interpolate.cxx:28-62 `PolynomialInterpolate`. -/
noncomputable def polynomial (coefs : List ℝ) : Fn where
  value x := polyval coefs x
  deriv x := (differentiatePoly coefs 1).bind (fun d => polyval d x)
  valid := True

/-- interpolate.cxx:394-428 `ConstantInterpolate`. -/
noncomputable def const (v : ℝ) : Fn where
  value _ := some v
  deriv _ := some 0
  valid := True

/-- interpolate.cxx:430-466 `ExpInterpolate`. Lean's `B / 0 = 0` differs from C's
infinity; the theorems are about `x ≠ 0`. -/
noncomputable def expo (A B : ℝ) : Fn where
  value x := some (A * Real.exp (B / x))
  deriv x := some (-A * B * Real.exp (B / x) / (x * x))
  valid := True

/-- interpolate.cxx:468-504 `PowerLawInterpolate`. Lean's real power differs from
C's `pow` for negative bases; the theorems are about `x > 0`. -/
noncomputable def power (A B : ℝ) : Fn where
  value x := some (A * x ^ B)
  deriv x := some (A * B * x ^ (B - 1))
  valid := True

/-- interpolate.cxx:506-544 `MTSShearInterpolate`. -/
noncomputable def mtsShear (V0 D T0 : ℝ) : Fn where
  value x := some (V0 - D / (Real.exp (T0 / x) - 1))
  deriv x := some (-D * T0 / (4 * (x * Real.sinh (T0 / (2 * x))) ^ 2))
  valid := True

/-- interpolate.cxx:547-606 `MTSInterpolate`. -/
noncomputable def mts (tau0 g0 q p k b : ℝ) (mu : Fn) : Fn where
  value x := (mu.value x).map (fun m =>
    tau0 * (1 - (k * x / (m * b ^ 3 * g0)) ^ (1 / q)) ^ (1 / p))
  deriv x := (mu.value x).bind (fun m => (mu.deriv x).map (fun dm =>
    let inner := k * x / (b ^ 3 * g0 * m)
    let A := -tau0 * inner ^ (1 / q) * (1 - inner ^ (1 / q)) ^ (1 / p - 1) / (p * q * x)
    let B := tau0 * inner ^ (1 / q) * (1 - inner ^ (1 / q)) ^ (1 / p - 1) / (p * q * m)
    A + B * dm))
  valid := True

/-- interpolate.cxx:608-616 `make_vector`. -/
noncomputable def makeVector (iv : List ℝ) : List Fn := iv.map const

/-- interpolate.cxx:618-626 `eval_vector`. -/
def evalVector (iv : List Fn) (x : ℝ) : Option (List ℝ) := iv.mapM (fun f => f.value x)

/-- interpolate.cxx:628-636 `eval_deriv_vector`. -/
def evalDerivVector (iv : List Fn) (x : ℝ) : Option (List ℝ) := iv.mapM (fun f => f.deriv x)

/-- larsonmiller.cxx:46-50 `LarsonMillerRelation::sR`. -/
noncomputable def lmStress (fn : Fn) (C t T : ℝ) : Option ℝ :=
  (fn.value (T * (C + log10 t))).map (fun v => (10 : ℝ) ^ v)

/-- larsonmiller.cxx:92 the residual whose zero `tR` looks for. -/
noncomputable def lmResidual (fn : Fn) (s x : ℝ) : Option ℝ :=
  (fn.value x).map (fun v => log10 s - v)

/-- larsonmiller.cxx:93 the Jacobian of the residual. -/
noncomputable def lmJacobian (fn : Fn) (x : ℝ) : Option ℝ := (fn.deriv x).map (fun d => -d)

/-- larsonmiller.cxx:61: rupture time from the solved parameter `x`. -/
noncomputable def lmTime (C T x : ℝ) : ℝ := (10 : ℝ) ^ (x / T - C)

/-- larsonmiller.cxx:72-74 `dtR_ds` at the solved parameter `x`. -/
noncomputable def lmTimeDeriv (fn : Fn) (C s T x : ℝ) : Option ℝ :=
  (fn.deriv x).map (fun d => (10 : ℝ) ^ (x / T - C) / (T * s * d))

end Neml.Interp
