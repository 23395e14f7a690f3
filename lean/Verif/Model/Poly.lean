import Mathlib.Algebra.Field.Defs
import Mathlib.Data.Int.GCD

/-!
# Model of the polynomial and integer helpers of src/math/nemlmath.cxx

`int` is modelled by unbounded integers, `double` by an arbitrary field.
-/

namespace Neml.Math

variable {K : Type} [Field K]

/-- nemlmath.cxx:970-978 `polyval`, Horner from the highest power. An empty list
reads `poly[0]` out of range (`none`). -/
def polyval (poly : List K) (x : K) : Option K :=
  match poly with
  | [] => none
  | a :: l => some (l.foldl (fun res c => res * x + c) a)

/-- nemlmath.cxx:985-1000, one pass of the loop of `poly_from_roots`: shift up by
one, put zero in front, subtract `r` times the old list (lowest power first). -/
def rootStep (poly : List K) (r : K) : List K :=
  List.zipWith (fun a b => a - b) (0 :: poly) (poly.map (fun a => a * r) ++ [0])

/-- nemlmath.cxx:980-1005 `poly_from_roots`. -/
def polyFromRoots (roots : List K) : List K := (roots.foldl rootStep [1]).reverse

/-- nemlmath.cxx:1016-1019: one differentiation pass. Entry `i` is multiplied by
`cs - i`, the number of entries after it; the last entry is dropped (the code keeps
it in the array but never reads it again and cuts it off at line 1022). -/
def diffPass : List K → List K
  | [] => []
  | [_] => []
  | a :: b :: l => a * ((b :: l).length : K) :: diffPass (b :: l)

/-- nemlmath.cxx:1010-1020: the loop over passes, returning `{0.0}` as soon as one
entry is left. -/
def diffLoop : Nat → List K → List K
  | 0, res => res
  | n + 1, res => if res.length = 1 then [0] else diffLoop n (diffPass res)

/-- nemlmath.cxx:1007-1025 `differentiate_poly`. With an empty list and `n ≥ 1` the
counter becomes -1 and `resize` throws (`none`). -/
def differentiatePoly (poly : List K) (n : Nat) : Option (List K) :=
  if poly = [] ∧ n ≠ 0 then none else some (diffLoop n poly)

/-- nemlmath.cxx:1027-1031 `gcd`, with C's truncating remainder. -/
def gcd (a b : Int) : Int :=
  if _h : a = 0 then b else gcd (b.tmod a) a
termination_by a.natAbs
decreasing_by
  rw [Int.natAbs_tmod]
  exact Nat.mod_lt _ (by omega)

/-- nemlmath.cxx:1033-1040 `common_gcd`; an empty vector is read out of range. -/
def commonGcd : List Int → Option Int
  | [] => none
  | a :: l => some (l.foldl (fun c x => gcd c x) a)

/-- nemlmath.cxx:1042-1051 `reduce_gcd`; `none` is the division by zero (or, for
an empty vector, the out of range read). C's `/` truncates. -/
def reduceGcd (l : List Int) : Option (List Int) :=
  match commonGcd l with
  | none => none
  | some f => if f = 0 then none else some (l.map (fun x => x.tdiv (f.natAbs : Int)))

end Neml.Math
