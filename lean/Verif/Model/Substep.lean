import Mathlib.Algebra.Module.Basic
import Mathlib.Algebra.Field.Basic
import Mathlib.Data.Matrix.Mul

/-!
# Model of `SubstepModel_sd::update_sd_actual` (src/models.cxx:269-379)

The base increment `update_step` is an arbitrary function of the substep's start point
and end strain, temperature and time; `none` is a thrown `NEMLError` (the only
exceptions the loop catches, line 331). `int` overflow of `2^max_divide` is not modelled.
Buffers leaked by the `throw` at line 334 are not modelled.
-/

namespace Neml.Substep

variable {K V S H P Q : Type}

/-- What the loop carries from substep to substep (models.cxx:292-301). -/
structure Point (K V S H : Type) where
  e : V
  T : K
  t : K
  s : S
  h : H
  u : K
  p : K

/-- What `update_step` writes (models.cxx:326-328). -/
structure Inc (K S H P Q : Type) where
  s : S
  h : H
  A : Matrix P P K
  E : Matrix P Q K
  u : K
  p : K

/-- `update_step` (models.cxx:381): past point, then strain, temperature and time at the
end of the substep. -/
abbrev Base (K V S H P Q : Type) := Point K V S H → V → K → K → Option (Inc K S H P Q)

/-- The loop's variables. `out` is the content of the output buffers `s_np1`, `h_np1`,
`u_np1`, `p_np1`: `none` when they hold nothing meaningful (before the first attempt or
after a failed one). `Anew` is `none` while uninitialised (line 311). `calls` (ghost)
counts the calls of `update_step`. -/
structure St (K V S H P Q : Type) where
  nd : Int
  cm : Nat
  cs : Nat
  past : Point K V S H
  Aold : Matrix P Q K
  Anew : Option (Matrix P Q K)
  out : Option (Inc K S H P Q)
  calls : Nat

/-- The arguments of the update. -/
structure Args (K V S H : Type) where
  start : Point K V S H
  e1 : V
  T1 : K
  t1 : K

/-- models.cxx:281: `int tf = pow(2, max_divide_)`; a negative power truncates to 0. -/
def tf (maxDivide : Int) : Nat := if maxDivide < 0 then 0 else 2 ^ maxDivide.toNat

section
variable [Field K] [AddCommGroup V] [Module K V] [Fintype P]

/-- models.cxx:318-363, the body of the loop; `none` is the throw at line 334. -/
def body (base : Base K V S H P Q) (maxDivide : Int) (force : Bool) (a : Args K V S H)
    (st : St K V S H P Q) : Option (St K V S H P Q) :=
  let sm : K := ((st.cs + st.cm : Nat) : K) / (tf maxDivide : K)
  let sf : K := (st.cm : K) / (tf maxDivide : K)
  let e_next := a.start.e + sm • (a.e1 - a.start.e)
  let T_next := a.start.T + sm * (a.T1 - a.start.T)
  let t_next := a.start.t + sm * (a.t1 - a.start.t)
  match base st.past e_next T_next t_next with
  | none =>
    if st.nd + 1 ≥ maxDivide then none
    else some { st with nd := st.nd + 1, cm := st.cm / 2, out := none, calls := st.calls + 1 }
  | some inc =>
    if force ∧ st.nd < maxDivide then
      some { st with nd := st.nd + 1, cm := st.cm / 2, out := some inc, calls := st.calls + 1 }
    else
      let A := inc.A * (st.Aold + sf • inc.E)
      some { nd := st.nd, cm := st.cm, cs := st.cs + st.cm,
             past := ⟨e_next, T_next, t_next, inc.s, inc.h, inc.u, inc.p⟩,
             Aold := A, Anew := some A, out := some inc, calls := st.calls + 1 }

/-- models.cxx:280-314. -/
def initSt (maxDivide : Int) (a : Args K V S H) : St K V S H P Q :=
  { nd := 0, cm := tf maxDivide, cs := 0, past := a.start, Aold := 0, Anew := none,
    out := none, calls := 0 }

/-- models.cxx:316 the loop, with fuel (outer `none`: out of fuel; inner `none`: throw). -/
def loop (base : Base K V S H P Q) (maxDivide : Int) (force : Bool) (a : Args K V S H) :
    (fuel : Nat) → St K V S H P Q → Option (Option (St K V S H P Q))
  | 0, st => if st.cs < tf maxDivide then none else some (some st)
  | fuel + 1, st =>
    if st.cs < tf maxDivide then
      match body base maxDivide force a st with
      | none => some none
      | some st' => loop base maxDivide force a fuel st'
    else some (some st)

/-- models.cxx:269-379: inner `none` is an exception; the result carries the output
buffers `out` and the matrix `Anew` whose leading rows are the tangent (lines 367-371). -/
def update (base : Base K V S H P Q) (maxDivide : Int) (force : Bool) (a : Args K V S H)
    (fuel : Nat) : Option (Option (St K V S H P Q)) :=
  loop base maxDivide force a fuel (initSt maxDivide a)

end

end Neml.Substep
