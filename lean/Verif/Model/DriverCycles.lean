import Verif.Model.DriverTests

/-!
# Model of the remaining tests of the driver: follow-up, extrapolation of cycles, yield stress

neml/drivers.py 425-440 (yield stress of `uniaxial_test`), 619-822 `strain_cyclic_extrapolated`, 824-1009
`strain_cyclic_followup`, 1537-1553 `offset_stress`. The conventions are those of `Model/DriverTests`.
-/

namespace Neml.DriverTests

open Matrix Neml.Driver Neml.Uniaxial

variable {H : Type}

/-! ## Cycles with follow-up -/

/-- Arguments of `strain_cyclic_followup` (824-828). `E` is the modulus it gets from a tension test along x first
(875-876). -/
structure Follow (H : Type) where
  emax : ℝ
  R : ℝ
  erate : ℝ
  ncycles : Nat
  q : ℝ
  T : ℝ
  nsteps : Nat
  sind : Fin 6
  hold0 : ℝ
  hold1 : ℝ
  nhold : Nat
  bad : H → Bool
  log : Bool
  E : ℝ

namespace Follow

variable (a : Follow H)

/-- 872-873 -/
def sdir : Fin 6 → ℝ := Pi.single a.sind 1

/-- 879 -/
noncomputable def emin : ℝ := a.emax * a.R

/-- 930-933, 964-967 the time steps of a hold. -/
noncomputable def dts (ht : ℝ) : List ℝ :=
  if a.log then diff (logspace ht a.nhold) else List.replicate a.nhold (ht / a.nhold)

/-- 935-943, 968-976 the steps of a hold. -/
noncomputable def holdLoop : List ℝ → Rec H → Ended (Rec H) (Rec H)
  | [], r => .ok r
  | dt :: dts, r =>
    match r.d.holdStep a.sind (r.time.last + dt) a.T a.q a.E with
    | none => .stop r
    | some d' => if a.bad d'.stored.last then .stop { r with d := d' } else holdLoop dts (r.note a.sdir d' (r.time.last + dt))

/-- 928-943, 962-976 the holds. -/
noncomputable def hold (ht : ℝ) (r : Rec H) : Ended (Rec H) (Rec H) := if ht > 0 then a.holdLoop (a.dts ht) r else .ok r

/-- 946-959, 978-991 the two ramps of a cycle; `g` is the first guess of the stress. -/
noncomputable def ramp (dir : Fin 6 → ℝ) (einc g : ℝ) (r : Rec H) : Ended (Rec H) (Rec H × Guess) :=
  loop (eincStep a.bad a.sdir dir a.erate einc a.T) a.nsteps (r, some (0, g))

/-- 926-1003 cycle number `s`. -/
noncomputable def cycle (s : Nat) (r : Rec H) : Ended (Rec H) (Rec H × Cyclic.Row) :=
  (a.hold a.hold0 r).andThen fun r1 =>
  let si := r1.d.strain.toList.length
  (a.ramp (-a.sdir) (|a.emin - a.emax| / a.nsteps) (-1) r1).andThen fun r2 =>
  (a.hold a.hold1 r2.1).andThen fun r3 =>
  (a.ramp a.sdir (|a.emax - a.emin| / a.nsteps) 1 r3).andThen fun r4 =>
  let r := r4.1
  let hi := Cyclic.maxOf (Cyclic.since r.stress si)
  let lo := Cyclic.minOf (Cyclic.since r.stress si)
  .ok (r, ⟨s, hi, lo, (hi + lo) / 2, r.d.u.last, r.d.p.last⟩)

/-- 921-1005 the cycles; the rows are newest first. -/
noncomputable def cycles : Nat → Nat → Rec H → List Cyclic.Row → Rec H × List Cyclic.Row
  | 0, _, r, rows => (r, rows)
  | n + 1, s, r, rows =>
    match a.cycle s r with
    | .ok (r', row) => cycles n (s + 1) r' (row :: rows)
    | .stop r => (r, rows)

/-- 824-1009 `strain_cyclic_followup`: the lists and the rows, oldest first. `none`: a step of the first ramp raised, or
there are no steps. -/
noncomputable def run (c : Setup H) : Option (Rec H × List Cyclic.Row) :=
  if a.nsteps = 0 then none
  else
    match loop (eincStep a.bad a.sdir a.sdir a.erate (a.emax / a.nsteps) a.T) a.nsteps
      (Rec.new (c.driver a.T none), none) with
    | .stop _ => none
    | .ok x =>
      let (r, rows) := a.cycles a.ncycles 0 x.1 []
      some (r, rows.reverse)

end Follow

/-! ## Extrapolated cycles -/

/-- Arguments of `strain_cyclic_extrapolated` (619-622): those of `strain_cyclic`, the number of cycles before the first
extrapolation, the cycle up to which single cycles are extrapolated, the number of cycles jumped after that, and the
allowed change of stress. -/
structure Extra (H : Type) extends Cyclic H where
  minCycle : Nat
  unit : Nat
  jump : Nat
  allow : ℝ

/-- `xs[i]` of Python: negative indices count from the end. -/
def pyGet {α : Type} (xs : List α) (i : Int) : Option α :=
  if 0 ≤ i then xs[i.toNat]? else if 0 ≤ xs.length + i then xs[(xs.length + i).toNat]? else none

namespace Extra

/-- The results of a cycle: `cycles`, `max`, `min`. -/
structure Row where
  cycle : Nat
  max : ℝ
  min : ℝ

variable (a : Extra H)

open Classical in
/-- 690-697 steps in one cycle. -/
noncomputable def steps : Nat :=
  if 0 < a.hold0 ∧ a.hold1 = 0 then 2 * a.nsteps + a.nhold
  else if 0 < a.hold1 ∧ a.hold0 = 0 then 2 * a.nsteps + a.nhold
  else if 0 < a.hold0 ∧ 0 < a.hold1 then 2 * a.nsteps + 2 * a.nhold
  else 2 * a.nsteps

/-- Where the test stands; the rows are newest first. -/
structure State (H : Type) where
  x : Rec H × Guess
  rows : List Row
  s : Nat
  ex : Bool

/-- What a round of the loop leads to: an exception that leaves the function, `break`, or the next round. -/
inductive Next (H : Type)
  | raise
  | stop (st : State H)
  | go (st : State H)

variable [AddCommGroup H] [Module ℝ H]

/-- 711-714 the number of cycles to jump. -/
def dN (s : Nat) : Nat := if s ≤ a.unit then 1 else a.jump

open Classical in
/-- 710-748 an extrapolation. -/
noncomputable def leap (st : State H) : Next H :=
  let d := st.x.1.d
  let n : Int := d.stored.toList.length
  match pyGet d.stored.toList (n - 1 - a.steps), st.rows, pyGet d.stress.toList (n - 1 - 2 * a.steps),
    pyGet d.stress.toList (n - 1) with
  | some h0, r1 :: r0 :: _, some s0, some s1 =>
    let c : ℝ := (a.dN st.s : ℝ) / ((r1.cycle : ℝ) - r0.cycle)
    let h := d.stored.last + c • (d.stored.last - h0)
    let σ := s1 + c • (s1 - s0)
    if |σ 0 - s1 0| ≤ a.allow then
      if a.ncycles < st.s + a.dN st.s then .stop { st with s := st.s + a.dN st.s }
      else .go ⟨({ st.x.1 with d := { d with stored := d.stored.push h, stress := d.stress.push σ } }, st.x.2),
        ⟨st.s + a.dN st.s, r1.max + (r1.max - r0.max) * c, r1.min + (r1.min - r0.min) * c⟩ :: st.rows, st.s + a.dN st.s,
        false⟩
    else .go { st with ex := false }
  | _, _, _, _ => .raise

/-- 701-817 one round: a cycle is extrapolated or run. -/
noncomputable def round (st : State H) : Next H :=
  if a.bad st.x.1.d.stored.last then .stop st
  else if a.minCycle ≤ st.s ∧ st.ex = true then a.leap st
  else
    match a.toCyclic.cycle st.s st.x with
    | .ok (x', row) => .go ⟨x', ⟨st.s + 1, row.max, row.min⟩ :: st.rows, st.s + 1, true⟩
    | .stop r => .stop { st with x := (r, st.x.2) }

/-- 700-817 the loop. The outer `none` is an exception; `fuel` bounds the number of rounds, which the code does not: the
flag tells whether it was enough. -/
noncomputable def rounds : Nat → State H → Option (State H × Bool)
  | 0, st => some (st, decide (a.ncycles ≤ st.s))
  | n + 1, st =>
    if st.s < a.ncycles then
      match a.round st with
      | .raise => none
      | .stop st' => some (st', true)
      | .go st' => rounds n st'
    else some (st, true)

/-- 619-822 `strain_cyclic_extrapolated`: the times and the rows, oldest first. -/
noncomputable def run (c : Setup H) (fuel : Nat) : Option (State H × Bool) :=
  if a.nsteps = 0 then none
  else
    match loop (eincStep a.bad a.sdir a.sdir a.erate (a.emax / a.nsteps) a.T) a.nsteps
      (Rec.new (c.driver a.T none), none) with
    | .stop _ => none
    | .ok x => a.rounds fuel ⟨x, [], 0, false⟩

end Extra

/-! ## Yield stress -/

/-- `scipy.interpolate.interp1d` of points in order, within their range. -/
noncomputable def interp : List (ℝ × ℝ) → ℝ → ℝ
  | (x0, y0) :: (x1, y1) :: ps, x =>
    if x ≤ x1 then y0 + (y1 - y0) / (x1 - x0) * (x - x0) else interp ((x1, y1) :: ps) x
  | [(_, y0)], _ => y0
  | [], _ => 0

/-- The difference between the curve and the line of slope `E` through the offset (433-434, 436, 1549). -/
noncomputable def offGap (ps : List (ℝ × ℝ)) (E off e : ℝ) : ℝ := interp ps e - E * (e - off)

/-- 425-439 the yield stress of `uniaxial_test`, from strains and stresses of which the first is zero. `root f a b` is
`opt.brentq`: `none` if it raises. The result `none` is `np.inf`. -/
noncomputable def yieldStress (root : (ℝ → ℝ) → ℝ → ℝ → Option ℝ) (E off : ℝ) (ps : List (ℝ × ℝ)) : Option ℝ :=
  let top := Cyclic.maxOf (ps.map Prod.fst)
  (root (offGap (ps.map fun p => (|p.1|, |p.2|)) E off) 0 top).map fun e => E * (e - off)

open Classical in
/-- 1537-1553 `offset_stress`; `none` if it raises: fewer than two points, a second strain of zero, a curve that does not
start at zero, or no root. -/
noncomputable def offsetStress (root : (ℝ → ℝ) → ℝ → ℝ → Option ℝ) (off : ℝ) (ps : List (ℝ × ℝ)) : Option ℝ :=
  match ps with
  | (e0, _) :: (e1, s1) :: _ =>
    if e1 = 0 ∨ 0 < e0 then none
    else (root (offGap ps (s1 / e1) off) 0 (Cyclic.maxOf (ps.map Prod.fst))).map (interp ps)
  | _ => none

end Neml.DriverTests
