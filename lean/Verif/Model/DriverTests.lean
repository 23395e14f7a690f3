import Verif.Model.Driver
import Mathlib.Analysis.SpecialFunctions.Pow.Real

/-!
# Model of the test functions of the driver (neml/drivers.py 360-1650)

The functions run a driver (`Model/Driver`) and keep lists of their own. A run that is stopped, by an exception or by one
of the checks, keeps what the driver and the lists hold at that moment. Verbose output is left out. Real numbers: there is
no NaN. The tolerances, iteration limit, fuel and the flag for thermal strains of the driver are parameters. Yield stresses
and the other cyclic tests are in `Model/DriverCycles`.
-/

namespace Neml.DriverTests

open Matrix Neml.Driver Neml.Uniaxial

variable {H : Type}

/-- How the driver of a test is made. -/
structure Setup (H : Type) where
  model : Model3 H
  rtol : ℝ
  atol : ℝ
  miter : Nat
  fuel : Nat

/-- `Driver_sd(model, T_init = T)`, with another initial store if one is given (401-404, 1283-1286, 1443-1445). -/
def Setup.driver (c : Setup H) (T : ℝ) (history : Option H) : Driver H :=
  let d := Driver.new c.model c.rtol c.atol c.miter c.fuel T false
  match history with
  | none => d
  | some h => { d with stored := ⟨h, []⟩ }

/-- A run that went through, or was stopped. -/
inductive Ended (ρ α : Type)
  | ok (a : α)
  | stop (r : ρ)

/-- Go on if not stopped. -/
def Ended.andThen {ρ α β : Type} (x : Ended ρ α) (f : α → Ended ρ β) : Ended ρ β :=
  match x with
  | .ok a => f a
  | .stop r => .stop r

/-- `for i in range(n)` around steps that may stop. -/
def loop {ρ α : Type} (f : α → Ended ρ α) : Nat → α → Ended ρ α
  | 0, a => .ok a
  | n + 1, a => (f a).andThen (loop f n)

/-- The driver, and the lists of strains and stresses along the direction and of times that a test keeps. -/
structure Rec (H : Type) where
  d : Driver H
  strain : Series ℝ
  stress : Series ℝ
  time : Series ℝ

/-- The lists at the start (406-407, 503-505, 1058-1059, 1206-1208, 1287-1289, 1446-1447). -/
def Rec.new (d : Driver H) : Rec H := ⟨d, ⟨0, []⟩, ⟨0, []⟩, ⟨0, []⟩⟩

/-- The three `append`s after a step. -/
def Rec.note (r : Rec H) (sdir : Fin 6 → ℝ) (d' : Driver H) (t : ℝ) : Rec H :=
  ⟨d', r.strain.push (d'.strain.last ⬝ᵥ sdir), r.stress.push (d'.stress.last ⬝ᵥ sdir), r.time.push t⟩

/-- The last increments of strain and stress, which are the next guess. -/
abbrev Guess := Option ((Fin 6 → ℝ) × ℝ)

/-- `einc_guess = -einc, ainc_guess = -ainc`. -/
def Guess.neg (g : Guess) : Guess := g.map fun p => (-p.1, -p.2)

/-- The steps of a strain controlled ramp along `dir` (519-530, 556-568, 584-596): a step that raises, and one after which
the damage is too large (`bad`), stops it; in the second case the driver has taken the step. -/
noncomputable def eincStep (bad : H → Bool) (sdir dir : Fin 6 → ℝ) (erate einc T : ℝ) (x : Rec H × Guess) :
    Ended (Rec H) (Rec H × Guess) :=
  match x.1.d.erateEincStep dir erate einc T (x.2.map Prod.fst) (x.2.map Prod.snd) with
  | none => .stop x.1
  | some (d', de, a) =>
    if bad d'.stored.last then .stop { x.1 with d := d' }
    else .ok (x.1.note sdir d' (x.1.time.last + einc / erate), some (de, a))

/-- The steps of a strain hold (544-552, 573-581). -/
noncomputable def holdStep (bad : H → Bool) (sdir : Fin 6 → ℝ) (dt T : ℝ) (x : Rec H × Guess) :
    Ended (Rec H) (Rec H × Guess) :=
  match x.1.d.erateStep sdir 0 (x.1.time.last + dt) T (some 0) (some (-1)) with
  | none => .stop x.1
  | some (d', de, a) =>
    if bad d'.stored.last then .stop { x.1 with d := d' }
    else .ok (x.1.note sdir d' (x.1.time.last + dt), some (de, a))

/-! ## Strain controlled cycles -/

/-- Arguments of `strain_cyclic` (453-455); `hold` are the hold times at the two ends, zero for none (496-500). -/
structure Cyclic (H : Type) where
  emax : ℝ
  R : ℝ
  erate : ℝ
  ncycles : Nat
  T : ℝ
  nsteps : Nat
  sdir : Fin 6 → ℝ
  hold0 : ℝ
  hold1 : ℝ
  nhold : Nat
  bad : H → Bool

namespace Cyclic

variable (a : Cyclic H)

/-- 495 -/
noncomputable def emin : ℝ := a.emax * a.R

/-- The holds (542-552, 571-581). A hold over no steps divides by zero, which raises. -/
noncomputable def hold (ht : ℝ) (x : Rec H × Guess) : Ended (Rec H) (Rec H × Guess) :=
  if ht > 0 then
    if a.nhold = 0 then .stop x.1 else loop (holdStep a.bad a.sdir (ht / a.nhold) a.T) a.nhold x
  else .ok x

/-- The two ramps of a cycle (555-568, 583-596); the first step starts from the reversed guess. -/
noncomputable def ramp (dir : Fin 6 → ℝ) (einc : ℝ) (x : Rec H × Guess) : Ended (Rec H) (Rec H × Guess) :=
  loop (eincStep a.bad a.sdir dir a.erate einc a.T) a.nsteps (x.1, x.2.neg)

/-- One row of the results of each cycle. -/
structure Row where
  cycle : Nat
  max : ℝ
  min : ℝ
  mean : ℝ
  u : ℝ
  p : ℝ

/-- Python `max` and `min` of a list that is not empty. -/
noncomputable def maxOf : List ℝ → ℝ
  | [] => 0
  | x :: xs => xs.foldl max x

noncomputable def minOf : List ℝ → ℝ
  | [] => 0
  | x :: xs => xs.foldl min x

/-- `xs[si:]`. -/
def since (xs : Series ℝ) (si : Nat) : List ℝ := xs.toList.drop si

/-- 540-608: cycle number `s`; `si` is read off the driver after the first hold. -/
noncomputable def cycle (s : Nat) (x : Rec H × Guess) : Ended (Rec H) ((Rec H × Guess) × Row) :=
  (a.hold a.hold0 x).andThen fun x1 =>
  let si := x1.1.d.strain.toList.length
  (a.ramp (-a.sdir) (|a.emin - a.emax| / a.nsteps) x1).andThen fun x2 =>
  (a.hold a.hold1 x2).andThen fun x3 =>
  (a.ramp a.sdir (|a.emax - a.emin| / a.nsteps) x3).andThen fun x4 =>
  let r := x4.1
  let hi := maxOf (since r.stress si)
  let lo := minOf (since r.stress si)
  .ok (x4, ⟨s, hi, lo, (hi + lo) / 2, r.d.u.last, r.d.p.last⟩)

/-- 536-610: the cycles; the rows are newest first. -/
noncomputable def cycles : Nat → Nat → Rec H × Guess → List Row → Rec H × List Row
  | 0, _, x, rows => (x.1, rows)
  | n + 1, s, x, rows =>
    match a.cycle s x with
    | .ok (x', row) => cycles n (s + 1) x' (row :: rows)
    | .stop r => (r, rows)

/-- 453-617 `strain_cyclic`: the lists and the rows of the cycles, oldest first. `none`: a step of the first ramp raised,
or there are no steps. -/
noncomputable def run (c : Setup H) : Option (Rec H × List Row) :=
  if a.nsteps = 0 then none
  else
    match loop (eincStep a.bad a.sdir a.sdir a.erate (a.emax / a.nsteps) a.T) a.nsteps
      (Rec.new (c.driver a.T none), none) with
    | .stop _ => none
    | .ok x =>
      let (r, rows) := a.cycles a.ncycles 0 x []
      some (r, rows.reverse)

end Cyclic

/-! ## Tension test -/

/-- Arguments of `uniaxial_test`; `damage` is `get_damage` compared with the limit. -/
structure Tension (H : Type) where
  erate : ℝ
  T : ℝ
  emax : ℝ
  nsteps : Nat
  sdir : Fin 6 → ℝ
  tdir : Fin 6 → ℝ
  history : Option H
  damage : H → Bool
  check : Bool

/-- Results of `uniaxial_test` (446-451) without the yield stress. -/
structure TensionOut (H : Type) where
  strain : List ℝ
  stress : List ℝ
  energy : List ℝ
  work : List ℝ
  youngs : ℝ
  poissons : ℝ
  history : H

namespace Tension

variable (a : Tension H)

/-- 408-423: the loop. `none`: an exception; otherwise where it stands at the end. -/
noncomputable def loop : Nat → Rec H × Guess → Option (Rec H)
  | 0, x => some x.1
  | n + 1, x =>
    match x.1.d.erateEincStep a.sdir a.erate (a.emax / a.nsteps) a.T (x.2.map Prod.fst) (x.2.map Prod.snd) with
    | none => some x.1
    | some (d', de, s) =>
      if a.damage d'.stored.last then
        if a.check then none else some { x.1 with d := d' }
      else loop n (x.1.note a.sdir d' d'.t.last, some (de, s))

open Classical in
/-- 360-451 `uniaxial_test` (not `full_results`). `none` is an exception: no steps, damage with `check_dmg`, no step
taken, or a division by zero. -/
noncomputable def run (c : Setup H) : Option (TensionOut H) :=
  if a.nsteps = 0 then none
  else
    match a.loop a.nsteps (Rec.new (c.driver a.T a.history), none) with
    | none => none
    | some r =>
      match r.strain.toList, r.stress.toList, r.d.strain.toList with
      | _ :: e :: _, _ :: s :: _, _ :: ev :: _ =>
        if e = 0 then none
        else some ⟨r.strain.toList, r.stress.toList, r.d.u.toList, r.d.p.toList, |s| / |e|,
          -(ev ⬝ᵥ a.tdir) / (ev ⬝ᵥ a.sdir), r.d.stored.last⟩
      | _, _, _ => none

end Tension

/-! ## Stress controlled cycles -/

/-- Arguments of `stress_cyclic` (1011-1013). -/
structure StressCyclic where
  smax : ℝ
  R : ℝ
  srate : ℝ
  ncycles : Nat
  T : ℝ
  nsteps : Nat
  sdir : Fin 6 → ℝ
  hold0 : ℝ
  hold1 : ℝ
  nhold : Nat
  etol : ℝ

namespace StressCyclic

variable (a : StressCyclic)

/-- 1088-1097, 1104-1113, 1123-1132, 1139-1148: after a step, the strain increment is checked. The test keeps no times. -/
noncomputable def check (r : Rec H) (d' : Option (Driver H)) : Ended (Rec H) (Rec H) :=
  match d' with
  | none => .stop r
  | some d' =>
    if a.etol < PySolve.norm2 (d'.strain.last - r.d.strain.last) then .stop { r with d := d' }
    else .ok (r.note a.sdir d' d'.t.last)

/-- 1084-1100, 1119-1135 the holds. -/
noncomputable def hold (ht : ℝ) (r : Rec H) : Ended (Rec H) (Rec H) :=
  if ht > 0 then
    loop (fun r => a.check r (r.d.stressStep r.d.stress.last (r.d.t.last + ht / a.nhold) a.T)) a.nhold r
  else .ok r

/-- 1103-1116, 1138-1151 the ramps. -/
noncomputable def ramp (sinc : ℝ) (r : Rec H) : Ended (Rec H) (Rec H) :=
  loop (fun r => a.check r (r.d.srateSincStep a.sdir a.srate sinc a.T)) a.nsteps r

/-- 1078-1159 one cycle; here `si` is read before the first hold. -/
noncomputable def cycle (s : Nat) (r : Rec H) : Ended (Rec H) (Rec H × Cyclic.Row) :=
  let si := r.d.strain.toList.length
  (a.hold a.hold0 r).andThen fun r1 =>
  (a.ramp ((a.smax * a.R - a.smax) / a.nsteps) r1).andThen fun r2 =>
  (a.hold a.hold1 r2).andThen fun r3 =>
  (a.ramp ((a.smax - a.smax * a.R) / a.nsteps) r3).andThen fun r4 =>
  let hi := Cyclic.maxOf (Cyclic.since r4.strain si)
  let lo := Cyclic.minOf (Cyclic.since r4.strain si)
  .ok (r4, ⟨s, hi, lo, (hi + lo) / 2, r4.d.u.last, r4.d.p.last⟩)

/-- 1078-1159 the cycles. -/
noncomputable def cycles : Nat → Nat → Rec H → List Cyclic.Row → Rec H × List Cyclic.Row
  | 0, _, r, rows => (r, rows)
  | n + 1, s, r, rows =>
    match a.cycle s r with
    | .ok (r', row) => cycles n (s + 1) r' (row :: rows)
    | .stop r => (r, rows)

/-- 1069-1075: the first ramp has no checks; a step that raises ends the test. -/
noncomputable def first (r : Rec H) : Ended (Rec H) (Rec H) :=
  loop (fun r => match r.d.srateSincStep a.sdir a.srate (a.smax / a.nsteps) a.T with
    | none => .stop r
    | some d' => .ok (r.note a.sdir d' d'.t.last)) a.nsteps r

/-- 1011-1166 `stress_cyclic`; the times are those of the driver. `none`: no steps, a hold over no steps (which raises when
the first such hold is reached; here at once), or a step of the first ramp raised. -/
noncomputable def run (c : Setup H) : Option (Rec H × List Cyclic.Row) :=
  if a.nsteps = 0 ∨ (a.nhold = 0 ∧ (0 < a.hold0 ∨ 0 < a.hold1)) then none
  else
    match a.first (Rec.new (c.driver a.T none)) with
    | .stop _ => none
    | .ok r =>
      let (r, rows) := a.cycles a.ncycles 0 r []
      some (r, rows.reverse)

end StressCyclic

/-! ## Relaxation and creep -/

/-- `np.logspace(0, np.log10(x), num = n + 1)`. -/
noncomputable def logspace (x : ℝ) (n : Nat) : List ℝ :=
  (List.range (n + 1)).map fun i : ℕ => (10 : ℝ) ^ ((i : ℝ) * (Real.log x / Real.log 10) / n)

/-- `np.diff`. -/
def diff : List ℝ → List ℝ
  | x :: y :: xs => (y - x) :: diff (y :: xs)
  | _ => []

/-- Entries `ri` to the last but one: `xs[ri:-1]`. -/
def inner {α : Type} (xs : List α) (ri : Nat) : List α := (xs.drop ri).dropLast

/-- Arguments of `stress_relaxation` (1168-1170). `E` is the modulus it gets from a tension test along x first. -/
structure Relax where
  emax : ℝ
  erate : ℝ
  hold : ℝ
  T : ℝ
  nsteps : Nat
  nup : Nat
  index : Fin 6
  tc : ℝ
  log : Bool
  q : ℝ
  E : ℝ

/-- Results of `stress_relaxation` (1251-1254). -/
structure RelaxOut where
  time : List ℝ
  strain : List ℝ
  stress : List ℝ
  rtime : List ℝ
  rrate : List ℝ
  rstress : List ℝ
  rstrain : List ℝ

namespace Relax

variable (a : Relax)

/-- 1216-1217 -/
noncomputable def sdir : Fin 6 → ℝ := Pi.single a.index a.tc

/-- 1233-1238 the time steps of the hold. -/
noncomputable def dts : List ℝ :=
  if a.log then diff (logspace a.hold a.nsteps) else List.replicate a.nsteps (a.hold / a.nsteps)

/-- 1218-1227 the ramp. -/
noncomputable def up (r : Rec H) : Ended (Rec H) (Rec H × Guess) :=
  loop (fun x => match x.1.d.erateEincStep a.sdir a.erate (a.emax / a.nup) a.T (x.2.map Prod.fst) (x.2.map Prod.snd) with
    | none => .stop x.1
    | some (d', de, s) => .ok (x.1.note a.sdir d' d'.t.last, some (de, s))) a.nup (r, none)

/-- 1239-1244 the hold. -/
noncomputable def down : List ℝ → Rec H → Option (Rec H)
  | [], r => some r
  | dt :: dts, r =>
    match r.d.holdStep a.index (r.d.t.last + dt) a.T a.q a.E with
    | none => none
    | some d' => down dts (r.note a.sdir d' d'.t.last)

/-- 1229, 1246-1254: the results; `ri` is the length of the lists at the end of the ramp. -/
noncomputable def out (r : Rec H) (ri : Nat) : RelaxOut :=
  ⟨r.time.toList, r.strain.toList, r.stress.toList,
    (inner r.time.toList ri).map fun t => t - r.time.toList.getD ri 0,
    List.zipWith (fun ds dt => -ds / dt) (diff (r.stress.toList.drop ri)) (diff (r.time.toList.drop ri)),
    inner r.stress.toList ri, inner r.strain.toList ri⟩

/-- 1168-1254 `stress_relaxation`. -/
noncomputable def run (c : Setup H) : Option RelaxOut :=
  if a.nup = 0 ∨ a.nsteps = 0 then none
  else
    match a.up (Rec.new (c.driver a.T none)) with
    | .stop _ => none
    | .ok (r, _) => (a.down a.dts r).map fun r' => out r' r.d.strain.toList.length

end Relax

/-- Arguments of `creep` (1256-1259); `damage` is the damage check, if asked for. -/
structure Creep (H : Type) where
  smax : ℝ
  srate : ℝ
  hold : ℝ
  T : ℝ
  nsteps : Nat
  nup : Nat
  sdir : Fin 6 → ℝ
  log : Bool
  history : Option H
  elimit : ℝ
  damage : H → Bool

/-- Results of `creep` (1357-1361). -/
structure CreepOut (H : Type) where
  time : List ℝ
  strain : List ℝ
  stress : List ℝ
  rtime : List ℝ
  rrate : List ℝ
  rstrain : List ℝ
  tstrain : List ℝ
  history : List H
  failed : Bool

namespace Creep

variable (a : Creep H)

/-- 1301-1305 the times of the hold, from the time `t0` it starts. -/
noncomputable def times (t0 : ℝ) : List ℝ :=
  if a.nsteps = 0 then []
  else if a.log then (logspace a.hold (a.nsteps - 1)).map (· + t0)
  else (List.range a.nsteps).map fun i : ℕ => a.hold * ((i : ℝ) + 1) / a.nsteps + t0

/-- 1292-1297 the ramp. -/
noncomputable def up (r : Rec H) : Ended (Rec H) (Rec H) :=
  loop (fun r => match r.d.srateSincStep a.sdir a.srate (a.smax / a.nup) a.T with
    | none => .stop r
    | some d' => .ok (r.note a.sdir d' d'.t.last)) a.nup r

open Classical in
/-- 1307-1341 the hold; the flag says that it was cut short. -/
noncomputable def down : List ℝ → Rec H → Rec H × Bool
  | [], r => (r, false)
  | t :: ts, r =>
    match r.d.stressStep r.d.stress.last t a.T with
    | none => (r, true)
    | some d' =>
      if (∃ i, a.elimit < |d'.strain.last i|) ∨ d'.strain.last ⬝ᵥ a.sdir < r.strain.last ∨ a.damage d'.stored.last then
        ({ r with d := d' }, true)
      else down ts (r.note a.sdir d' t)

/-- 1346-1361: the results. -/
noncomputable def out (r : Rec H) (failed : Bool) (ri : Nat) : CreepOut H :=
  let strain := r.strain.toList
  let time := r.time.toList
  let long : Bool := decide (ri + 1 < strain.length)
  ⟨time, strain, r.stress.toList,
    if long then (inner time ri).map (· - time.getD ri 0) else [],
    List.zipWith (· / ·) (diff (strain.drop ri)) (diff (time.drop ri)),
    if long then (inner strain ri).map (· - strain.getD ri 0) else [],
    inner strain ri, r.d.stored.toList, failed⟩

/-- 1256-1361 `creep`. `none`: no steps of the ramp, or one of them raised. -/
noncomputable def run (c : Setup H) : Option (CreepOut H) :=
  if a.nup = 0 then none
  else
    match a.up (Rec.new (c.driver a.T a.history)) with
    | .stop _ => none
    | .ok r =>
      let ri := r.d.strain.toList.length
      let (r', failed) := a.down (a.times r.time.last) r
      some (out r' failed ri)

end Creep

/-! ## Isochronous curves -/

/-- 1502-1527 the loop of `isochronous_curve` over its own lists, newest first. `strain` is the creep test for a stress:
`none` if it raises, otherwise the strain and whether it failed. The result tells whether the curve has to be closed
flat. `fuel` bounds the number of rounds; the code has no such bound. -/
noncomputable def isoLoop (strain : ℝ → Option (ℝ × Bool)) (emax : ℝ) (maxCut : Nat) :
    Nat → ℝ → Nat → Series ℝ → Series ℝ → Option (Series ℝ × Series ℝ × Bool)
  | 0, _, _, _, _ => none
  | fuel + 1, ds, ncut, es, ss =>
    if es.last < emax then
      match strain (ss.last + ds) with
      | some (e, failed) =>
        if failed then some (es, ss, true)
        else isoLoop strain emax maxCut fuel ds ncut (es.push e) (ss.push (ss.last + ds))
      | none =>
        if maxCut < ncut + 1 then some (es, ss, true)
        else isoLoop strain emax maxCut fuel (ds / 2) (ncut + 1) es ss
    else some (es, ss, false)

/-- 1475-1535 `isochronous_curve`; `interp` is `inter.interp1d` of the two lists. -/
noncomputable def isochronous (strain : ℝ → Option (ℝ × Bool)) (interp : List ℝ → List ℝ → ℝ → ℝ) (emax ds : ℝ)
    (maxCut fuel : Nat) : Option (List ℝ × List ℝ) :=
  match isoLoop strain emax maxCut fuel ds 0 ⟨0, []⟩ ⟨0, []⟩ with
  | none => none
  | some (es, ss, flat) =>
    let es' := if flat then es.push emax else es
    let ss' := if flat then ss.push ss.last else ss
    some (es'.before.reverse ++ [emax], ss'.before.reverse ++ [interp es'.toList ss'.toList emax])

/-- 1497-1500 the creep test of the curve: the last of the reported strains. -/
noncomputable def isoStrain (c : Setup H) (a : Creep H) (stress : ℝ) : Option (ℝ × Bool) :=
  match ({ a with smax := stress } : Creep H).run c with
  | none => none
  | some o =>
    match o.tstrain.getLast? with
    | none => none
    | some e => some (e, o.failed)

/-! ## Thermomechanical data -/

/-- One point of the data of `thermomechanical_strain_raw`. -/
structure Datum where
  t : ℝ
  T : ℝ
  e : ℝ

/-- 1393-1399 between two points, at `x` of `n` substeps. -/
noncomputable def Datum.at (p q : Datum) (n : Nat) (x : ℝ) : Datum :=
  ⟨(q.t - p.t) / n * x + p.t, (q.T - p.T) / n * x + p.T, (q.e - p.e) / n * x + p.e⟩

open Classical in
/-- 1393-1410 one substep from point `p` to point `q`; the guess is not used in the first interval. -/
noncomputable def thermoSub (sdir : Fin 6 → ℝ) (n : Nat) (first : Bool) (p q : Datum) (k : Nat) (d : Driver H)
    (g : Guess) : Option (Driver H × Guess) :=
  let b := p.at q n (k + 1)
  let a := p.at q n k
  if b.t - a.t = 0 then none
  else
    let g' := if first then none else g
    (d.erateStep sdir ((b.e - a.e) / (b.t - a.t)) b.t b.T (g'.map Prod.fst) (g'.map Prod.snd)).map fun x =>
      (x.1, some (x.2.1, x.2.2))

/-- The substeps of one interval (1392-1410). -/
noncomputable def thermoSubs (sdir : Fin 6 → ℝ) (n : Nat) (first : Bool) (p q : Datum) : Nat → Nat → Driver H → Guess →
    Option (Driver H × Guess)
  | 0, _, d, g => some (d, g)
  | m + 1, k, d, g =>
    match thermoSub sdir n first p q k d g with
    | none => none
    | some (d', g') => thermoSubs sdir n first p q m (k + 1) d' g'

/-- What is stored for a point: stress, and what is called mechanical strain (1414-1415). -/
structure ThermoRow where
  stress : ℝ
  mech : ℝ

/-- The intervals (1390-1415). The rows are newest first; the flag says that a step was not solved. -/
noncomputable def thermoLoop (sdir : Fin 6 → ℝ) (n : Nat) : Bool → Datum → List Datum → Driver H → Guess →
    List ThermoRow → Driver H × List ThermoRow × Bool
  | _, _, [], d, _, rows => (d, rows, true)
  | first, p, q :: qs, d, g, rows =>
    match thermoSubs sdir n first p q n 0 d g with
    | none => (d, rows, false)
    | some (d', g') => thermoLoop sdir n false q qs d' g' (⟨d'.stress.last ⬝ᵥ sdir, d'.thermal.last ⬝ᵥ sdir⟩ :: rows)

/-- Results of `thermomechanical_strain_raw`, one entry for each kept point. -/
structure ThermoOut where
  data : List Datum
  rows : List ThermoRow

/-- 1363-1418 `thermomechanical_strain_raw`. `i` is the loop variable when the loop ends: the index of the interval that
was not solved, or of the last one; `[:i]` keeps the points before it. The lists start with zeros (1383-1384). `none`:
fewer than two points. All exceptions of a step are taken for the one that is caught. -/
noncomputable def thermo (c : Setup H) (sdir : Fin 6 → ℝ) (n : Nat) (data : List Datum) : Option ThermoOut :=
  match data with
  | p :: q :: qs =>
    let (_, rows, done) := thermoLoop sdir n true p (q :: qs) (c.driver p.T none) none []
    let i := if done then rows.length else rows.length + 1
    let zero : ThermoRow := ⟨0, 0⟩
    some ⟨data.take i, ((zero :: rows.reverse) ++ List.replicate (data.length - 1 - rows.length) zero).take i⟩
  | _ => none

/-! ## Rate jumps -/

/-- 1449-1458 the steps at the given rates (without given strains). -/
noncomputable def jumps (sdir : Fin 6 → ℝ) (einc T : ℝ) (n : Nat) : List ℝ → Rec H → Option (Rec H)
  | [], r => some r
  | erate :: rs, r =>
    match loop (eincStep (fun _ => false) sdir sdir erate einc T) n (r, none) with
    | .stop _ => none
    | .ok (r', _) => jumps sdir einc T n rs r'

open Classical in
/-- 1462-1465 steps of `inc` while the strain is below `e`. -/
noncomputable def jumpTo (sdir : Fin 6 → ℝ) (erate inc T e : ℝ) : Nat → Rec H → Option (Rec H)
  | 0, _ => none
  | fuel + 1, r =>
    if r.strain.last < e then
      match eincStep (fun _ => false) sdir sdir erate inc T (r, none) with
      | .stop _ => none
      | .ok (r', _) => jumpTo sdir erate inc T e fuel r'
    else some r

/-- 1459-1465 with given strains; `prev` is the strain before. -/
noncomputable def jumpsTo (sdir : Fin 6 → ℝ) (T : ℝ) (n fuel : Nat) : ℝ → List (ℝ × ℝ) → Rec H → Option (Rec H)
  | _, [], r => some r
  | prev, (e, erate) :: es, r =>
    match jumpTo sdir erate ((e - prev) / n) T e fuel r with
    | none => none
    | some r' => jumpsTo sdir T n fuel e es r'

/-- 1420-1472 `rate_jump_test` without given strains; `none` for no steps, where the code divides by zero (1442). -/
noncomputable def rateJump (c : Setup H) (T : ℝ) (history : Option H) (sdir : Fin 6 → ℝ) (eper : ℝ) (n : Nat)
    (rates : List ℝ) : Option (Rec H) :=
  if n = 0 then none else jumps sdir (eper / n) T n rates (Rec.new (c.driver T history))

/-- 1420-1472 `rate_jump_test` with given strains, each with the rate it is approached at. -/
noncomputable def rateJumpTo (c : Setup H) (T : ℝ) (history : Option H) (sdir : Fin 6 → ℝ) (n fuel : Nat)
    (targets : List (ℝ × ℝ)) : Option (Rec H) :=
  if n = 0 then none else jumpsTo sdir T n fuel 0 targets (Rec.new (c.driver T history))

/-! ## Classification -/

/-- The answers of `classify`. -/
inductive Class
  | elastic
  | elasticShakedown
  | plasticShakedown
  | ratcheting
  deriving DecidableEq

open Classical in
/-- 1554-1576 `classify`. -/
noncomputable def classify (ua ub pb e1a e1b e2a e2b rtol atol : ℝ) : Class :=
  if |pb| < atol then .elastic
  else if |ub - ua| < rtol * |ub| then .elasticShakedown
  else if |e1b - e1a| < rtol * |e1b| ∧ |e2b - e2a| < rtol * |e2b| then .plasticShakedown
  else .ratcheting

end Neml.DriverTests
