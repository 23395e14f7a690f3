import Verif.Model.BarNetwork
import Verif.Model.Vessel

/-!
# Model of the Bree problem of a vessel section (neml/axisym.py 215-260, 276-429)

The wall is a set of parallel bars between two nodes, `0` and `1` (1 and 2 in the code): a network of
`Model/BarNetwork.lean`. The integration rule is a parameter, with points and weights on [-1, 1]: `rect`
(`Model/Vessel.lean`), or `leggauss` of numpy, which is not modelled. Exact reals.
-/

namespace Neml.Bree

open Neml.BarNetwork Neml.Driver Neml.Vessel

/-- axisym.py:236-260, 303-363: the problem with its records. `p` and `pext` are `self.p` and `self.p_ext`. -/
structure Problem (H : Type) where
  net : Net H 2
  points : List ℝ
  weights : List ℝ
  inner : ℝ
  outer : ℝ
  thick : ℝ
  T : ℝ → ℝ → ℝ
  p : ℝ → ℝ
  pext : ℝ → ℝ
  direct : Bool
  P : ℝ → ℝ
  times : Series ℝ
  pressures : Series ℝ
  externals : Series ℝ
  axial : Series ℝ
  hoop : Series ℝ
  force : Series ℝ
  temperatures : Series (List ℝ)
  stresses : Series (List ℝ)
  tstrains : Series (List ℝ)
  mstrains : Series (List ℝ)
  estrains : Series (List ℝ)
  histories : Series (List H)
  energy : Series ℝ
  work : Series ℝ

variable {H : Type}

/-- axisym.py:326-329, 369-372: the hoop stress, given, or that of a thin wall. -/
noncomputable def hoopOf (direct : Bool) (inner outer thick : ℝ) (p pext : ℝ → ℝ) (t : ℝ) : ℝ :=
  if direct then p t else (p t * inner - pext t * outer) / thick

/-- axisym.py:318-319: the points of a region of the size `dl` that starts at `r`. -/
noncomputable def pointsOf (rule : ℕ → List (ℝ × ℝ)) (rs : List ℝ) (ns : List ℕ) : List ℝ :=
  (((diff rs).zip rs).zip ns).flatMap fun q => (rule q.2).map fun x => (x.1 + 1) * q.1.1 / 2 + q.1.2

/-- axisym.py:320-321: the weights. -/
noncomputable def weightsOf (rule : ℕ → List (ℝ × ℝ)) (rs : List ℝ) (ns : List ℕ) : List ℝ :=
  ((diff rs).zip ns).flatMap fun q => (rule q.2).map fun x => x.2 * q.1 / 2

/-- axisym.py:322: the materials of the points. -/
def materialsOf {α : Type} (mats : List α) (ns : List ℕ) : List α :=
  (mats.zip ns).flatMap fun q => List.replicate q.2 q.1

/-- axisym.py:336-340: the bars, of the area of the weight and of the length one. -/
def bars (T : ℝ → ℝ → ℝ) (points weights : List ℝ) (mats : List (Mat1 H)) : List (Edge H 2) :=
  ((points.zip weights).zip mats).map fun q => ⟨0, 1, Bar.new q.2 q.1.2 1 (T q.1.1)⟩

/-- axisym.py:332-343: the network. -/
def network (T : ℝ → ℝ → ℝ) (P : ℝ → ℝ) (points weights : List ℝ) (mats : List (Mat1 H)) : Net H 2 :=
  ((Net.new (bars T points weights mats)).addDisp 0 fun _ => 0).addForce 1 fun t => P t * weights.sum

/-- axisym.py:221-260, 285-363: the constructor; `none`: a `ValueError`, or no thickness to divide by. -/
noncomputable def Problem.new (rule : ℕ → List (ℝ × ℝ)) (rs : List ℝ) (mats : List (Mat1 H)) (ns : List ℕ)
    (T : ℝ → ℝ → ℝ) (p pext : ℝ → ℝ) (direct : Bool) : Option (Problem H) :=
  if rs.length ≠ mats.length + 1 ∨ mats.length ≠ ns.length then none
  else if (diff rs).sum = 0 then none
  else
    let P := hoopOf direct (rs.headD 0) (rs.getLastD 0) (diff rs).sum p pext
    let points := pointsOf rule rs ns
    let weights := weightsOf rule rs ns
    let net := network T P points weights (materialsOf mats ns)
    some {
      net := net, points := points, weights := weights, inner := rs.headD 0, outer := rs.getLastD 0
      thick := (diff rs).sum, T := T, p := p, pext := pext, direct := direct, P := P
      times := ⟨0, []⟩, pressures := ⟨p 0, []⟩, externals := ⟨pext 0, []⟩, axial := ⟨0, []⟩, hoop := ⟨P 0, []⟩
      force := ⟨0, []⟩
      temperatures := ⟨net.edges.map fun e => e.bar.temperature.last, []⟩
      stresses := ⟨net.edges.map fun e => e.bar.stress.last, []⟩
      tstrains := ⟨net.edges.map fun e => e.bar.tstrain.last, []⟩
      mstrains := ⟨net.edges.map fun e => e.bar.mstrain.last, []⟩
      estrains := ⟨net.edges.map fun e => e.bar.estrain.last, []⟩
      histories := ⟨net.edges.map fun e => e.bar.history.last, []⟩
      energy := ⟨0, []⟩, work := ⟨0, []⟩ }

/-- axisym.py:365-379 `update_loading`. -/
noncomputable def Problem.update (b : Problem H) (p : ℝ → ℝ) (T : ℝ → ℝ → ℝ) (pext : ℝ → ℝ) : Problem H :=
  let P := hoopOf b.direct b.inner b.outer b.thick p pext
  { b with
    P := P
    T := T
    net := { b.net with
      fbc := Function.update b.net.fbc 1 (some fun t => P t * b.weights.sum)
      edges := (b.net.edges.zip b.points).map fun q => { q.1 with bar := { q.1.bar with T := T q.2 } } } }

/-- What a call of `step` ends with. -/
inductive Res (H : Type)
  | ok (b : Problem H)
  | raised (b : Problem H)
  | running

/-- axisym.py:404-429: what is recorded after the network has been solved. -/
noncomputable def Problem.record (b : Problem H) (net : Net H 2) (t : ℝ) : Problem H :=
  { b with
    net := net
    times := b.times.push t
    pressures := b.pressures.push (b.p t)
    externals := b.externals.push (b.pext t)
    hoop := b.hoop.push (b.P t)
    force := b.force.push (net.force 1).last
    axial := b.axial.push (net.disp 1).last
    temperatures := b.temperatures.push (net.edges.map fun e => e.bar.temperature.last)
    stresses := b.stresses.push (net.edges.map fun e => e.bar.stress.last)
    tstrains := b.tstrains.push (net.edges.map fun e => e.bar.tstrain.last)
    mstrains := b.mstrains.push (net.edges.map fun e => e.bar.mstrain.last)
    estrains := b.estrains.push (net.edges.map fun e => e.bar.estrain.last)
    histories := b.histories.push (net.edges.map fun e => e.bar.history.last)
    energy := b.energy.push ((b.weights.zip net.edges).foldl
      (fun x q => x + q.1 * q.2.bar.energy.last * q.2.bar.A * q.2.bar.l) 0)
    work := b.work.push ((b.weights.zip net.edges).foldl
      (fun x q => x + q.1 * q.2.bar.dissipation.last * q.2.bar.A * q.2.bar.l) 0) }

open Classical in
/-- axisym.py:381-429 `step`. The tolerances `rtol` and `atol` given to it are not passed on (line 401-402): the solver
works with its own, which are in `o`. -/
noncomputable def Problem.step (b : Problem H) (o : Opts) (fuel : ℕ) (t _rtol _atol : ℝ) : Res H :=
  if t - b.times.last < 0 then .raised b
  else match b.net.solve o fuel (t - b.times.last) with
    | .running _ => .running
    | .raised net => .raised { b with net := net }
    | .ok net => .ok (b.record net t)

end Neml.Bree
