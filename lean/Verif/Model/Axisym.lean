import Verif.Model.Driver
import Verif.Model.Vessel

/-!
# Model of the axisymmetric problem of a vessel section (neml/axisym.py 215-260, 431-805)

The wall has `m` elements, `m + 1` nodes and `g` points of integration in each element. The rule of integration is a
parameter (`leggauss` of numpy, not modelled). The materials are parameters and may raise. The loops over elements and
points that add to arrays are sums. Exact reals. LAPACK (`dgttrf`, `dgttrs`) is taken to solve exactly, and to raise for
a singular matrix. Divisions by zero in the condensed solution are an outcome of their own (`Err.nan`): the code goes on
with numbers that are not numbers there, and takes them for convergence; not modelled further.
-/

namespace Neml.Axisym

open Matrix Neml.PySolve Neml.Uniaxial Neml.Driver

/-- axisym.py:478-489: nodes, points and weights of integration on [-1, 1]. -/
structure Wall (m g : ℕ) where
  node : Fin (m + 1) → ℝ
  xi : Fin g → ℝ
  wt : Fin g → ℝ

variable {m g : ℕ} {H : Type}

/-- `x[e:e+2]`: the values at the two nodes of an element. -/
def ends (x : Fin (m + 1) → ℝ) (e : Fin m) : Fin 2 → ℝ := ![x e.castSucc, x e.succ]

/-- axisym.py:502 `self.Nl[i]`. -/
noncomputable def Wall.N (w : Wall m g) (i : Fin g) : Fin 2 → ℝ := ![(1 - w.xi i) / 2, (1 + w.xi i) / 2]

/-- axisym.py:504 `self.Bl[i]`, the same for all points. -/
noncomputable def B : Fin 2 → ℝ := ![-1 / 2, 1 / 2]

/-- axisym.py:481 `self.ls`. -/
def Wall.len (w : Wall m g) (e : Fin m) : ℝ := w.node e.succ - w.node e.castSucc

/-- axisym.py:503 `self.ri`. -/
noncomputable def Wall.rad (w : Wall m g) (e : Fin m) (i : Fin g) : ℝ := w.N i ⬝ᵥ ends w.node e

/-- axisym.py:255 `self.r_inner`: the first node (C134). -/
def Wall.inner (w : Wall m g) : ℝ := w.node 0

/-- axisym.py:256 `self.r_outer`: the last node (C134). -/
def Wall.outer (w : Wall m g) : ℝ := w.node (Fin.last m)

/-- axisym.py:252-253 `self.t`. -/
def Wall.thick (w : Wall m g) : ℝ := w.outer - w.inner

/-- axisym.py:669-683 `strain`, at one point. -/
noncomputable def Wall.strain (w : Wall m g) (u : Fin (m + 1) → ℝ) (ez : ℝ) (e : Fin m) (i : Fin g) : Fin 6 → ℝ :=
  ![B ⬝ᵥ ends u e * 2 / w.len e, w.N i ⬝ᵥ ends u e / w.rad e i, ez, 0, 0, 0]

/-- A quantity at all points of the wall. -/
abbrev Field (m g : ℕ) (α : Type) := Fin m → Fin g → α

/-- axisym.py:754: what the stress `s` at a point adds to the force of the node `a` of its element. -/
noncomputable def Wall.local1 (w : Wall m g) (s : Fin 6 → ℝ) (e : Fin m) (i : Fin g) (a : Fin 2) : ℝ :=
  w.wt i * (s 0 * B a * 2 / w.len e + (s 1 - s 0) * w.N i a / w.rad e i) * w.len e / 2

/-- `y[e:e+2] += f` over all elements and points. -/
def assemble (f : Field m g (Fin 2 → ℝ)) (k : Fin (m + 1)) : ℝ :=
  ∑ e, ∑ i, ((if k = e.castSucc then f e i 0 else 0) + if k = e.succ then f e i 1 else 0)

/-- axisym.py:754: the internal forces of the nodes. -/
noncomputable def Wall.int1 (w : Wall m g) (s : Field m g (Fin 6 → ℝ)) : Fin (m + 1) → ℝ :=
  assemble fun e i => w.local1 (s e i) e i

/-- axisym.py:755: the internal axial force. -/
noncomputable def Wall.int2 (w : Wall m g) (s : Field m g (Fin 6 → ℝ)) : ℝ :=
  ∑ e, ∑ i, w.wt i * s e i 2 * w.len e / 2 / w.thick

/-- axisym.py:701-703: the external forces of the nodes. -/
def ext1 (pl pr : ℝ) (k : Fin (m + 1)) : ℝ :=
  if k = Fin.last m then -pr else if k = 0 then pl else 0

/-- axisym.py:706-707: the external axial force. -/
noncomputable def Wall.ext2 (w : Wall m g) (pl pr : ℝ) : ℝ :=
  pl * w.inner ^ 2 / (w.outer ^ 2 - w.inner ^ 2) - pr * w.outer ^ 2 / (w.outer ^ 2 - w.inner ^ 2)

/-- axisym.py:757: `DE`. -/
noncomputable def Wall.DE (w : Wall m g) (e : Fin m) (i : Fin g) (c b : Fin 2) : ℝ :=
  if c = 0 then B b * 2 / w.len e else w.N i b / w.rad e i

/-- axisym.py:760-761: `J11` of a point, with the tangent `A`. -/
noncomputable def Wall.local11 (w : Wall m g) (A : Matrix (Fin 6) (Fin 6) ℝ) (e : Fin m) (i : Fin g) (a b : Fin 2) : ℝ :=
  (∑ c : Fin 2, (2 / w.len e * B a * A 0 (c.castLE (by omega)) +
    w.N i a / w.rad e i * (A 1 (c.castLE (by omega)) - A 0 (c.castLE (by omega)))) * w.DE e i c b) * w.wt i * w.len e / 2

/-- axisym.py:762: `J12` of a point. -/
noncomputable def Wall.local12 (w : Wall m g) (A : Matrix (Fin 6) (Fin 6) ℝ) (e : Fin m) (i : Fin g) (a : Fin 2) : ℝ :=
  (A 0 2 * B a * 2 / w.len e + (A 1 2 - A 0 2) * w.N i a / w.rad e i) * w.wt i * w.len e / 2

/-- axisym.py:763: `J21` of a point. -/
noncomputable def Wall.local21 (w : Wall m g) (A : Matrix (Fin 6) (Fin 6) ℝ) (e : Fin m) (i : Fin g) (b : Fin 2) : ℝ :=
  (∑ c : Fin 2, A 2 (c.castLE (by omega)) * w.DE e i c b) / w.thick * w.wt i * w.len e / 2

/-- The Jacobian, as it is stored: three diagonals, a column, a row and a corner. -/
structure Jac (m : ℕ) where
  du : Fin m → ℝ
  d : Fin (m + 1) → ℝ
  dl : Fin m → ℝ
  J12 : Fin (m + 1) → ℝ
  J21 : Fin (m + 1) → ℝ
  J22 : ℝ

/-- axisym.py:717-722, 764-772: the Jacobian, with the tangents `A`. -/
noncomputable def Wall.jac (w : Wall m g) (A : Field m g (Matrix (Fin 6) (Fin 6) ℝ)) : Jac m where
  du e := ∑ i, w.local11 (A e i) e i 0 1
  d := assemble fun e i a => w.local11 (A e i) e i a a
  dl e := ∑ i, w.local11 (A e i) e i 1 0
  J12 := assemble fun e i => w.local12 (A e i) e i
  J21 := assemble fun e i => w.local21 (A e i) e i
  J22 := ∑ e, ∑ i, A e i 2 2 / w.thick * w.wt i * w.len e / 2

/-- What can be raised: a `RuntimeError`, another exception. `nan`: not raised, see above. -/
inductive Err
  | runtime
  | other
  | nan

/-- axisym.py:221-260, 452-504: what does not change in a problem. `el` is `elastic_strains` of the materials. `raises` is
what the exceptions of the library are in Python: `RuntimeError`s, as long as the module `nemlerror` has not been imported
(src/nemlerror_wrap.cxx:14-16), then others. -/
structure Problem (m g : ℕ) (H : Type) where
  wall : Wall m g
  mat : Fin m → Model3 H
  el : Fin m → (Fin 6 → ℝ) → ℝ → H → Fin 6 → ℝ
  T : ℝ → ℝ → ℝ
  p : ℝ → ℝ
  pext : ℝ → ℝ
  constrained : Bool
  raises : Err

/-- axisym.py:258-260, 485-499: the records. -/
structure Log (m g : ℕ) (H : Type) where
  times : Series ℝ
  pressures : Series ℝ
  externals : Series ℝ
  temperatures : Series (Fin (m + 1) → ℝ)
  strains : Series (Field m g (Fin 6 → ℝ))
  tstrains : Series (Field m g (Fin 6 → ℝ))
  mstrains : Series (Field m g (Fin 6 → ℝ))
  estrains : Series (Field m g (Fin 6 → ℝ))
  stresses : Series (Field m g (Fin 6 → ℝ))
  histories : Series (Field m g H)
  displacements : Series (Fin (m + 1) → ℝ)
  axialstrain : Series ℝ

/-- axisym.py:258-260, 485-499: the records of a new problem. -/
def Problem.start (b : Problem m g H) : Log m g H where
  times := ⟨0, []⟩
  pressures := ⟨b.p 0, []⟩
  externals := ⟨b.pext 0, []⟩
  temperatures := ⟨fun k => b.T (b.wall.node k) 0, []⟩
  strains := ⟨0, []⟩
  tstrains := ⟨0, []⟩
  mstrains := ⟨0, []⟩
  estrains := ⟨0, []⟩
  stresses := ⟨0, []⟩
  histories := ⟨fun e _ => (b.mat e).init, []⟩
  displacements := ⟨0, []⟩
  axialstrain := ⟨0, []⟩

/-- What `RJ` returns. -/
structure Eval (m g : ℕ) (H : Type) where
  R1 : Fin (m + 1) → ℝ
  R2 : ℝ
  J : Jac m
  strains : Field m g (Fin 6 → ℝ)
  tstrains : Field m g (Fin 6 → ℝ)
  mstrains : Field m g (Fin 6 → ℝ)
  estrains : Field m g (Fin 6 → ℝ)
  stresses : Field m g (Fin 6 → ℝ)
  histories : Field m g H

/-- axisym.py:729-730, 733: the thermal strains at the nodal temperatures `T`. -/
noncomputable def Problem.thermal (b : Problem m g H) (k : Log m g H) (T : Fin (m + 1) → ℝ) : Field m g (Fin 6 → ℝ) :=
  fun e i => k.tstrains.last e i + ((b.mat e).alpha (b.wall.N i ⬝ᵥ ends T e) *
    (b.wall.N i ⬝ᵥ ends T e - b.wall.N i ⬝ᵥ ends k.temperatures.last e)) • isoDir

/-- axisym.py:726-737, 744-746: the call of the material at a point. -/
noncomputable def Problem.call (b : Problem m g H) (k : Log m g H) (u : Fin (m + 1) → ℝ) (ez : ℝ)
    (T : Fin (m + 1) → ℝ) (t : ℝ) (e : Fin m) (i : Fin g) : In3 H where
  e1 := b.wall.strain u ez e i - b.thermal k T e i
  e0 := k.mstrains.last e i
  T1 := b.wall.N i ⬝ᵥ ends T e
  T0 := b.wall.N i ⬝ᵥ ends k.temperatures.last e
  t1 := t
  t0 := k.times.last
  s0 := k.stresses.last e i
  h0 := k.histories.last e i
  u0 := 0
  p0 := 0

/-- The materials of all points are called; `none` if one of them raises. -/
def calls (f : Field m g (Option (Out3 H))) : Option (Field m g (Out3 H)) :=
  if h : ∀ e i, (f e i).isSome then some fun e i => (f e i).get (h e i) else none

/-- axisym.py:685-781 `RJ`. -/
noncomputable def Problem.rj (b : Problem m g H) (k : Log m g H) (u : Fin (m + 1) → ℝ) (ez : ℝ)
    (T : Fin (m + 1) → ℝ) (pl pr t : ℝ) : Option (Eval m g H) :=
  (calls fun e i => (b.mat e).update (b.call k u ez T t e i)).map fun o =>
    { R1 := fun j => b.wall.int1 (fun e i => (o e i).s) j - ext1 pl pr j
      R2 := b.wall.int2 (fun e i => (o e i).s) - b.wall.ext2 pl pr
      J := b.wall.jac fun e i => (o e i).A
      strains := fun e i => b.wall.strain u ez e i
      tstrains := b.thermal k T
      mstrains := fun e i => b.wall.strain u ez e i - b.thermal k T e i
      estrains := fun e i => b.el e (o e i).s (b.wall.N i ⬝ᵥ ends T e) (o e i).h
      stresses := fun e i => (o e i).s
      histories := fun e i => (o e i).h }

/-- The matrix with the three diagonals. -/
def tri (du : Fin m → ℝ) (d : Fin (m + 1) → ℝ) (dl : Fin m → ℝ) : Matrix (Fin (m + 1)) (Fin (m + 1)) ℝ :=
  of fun r c => (if r = c then d r else 0) +
    ∑ e : Fin m, ((if r = e.castSucc ∧ c = e.succ then du e else 0) + if r = e.succ ∧ c = e.castSucc then dl e else 0)

/-- axisym.py:783-790 `tri_solve`; `none` if it raises. -/
noncomputable def triSolve (du : Fin m → ℝ) (d : Fin (m + 1) → ℝ) (dl : Fin m → ℝ) (c : Fin (m + 1) → ℝ) :
    Option (Fin (m + 1) → ℝ) := linSolve (tri du d dl) c

open Classical in
/-- axisym.py:792-805 `cute_solve`. -/
noncomputable def cuteSolve (raises : Err) (du : Fin m → ℝ) (d : Fin (m + 1) → ℝ) (dl : Fin m → ℝ)
    (u v c : Fin (m + 1) → ℝ) : Except Err (Fin (m + 1) → ℝ) :=
  match triSolve du d dl c, triSolve du d dl u with
  | some x, some y => if 1 + v ⬝ᵥ y = 0 then .error .nan else .ok (x - (v ⬝ᵥ x / (1 + v ⬝ᵥ y)) • y)
  | _, _ => .error raises

open Classical in
/-- axisym.py:560-566: the correction of displacements and axial strain. -/
noncomputable def condensed (raises : Err) (J : Jac m) (R1 : Fin (m + 1) → ℝ) (R2 : ℝ) :
    Except Err ((Fin (m + 1) → ℝ) × ℝ) :=
  if J.J22 = 0 then .error .nan
  else match cuteSolve raises J.du J.d J.dl (-(J.J22⁻¹ • J.J12)) J.J21 (R1 - (R2 / J.J22) • J.J12) with
    | .error e => .error e
    | .ok x1 => .ok (x1, (R2 - J.J21 ⬝ᵥ x1) / J.J22)

/-- axisym.py:554-569: the next displacements and axial strain. -/
noncomputable def Problem.next (b : Problem m g H) (u : Fin (m + 1) → ℝ) (ez : ℝ) (E : Eval m g H) :
    Except Err ((Fin (m + 1) → ℝ) × ℝ) :=
  if b.constrained then
    match triSolve E.J.du E.J.d E.J.dl E.R1 with
    | none => .error b.raises
    | some x1 => .ok (u - x1, ez)
  else
    match condensed b.raises E.J E.R1 E.R2 with
    | .error e => .error e
    | .ok (x1, x2) => .ok (u - x1, ez - x2)

/-- axisym.py:542-545, 574-577: the size of the residual. -/
noncomputable def Problem.size (b : Problem m g H) (E : Eval m g H) : ℝ :=
  if b.constrained then norm2 E.R1 else Real.sqrt (∑ j, E.R1 j ^ 2 + E.R2 ^ 2)

/-- The options of a step (axisym.py:506-507, 588-589). -/
structure Opts where
  rtol : ℝ
  atol : ℝ
  ilimit : ℕ
  div : ℕ
  maxDiv : ℕ
  predict : ℝ

open Classical in
/-- axisym.py:552-584: the iteration; the first argument counts the iterations that are left. With none left the code
raises, also if the last one has converged. -/
noncomputable def Problem.iterate (b : Problem m g H) (k : Log m g H) (o : Opts) (T : Fin (m + 1) → ℝ)
    (pl pr t n0 : ℝ) : ℕ → (Fin (m + 1) → ℝ) → ℝ → Eval m g H → Except Err ((Fin (m + 1) → ℝ) × ℝ × Eval m g H)
  | 0, _, _, _ => .error .runtime
  | n + 1, u, ez, E =>
    if o.atol < b.size E ∧ o.rtol < b.size E / n0 then
      match b.next u ez E with
      | .error e => .error e
      | .ok (u', ez') =>
        match b.rj k u' ez' T pl pr t with
        | none => .error b.raises
        | some E' => b.iterate k o T pl pr t n0 n u' ez' E'
    else .ok (u, ez, E)

/-- What `take_step` returns. -/
structure Row (m g : ℕ) (H : Type) where
  pl : ℝ
  pr : ℝ
  T : Fin (m + 1) → ℝ
  strains : Field m g (Fin 6 → ℝ)
  tstrains : Field m g (Fin 6 → ℝ)
  mstrains : Field m g (Fin 6 → ℝ)
  estrains : Field m g (Fin 6 → ℝ)
  stresses : Field m g (Fin 6 → ℝ)
  histories : Field m g H
  u : Fin (m + 1) → ℝ
  ez : ℝ

/-- axisym.py:528-533: the last entry of a series, extrapolated if there is one before it. -/
def guess {α : Type} [Add α] [Sub α] (predict : α → α) (s : Series α) : α :=
  match s.before with
  | [] => s.last
  | x :: _ => s.last + predict (s.last - x)

/-- axisym.py:506-586 `take_step`. -/
noncomputable def Problem.takeStep (b : Problem m g H) (k : Log m g H) (o : Opts) (t : ℝ) : Except Err (Row m g H) :=
  let T := fun j => b.T (b.wall.node j) t
  let pl := b.p t
  let pr := b.pext t
  let u0 := guess (fun x => o.predict • x) k.displacements
  let ez0 := if b.constrained then 0 else guess (fun x => o.predict * x) k.axialstrain
  match b.rj k u0 ez0 T pl pr t with
  | none => .error b.raises
  | some E0 =>
    match b.iterate k o T pl pr t (b.size E0) o.ilimit u0 ez0 E0 with
    | .error e => .error e
    | .ok (u, ez, E) =>
      .ok ⟨pl, pr, T, E.strains, E.tstrains, E.mstrains, E.estrains, E.stresses, E.histories, u, ez⟩

/-- axisym.py:622-633: a row is added to the records, with the time `t`. -/
def Log.push (k : Log m g H) (t : ℝ) (r : Row m g H) : Log m g H where
  times := k.times.push t
  pressures := k.pressures.push r.pl
  externals := k.externals.push r.pr
  temperatures := k.temperatures.push r.T
  strains := k.strains.push r.strains
  tstrains := k.tstrains.push r.tstrains
  mstrains := k.mstrains.push r.mstrains
  estrains := k.estrains.push r.estrains
  stresses := k.stresses.push r.stresses
  histories := k.histories.push r.histories
  displacements := k.displacements.push r.u
  axialstrain := k.axialstrain.push r.ez

/-- `len(x)`. -/
def size {α : Type} (s : Series α) : ℕ := s.before.length + 1

/-- `x[:n]`, for `n` from one. -/
def cut {α : Type} (n : ℕ) (s : Series α) : Series α :=
  match (s.last :: s.before).drop (size s - n) with
  | [] => s
  | a :: l => ⟨a, l⟩

/-- axisym.py:638-649: the records are cut back. -/
def Log.cut (k : Log m g H) (n : ℕ) : Log m g H where
  times := Axisym.cut n k.times
  pressures := Axisym.cut n k.pressures
  externals := Axisym.cut n k.externals
  temperatures := Axisym.cut n k.temperatures
  strains := Axisym.cut n k.strains
  tstrains := Axisym.cut n k.tstrains
  mstrains := Axisym.cut n k.mstrains
  estrains := Axisym.cut n k.estrains
  stresses := Axisym.cut n k.stresses
  histories := Axisym.cut n k.histories
  displacements := Axisym.cut n k.displacements
  axialstrain := Axisym.cut n k.axialstrain

/-- `x[:n] + [x[-1]]`. -/
def closed {α : Type} (n : ℕ) (s : Series α) : Series α := (cut n s).push s.last

/-- axisym.py:655-666: of the rows of the substeps the last one is kept. -/
def Log.closed (k : Log m g H) (n : ℕ) : Log m g H where
  times := Axisym.closed n k.times
  pressures := Axisym.closed n k.pressures
  externals := Axisym.closed n k.externals
  temperatures := Axisym.closed n k.temperatures
  strains := Axisym.closed n k.strains
  tstrains := Axisym.closed n k.tstrains
  mstrains := Axisym.closed n k.mstrains
  estrains := Axisym.closed n k.estrains
  stresses := Axisym.closed n k.stresses
  histories := Axisym.closed n k.histories
  displacements := Axisym.closed n k.displacements
  axialstrain := Axisym.closed n k.axialstrain

/-- What a call of `step` ends with. -/
inductive Res (m g : ℕ) (H : Type)
  | ok (k : Log m g H)
  | raised (e : Err) (k : Log m g H)
  | running

/-- axisym.py:616-653: the loop over the substeps; the first argument is fuel. The numbers `cstep` and `sstep`, floating
point after a division, are integers (C138). -/
noncomputable def Problem.substeps (b : Problem m g H) (o : Opts) (t dt : ℝ) (ostep : ℕ) :
    ℕ → Log m g H → ℕ → ℕ → ℕ → Res m g H
  | 0, _, _, _, _ => .running
  | n + 1, k, cstep, sstep, cdiv =>
    if cstep = o.div ^ o.maxDiv then .ok (k.closed ostep)
    else
      match b.takeStep k o (k.times.last + dt * (cstep + sstep : ℕ) / (o.div ^ o.maxDiv : ℕ)) with
      | .ok r => b.substeps o t dt ostep n (k.push t r) (cstep + sstep) sstep cdiv
      | .error .runtime =>
        if o.maxDiv < cdiv + 1 then .raised .runtime (k.cut ostep)
        else b.substeps o t dt ostep n k cstep (sstep / o.div) (cdiv + 1)
      | .error e => .raised e k

/-- axisym.py:588-666 `step`. -/
noncomputable def Problem.step (b : Problem m g H) (o : Opts) (fuel : ℕ) (k : Log m g H) (t : ℝ) : Res m g H :=
  b.substeps o t (t - k.times.last) (Axisym.size k.times) fuel k 0 (o.div ^ o.maxDiv) 0

end Neml.Axisym
