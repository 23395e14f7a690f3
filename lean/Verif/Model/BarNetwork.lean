import Verif.Model.Driver
import Mathlib.Data.List.FinRange

/-!
# Model of networks of bars (neml/arbbar.py 15-350)

The graph has the nodes `Fin n`, in the order of `self.nodes()`, and a list of edges, in the order and with the
orientation of `self.edges(data=True)` (the same in every call, as the graph does not change). Each recorded quantity
is its own series, as in the code. The uniaxial model of a bar is a parameter and may raise. Exact reals; a bar of
length zero raises here (in floating point the code goes on with an infinite strain). The solver is the copy of
nlsolvers.newton in arbbar.py 352-403 (`PySolve.newton`; the exception class it wants to raise at the iteration limit is
not imported, so that another exception is raised there). Printing is left out.
-/

namespace Neml.BarNetwork

open Matrix Neml.PySolve Neml.Uniaxial Neml.Driver

/-- What a bar uses of the uniaxial model: update, expansion coefficient, elastic strain, initial store. -/
structure Mat1 (H : Type) where
  update : In1 H → Option (Out1 H)
  alpha : ℝ → ℝ
  elastic : ℝ → ℝ → H → ℝ
  init : H

/-- arbbar.py:269-303: a bar, with its recorded series and the trial values of the current step. -/
structure Bar (H : Type) where
  mat : Mat1 H
  A : ℝ
  l : ℝ
  T : ℝ → ℝ
  stress : Series ℝ
  strain : Series ℝ
  mstrain : Series ℝ
  estrain : Series ℝ
  tstrain : Series ℝ
  energy : Series ℝ
  dissipation : Series ℝ
  temperature : Series ℝ
  history : Series H
  stressN : ℝ
  strainN : ℝ
  mstrainN : ℝ
  estrainN : ℝ
  tstrainN : ℝ
  energyN : ℝ
  dissipationN : ℝ
  TN : ℝ
  historyN : H

variable {H : Type} {n : Nat}

/-- arbbar.py:270-303 `Bar.__init__` (the uninitialised `history_next` is the initial store here). -/
def Bar.new (mat : Mat1 H) (A l : ℝ) (T : ℝ → ℝ) : Bar H :=
  { mat := mat, A := A, l := l, T := T, stress := ⟨0, []⟩, strain := ⟨0, []⟩, mstrain := ⟨0, []⟩, estrain := ⟨0, []⟩,
    tstrain := ⟨0, []⟩, energy := ⟨0, []⟩, dissipation := ⟨0, []⟩, temperature := ⟨T 0, []⟩, history := ⟨mat.init, []⟩,
    stressN := 0, strainN := 0, mstrainN := 0, estrainN := 0, tstrainN := 0, energyN := 0, dissipationN := 0, TN := 0,
    historyN := mat.init }

open Classical in
/-- arbbar.py:305-336 `update_force`: the force, the tangent, and the bar with the trial values. -/
noncomputable def Bar.updateForce (b : Bar H) (d t1 t0 : ℝ) : Option (ℝ × ℝ × Bar H) :=
  let T1 := b.T t1
  let ts := b.tstrain.last + (T1 - b.temperature.last) * (b.mat.alpha T1 + b.mat.alpha b.temperature.last) / 2
  if b.l = 0 then none
  else
    let e := d / b.l
    let m := e - ts
    (b.mat.update ⟨m, b.mstrain.last, T1, b.temperature.last, t1, t0, b.stress.last, b.history.last, b.energy.last,
      b.dissipation.last⟩).map fun o =>
      (o.s * b.A, o.A * b.A / b.l,
        { b with
          TN := T1
          tstrainN := ts
          strainN := e
          mstrainN := m
          stressN := o.s
          historyN := o.h
          energyN := o.u
          dissipationN := o.p
          estrainN := b.mat.elastic o.s T1 o.h })

/-- arbbar.py:338-350 `advance_step`. -/
def Bar.advance (b : Bar H) : Bar H :=
  { b with
    stress := b.stress.push b.stressN
    strain := b.strain.push b.strainN
    mstrain := b.mstrain.push b.mstrainN
    estrain := b.estrain.push b.estrainN
    tstrain := b.tstrain.push b.tstrainN
    energy := b.energy.push b.energyN
    dissipation := b.dissipation.push b.dissipationN
    temperature := b.temperature.push b.TN
    history := b.history.push b.historyN }

/-- An edge of the graph with its bar. -/
structure Edge (H : Type) (n : Nat) where
  i : Fin n
  j : Fin n
  bar : Bar H

/-- arbbar.py:56-64 and the attributes of nodes and edges. -/
structure Net (H : Type) (n : Nat) where
  edges : List (Edge H n)
  disp : Fin n → Series ℝ
  force : Fin n → Series ℝ
  dbc : Fin n → Option (ℝ → ℝ)
  fbc : Fin n → Option (ℝ → ℝ)
  time : Series ℝ
  energy : Series ℝ
  dissipation : Series ℝ

/-- arbbar.py:56-64, 244-254: a new network with the given bars. -/
def Net.new (edges : List (Edge H n)) : Net H n :=
  ⟨edges, fun _ => ⟨0, []⟩, fun _ => ⟨0, []⟩, fun _ => none, fun _ => none, ⟨0, []⟩, ⟨0, []⟩, ⟨0, []⟩⟩

/-- arbbar.py:216-229 `add_force_bc`. -/
def Net.addForce (net : Net H n) (v : Fin n) (f : ℝ → ℝ) : Net H n :=
  { net with
    dbc := Function.update net.dbc v none
    fbc := Function.update net.fbc v (some f) }

/-- arbbar.py:231-242 `add_displacement_bc`. -/
def Net.addDisp (net : Net H n) (v : Fin n) (f : ℝ → ℝ) : Net H n :=
  { net with
    fbc := Function.update net.fbc v none
    dbc := Function.update net.dbc v (some f) }

/-- arbbar.py:163-170 `free_fixed_nodes`, the free ones. -/
def Net.free (net : Net H n) : List (Fin n) := (List.finRange n).filter fun v => (net.dbc v).isNone

/-- `free_nodes.index(v)` if the node is in the list (arbbar.py:127, 196, 204, 209). -/
def Net.pos (net : Net H n) (v : Fin n) : Option (Fin net.free.length) :=
  if h : v ∈ net.free then some ⟨net.free.idxOf v, List.idxOf_lt_length_of_mem h⟩ else none

/-- arbbar.py:126-132, 195-199: the displacement of a node: the unknown, or the prescribed one. (The last case, a node
that is neither, does not occur.) -/
def Net.value (net : Net H n) (d : Fin net.free.length → ℝ) (t : ℝ) (v : Fin n) : ℝ :=
  match net.pos v, net.dbc v with
  | some k, _ => d k
  | none, some f => f t
  | none, none => 0

/-- arbbar.py:64 `self.sign`; the first end of a bar is `false`. -/
def sign : Bool → ℝ
  | false => -1
  | true => 1

/-- The node at an end of an edge. -/
def Edge.node (e : Edge H n) : Bool → Fin n
  | false => e.i
  | true => e.j

/-- `R[i] += x`. -/
def addAt {m : Nat} (R : Fin m → ℝ) (i : Fin m) (x : ℝ) : Fin m → ℝ := Function.update R i (R i + x)

/-- `J[i,j] += x`. -/
def addAt2 {m : Nat} (J : Matrix (Fin m) (Fin m) ℝ) (i j : Fin m) (x : ℝ) : Matrix (Fin m) (Fin m) ℝ :=
  of fun k l => if k = i ∧ l = j then J k l + x else J k l

/-- arbbar.py:208-212: one end of a bar in the row `i`. -/
def Net.addCol (net : Net H n) (e : Edge H n) (i : Fin net.free.length) (bi : Bool) (A : ℝ)
    (J : Matrix (Fin net.free.length) (Fin net.free.length) ℝ) (bj : Bool) :
    Matrix (Fin net.free.length) (Fin net.free.length) ℝ :=
  match net.pos (e.node bj) with
  | some j => addAt2 J i j (sign bi * sign bj * A)
  | none => J

/-- arbbar.py:203-212: one end of a bar. -/
def Net.addEnd (net : Net H n) (e : Edge H n) (f A : ℝ)
    (p : (Fin net.free.length → ℝ) × Matrix (Fin net.free.length) (Fin net.free.length) ℝ) (bi : Bool) :
    (Fin net.free.length → ℝ) × Matrix (Fin net.free.length) (Fin net.free.length) ℝ :=
  match net.pos (e.node bi) with
  | some i => (addAt p.1 i (sign bi * f), [false, true].foldl (net.addCol e i bi A) p.2)
  | none => p

/-- arbbar.py:203-212: both ends of a bar. -/
def Net.addBar (net : Net H n) (e : Edge H n) (f A : ℝ)
    (p : (Fin net.free.length → ℝ) × Matrix (Fin net.free.length) (Fin net.free.length) ℝ) :
    (Fin net.free.length → ℝ) × Matrix (Fin net.free.length) (Fin net.free.length) ℝ :=
  [false, true].foldl (net.addEnd e f A) p

/-- arbbar.py:190-212: the loop over the bars. -/
noncomputable def Net.assemble (net : Net H n) (d : Fin net.free.length → ℝ) (t1 : ℝ) : List (Edge H n) →
    (Fin net.free.length → ℝ) × Matrix (Fin net.free.length) (Fin net.free.length) ℝ →
    Option (((Fin net.free.length → ℝ) × Matrix (Fin net.free.length) (Fin net.free.length) ℝ) × List (Edge H n))
  | [], p => some (p, [])
  | e :: es, p =>
    let dd := [false, true].foldl (fun x b => x + sign b * net.value d t1 (e.node b)) 0
    match e.bar.updateForce dd t1 net.time.last with
    | none => none
    | some (f, A, b) =>
      match net.assemble d t1 es (net.addBar e f A p) with
      | none => none
      | some (q, es') => some (q, { e with bar := b } :: es')

/-- arbbar.py:186-188: the residual starts with the external forces. -/
def Net.external (net : Net H n) (t1 : ℝ) (k : Fin net.free.length) : ℝ :=
  match net.fbc (net.free.get k) with
  | some f => 0 - f t1
  | none => 0

/-- arbbar.py:172-214 `RJ`. What it leaves behind are the bars with their trial values. -/
noncomputable def Net.rj (net : Net H n) (dt : ℝ) : VecRJ (List (Edge H n)) net.free.length := fun es d =>
  (net.assemble d (net.time.last + dt) es (net.external (net.time.last + dt), 0)).map fun r => (r.1.1, r.1.2, r.2)

/-- arbbar.py:149-161 `make_guess`. -/
def Net.guess (net : Net H n) (extrapolate : Bool) (value : ℝ) : Fin net.free.length → ℝ := fun k =>
  let s := net.disp (net.free.get k)
  match extrapolate, net.time.before, s.before with
  | true, _ :: _, x :: _ => s.last + value * (s.last - x)
  | _, _, _ => s.last

/-- arbbar.py:136-141: the loop over the bars that adds up the forces on node `v`. -/
def forceSum (es : List (Edge H n)) (v : Fin n) : ℝ :=
  es.foldl (fun F e => [false, true].foldl (fun F b =>
    if e.node b = v then F + sign b * e.bar.stressN * e.bar.A else F) F) 0

/-- arbbar.py:136-142: `e_sum`. -/
def energySum (es : List (Edge H n)) : ℝ := es.foldl (fun x e => x + e.bar.energyN * e.bar.A * e.bar.l) 0

/-- arbbar.py:113-147 `apply_update`, with the bars `es` left by the last evaluation. `p_sum` is computed by the code and
not used: line 147 appends `e_sum` to the dissipation. -/
noncomputable def Net.apply (net : Net H n) (es : List (Edge H n)) (d : Fin net.free.length → ℝ) (dt : ℝ) : Net H n :=
  let t1 := net.time.last + dt
  { net with
    edges := es.map fun e => { e with bar := e.bar.advance }
    disp := fun v => (net.disp v).push (net.value d t1 v)
    force := fun v => (net.force v).push (forceSum es v)
    time := net.time.push t1
    energy := net.energy.push (energySum es)
    dissipation := net.dissipation.push (energySum es) }

/-- What a call of `solve` ends with; an exception leaves a network too. `running`: the loop has not ended within the
fuel. -/
inductive Res (H : Type) (n : Nat)
  | ok (net : Net H n)
  | raised (net : Net H n)
  | running (net : Net H n)

/-- The options of `solve`. -/
structure Opts where
  ndiv : Nat
  dfact : Nat
  extrapolate : Bool
  rtol : ℝ
  atol : ℝ
  miter : Nat

open Classical in
/-- arbbar.py:86-111: the loop. A failed attempt leaves trial values of no account in the bars; they are left as they
were. The first argument is fuel. -/
noncomputable def solveLoop (o : Opts) (total : ℝ) : Nat → Net H n → (curr attempt dtA ef : ℝ) → Nat → Res H n
  | 0, net, _, _, _, _, _ => .running net
  | k + 1, net, curr, attempt, dtA, ef, dtried =>
    if curr < total then
      match newton (net.rj dtA) o.rtol o.atol o.miter net.edges (net.guess o.extrapolate ef) with
      | some (d, es) => solveLoop o total k (net.apply es d dtA) (curr + attempt) attempt dtA 1 dtried
      | none =>
        if dtried + 1 = o.ndiv then .raised net
        else solveLoop o total k net curr (attempt / o.dfact) (dtA / o.dfact) (ef / o.dfact) (dtried + 1)
    else .ok net

/-- arbbar.py:66-111 `solve`. -/
noncomputable def Net.solve (net : Net H n) (o : Opts) (fuel : Nat) (dt : ℝ) : Res H n :=
  solveLoop o ((o.dfact : ℝ) ^ o.ndiv) fuel net 0 ((o.dfact : ℝ) ^ o.ndiv) dt 1 0

end Neml.BarNetwork
