import Verif.Model.Crystal
import Verif.Model.Lattice

/-!
# Model of polycrystals, batches and twin reorientation (src/cp/polycrystal.cxx, batch.cxx, postprocessors.cxx)

Exact reals. The update of one crystal is a parameter: it is modelled in Model/Crystal, Model/Kinematics and
Model/Slip. `none` is a thrown exception or a write beyond the end of an array. The flat store of a
polycrystal is modelled by its named parts; where the parts lie is modelled separately (`offHistory` and
after). Reading parameters and allocating scratch arrays are not modelled.
-/

namespace Neml.Polycrystal

open Neml.Rotation Matrix

/-! ## Weights -/

/-- polycrystal.cxx:17-30: the weights of `n` grains from the parameter. -/
noncomputable def mkWeights (n : Nat) (w : List ℝ) : Option (List ℝ) :=
  open Classical in
  let w' := if w.length = 0 then List.replicate n 1 else w
  if w.length ≠ 0 ∧ w.length ≠ n then none
  else
    let sum := w'.foldl (· + ·) 0
    if sum = 0 then none else some (w'.map (· / sum))

/-! ## Where things are stored -/

/-- polycrystal.cxx:38-48 `populate_hist`: the sizes of the parts, in order. -/
def partSizes (n nstore : Nat) : List Nat :=
  List.replicate n nstore ++ List.replicate n 6 ++ List.replicate n 6 ++ List.replicate n 3

/-- polycrystal.cxx:65-68 `history`. -/
def offHistory (_n nstore i : Nat) : Nat := i * nstore

/-- polycrystal.cxx:70-73 `stress`. -/
def offStress (n nstore i : Nat) : Nat := n * nstore + i * 6

/-- polycrystal.cxx:75-78 `d`. -/
def offD (n nstore i : Nat) : Nat := n * (nstore + 6) + i * 6

/-- polycrystal.cxx:80-83 `w`. -/
def offW (n nstore i : Nat) : Nat := n * (nstore + 6 + 6) + i * 3

/-! ## The Taylor model -/

/-- What one crystal update is given (include/cp/singlecrystal.h `update_ld_inc`), with zero energies. -/
structure GrainIn (H : Type) where
  d1 : Fin 6 → ℝ
  d0 : Fin 6 → ℝ
  w1 : Fin 3 → ℝ
  w0 : Fin 3 → ℝ
  T1 : ℝ
  T0 : ℝ
  t1 : ℝ
  t0 : ℝ
  s0 : Fin 6 → ℝ
  h0 : H

/-- What it returns; energy and dissipation are the increments. -/
structure GrainOut (H : Type) where
  s : Fin 6 → ℝ
  h : H
  A : Fin 36 → ℝ
  B : Fin 18 → ℝ
  u : ℝ
  p : ℝ

/-- The stored variables of a polycrystal. -/
structure Store (n : Nat) (H : Type) where
  hist : Fin n → H
  stress : Fin n → Fin 6 → ℝ
  d : Fin n → Fin 6 → ℝ
  w : Fin n → Fin 3 → ℝ

/-- polycrystal.cxx:50-63 `init_hist`; `init q` is the initial history of a crystal with the active
orientation `q`. -/
def initStore {n : Nat} {H : Type} (init : Quat → H) (q : Fin n → Quat) : Store n H :=
  ⟨fun i => init (q i), fun _ => 0, fun _ => 0, fun _ => 0⟩

/-- The arguments of one update of the polycrystal. -/
structure StepIn where
  d1 : Fin 6 → ℝ
  d0 : Fin 6 → ℝ
  w1 : Fin 3 → ℝ
  w0 : Fin 3 → ℝ
  T1 : ℝ
  T0 : ℝ
  t1 : ℝ
  t0 : ℝ
  s0 : Fin 6 → ℝ

/-- The results of one update. -/
structure StepOut where
  s : Fin 6 → ℝ
  A : Fin 36 → ℝ
  B : Fin 18 → ℝ
  u : ℝ
  p : ℝ

/-- The grains' arguments (polycrystal.cxx:177-196): the new rates are the ones asked for, everything old
comes from the store. -/
def grainIn {n : Nat} {H : Type} (a : StepIn) (st : Store n H) (i : Fin n) : GrainIn H :=
  { d1 := a.d1, d0 := st.d i, w1 := a.w1, w0 := st.w i, T1 := a.T1, T0 := a.T0, t1 := a.t1, t0 := a.t0
    s0 := st.stress i, h0 := st.hist i }

/-- All grains evaluated, `none` if one fails (batch.cxx:11-47). -/
def evalAll {n : Nat} {H : Type} (grain : GrainIn H → Option (GrainOut H)) (a : StepIn) (st : Store n H) :
    Option (Fin n → GrainOut H) :=
  if h : ∀ i, (grain (grainIn a st i)).isSome then some fun i => (grain (grainIn a st i)).get (h i) else none

/-- polycrystal.cxx:202-208: the loop over the grains that adds one weighted quantity up. -/
def accumulate {n : Nat} {V : Type} [AddCommGroup V] [Module ℝ V] (weights : Fin n → ℝ) (x : Fin n → V) : V :=
  (List.finRange n).foldl (fun acc i => acc + weights i • x i) 0

/-- polycrystal.cxx:153-217 `TaylorModel::update_ld_inc`. -/
def taylor {n : Nat} {H : Type} (weights : Fin n → ℝ) (grain : GrainIn H → Option (GrainOut H)) (a : StepIn)
    (un pn : ℝ) (st : Store n H) : Option (StepOut × Store n H) :=
  (evalAll grain a st).map fun g =>
    ({ s := accumulate weights fun i => (g i).s
       A := accumulate weights fun i => (g i).A
       B := accumulate weights fun i => (g i).B
       u := accumulate weights (fun i => (g i).u) + un
       p := accumulate weights (fun i => (g i).p) + pn },
     { hist := fun i => (g i).h, stress := fun i => (g i).s, d := fun _ => a.d1, w := fun _ => a.w1 })

/-- polycrystal.cxx:224-236 `TaylorModel::elastic_strains`: the inner loop runs over as many components as
there are grains. `none` is the write beyond the sixth component. -/
def elasticStrains {n : Nat} {H : Type} (weights : Fin n → ℝ) (estrain : (Fin 6 → ℝ) → H → Fin 6 → ℝ)
    (st : Store n H) : Option (Fin 6 → ℝ) :=
  if 6 < n then none
  else some ((List.finRange n).foldl (fun e i => fun j =>
    if j.val < n then e j + weights i * estrain (st.stress i) (st.hist i) j else e j) 0)

/-! ## Batches -/

/-- The arrays a batch evaluation writes (batch.cxx:17-20). -/
inductive Buf
  | s | h | A | B | u | p
  deriving DecidableEq

/-- How many entries of an array belong to one crystal (batch.cxx:35-39). -/
def Buf.width (nh : Nat) : Buf → Nat
  | .s => 6
  | .h => nh
  | .A => 36
  | .B => 18
  | .u => 1
  | .p => 1

/-- The arrays. -/
abbrev Mem := Buf → Nat → ℝ

/-- One write: the entry `k` of the slice of crystal `i` (batch.cxx:35-39, the pointer `&x[i*width]`). -/
def writeSlice (nh i : Nat) (b : Buf) (k : Nat) (v : ℝ) (m : Mem) : Mem :=
  fun b' x => if b' = b ∧ x = i * b.width nh + k then v else m b' x

/-- What the update of one crystal does: memory operations one after the other, and in the end success or a
`NEMLError`, judged from the memory it leaves. The constant arrays do not change and are part of the
operations. -/
structure Job where
  steps : List (Mem → Mem)
  ok : Mem → Bool

/-- The memory after some operations. -/
def play (m : Mem) (tr : List (Mem → Mem)) : Mem := tr.foldl (fun m f => f m) m

/-- batch.cxx:29-44 the loop without threads; `error_count` is the second component. -/
def batchLoop (n : Nat) (job : Nat → Job) (m : Mem) : Mem × Nat :=
  (List.range n).foldl (fun st i =>
    let m' := play st.1 (job i).steps
    (m', if (job i).ok m' then st.2 else st.2 + 1)) (m, 0)

/-- batch.cxx:45-46: the final test, `false` for the throw; the arrays stay as written either way. -/
def batch (n : Nat) (job : Nat → Job) (m : Mem) : Mem × Bool :=
  let r := batchLoop n job m
  (r.1, !decide (r.2 > 0))

/-- The results of one crystal, entry by entry. -/
structure Results where
  entry : Buf → Nat → ℝ

/-- The operations that store the results of crystal `i` in its slices. -/
def storeResults (nh i : Nat) (r : Results) : List (Mem → Mem) :=
  [Buf.s, .h, .A, .B, .u, .p].flatMap fun b => (List.range (b.width nh)).map fun k => writeSlice nh i b k (r.entry b k)

/-! ## Orientations of a batch -/

/-- batch.cxx:57-69 `set_orientation_passive_batch`. -/
def setPassiveBatch {H : Type} (st : List (Crystal.Stored H)) (q : List Quat) : Option (List (Crystal.Stored H)) :=
  if q.length ≠ st.length then none else some (List.zipWith Crystal.setPassive st q)

/-- batch.cxx:71-81 `get_orientation_passive_batch`. -/
noncomputable def getPassiveBatch {H : Type} (st : List (Crystal.Stored H)) : List Quat := st.map Crystal.getPassive

/-- batch.cxx:83-93 `get_orientation_active_batch`. -/
noncomputable def getActiveBatch {H : Type} (st : List (Crystal.Stored H)) : List Quat := st.map Crystal.getActive

/-! ## Twin reorientation -/

/-- The stored variables the postprocessor reads and writes: the orientation and reference orientation, the
slip and the twin fraction by flat system number, and the flag. -/
structure Twin where
  rotation : Quat
  rotation0 : Quat
  slip : Nat → ℝ
  frac : Nat → ℝ
  twinned : ℝ

/-- A loop over all groups and systems with a flat counter; `f` gets group, system and counter
(postprocessors.cxx:79-100). -/
def overSystems {S : Type} (L : Lattice.Lat) (f : Lattice.Group → Lattice.Sys → Nat → S → S) (s : S) : S :=
  (L.groups.foldl (fun p g => g.systems.foldl (fun p x => (f g x p.2 p.1, p.2 + 1)) p) (s, 0)).1

/-- postprocessors.cxx:55-66 `init_hist`, for the variables of the postprocessor. -/
noncomputable def Twin.init (L : Lattice.Lat) (st : Twin) : Twin :=
  { overSystems L (fun g _ j st => if g.twin then { st with frac := Function.update st.frac j 0 } else st) st with
    twinned := 0 }

/-- postprocessors.cxx:82-97: one system of the first loop. -/
noncomputable def scanSystem (threshold : ℝ) (g : Lattice.Group) (x : Lattice.Sys) (j : Nat) (st : Twin) : Twin :=
  open Classical in
  if g.twin then
    let st := { st with frac := Function.update st.frac j (st.slip j / g.shear) }
    if st.frac j > threshold ∧ st.twinned < 0.5 then
      let q := qmul x.reorient (normalize st.rotation)
      { st with rotation := q, rotation0 := q, twinned := 1 }
    else st
  else st

/-- postprocessors.cxx:105-107: one system of the second loop. -/
noncomputable def clearSystem (g : Lattice.Group) (_x : Lattice.Sys) (j : Nat) (st : Twin) : Twin :=
  if g.twin then { st with slip := Function.update st.slip j 0 } else st

/-- postprocessors.cxx:117-120: one system of the last loop. -/
noncomputable def copySystem (prev : Twin) (g : Lattice.Group) (_x : Lattice.Sys) (j : Nat) (st : Twin) : Twin :=
  if g.twin then { st with frac := Function.update st.frac j (prev.frac j) } else st

/-- postprocessors.cxx:68-125 `PTRTwinReorientation::act`. -/
noncomputable def act (L : Lattice.Lat) (threshold : ℝ) (prev st : Twin) : Twin :=
  open Classical in
  let st := { st with twinned := prev.twinned }
  if prev.twinned < 0.5 then
    let st := overSystems L (scanSystem threshold) st
    if st.twinned > 0.5 then { overSystems L clearSystem st with twinned := 0 } else st
  else overSystems L (copySystem prev) st

end Neml.Polycrystal
