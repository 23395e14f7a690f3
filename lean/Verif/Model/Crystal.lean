import Verif.Model.Rotation
import Mathlib.Algebra.Module.Basic
import Mathlib.Algebra.Field.Basic
import Mathlib.LinearAlgebra.Matrix.NonsingularInverse

/-!
# Model of the single crystal integrator (src/cp/singlecrystal.cxx)

The kinematic model, the Newton solve of one substep, the tangent and the rotation update are
parameters (`Phys`): they are modelled in their own files. The deformation rates, the spin, the
orientation at the start of the step, the lattice and the fixed variables do not change inside an
update and are part of those parameters. `none` from `solve` is a thrown `NEMLError`. `int` overflow
of the powers of two is not modelled; log output is not modelled.
-/

namespace Neml.Crystal

open Neml.Rotation Neml.Mandel Matrix

variable {K S H F R A : Type}

/-- include/cp/singlecrystal.h:21-43 `SCTrialState`, the members that vary inside an update. -/
structure Trial (K S H F : Type) where
  strial : S
  Sn : S
  hist : H
  T : K
  dt : K
  fixed : F

/-- What the update calls. -/
structure Phys (K S H F R A : Type) where
  /-- `kinematics_->decouple` (singlecrystal.cxx:239-241): stress, history, temperature. -/
  decouple : S → H → K → F
  /-- `kinematics_->stress_increment` (246-249): stress, history, time increment, temperature. -/
  predict : S → H → K → K → S
  /-- `solve_substep_` (718-729): one Newton solve. -/
  solve : Trial K S H F → Option (S × H)
  /-- `calc_tangents_` (506-683). -/
  tangents : S → H → Trial K S H F → A
  /-- `update_rot_` (685-691). -/
  rotate : S → H → Trial K S H F → R

/-- Options of the model that the update reads. -/
structure Opts where
  maxDivide : Int
  forceDivide : Int
  updateRotation : Bool

/-- The values at the start of the step. -/
structure Args (K S H R : Type) where
  Sn : S
  Hn : H
  Qn : R
  Tn : K
  T1 : K
  dt : K

/-- `int x = pow(2, n)` (singlecrystal.cxx:227-228): a negative power truncates to zero. -/
def ipow2 (n : Int) : Nat := if n < 0 then 0 else 2 ^ n.toNat

/-- The loop's variables. `out` holds tangent and rotation, which are written only in the pass that
reaches the target exactly (294-305). -/
structure St (S H R A : Type) where
  progress : Nat
  cur : Nat
  subdiv : Int
  S : S
  H : H
  out : Option (A × R)

section
variable [Field K] [AddCommGroup S]

/-- singlecrystal.cxx:238-260: the trial state for a substep of the fraction `f` of the step. The
starting stress is the one at the start of the whole step, the history the current one. -/
def trialAt (ph : Phys K S H F R A) (a : Args K S H R) (predictor : Bool) (f : K) (s : S) (h : H) :
    Trial K S H F :=
  let T := a.Tn + (a.T1 - a.Tn) * f
  { strial := if predictor then a.Sn + ph.predict s h (a.dt * f) T else a.Sn
    Sn := a.Sn
    hist := h
    T := T
    dt := a.dt * f
    fixed := ph.decouple s h T }

/-- singlecrystal.cxx:236 `1.0 / pow(2, subdiv)`. -/
def fraction (subdiv : Int) : K := 1 / (2 : K) ^ subdiv

/-- singlecrystal.cxx:236-305, one pass of the loop; `none` is the throw at 282. -/
def body (ph : Phys K S H F R A) (o : Opts) (a : Args K S H R) (predictor : Bool) (st : St S H R A) :
    Option (St S H R A) :=
  let trial := trialAt ph a predictor (fraction st.subdiv) st.S st.H
  match ph.solve trial with
  | none =>
    if st.subdiv + 1 ≥ o.maxDivide then none
    else some { st with subdiv := st.subdiv + 1, cur := st.cur / 2 }
  | some (s, h) =>
    let p := st.progress + st.cur
    some { progress := p, cur := st.cur, subdiv := st.subdiv, S := s, H := h
           out := if p = ipow2 o.maxDivide then
               some (ph.tangents s h trial, if o.updateRotation then ph.rotate s h trial else a.Qn)
             else st.out }

/-- singlecrystal.cxx:225-233. -/
def initSt (o : Opts) (a : Args K S H R) : St S H R A :=
  { progress := 0, cur := ipow2 (o.maxDivide - o.forceDivide), subdiv := o.forceDivide, S := a.Sn, H := a.Hn
    out := none }

/-- singlecrystal.cxx:235 the loop, with fuel. Outer `none`: still running; inner `none`: throw. -/
def loop (ph : Phys K S H F R A) (o : Opts) (a : Args K S H R) (predictor : Bool) :
    (fuel : Nat) → St S H R A → Option (Option (St S H R A))
  | 0, st => if st.progress < ipow2 o.maxDivide then none else some (some st)
  | fuel + 1, st =>
    if st.progress < ipow2 o.maxDivide then
      match body ph o a predictor st with
      | none => some none
      | some st' => loop ph o a predictor fuel st'
    else some (some st)

/-- singlecrystal.cxx:177-307 `attempt_update_ld_inc_` up to the end of the loop. -/
def attempt (ph : Phys K S H F R A) (o : Opts) (a : Args K S H R) (predictor : Bool) (fuel : Nat) :
    Option (Option (St S H R A)) :=
  loop ph o a predictor fuel (initSt o a)

/-- Options that choose the first guess (singlecrystal.cxx:18-22). -/
structure PredictorOpts where
  elasticPredictor : Bool
  fallback : Bool
  firstStep : Bool

/-- singlecrystal.cxx:125-175 `update_ld_inc`. -/
def update [DecidableEq K] (ph : Phys K S H F R A) (o : Opts) (po : PredictorOpts) (a : Args K S H R) (tn : K)
    (fuel : Nat) : Option (Option (St S H R A)) :=
  if tn = 0 ∧ po.firstStep then attempt ph o a true fuel
  else if po.elasticPredictor then attempt ph o a true fuel
  else
    match attempt ph o a false fuel with
    | some none => if po.fallback then attempt ph o a true fuel else some none
    | r => r

end

/-! ## Stored variables -/

/-- The variables of the model as stored between steps: the orientation, the reference orientation,
the Nye tensor and the state of the inelastic model (singlecrystal.cxx:69-100; the Nye tensor is stored
only by models that use it). -/
structure Stored (H : Type) where
  rotation : Quat
  rotation0 : Quat
  nye : Matrix (Fin 3) (Fin 3) ℝ
  state : H

/-- The quaternion written by filling its storage with zeros. -/
def zeroQuat : Quat := ⟨0, 0, 0, 0⟩

/-- singlecrystal.cxx:87-100: initial values. -/
def initStored (q0 : Quat) (h0 : H) : Stored H := ⟨q0, q0, 0, h0⟩

/-- What an update leaves in the new storage: line 189 fills everything with zeros, 233-305 write the
state and the orientation, the copy of the Nye tensor at 311 is commented out, and nothing writes the
reference orientation. -/
def finish (_old : Stored H) (q : Quat) (h : H) : Stored H := ⟨q, zeroQuat, 0, h⟩

/-- singlecrystal.cxx:497-504 `update_nye`. -/
def updateNye (st : Stored H) (nye : Matrix (Fin 3) (Fin 3) ℝ) : Stored H := { st with nye := nye }

/-- singlecrystal.cxx:467-476 `set_active_orientation`. -/
def setActive (st : Stored H) (q : Quat) : Stored H := { st with rotation := q, rotation0 := q }

/-- singlecrystal.cxx:486-490 `set_passive_orientation`. -/
def setPassive (st : Stored H) (q : Quat) : Stored H := setActive st (conj q)

/-- singlecrystal.cxx:431-443 `get_active_orientation`. `History::get` (include/history.h:120-127) makes an
`Orientation` from the storage, and that constructor normalizes (rotations.cxx:567-571). -/
noncomputable def getActive (st : Stored H) : Quat := normalize st.rotation

/-- singlecrystal.cxx:445-457 `get_passive_orientation`. -/
noncomputable def getPassive (st : Stored H) : Quat := conj (getActive st)

/-- singlecrystal.cxx:107-123 `Fe`, with the elastic strain already evaluated; the two orientations are
normalized as they are read. -/
noncomputable def elasticF (st : Stored H) (estrain : Matrix (Fin 3) (Fin 3) ℝ) : Matrix (Fin 3) (Fin 3) ℝ :=
  ((1 + estrain) * toMatrix (qmul (normalize st.rotation) (conj (normalize st.rotation0))))⁻¹

/-! ## Energies -/

/-- singlecrystal.cxx:693-698 `calc_energy_inc_`: the Mandel components contract as a dot product. -/
noncomputable def energyInc (D1 D0 S1 S0 : Fin 6 → ℝ) : ℝ := ((S1 - S0) ⬝ᵥ (D1 - D0)) / 2

/-- singlecrystal.cxx:700-716 `calc_work_inc_`, with the elastic strains already evaluated. -/
noncomputable def workInc (D1 D0 S1 S0 e1 e0 : Fin 6 → ℝ) : ℝ :=
  energyInc D1 D0 S1 S0 - ((S1 - S0) ⬝ᵥ (e1 - e0)) / 2

end Neml.Crystal
