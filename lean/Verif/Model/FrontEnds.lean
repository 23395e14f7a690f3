import Verif.Model.Interface
import Verif.Model.LargeDriver

/-!
# Model of the example programs in util/

util/c_interface/csimple.c, util/f_interface/fsimple.f, util/cxx_interface/cxxsimple.cxx (the loop of
util/string_interface/cxxstring.cxx is the same) and the two generators in util/neml2_verification. Each takes one
material along a strain path. The material is a parameter and may throw (`none`). Exact reals: the C and Fortran programs
round differently. Reading the arguments and writing the files are not modelled.
-/

namespace Neml.FrontEnds

open Matrix Neml.Interface

/-- What the programs use of a material with `n` stored values. -/
structure Material (n : ℕ) where
  init : Option (Fin n → ℝ)
  update : Step n → Option (Out n)
  elastic : (Fin 6 → ℝ) → ℝ → (Fin n → ℝ) → Option (Fin 6 → ℝ)

/-- The variables with the suffix `_n`. -/
structure State (n : ℕ) where
  e : Fin 6 → ℝ
  s : Fin 6 → ℝ
  h : Fin n → ℝ
  T : ℝ
  t : ℝ
  u : ℝ
  p : ℝ

/-- csimple.c:40-55, fsimple.f:64-72, cxxsimple.cxx:34-46. -/
def start {n : ℕ} (h : Fin n → ℝ) (T : ℝ) : State n := ⟨0, 0, h, T, 0, 0, 0⟩

/-- The strain vector with `x` in its first place. -/
def along (x : ℝ) : Fin 6 → ℝ := ![x, 0, 0, 0, 0, 0]

/-- How a program ended: the exit code, the last state if all steps were taken, and the models and arrays of stored values
that were allocated and not given back. -/
structure Exit (n : ℕ) where
  code : ℤ
  final : Option (State n)
  models : ℕ
  arrays : ℕ

/-! ## C -/

/-- csimple.c:65-94, the loop from counter `i` with `k` rounds to go. `ier` is shared by all calls. `none`: "Problem in
stress update". The temperature of the state is not assigned. -/
noncomputable def cLoop {n : ℕ} (m : Material n) (e t T : ℝ) (N : ℕ) : ℕ → ℕ → State n → ℤ → Option (State n × ℤ)
  | 0, _, st, ier => some (st, ier)
  | k + 1, i, st, ier =>
    let t1 := (i + 1) * t / N
    let e1 := along ((i + 1) * e / N)
    let r := m.update ⟨e1, st.e, T, st.T, t1, st.t, st.s, st.h, st.u, st.p⟩
    let ier := status ier (.update r.isSome)
    match r with
    | none => none
    | some o =>
      if ier ≠ 0 then none
      else
        let ier := status ier (.elasticStrains (m.elastic o.s T o.h).isSome)
        cLoop m e t T N k (i + 1) { st with e := e1, s := o.s, h := o.h, t := t1, u := o.u, p := o.p } ier

/-- csimple.c `main`; `load` is the creation of the model and `destroys` whether it can be destroyed. -/
noncomputable def cMain {n : ℕ} (load : Option (Material n)) (destroys : Bool) (e t T : ℝ) (N : ℕ) : Exit n :=
  match load with
  | none => ⟨-1, none, 0, 0⟩
  | some m =>
    match m.init with
    | none => ⟨-1, none, 1, 0⟩
    | some h =>
      let ier := status (status 0 (.create true)) (.initStore true)
      match cLoop m e t T N N 0 (start h T) ier with
      | none => ⟨-1, none, 1, 1⟩
      | some (st, ier) =>
        if status ier (.destroy destroys) ≠ 0 then ⟨-1, some st, 1, 1⟩ else ⟨0, some st, 0, 0⟩

/-! ## Fortran -/

/-- fsimple.f:75-101, the loop from counter `i` (from one) with `k` rounds to go. -/
noncomputable def fLoop {n : ℕ} (m : Material n) (e t T : ℝ) (N : ℕ) : ℕ → ℕ → State n → ℤ → Option (State n × ℤ)
  | 0, _, st, ier => some (st, ier)
  | k + 1, i, st, ier =>
    let t1 := (i : ℝ) / N * t
    let e1 := along ((i : ℝ) / N * e)
    let r := m.update ⟨e1, st.e, T, st.T, t1, st.t, st.s, st.h, st.u, st.p⟩
    let ier := status ier (.update r.isSome)
    match r with
    | none => none
    | some o =>
      if ier ≠ 0 then none
      else
        let ier := status ier (.elasticStrains (m.elastic o.s T o.h).isSome)
        fLoop m e t T N k (i + 1) { st with e := e1, s := o.s, h := o.h, t := t1, u := o.u, p := o.p } ier

/-- fsimple.f `main`. Every error is a message and a plain `stop`, whose exit code is zero. -/
noncomputable def fMain {n : ℕ} (load : Option (Material n)) (destroys : Bool) (e t T : ℝ) (N : ℕ) : Exit n :=
  match load with
  | none => ⟨0, none, 0, 0⟩
  | some m =>
    match m.init with
    | none => ⟨0, none, 1, 0⟩
    | some h =>
      let ier := status (status 0 (.create true)) (.initStore true)
      match fLoop m e t T N N 1 (start h T) ier with
      | none => ⟨0, none, 1, 0⟩
      | some (st, ier) => ⟨0, some st, if status ier (.destroy destroys) ≠ 0 then 1 else 0, 0⟩

/-! ## C++ -/

/-- cxxsimple.cxx:51-71, cxxstring.cxx:48-68; `none` is an exception nobody catches. -/
noncomputable def cxxLoop {n : ℕ} (m : Material n) (e t T : ℝ) (N : ℕ) : ℕ → ℕ → State n → Option (State n)
  | 0, _, st => some st
  | k + 1, i, st =>
    let t1 := (i + 1) * t / N
    let e1 := along ((i + 1) * e / N)
    match m.update ⟨e1, st.e, T, st.T, t1, st.t, st.s, st.h, st.u, st.p⟩ with
    | none => none
    | some o =>
      match m.elastic o.s T o.h with
      | none => none
      | some _ => cxxLoop m e t T N k (i + 1) ⟨e1, o.s, o.h, T, t1, o.u, o.p⟩

/-- cxxsimple.cxx `main`. -/
noncomputable def cxxMain {n : ℕ} (load : Option (Material n)) (e t T : ℝ) (N : ℕ) : Option (State n) :=
  load.bind fun m => m.init.bind fun h => cxxLoop m e t T N N 0 (start h T)

/-! ## Python -/

/-- The material as the Python driver sees it. -/
def Material.python {n : ℕ} (m : Material n) (h : Fin n → ℝ) (alpha : ℝ → ℝ) : Uniaxial.Model3 (Fin n → ℝ) where
  update a := (m.update ⟨a.e1, a.e0, a.T1, a.T0, a.t1, a.t0, a.s0, a.h0, a.u0, a.p0⟩).map fun o => ⟨o.s, o.h, o.A, o.u, o.p⟩
  alpha := alpha
  init := h

/-- The entries of `np.linspace(0, x, N)`; a single one is zero. -/
noncomputable def linspace (x : ℝ) (N : ℕ) : List ℝ := (List.range N).map fun (i : ℕ) => i * (x / ((N - 1 : ℕ) : ℝ))

/-- The entries of `np.linspace(np.zeros((6,)), x, N)`. -/
noncomputable def linspace6 (x : Fin 6 → ℝ) (N : ℕ) : List (Fin 6 → ℝ) :=
  (List.range N).map fun (i : ℕ) => (i : ℝ) • ((1 / ((N - 1 : ℕ) : ℝ)) • x)

/-- run_neml2_test.py:17-18 `tmax`; `la.norm` is the root of the sum of squares. -/
noncomputable def tmax (emax : Fin 6 → ℝ) (erate : ℝ) : ℝ := √(2 / 3) * √(∑ i, emax i ^ 2) / erate

/-- run_neml2_test.py:12-31 `drive_all_strain`: the driver whose records are returned. The tolerances of the driver are
not used by the steps. -/
noncomputable def driveAllStrain {n : ℕ} (m : Material n) (h : Fin n → ℝ) (alpha : ℝ → ℝ) (emax : Fin 6 → ℝ) (erate : ℝ)
    (N : ℕ) (T : ℝ) : Option (Driver.Driver (Fin n → ℝ)) :=
  (((linspace (tmax emax erate) N).tail).zip ((linspace6 emax N).tail)).foldlM
    (fun d x => d.strainStep x.2 x.1 T) (Driver.Driver.new (m.python h alpha) 1e-6 1e-10 25 0 T true)

open LargeDriver (InL OutL)

/-- The arrays and variables of `drive_all_L`. -/
structure Rates (H : Type) where
  d : Fin 6 → ℝ
  w : Fin 3 → ℝ
  t : ℝ
  s : Fin 6 → ℝ
  h : H
  u : ℝ
  p : ℝ
  calls : List (InL H)

/-- run_neml2_test_large_deformation_incremental.py:36-52, one round; the temperature is carried from entry to entry. The
arguments of each call are kept, the last one first. -/
noncomputable def lRound {H : Type} (model : InL H → Option (OutL H)) (d : Fin 6 → ℝ) (w : Fin 3 → ℝ) (dt T : ℝ)
    (r : Rates H) : Option (Rates H) :=
  let a : InL H := ⟨r.d + dt • d, r.d, r.w + dt • w, r.w, T, r.t + dt, r.t, r.s, r.h, r.u, r.p⟩
  (model a).map fun o => ⟨a.d1, a.w1, a.t1, o.s, o.h, o.u, o.p, a :: r.calls⟩

/-- `k` rounds. -/
noncomputable def lLoop {H : Type} (model : InL H → Option (OutL H)) (d : Fin 6 → ℝ) (w : Fin 3 → ℝ) (dt T : ℝ) :
    ℕ → Rates H → Option (Rates H)
  | 0, r => some r
  | k + 1, r => (lRound model d w dt T r).bind (lLoop model d w dt T k)

/-- What `drive_all_L` returns, besides the stresses: times, deformation rates, spins. -/
structure Table where
  times : List ℝ
  rates : List (Fin 6 → ℝ)
  spins : List (Fin 3 → ℝ)

/-- run_neml2_test_large_deformation_incremental.py:13-67 `drive_all_L`. Division by `nsteps = 0` raises. -/
noncomputable def driveAllL {H : Type} (model : InL H → Option (OutL H)) (init : H) (L : Matrix (Fin 3) (Fin 3) ℝ)
    (tend : ℝ) (N : ℕ) (T : ℝ) : Option (Table × Rates H) :=
  if N = 0 then none
  else
    let d := LargeDriver.sym ((1 / 2 : ℝ) • (L + Lᵀ))
    let w := LargeDriver.skew ((1 / 2 : ℝ) • (L - Lᵀ))
    (lLoop model d w (tend / N) T N ⟨0, 0, 0, 0, init, 0, 0, []⟩).map fun r =>
      (⟨linspace tend (N + 1), List.replicate (N + 1) d, List.replicate (N + 1) w⟩, r)

/-! ## Abaqus -/

/-- Calls of the user material one after the other: Abaqus hands back what the last call left. `none` if it stopped or if
an update failed. -/
noncomputable def abaqus {n : ℕ} (m : Material n) : List Given → Aba n → Option (Aba n)
  | [], a => some a
  | g :: l, a =>
    match m.update (arguments g a) with
    | none => none
    | some _ => (umat (some m) (fun m => m.update) g a 0).bind fun r => abaqus m l r.1

end Neml.FrontEnds
