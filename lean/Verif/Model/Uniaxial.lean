import Verif.Model.PySolve
import Mathlib.Data.Fin.VecNotation

/-!
# Model of the uniaxial wrapper (neml/uniaxial.py)

The three-dimensional material model is a parameter: its small strain update takes what `update_sd` takes
(include/models.h) and may raise. The flat store of the wrapper is modelled by its two parts, the five lateral
strains and the store of the material; the one place where the flat array matters is `elasticStrains`.
-/

namespace Neml.Uniaxial

open Matrix Neml.PySolve

/-- The arguments of `update_sd` of a three-dimensional model. -/
structure In3 (H : Type) where
  e1 : Fin 6 → ℝ
  e0 : Fin 6 → ℝ
  T1 : ℝ
  T0 : ℝ
  t1 : ℝ
  t0 : ℝ
  s0 : Fin 6 → ℝ
  h0 : H
  u0 : ℝ
  p0 : ℝ

/-- What `update_sd` returns: stress, store, tangent, energy, dissipation. -/
structure Out3 (H : Type) where
  s : Fin 6 → ℝ
  h : H
  A : Matrix (Fin 6) (Fin 6) ℝ
  u : ℝ
  p : ℝ

/-- The part of a three-dimensional model the Python code uses. -/
structure Model3 (H : Type) where
  update : In3 H → Option (Out3 H)
  alpha : ℝ → ℝ
  init : H

/-- The arguments of the uniaxial update. -/
structure In1 (H : Type) where
  e1 : ℝ
  e0 : ℝ
  T1 : ℝ
  T0 : ℝ
  t1 : ℝ
  t0 : ℝ
  s0 : ℝ
  h0 : H
  u0 : ℝ
  p0 : ℝ

/-- What the uniaxial update returns. -/
structure Out1 (H : Type) where
  s : ℝ
  h : H
  A : ℝ
  u : ℝ
  p : ℝ

/-- The store of the wrapper: the lateral strains, then the store of the material. -/
abbrev Store (H : Type) := (Fin 5 → ℝ) × H

variable {H : Type}

/-- uniaxial.py:36-40 `init_store`. -/
def initStore (m : Model3 H) : Store H := (0, m.init)

/-- uniaxial.py:119-128 `ss2sv`. -/
def ss2sv (s : ℝ) : Fin 6 → ℝ := Fin.cons s 0

/-- uniaxial.py:130-141 `es2ev`, given the five lateral strains. -/
def es2ev (e : ℝ) (x : Fin 5 → ℝ) : Fin 6 → ℝ := Fin.cons e x

/-- uniaxial.py:87-95, 106-109: the call of the material for the lateral strains `x`. -/
def call (i : In1 (Store H)) (x : Fin 5 → ℝ) : In3 H :=
  ⟨es2ev i.e1 x, es2ev i.e0 i.h0.1, i.T1, i.T0, i.t1, i.t0, ss2sv i.s0, i.h0.2, i.u0, i.p0⟩

/-- A[1:,:][:,1:] (uniaxial.py:98, 114). -/
def lateral (A : Matrix (Fin 6) (Fin 6) ℝ) : Matrix (Fin 5) (Fin 5) ℝ := A.submatrix Fin.succ Fin.succ

/-- uniaxial.py:91-100 `RJ`. -/
def rj (m : Model3 H) (i : In1 (Store H)) : VecRJ Unit 5 := fun _ x =>
  (m.update (call i x)).map fun o => (fun k => o.s k.succ, lateral o.A, ())

/-- uniaxial.py:113-115: the tangent. -/
noncomputable def condensed (A : Matrix (Fin 6) (Fin 6) ℝ) : Option ℝ :=
  (linSolve (lateral A) fun k => A k.succ 0).map fun sv => A 0 0 - (fun k => A 0 k.succ) ⬝ᵥ sv

/-- uniaxial.py:71-117 `update`. -/
noncomputable def update (m : Model3 H) (rtol atol : ℝ) (miter : Nat) (i : In1 (Store H)) :
    Option (Out1 (Store H)) :=
  match newton (rj m i) rtol atol miter () i.h0.1 with
  | none => none
  | some (ef, _) =>
    match m.update (call i ef) with
    | none => none
    | some o =>
      match condensed o.A with
      | none => none
      | some a => some ⟨o.s 0, (ef, o.h), a, o.u, o.p⟩

/-- uniaxial.py:64-69 `elastic_strains`, with the flat store `h` (five strains, then the material's) handed to
the material as it is. -/
def elasticStrains (el : (Fin 6 → ℝ) → ℝ → List ℝ → Fin 6 → ℝ) (s T : ℝ) (h : List ℝ) : ℝ := el (ss2sv s) T h 0

/-! ## Histories of updates -/

/-- What a caller of the uniaxial model keeps from step to step (arbbar.py:325-331). -/
structure State1 (H : Type) where
  e : ℝ
  T : ℝ
  t : ℝ
  s : ℝ
  h : H
  u : ℝ
  p : ℝ

/-- The same for the three-dimensional model (drivers.py:180-193). -/
structure State3 (H : Type) where
  e : Fin 6 → ℝ
  T : ℝ
  t : ℝ
  s : Fin 6 → ℝ
  h : H
  u : ℝ
  p : ℝ

/-- One step of the caller: strain, temperature and time asked for. -/
noncomputable def step1 (m : Model3 H) (rtol atol : ℝ) (miter : Nat) (st : State1 (Store H)) (q : ℝ × ℝ × ℝ) :
    Option (State1 (Store H)) :=
  (update m rtol atol miter ⟨q.1, st.e, q.2.1, st.T, q.2.2, st.t, st.s, st.h, st.u, st.p⟩).map fun o =>
    ⟨q.1, q.2.1, q.2.2, o.s, o.h, o.u, o.p⟩

/-- One step of a caller of the three-dimensional model. -/
def step3 (m : Model3 H) (st : State3 H) (q : (Fin 6 → ℝ) × ℝ × ℝ) : Option (State3 H) :=
  (m.update ⟨q.1, st.e, q.2.1, st.T, q.2.2, st.t, st.s, st.h, st.u, st.p⟩).map fun o =>
    ⟨q.1, q.2.1, q.2.2, o.s, o.h, o.u, o.p⟩

end Neml.Uniaxial
