import Verif.Model.Polycrystal

/-!
# Model of the small strain interface of incremental large deformation models (src/models.cxx)

`GrainIn` and `GrainOut` are the arguments and results of `update_ld_inc`. Energy and dissipation are increments.
-/

namespace Neml.Polycrystal

/-- The arguments of `update_sd`. -/
structure SdIn (X : Type) where
  e1 : Fin 6 → ℝ
  e0 : Fin 6 → ℝ
  T1 : ℝ
  T0 : ℝ
  t1 : ℝ
  t0 : ℝ
  s0 : Fin 6 → ℝ
  h0 : X

/-- Its results. -/
structure SdOut (X : Type) where
  s : Fin 6 → ℝ
  h : X
  A : Fin 36 → ℝ
  u : ℝ
  p : ℝ

/-- models.cxx:239-254 `NEMLModel_ldi::update_sd`: both spins are zero, the derivative by the spin is dropped. -/
def updateSd {X : Type} (ld : GrainIn X → Option (GrainOut X)) (x : SdIn X) : Option (SdOut X) :=
  (ld ⟨x.e1, x.e0, 0, 0, x.T1, x.T0, x.t1, x.t0, x.s0, x.h0⟩).map fun o => ⟨o.s, o.h, o.A, o.u, o.p⟩

/-- polycrystal.cxx:153-217: the Taylor model as a model with this interface. -/
def taylorLd {n : Nat} {H : Type} (weights : Fin n → ℝ) (grain : GrainIn H → Option (GrainOut H))
    (x : GrainIn (Store n H)) : Option (GrainOut (Store n H)) :=
  (taylor weights grain ⟨x.d1, x.d0, x.w1, x.w0, x.T1, x.T0, x.t1, x.t0, x.s0⟩ 0 0 x.h0).map fun r =>
    ⟨r.1.s, r.2, r.1.A, r.1.B, r.1.u, r.1.p⟩

/-- What a caller keeps from step to step (drivers.py:180-193). -/
structure Caller (X : Type) where
  e : Fin 6 → ℝ
  T : ℝ
  t : ℝ
  s : Fin 6 → ℝ
  h : X
  u : ℝ
  p : ℝ

/-- drivers.py:180-193: a step to the strain, temperature and time asked for. -/
def sdStep {X : Type} (ld : GrainIn X → Option (GrainOut X)) (c : Caller X) (q : (Fin 6 → ℝ) × ℝ × ℝ) :
    Option (Caller X) :=
  (updateSd ld ⟨q.1, c.e, q.2.1, c.T, q.2.2, c.t, c.s, c.h⟩).map fun o =>
    ⟨q.1, q.2.1, q.2.2, o.s, o.h, c.u + o.u, c.p + o.p⟩

/-- Steps one after the other. -/
def sdRun {X : Type} (ld : GrainIn X → Option (GrainOut X)) : Caller X → List ((Fin 6 → ℝ) × ℝ × ℝ) → Option (Caller X)
  | c, [] => some c
  | c, q :: qs => (sdStep ld c q).bind fun c => sdRun ld c qs

end Neml.Polycrystal
