import Verif.Model.Newton
import Verif.Model.SmallStrain
import Verif.Model.Hardening
import Verif.Model.Elastic

/-!
# Model of the implicit updates of src/models.cxx with the solver of src/solvers.cxx

`Model/SmallStrain.lean` takes the nonlinear solver as a parameter. Here it is the Newton iteration
of `Model/Newton.lean`, started where the models start it. The unknowns of a model are indexed by a
sum type; `e` lays them out in the flat array of the code. The linear solver `lin` and the inverse
`inv` (LAPACK) stay parameters.
-/

namespace Neml.SolveStep

open Matrix Neml.SmallStrain Neml.Flow

variable {P : Type} {n : Nat}

/-- A `Solvable` (solvers.h) from a start point, a residual and a Jacobian on named unknowns. -/
def system (e : P ≃ Fin n) (init : P → ℝ) (R : (P → ℝ) → P → ℝ) (J : (P → ℝ) → Matrix P P ℝ) :
    Newton.System n where
  init i := init (e.symm i)
  RJ x := some (fun i => R (fun a => x (e a)) (e.symm i),
    (J fun a => x (e a)).submatrix e.symm e.symm)

/-- models.cxx:427-438 with solvers.cxx:14-27 `solve`: the solution and the Jacobian left behind by
the iteration; `none` for an error. -/
noncomputable def solveWith (e : P ≃ Fin n) (init : P → ℝ) (R : (P → ℝ) → P → ℝ)
    (J : (P → ℝ) → Matrix P P ℝ)
    (lin : Matrix (Fin n) (Fin n) ℝ → (Fin n → ℝ) → Option (Fin n → ℝ)) (p : Newton.Params)
    (fuel : Nat) : Option ((P → ℝ) × Matrix P P ℝ) :=
  match Newton.newton (system e init R J) lin p fuel with
  | some (.ok it) => some (fun a => it.x (e a), it.J.submatrix e e)
  | _ => none

/-- Flat positions of the unknowns of perfect plasticity: six stresses, the multiplier
(models.cxx:667-671). -/
def ppIndex : Fin 6 ⊕ Unit ≃ Fin 7 :=
  (Equiv.sumCongr (Equiv.refl (Fin 6)) (Equiv.ofUnique Unit (Fin 1))).trans finSumFinEquiv

/-- models.cxx:666-671 `SmallStrainPerfectPlasticity::init_x`. -/
def ppInit (ts : PPTrial ℝ (Fin 6)) : Fin 6 ⊕ Unit → ℝ := Sum.elim ts.str fun _ => 0

/-- The J2 surface as seen by perfect plasticity (surfaces.h:225-243 `IsoJ2`): the single hardening
variable is the negative yield stress. -/
noncomputable def j2 (eps : ℝ) : PPSurface ℝ (Fin 6) where
  f s q T := (isoJ2 eps).f s (fun _ => q) T
  df s q T := (isoJ2 eps).df_ds s (fun _ => q) T
  ddf s q T := (isoJ2 eps).df_dsds s (fun _ => q) T

/-- models.cxx:520-759 `SmallStrainPerfectPlasticity` with the Newton solver. -/
noncomputable def perfect (el : Elastic ℝ (Fin 6)) (sf : PPSurface ℝ (Fin 6)) (ys : ℝ → ℝ)
    (lin : Matrix (Fin 7) (Fin 7) ℝ → (Fin 7 → ℝ) → Option (Fin 7 → ℝ)) (p : Newton.Params)
    (fuel : Nat)
    (inv : Matrix (Fin 6 ⊕ Unit) (Fin 6 ⊕ Unit) ℝ → Option (Matrix (Fin 6 ⊕ Unit) (Fin 6 ⊕ Unit) ℝ)) :
    Integrator ℝ (Fin 6) Unit (Fin 6 ⊕ Unit) (PPTrial ℝ (Fin 6)) :=
  perfectPlasticity el sf ys
    (fun ts => solveWith ppIndex (ppInit ts) (ppR sf ts) (ppJ sf ts) lin p fuel) inv

/-- Flat positions of the unknowns of rate independent plasticity: six stresses, the history, the
multiplier (models.cxx:905-911). -/
def riIndex {κ : Type} {m : Nat} (k : κ ≃ Fin m) : RIx (Fin 6) κ ≃ Fin (6 + (m + 1)) :=
  (Equiv.sumCongr (Equiv.refl (Fin 6))
    ((Equiv.sumCongr k (Equiv.ofUnique Unit (Fin 1))).trans finSumFinEquiv)).trans
    finSumFinEquiv

/-- models.cxx:905-911 `SmallStrainRateIndependentPlasticity::init_x`. -/
def riInit {κ : Type} (ts : RITrial ℝ (Fin 6) κ) : RIx (Fin 6) κ → ℝ :=
  Sum.elim ts.str (Sum.elim ts.h fun _ => 0)

/-- models.cxx:756-1068 `SmallStrainRateIndependentPlasticity` with the Newton solver. -/
noncomputable def rateIndep {κ : Type} [Fintype κ] [DecidableEq κ] {m : Nat} (k : κ ≃ Fin m)
    (el : Elastic ℝ (Fin 6)) (fl : RIFlow ℝ (Fin 6) κ)
    (lin : Matrix (Fin (6 + (m + 1))) (Fin (6 + (m + 1))) ℝ → (Fin (6 + (m + 1)) → ℝ) →
      Option (Fin (6 + (m + 1)) → ℝ)) (p : Newton.Params) (fuel : Nat)
    (inv : Matrix (RIx (Fin 6) κ) (RIx (Fin 6) κ) ℝ → Option (Matrix (RIx (Fin 6) κ) (RIx (Fin 6) κ) ℝ)) :
    Integrator ℝ (Fin 6) (κ → ℝ) (RIx (Fin 6) κ) (RITrial ℝ (Fin 6) κ) :=
  rateIndependent el fl
    (fun ts => solveWith (riIndex k) (riInit ts) (riR fl ts) (riJ fl ts) lin p fuel) inv

/-- Flat positions of the history of combined hardening: the isotropic variable, then the
backstrain (hardening.cxx:394-404). -/
def q7Index : Q7 ≃ Fin 7 :=
  ((Equiv.sumCongr (Equiv.ofUnique Unit (Fin 1)) (Equiv.refl (Fin 6))).trans
    finSumFinEquiv).trans (finCongr rfl)

/-- Associative J2 plasticity with linear isotropic and linear kinematic hardening. -/
noncomputable def linearFlow (eps : ℝ) (s0 Ki H : ℝ → ℝ) : RIFlow ℝ (Fin 6) Q7 :=
  associative (isoKinJ2 eps) (combinedHardening (linearIso s0 Ki) (linearKin H))

/-- Associative J2 plasticity with isotropic hardening only (ri_flow.cxx:130-224 with surfaces.h:225-243
and a rule of hardening.cxx:36-318). -/
noncomputable def isoFlow (eps : ℝ) (r : Iso) : RIFlow ℝ (Fin 6) Unit :=
  associative (isoJ2 eps) r.toHardening

/-- The single history variable in the flat array. -/
def q1Index : Unit ≃ Fin 1 := Equiv.ofUnique Unit (Fin 1)

open Classical in
/-- A `Solvable` whose residual throws where `ok` fails. -/
noncomputable def guarded (ok : (P → ℝ) → Prop) (e : P ≃ Fin n) (init : P → ℝ)
    (R : (P → ℝ) → P → ℝ) (J : (P → ℝ) → Matrix P P ℝ) : Newton.System n where
  init i := init (e.symm i)
  RJ x := if ok fun a => x (e a) then some (fun i => R (fun a => x (e a)) (e.symm i),
    (J fun a => x (e a)).submatrix e.symm e.symm) else none

/-- `solveWith` for such a system. -/
noncomputable def solveGuarded (ok : (P → ℝ) → Prop) (e : P ≃ Fin n) (init : P → ℝ)
    (R : (P → ℝ) → P → ℝ) (J : (P → ℝ) → Matrix P P ℝ)
    (lin : Matrix (Fin n) (Fin n) ℝ → (Fin n → ℝ) → Option (Fin n → ℝ)) (p : Newton.Params)
    (fuel : Nat) : Option ((P → ℝ) × Matrix P P ℝ) :=
  match Newton.newton (guarded ok e init R J) lin p fuel with
  | some (.ok it) => some (fun a => it.x (e a), it.J.submatrix e e)
  | _ => none

/-- Flat positions of the unknowns of the general integrator: six stresses, the history
(models.cxx:1474-1486). -/
def giIndex {κ : Type} {m : Nat} (k : κ ≃ Fin m) : Fin 6 ⊕ κ ≃ Fin (6 + m) :=
  (Equiv.sumCongr (Equiv.refl (Fin 6)) k).trans finSumFinEquiv

/-- models.cxx:1479-1486 `GeneralIntegrator::init_x` with the elastic guess of 1588-1594: stress after
an elastic step, history of the last step. `skip_first_step` is false and no rule overrides the
guess; the strain increment is written as rate times time. -/
def giInit {κ : Type} (el : Elastic ℝ (Fin 6)) (ts : GITrial ℝ (Fin 6) κ) : Fin 6 ⊕ κ → ℝ :=
  Sum.elim (ts.s0 + el.C ts.T *ᵥ (ts.dt • ts.edot)) ts.h0

/-- models.cxx:1304-1600 `GeneralIntegrator` of a `TVPFlowRule` (general_flow.cxx:36-327) with the
Newton solver. `limit` is the strain rate above which general_flow.cxx:88-89 throws, `tiny` the
machine epsilon. -/
noncomputable def viscoPlastic {κ : Type} [Fintype κ] [DecidableEq κ] {m : Nat} (k : κ ≃ Fin m)
    (el : Elastic ℝ (Fin 6)) (fl : Visco (Fin 6) κ) (limit tiny : ℝ)
    (lin : Matrix (Fin (6 + m)) (Fin (6 + m)) ℝ → (Fin (6 + m) → ℝ) → Option (Fin (6 + m) → ℝ))
    (p : Newton.Params) (fuel : Nat)
    (inv : Matrix (Fin 6 ⊕ κ) (Fin 6 ⊕ κ) ℝ → Option (Matrix (Fin 6 ⊕ κ) (Fin 6 ⊕ κ) ℝ)) :
    Integrator ℝ (Fin 6) (κ → ℝ) (Fin 6 ⊕ κ) (GITrial ℝ (Fin 6) κ) :=
  generalIntegrator el (tvp el fl) tiny
    (fun ts => solveGuarded
      (fun z => tvpAccepts limit fl (fun i => z (.inl i)) (fun i => z (.inr i)) ts.T)
      (giIndex k) (giInit el ts) (giR (tvp el fl) ts) (giJ (tvp el fl) ts) lin p fuel) inv

/-- Perzyna flow on the J2 surface with isotropic hardening (visco_flow.cxx:657-878). -/
noncomputable def isoPerzyna (eps : ℝ) (r : Iso) (gf : GFlow) : Visco (Fin 6) Unit :=
  perzyna (isoJ2 eps) r.toHardening gf

end Neml.SolveStep
