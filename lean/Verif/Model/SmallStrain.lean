import Verif.Model.Substep
import Mathlib.Data.Matrix.Mul
import Mathlib.Data.Matrix.Block
import Mathlib.Data.Real.Sqrt
import Mathlib.Analysis.SpecialFunctions.Log.Basic
import Mathlib.Analysis.SpecialFunctions.Pow.Real

/-!
# Model of the small strain constitutive models in src/models.cxx

Strains and stresses are functions on an index type `ι` (six Mandel components in the code),
history vectors functions on `κ`. The unknown vector of an implicit update, a flat array in the
code, is a function on a sum of index types in the same order. Elastic models, yield surfaces and
flow rules are records of arbitrary functions.
-/

namespace Neml.SmallStrain

open Matrix

variable {K : Type} [Field K] {ι κ : Type} [Fintype ι] [DecidableEq ι] [Fintype κ] [DecidableEq κ]

/-- elasticity.h `LinearElasticModel`: stiffness and compliance at a temperature. -/
structure Elastic (K ι : Type) where
  C : K → Matrix ι ι K
  S : K → Matrix ι ι K

/-- models.cxx:494-516 `SmallStrainElasticity::update_sd_actual`: stress, tangent, energy, work. -/
def elasticUpdate (el : Elastic K ι) (e1 e0 : ι → K) (T1 : K) (s0 : ι → K) (u0 p0 : K) :
    (ι → K) × Matrix ι ι K × K × K :=
  let A := el.C T1
  let s1 := A *ᵥ e1
  let ds := fun i => (s1 i + s0 i) / 2
  (s1, A, u0 + ds ⬝ᵥ (e1 - e0), p0)

/-! ## The generic implicit increment -/

/-- The virtual functions of `SubstepModel_sd` (models.h), over a trial state type `τ`,
history type `H` and unknown index `P`. `solve` is `solve` of solvers.cxx applied to the model:
the solution and the Jacobian there, `none` for a thrown error. `inv` is `invert_mat`
(nemlmath.cxx:872-892), `none` for a singular matrix. -/
structure Integrator (K ι H P τ : Type) where
  el : Elastic K ι
  setup : Substep.Point K (ι → K) (ι → K) H → (ι → K) → K → K → τ
  elasticStep : τ → Substep.Point K (ι → K) (ι → K) H → (ι → K) → K → K → Prop
  solve : τ → Option ((P → K) × Matrix P P K)
  inv : Matrix P P K → Option (Matrix P P K)
  internal : (P → K) → (ι → K) × H
  strainPartial : τ → (ι → K) → H → Matrix P ι K
  /-- rows of the unknown vector that hold the stress -/
  stressRow : ι → P
  work : τ → Substep.Point K (ι → K) (ι → K) H → (ι → K) → K → K → (ι → K) → H → K × K

open Classical in
/-- models.cxx:381-454 `SubstepModel_sd::update_step`. -/
noncomputable def updateStep {H P τ : Type} [Fintype P] [DecidableEq P]
    (m : Integrator K ι H P τ) : Substep.Base K (ι → K) (ι → K) H P ι :=
  fun x e1 T1 t1 =>
    let ts := m.setup x e1 T1 t1
    if m.elasticStep ts x e1 T1 t1 then
      let C := m.el.C T1
      let s1 := fun i => (C *ᵥ (e1 - x.e)) i + x.s i
      let h1 := x.h
      -- lines 408-417: the identity and the stiffness on the stress rows, zero elsewhere
      let A : Matrix P P K := fun a b => if ∃ i, m.stressRow i = a ∧ a = b then 1 else 0
      let E : Matrix P ι K := fun a j =>
        ∑ i, if m.stressRow i = a then C i j else 0
      let up := m.work ts x e1 T1 t1 s1 h1
      some ⟨s1, h1, A, E, up.1, up.2⟩
    else
      match m.solve ts with
      | none => none
      | some (z, J) =>
        match m.inv J with
        | none => none
        | some A =>
          let (s1, h1) := m.internal z
          let E := m.strainPartial ts s1 h1
          let up := m.work ts x e1 T1 t1 s1 h1
          some ⟨s1, h1, A, E, up.1, up.2⟩

/-! ## Perfect plasticity -/

/-- surfaces.h `YieldSurface` used with one scalar history entry `q`: value and first and second
stress derivatives, as functions of stress, `q` and temperature. -/
structure PPSurface (K ι : Type) where
  f : (ι → K) → K → K → K
  df : (ι → K) → K → K → ι → K
  ddf : (ι → K) → K → K → Matrix ι ι K

/-- models.h `SSPPTrialState`. -/
structure PPTrial (K ι : Type) where
  ys : K
  T : K
  e1 : ι → K
  C : Matrix ι ι K
  ep : ι → K
  str : ι → K

/-- models.cxx:729-752 `make_trial_state`. -/
def ppTrial {H : Type} (el : Elastic K ι) (ys : K → K) (x : Substep.Point K (ι → K) (ι → K) H)
    (e1 : ι → K) (T1 : K) : PPTrial K ι where
  ys := -ys T1
  T := T1
  e1 := e1
  C := el.C T1
  ep := fun i => x.e i - (el.S x.T *ᵥ x.s) i
  str := fun i => x.s i + (el.C T1 *ᵥ (e1 - x.e)) i

/-- models.cxx:673-720 `RJ`, the residual. -/
def ppR (sf : PPSurface K ι) (ts : PPTrial K ι) (x : ι ⊕ Unit → K) : ι ⊕ Unit → K :=
  let s := fun i => x (.inl i)
  let dg := x (.inr ())
  let T := fun i => ts.e1 i - ts.ep i - sf.df s ts.ys ts.T i * dg
  Sum.elim (fun i => s i - (ts.C *ᵥ T) i) (fun _ => sf.f s ts.ys ts.T)

/-- models.cxx:673-720 `RJ`, the Jacobian. -/
def ppJ (sf : PPSurface K ι) (ts : PPTrial K ι) (x : ι ⊕ Unit → K) :
    Matrix (ι ⊕ Unit) (ι ⊕ Unit) K :=
  let s := fun i => x (.inl i)
  let dg := x (.inr ())
  let df := sf.df s ts.ys ts.T
  let ddf := sf.ddf s ts.ys ts.T
  fromBlocks (of fun i j => (ts.C * ddf) i j * dg + if i = j then 1 else 0)
    (of fun i _ => (ts.C *ᵥ df) i) (of fun _ j => df j) (of fun _ _ => 0)

/-- models.cxx:608-626 `strain_partial`. -/
def ppStrainPartial (ts : PPTrial K ι) : Matrix (ι ⊕ Unit) ι K :=
  fun a j => Sum.elim (fun i => ts.C i j) (fun _ => 0) a

/-- models.cxx:628-659 and 867-898 `work_and_energy` (the two are identical): energy, work. -/
def ripWork {H : Type} (el : Elastic K ι) (ep : ι → K) (x : Substep.Point K (ι → K) (ι → K) H)
    (e1 : ι → K) (T1 : K) (s1 : ι → K) : K × K :=
  let ds := fun i => s1 i + x.s i
  let dp := fun i => e1 i - (el.S T1 *ᵥ s1) i - ep i
  (x.u + ds ⬝ᵥ (e1 - x.e) / 2, x.p + ds ⬝ᵥ dp / 2)

/-- models.cxx:520-759 `SmallStrainPerfectPlasticity`: elastic_step 583-595, update_internal
597-606. -/
def perfectPlasticity [LE K] (el : Elastic K ι) (sf : PPSurface K ι) (ys : K → K)
    (solve : PPTrial K ι → Option ((ι ⊕ Unit → K) × Matrix (ι ⊕ Unit) (ι ⊕ Unit) K))
    (inv : Matrix (ι ⊕ Unit) (ι ⊕ Unit) K → Option (Matrix (ι ⊕ Unit) (ι ⊕ Unit) K)) :
    Integrator K ι Unit (ι ⊕ Unit) (PPTrial K ι) where
  el := el
  setup x e1 T1 _ := ppTrial el ys x e1 T1
  elasticStep ts _ _ T1 _ := sf.f ts.str ts.ys T1 ≤ 0
  solve := solve
  inv := inv
  internal z := (fun i => z (.inl i), ())
  strainPartial ts _ _ := ppStrainPartial ts
  stressRow := Sum.inl
  work ts x e1 T1 _ s1 _ := ripWork el ts.ep x e1 T1 s1

/-! ## Rate independent plasticity -/

/-- ri_flow.h `RateIndependentFlowRule`. -/
structure RIFlow (K ι κ : Type) where
  f : (ι → K) → (κ → K) → K → K
  df_ds : (ι → K) → (κ → K) → K → ι → K
  df_da : (ι → K) → (κ → K) → K → κ → K
  g : (ι → K) → (κ → K) → K → ι → K
  dg_ds : (ι → K) → (κ → K) → K → Matrix ι ι K
  dg_da : (ι → K) → (κ → K) → K → Matrix ι κ K
  h : (ι → K) → (κ → K) → K → κ → K
  dh_ds : (ι → K) → (κ → K) → K → Matrix κ ι K
  dh_da : (ι → K) → (κ → K) → K → Matrix κ κ K

/-- models.h `SSRIPTrialState`. -/
structure RITrial (K ι κ : Type) where
  e1 : ι → K
  ep : ι → K
  str : ι → K
  C : Matrix ι ι K
  h : κ → K
  T : K

/-- models.cxx:1042-1068 `make_trial_state`. -/
def riTrial (el : Elastic K ι) (x : Substep.Point K (ι → K) (ι → K) (κ → K))
    (e1 : ι → K) (T1 : K) : RITrial K ι κ :=
  let ep := x.e - el.S x.T *ᵥ x.s
  ⟨e1, ep, el.C T1 *ᵥ (e1 - ep), el.C T1, x.h, T1⟩

/-- The three parts of the unknown vector: stress, history, consistency parameter
(models.cxx:924-926). -/
abbrev RIx (ι κ : Type) := ι ⊕ κ ⊕ Unit

/-- models.cxx:914-953 `RJ`, the residual. -/
def riR (fl : RIFlow K ι κ) (ts : RITrial K ι κ) (x : RIx ι κ → K) : RIx ι κ → K :=
  let s := fun i => x (.inl i)
  let al := fun i => x (.inr (.inl i))
  let dg := x (.inr (.inr ()))
  let R1 := fun i => ts.e1 i - ts.ep i - fl.g s al ts.T i * dg
  Sum.elim (fun i => s i - (ts.C *ᵥ R1) i)
    (Sum.elim (fun i => al i - ts.h i - fl.h s al ts.T i * dg) (fun _ => fl.f s al ts.T))

/-- models.cxx:955-1035 `RJ`, the Jacobian. -/
def riJ (fl : RIFlow K ι κ) (ts : RITrial K ι κ) (x : RIx ι κ → K) :
    Matrix (RIx ι κ) (RIx ι κ) K :=
  let s := fun i => x (.inl i)
  let al := fun i => x (.inr (.inl i))
  let dg := x (.inr (.inr ()))
  fun a b => match a, b with
    | .inl i, .inl j => (ts.C * fl.dg_ds s al ts.T) i j * dg + if i = j then 1 else 0
    | .inl i, .inr (.inl j) => (ts.C * fl.dg_da s al ts.T) i j * dg
    | .inl i, .inr (.inr _) => (ts.C *ᵥ fl.g s al ts.T) i
    | .inr (.inl i), .inl j => -(fl.dh_ds s al ts.T i j * dg)
    | .inr (.inl i), .inr (.inl j) => -(fl.dh_da s al ts.T i j * dg - if i = j then 1 else 0)
    | .inr (.inl i), .inr (.inr _) => -fl.h s al ts.T i
    | .inr (.inr _), .inl j => fl.df_ds s al ts.T j
    | .inr (.inr _), .inr (.inl j) => fl.df_da s al ts.T j
    | .inr (.inr _), .inr (.inr _) => 0

/-- models.cxx:756-1068 `SmallStrainRateIndependentPlasticity`: elastic_step 821-834,
update_internal 836-845, strain_partial 847-865. -/
def rateIndependent [LE K] (el : Elastic K ι) (fl : RIFlow K ι κ)
    (solve : RITrial K ι κ → Option ((RIx ι κ → K) × Matrix (RIx ι κ) (RIx ι κ) K))
    (inv : Matrix (RIx ι κ) (RIx ι κ) K → Option (Matrix (RIx ι κ) (RIx ι κ) K)) :
    Integrator K ι (κ → K) (RIx ι κ) (RITrial K ι κ) where
  el := el
  setup x e1 T1 _ := riTrial el x e1 T1
  elasticStep ts _ _ T1 _ := fl.f ts.str ts.h T1 ≤ 0
  solve := solve
  inv := inv
  internal z := (fun i => z (.inl i), fun i => z (.inr (.inl i)))
  strainPartial ts _ _ := fun a j => Sum.elim (fun i => ts.C i j) (fun _ => 0) a
  stressRow := Sum.inl
  work ts x e1 T1 _ s1 _ := ripWork el ts.ep x e1 T1 s1

/-! ## General integrator -/

/-- general_flow.h `GeneralFlowRule`: rates of stress and history and their derivatives, as
functions of stress, history, strain rate, temperature and temperature rate. -/
structure GenFlow (K ι κ : Type) where
  s : (ι → K) → (κ → K) → (ι → K) → K → K → ι → K
  ds_ds : (ι → K) → (κ → K) → (ι → K) → K → K → Matrix ι ι K
  ds_da : (ι → K) → (κ → K) → (ι → K) → K → K → Matrix ι κ K
  ds_de : (ι → K) → (κ → K) → (ι → K) → K → K → Matrix ι ι K
  a : (ι → K) → (κ → K) → (ι → K) → K → K → κ → K
  da_ds : (ι → K) → (κ → K) → (ι → K) → K → K → Matrix κ ι K
  da_da : (ι → K) → (κ → K) → (ι → K) → K → K → Matrix κ κ K
  da_de : (ι → K) → (κ → K) → (ι → K) → K → K → Matrix κ ι K
  work_rate : (ι → K) → (κ → K) → (ι → K) → K → K → K

/-- models.h `GITrialState` (the guess is only the start point of the solver). -/
structure GITrial (K ι κ : Type) where
  edot : ι → K
  Tdot : K
  dt : K
  T : K
  s0 : ι → K
  h0 : κ → K

open Classical in
/-- models.cxx:1559-1600 `make_trial_state`. The elastic guess and `skip_first_step` only set the
start point of the nonlinear solver and are left out. -/
noncomputable def giTrial [LT K] (x : Substep.Point K (ι → K) (ι → K) (κ → K)) (e1 : ι → K)
    (T1 t1 : K) : GITrial K ι κ :=
  let dt := t1 - x.t
  if 0 < dt then ⟨fun i => (e1 i - x.e i) / dt, (T1 - x.T) / dt, dt, T1, x.s, x.h⟩
  else ⟨0, 0, dt, T1, x.s, x.h⟩

/-- models.cxx:1488-1512 `RJ`, the residual. -/
def giR (fl : GenFlow K ι κ) (ts : GITrial K ι κ) (x : ι ⊕ κ → K) : ι ⊕ κ → K :=
  let s := fun i => x (.inl i)
  let h := fun i => x (.inr i)
  Sum.elim (fun i => s i - ts.s0 i - fl.s s h ts.edot ts.T ts.Tdot i * ts.dt)
    (fun i => h i - ts.h0 i - fl.a s h ts.edot ts.T ts.Tdot i * ts.dt)

/-- models.cxx:1514-1556 `RJ`, the Jacobian. -/
def giJ (fl : GenFlow K ι κ) (ts : GITrial K ι κ) (x : ι ⊕ κ → K) : Matrix (ι ⊕ κ) (ι ⊕ κ) K :=
  let s := fun i => x (.inl i)
  let h := fun i => x (.inr i)
  fromBlocks
    (of fun i j => -(fl.ds_ds s h ts.edot ts.T ts.Tdot i j * ts.dt - if i = j then 1 else 0))
    (of fun i j => -fl.ds_da s h ts.edot ts.T ts.Tdot i j * ts.dt)
    (of fun i j => -fl.da_ds s h ts.edot ts.T ts.Tdot i j * ts.dt)
    (of fun i j => -(fl.da_da s h ts.edot ts.T ts.Tdot i j * ts.dt - if i = j then 1 else 0))

/-- models.cxx:1398-1432 `strain_partial`. -/
def giStrainPartial (fl : GenFlow K ι κ) (ts : GITrial K ι κ) (s1 : ι → K) (h1 : κ → K) :
    Matrix (ι ⊕ κ) ι K :=
  fun a j => Sum.elim (fun i => fl.ds_de s1 h1 ts.edot ts.T ts.Tdot i j)
    (fun i => fl.da_de s1 h1 ts.edot ts.T ts.Tdot i j) a

/-- models.cxx:1304-1600 `GeneralIntegrator`: elastic_step 1365-1383 (`eps` is the machine
epsilon), update_internal 1385-1396, work_and_energy 1434-1461. -/
noncomputable def generalIntegrator [LT K] (el : Elastic K ι) (fl : GenFlow K ι κ) (eps : K)
    (solve : GITrial K ι κ → Option ((ι ⊕ κ → K) × Matrix (ι ⊕ κ) (ι ⊕ κ) K))
    (inv : Matrix (ι ⊕ κ) (ι ⊕ κ) K → Option (Matrix (ι ⊕ κ) (ι ⊕ κ) K)) :
    Integrator K ι (κ → K) (ι ⊕ κ) (GITrial K ι κ) where
  el := el
  setup x e1 T1 t1 := giTrial x e1 T1 t1
  elasticStep _ x _ _ t1 := t1 - x.t < eps
  solve := solve
  inv := inv
  internal z := (fun i => z (.inl i), fun i => z (.inr i))
  strainPartial := giStrainPartial fl
  stressRow := Sum.inl
  work ts x e1 T1 _ s1 h1 :=
    let ds := fun i => (s1 i + x.s i) / 2
    (x.u + ds ⬝ᵥ (e1 - x.e),
     x.p + (fl.work_rate s1 h1 ts.edot T1 ts.Tdot + fl.work_rate x.s x.h ts.edot x.T ts.Tdot) / 2
       * ts.dt)

/-! ## Creep plus plasticity -/

/-- What a small strain update returns. -/
structure Update (K ι H : Type) where
  s : ι → K
  h : H
  A : Matrix ι ι K
  u : K
  p : K

/-- A small strain model's `update_sd_actual` at fixed temperatures and times: end strain, start
strain, start stress, start history, energy, work. `none` is a thrown error. -/
abbrev Model (K ι H : Type) :=
  (ι → K) → (ι → K) → (ι → K) → H → K → K → Option (Update K ι H)

/-- A creep model's `update` at fixed temperatures and times (creep.cxx): stress and old creep
strain to new creep strain and its stress derivative. -/
abbrev Creep (K ι : Type) := (ι → K) → (ι → K) → Option ((ι → K) × Matrix ι ι K)

/-- models.cxx:1203-1245 `SmallStrainCreepPlasticity::RJ`: residual and Jacobian. -/
def cpRJ {H : Type} (pl : Model K ι H) (cr : Creep K ι) (scale : K) (e1 e0 ep s0 : ι → K) (h0 : H)
    (x : ι → K) : Option ((ι → K) × Matrix ι ι K) :=
  match pl x ep s0 h0 0 0 with
  | none => none
  | some up =>
    match cr up.s (e0 - ep) with
    | none => none
    | some (cnew, B) =>
      some (fun i => (x i + cnew i - e1 i) * scale,
        fun i j => ((B * up.A) i j + if i = j then 1 else 0) * scale)

/-- models.cxx:1269-1302 `form_tangent_`. `inv` is `invert_mat`. -/
def cpTangent (inv : Matrix ι ι K → Option (Matrix ι ι K)) (A B : Matrix ι ι K) :
    Option (Matrix ι ι K) :=
  match inv (A * B + 1) with
  | none => none
  | some C => some (A - A * (B * (C * A)))

/-- models.cxx:1133-1187 `update_sd_actual`. The stored history is the elastic-plastic strain
followed by the plastic model's history. `solve` is the nonlinear solver. -/
def cpUpdate {H : Type} (pl : Model K ι H) (cr : Creep K ι)
    (solve : (e1 e0 ep s0 : ι → K) → H → Option (ι → K))
    (inv : Matrix ι ι K → Option (Matrix ι ι K)) : Model K ι ((ι → K) × H) :=
  fun e1 e0 s0 h0 u0 p0 =>
    match solve e1 e0 h0.1 s0 h0.2 with
    | none => none
    | some x =>
      match pl x h0.1 s0 h0.2 u0 p0 with
      | none => none
      | some up =>
        match cr up.s (e0 - h0.1) with
        | none => none
        | some (cnew, B) =>
          match cpTangent inv up.A B with
          | none => none
          | some A =>
            let ds := fun i => up.s i + s0 i
            some ⟨up.s, (x, up.h), A, u0 + ds ⬝ᵥ (e1 - e0) / 2,
              up.p + ds ⬝ᵥ (cnew - (e0 - h0.1)) / 2⟩

/-! ## Regime model -/

/-- models.cxx:1650-1675, the choice of the member model: index of the first bound above `g`,
else the last model. `none`: out of range (undefined behaviour). -/
noncomputable def kmPick {M : Type} (gs : List ℝ) (models : List M) (g : ℝ) : Option M :=
  match gs.findIdx? (fun b => g < b) with
  | some i => models[i]?
  | none => models.getLast?

/-- models.cxx:1690-1704 `activation_energy_`. -/
noncomputable def kmEnergy (kboltz b eps0 mu T1 dt : ℝ) (e1 e0 : Fin 6 → ℝ) : ℝ :=
  let de := fun i => (e1 i - e0 i) / dt
  let rate := Real.sqrt (2 / 3) * Real.sqrt (∑ i, de i * de i)
  kboltz * T1 / (mu * b ^ (3 : ℝ)) * Real.log (eps0 / rate)

end Neml.SmallStrain
