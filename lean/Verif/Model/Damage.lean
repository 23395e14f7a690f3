import Verif.Model.SmallStrain
import Verif.Model.Mandel

/-!
# Model of the damage models in src/damage.cxx

A scalar damage model is a record of its damage value and three derivative functions at fixed
temperatures and times. The base model is any small strain model. The damage variable is the first
entry of the history, the base history the rest. Stress measures act on the six Mandel components.
-/

namespace Neml.Damage

open Matrix Neml.SmallStrain

section Frame

variable {ι : Type} [Fintype ι] [DecidableEq ι] {H : Type}

/-- damage.h:132-180 `ScalarDamage`: new damage from damage, strains and effective stresses, its
derivatives in the new damage, new strain and new effective stress, and the initial damage.
Temperatures and times are fixed. -/
structure Rule (ι : Type) where
  damage : (d1 d0 : ℝ) → (e1 e0 s1 s0 : ι → ℝ) → ℝ
  dd : (d1 d0 : ℝ) → (e1 e0 s1 s0 : ι → ℝ) → ℝ
  de : (d1 d0 : ℝ) → (e1 e0 s1 s0 : ι → ℝ) → ι → ℝ
  ds : (d1 d0 : ℝ) → (e1 e0 s1 s0 : ι → ℝ) → ι → ℝ
  init : ℝ

/-- The options of the damaged model (damage.cxx:36-80): element killing, its threshold and
reduction factor, the elastic stiffness at the end temperature. -/
structure Options (ι : Type) where
  ekill : Bool
  dkill : ℝ
  sfact : ℝ
  C : Matrix ι ι ℝ

/-- `s / (1 - w)`, the loop of damage.cxx:107-109 and 182, 192-193, 261-263. -/
noncomputable def effective (w : ℝ) (s : ι → ℝ) : ι → ℝ := fun i => s i / (1 - w)

/-- damage.cxx:159-173 `init_x`: start of the iteration. -/
noncomputable def initX (dm : Rule ι) (s0 : ι → ℝ) (w0 : ℝ) : ι ⊕ Unit → ℝ :=
  Sum.elim s0 fun _ => if w0 = 0 then dm.init else w0

/-- damage.cxx:175-230 `RJ`: residual and Jacobian at the unknowns (stress, damage). -/
noncomputable def damRJ (base : Model ℝ ι H) (dm : Rule ι) (e1 e0 s0 : ι → ℝ) (w0 : ℝ) (h0 : H)
    (u0 p0 : ℝ) (x : ι ⊕ Unit → ℝ) :
    Option ((ι ⊕ Unit → ℝ) × Matrix (ι ⊕ Unit) (ι ⊕ Unit) ℝ) :=
  let s : ι → ℝ := fun i => x (Sum.inl i)
  let w := x (Sum.inr ())
  let sc := effective w s
  let sn := effective w0 s0
  match base e1 e0 sn h0 u0 p0 with
  | none => none
  | some up =>
    let R : ι ⊕ Unit → ℝ :=
      Sum.elim (fun i => s i - (1 - w) * up.s i) fun _ => w - dm.damage w w0 e1 e0 sc sn
    let ws := dm.ds w w0 e1 e0 sc sn
    let ww := dm.dd w w0 e1 e0 sc sn
    let J : Matrix (ι ⊕ Unit) (ι ⊕ Unit) ℝ :=
      fromBlocks 1 (of fun i _ => up.s i) (of fun _ j => -ws j / (1 - w))
        (of fun _ _ => 1 - ww - ws ⬝ᵥ s / (1 - w) ^ 2)
    some (R, J)

/-- damage.cxx:254-293 `tangent_`. `s1` is the returned stress, `A'` the base tangent. -/
noncomputable def damTangent (dm : Rule ι) (inv : Matrix ι ι ℝ → Option (Matrix ι ι ℝ))
    (e1 e0 s1 s0 : ι → ℝ) (w1 w0 : ℝ) (A' : Matrix ι ι ℝ) : Option (Matrix ι ι ℝ) :=
  let s1' := effective w1 s1
  let s0' := effective w0 s0
  let ws := dm.ds w1 w0 e1 e0 s1' s0'
  let we := dm.de w1 w0 e1 e0 s1' s0'
  let ww := dm.dd w1 w0 e1 e0 s1' s0'
  let k1 := 1 - 1 / (1 - w1) * (ws ⬝ᵥ s1') - ww
  match inv (1 + vecMulVec s1' fun j => ws j / (k1 * (1 - w1))) with
  | none => none
  | some B => some (B * ((1 - w1) • A' - vecMulVec s1' fun j => we j / k1))

/-- damage.cxx:295-318 `ekill_update_`. -/
noncomputable def ekillUpdate (op : Options ι) (e1 : ι → ℝ) (h0 : ℝ × H) (u0 p0 : ℝ) :
    Update ℝ ι (ℝ × H) :=
  let A : Matrix ι ι ℝ := of fun i j => op.C i j / op.sfact
  if 0 < u0 then ⟨A *ᵥ e1, (1, h0.2), A, 0, p0 + u0⟩ else ⟨A *ᵥ e1, (1, h0.2), A, u0, p0⟩

/-- damage.cxx:86-137 `NEMLScalarDamagedModel_sd::update_sd_actual`. `solve` is the nonlinear solver
(solvers.cxx) applied to `damRJ`, `inv` is `invert_mat`. -/
noncomputable def damUpdate (op : Options ι) (base : Model ℝ ι H) (dm : Rule ι)
    (solve : (e1 e0 s0 : ι → ℝ) → (w0 : ℝ) → H → (u0 p0 : ℝ) → Option (ι ⊕ Unit → ℝ))
    (inv : Matrix ι ι ℝ → Option (Matrix ι ι ℝ)) : Model ℝ ι (ℝ × H) :=
  fun e1 e0 s0 h0 u0 p0 =>
    if op.ekill ∧ op.dkill ≤ h0.1 then some (ekillUpdate op e1 h0 u0 p0)
    else
      match solve e1 e0 s0 h0.1 h0.2 u0 p0 with
      | none => none
      | some x =>
        let w := x (Sum.inr ())
        match base e1 e0 (effective h0.1 s0) h0.2 u0 p0 with
        | none => none
        | some up =>
          let s1 : ι → ℝ := fun i => (1 - w) * up.s i
          if op.ekill ∧ op.dkill ≤ w then some (ekillUpdate op e1 h0 u0 p0)
          else
            match damTangent dm inv e1 e0 s1 s0 w h0.1 up.A with
            | none => none
            | some A => some ⟨s1, (w, up.h), A, up.u, up.p⟩

/-- damage.cxx:320-324 `get_damage`. -/
def getDamage (h : ℝ × H) : ℝ := h.1

/-- damage.cxx:326-329 `should_del_element`. -/
def shouldDelete (op : Options ι) (h : ℝ × H) : Prop := op.dkill < getDamage h

/-! ## Damage rules -/

/-- damage.cxx:340-395 `ScalarDamageRate`: a rule from a damage rate and its derivatives;
`dt` is the time step. -/
def rateRule (dt : ℝ) (rate dd : ℝ → (e s : ι → ℝ) → ℝ) (de ds : ℝ → (e s : ι → ℝ) → ι → ℝ) :
    Rule ι where
  damage d1 d0 e1 _ s1 _ := rate d1 e1 s1 * dt + d0
  dd d1 _ e1 _ s1 _ := dd d1 e1 s1 * dt
  de d1 _ e1 _ s1 _ := fun i => de d1 e1 s1 i * dt
  ds d1 _ e1 _ s1 _ := fun i => ds d1 e1 s1 i * dt
  init := 0

/-- damage.cxx:422-489 `CombinedDamage`: the loops over the members. -/
noncomputable def combined (ms : List (Rule ι)) : Rule ι where
  damage d1 d0 e1 e0 s1 s0 :=
    ms.foldl (fun acc m => acc + (m.damage d1 d0 e1 e0 s1 s0 - d0)) d0
  dd d1 d0 e1 e0 s1 s0 := ms.foldl (fun acc m => acc + m.dd d1 d0 e1 e0 s1 s0) 0
  de d1 d0 e1 e0 s1 s0 := ms.foldl (fun acc m => fun i => acc i + m.de d1 d0 e1 e0 s1 s0 i) 0
  ds d1 d0 e1 e0 s1 s0 := ms.foldl (fun acc m => fun i => acc i + m.ds d1 d0 e1 e0 s1 s0 i) 0
  init := 0

/-- damage.cxx:1262-1292 `StandardScalarDamage::dep`: effective inelastic strain increment. `S` is
the compliance at the end temperature. -/
noncomputable def dep (S : Matrix ι ι ℝ) (s1 s0 e1 e0 : ι → ℝ) : ℝ :=
  let ds := fun i => s1 i - s0 i
  let de := fun i => e1 i - e0 i
  let dee := S *ᵥ ds
  let v := 2 / 3 * (de ⬝ᵥ de + dee ⬝ᵥ dee - 2 * (de ⬝ᵥ dee))
  if v < 0 then 0 else √v

open Classical in
/-- damage.cxx:1153-1260 `StandardScalarDamage` over its function `f` and derivatives. -/
noncomputable def standardRule (S : Matrix ι ι ℝ) (f df_dd : (s : ι → ℝ) → ℝ → ℝ)
    (df_ds : (s : ι → ℝ) → ℝ → ι → ℝ) : Rule ι where
  damage d1 d0 e1 e0 s1 s0 := d0 + f s1 d1 * dep S s1 s0 e1 e0
  dd d1 _ e1 e0 s1 s0 := df_dd s1 d1 * dep S s1 s0 e1 e0
  de d1 _ e1 e0 s1 s0 :=
    let deps := dep S s1 s0 e1 e0
    if deps = 0 then 0
    else fun i => 2 * f s1 d1 / (3 * deps) *
      ((e1 i - e0 i) - (S *ᵥ fun k => s1 k - s0 k) i)
  ds d1 _ e1 e0 s1 s0 :=
    let deps := dep S s1 s0 e1 e0
    if deps = 0 then 0
    else
      let v1 := fun i => 2 * f s1 d1 / (3 * deps) *
        ((S *ᵥ fun k => s1 k - s0 k) i - (e1 i - e0 i))
      fun i => df_ds s1 d1 i * deps + (S *ᵥ v1) i
  init := 0

/-- The parameters of `WorkDamage` (damage.cxx:1294-1318) at fixed temperatures: compliance, time
step, exponent, initial value, work scale, critical work and its derivative (damage.cxx:1491-1505,
the optional logarithm is inside `Wcrit`). -/
structure WorkParams (ι : Type) where
  S : Matrix ι ι ℝ
  dt : ℝ
  n : ℝ
  eps : ℝ
  scale : ℝ
  Wcrit : ℝ → ℝ
  dWcrit : ℝ → ℝ

/-- damage.cxx:1459-1489 `WorkDamage::workrate`. -/
noncomputable def workrate (q : WorkParams ι) (e1 e0 s1 s0 : ι → ℝ) (d1 d0 : ℝ) : ℝ :=
  if q.dt ≤ 0 then 0
  else
    let ds := fun i => s1 i * (1 - d1) - s0 i * (1 - d0)
    let dp := fun i => (e1 i - e0 i) - (q.S *ᵥ ds) i
    |s1 ⬝ᵥ dp / q.dt * (1 - d1)| * q.scale

open Classical in
/-- damage.cxx:1325-1457 `WorkDamage`. -/
noncomputable def workRule (q : WorkParams ι) : Rule ι where
  damage d1 d0 e1 e0 s1 s0 :=
    if d1 = 0 then d0
    else
      let wr := workrate q e1 e0 s1 s0 |d1| d0
      if wr = 0 then d0
      else d0 + q.n * |d1| ^ ((q.n - 1) / q.n) * wr * q.dt / q.Wcrit (wr / q.scale) / q.scale
  dd d1 d0 e1 e0 s1 s0 :=
    if d1 = 0 then d0
    else
      let wr := workrate q e1 e0 s1 s0 |d1| d0
      if wr = 0 then d0
      else
        let val := q.Wcrit (wr / q.scale)
        let deriv := q.dWcrit (wr / q.scale)
        let f := s1 ⬝ᵥ (q.S *ᵥ s1)
        let x := -wr / (1 - |d1|) / q.scale + (1 - |d1|) * f / q.dt
        let other := q.n * |d1| ^ ((q.n - 1) / q.n) * q.dt / val *
          (1 - wr / val * deriv / q.scale) * x
        (q.n - 1) * |d1| ^ (-1 / q.n) * wr * q.dt / val / q.scale + other
  de d1 d0 e1 e0 s1 s0 :=
    let wr := workrate q e1 e0 s1 s0 |d1| d0
    if d1 ≤ 0 ∨ wr = 0 then 0
    else
      let val := q.Wcrit (wr / q.scale)
      let dval := q.dWcrit (wr / q.scale)
      let fact := q.n * |d1| ^ ((q.n - 1) / q.n) / val * (1 - wr / val * dval / q.scale) *
        (1 - |d1|)
      fun i => fact * s1 i
  ds d1 d0 e1 e0 s1 s0 :=
    let wr := workrate q e1 e0 s1 s0 |d1| d0
    if d1 ≤ 0 ∨ wr = 0 then 0
    else
      let val := q.Wcrit (wr / q.scale)
      let dval := q.dWcrit (wr / q.scale)
      let ds := fun i => s1 i * (1 - d1) - s0 i * (1 - d0)
      let fact := q.n * |d1| ^ ((q.n - 1) / q.n) / val * (1 - wr / val * dval / q.scale) *
        (1 - |d1|)
      fun i => fact * ((e1 i - e0 i) - (q.S *ᵥ ds) i - (1 - |d1|) * (q.S *ᵥ s1) i)
  init := q.eps

end Frame

/-! ## Stress measures and the rules built on them -/

open Neml.Mandel

/-- An effective stress measure and its derivative (damage.h:336-342 `EffectiveStress`). -/
structure Measure where
  eff : (Fin 6 → ℝ) → ℝ
  deff : (Fin 6 → ℝ) → Fin 6 → ℝ

/-- The formula of damage.cxx:619-624, 583-587, 1571-1575, 1667-1671. -/
noncomputable def se (s : Fin 6 → ℝ) : ℝ :=
  √(((s 0 - s 1) ^ 2 + (s 1 - s 2) ^ 2 + (s 2 - s 0) ^ 2 +
    3 * (s 3 ^ 2 + s 4 ^ 2 + s 5 ^ 2)) / 2)

open Classical in
/-- damage.cxx:619-642 `VonMisesEffectiveStress`. -/
noncomputable def vonMises : Measure where
  eff := se
  deff s := if se s = 0 then devVec s else fun i => devVec s i * (3 / 2 / se s)

/-- damage.cxx:657-668 `MeanEffectiveStress`. -/
noncomputable def mean : Measure where
  eff s := (s 0 + s 1 + s 2) / 3
  deff _ := ![1 / 3, 1 / 3, 1 / 3, 0, 0, 0]

/-- nemlmath.cxx:1165-1168 `I1`. -/
def I1 (s : Fin 6 → ℝ) : ℝ := s 0 + s 1 + s 2

/-- nemlmath.cxx:1170-1183 `I2`: half of squared trace minus trace of the square. -/
noncomputable def I2 (s : Fin 6 → ℝ) : ℝ :=
  let F := usym s
  let tr1 := F 0 0 + F 1 1 + F 2 2
  let F2 := F * F
  let tr2 := F2 0 0 + F2 1 1 + F2 2 2
  1 / 2 * (tr1 * tr1 - tr2)

open Classical in
/-- damage.cxx:699-765 `HuddlestonEffectiveStress` with its constant `b`. -/
noncomputable def huddleston (b : ℝ) : Measure where
  eff s :=
    let I2p := I2 (devVec s)
    let sv := √(-3 * I2p)
    let ss := √(-3 * I2p + I2 s)
    if ss = 0 then 0 else sv * Real.exp (b * (I1 s / ss - 1))
  deff s :=
    let sd := devVec s
    let I2p := I2 sd
    let sv := √(-3 * I2p)
    let ss := √(-3 * I2p + I2 s)
    if ss = 0 then 0
    else
      let e := sv * Real.exp (b * (I1 s / ss - 1))
      let t1 := b * e / ss
      let t2 := -(b * e * I1 s / (2 * ss ^ 3))
      let t3 := 1 / 2 * e * (3 * b * I1 s / ss ^ 3 + 1 / I2p)
      fun i => ![t1 + t2 * I1 s, t1 + t2 * I1 s, t1 + t2 * I1 s, 0, 0, 0] i - t2 * s i - t3 * sd i

/-- damage.cxx:872-887 `MaxSeveralEffectiveStress::select_`: strict maximum scan starting from minus
infinity; the index and value so far, `none` before the first member. -/
noncomputable def selectMax (ms : List Measure) (s : Fin 6 → ℝ) : Option (Nat × ℝ) :=
  (ms.zipIdx).foldl (fun acc mi =>
    match acc with
    | none => some (mi.2, mi.1.eff s)
    | some (i, v) => if mi.1.eff s > v then some (mi.2, mi.1.eff s) else some (i, v)) none

/-- damage.cxx:857-870 `MaxSeveralEffectiveStress`: value and derivative of the selected member
(`none`: no members, the code then uses index −1). -/
noncomputable def maxSeveral (ms : List Measure) (s : Fin 6 → ℝ) : Option (ℝ × (Fin 6 → ℝ)) :=
  match selectMax ms s with
  | none => none
  | some (i, v) => (ms[i]?).map fun m => (v, m.deff s)

/-- damage.cxx:889-940 `SumSeveralEffectiveStress`: refused when the lengths differ, else the
weighted loop. -/
noncomputable def sumSeveral (ms : List Measure) (ws : List ℝ) : Option Measure :=
  if ms.length = ws.length then
    some ⟨fun s => (ms.zip ws).foldl (fun acc mw => acc + mw.2 * mw.1.eff s) 0,
      fun s => (ms.zip ws).foldl (fun acc mw => fun i => acc i + mw.2 * mw.1.deff s i) 0⟩
  else none

open Classical in
/-- damage.cxx:522-581 `ClassicalCreepDamage` at a temperature. -/
noncomputable def classicalCreep (A xi phi dt : ℝ) : Rule (Fin 6) :=
  rateRule dt
    (fun d _ s => (se s / A) ^ xi * (1 - d) ^ (-phi))
    (fun d _ s => (se s / A) ^ xi * phi * (1 - d) ^ (-(phi + 1)))
    (fun _ _ _ => 0)
    (fun d _ s => if se s = 0 then 0 else fun i =>
      devVec s i * (3 * xi / (2 * A * se s) * (se s / A) ^ (xi - 1) * (1 - d) ^ (-phi)))

open Classical in
/-- damage.cxx:973-1035 `ModularCreepDamage` at a temperature over a stress measure. -/
noncomputable def modularCreep (m : Measure) (A xi phi dt : ℝ) : Rule (Fin 6) :=
  rateRule dt
    (fun d _ s => (m.eff s / A) ^ xi * (1 - d) ^ (xi - phi))
    (fun d _ s => (m.eff s / A) ^ xi * (phi - xi) * (1 - d) ^ (xi - phi - 1))
    (fun _ _ _ => 0)
    (fun d _ s => if m.eff s = 0 then 0 else fun i =>
      m.deff s i * ((m.eff s / A) ^ (xi - 1) * xi / A * (1 - d) ^ (xi - phi)))

open Classical in
/-- damage.cxx:1066-1143 `LarsonMillerCreepDamage`: `tR` and `dtR` are the rupture time and its
stress derivative at the temperature (larsonmiller.cxx). -/
noncomputable def larsonMiller (m : Measure) (tR dtR : ℝ → ℝ) (dt : ℝ) : Rule (Fin 6) :=
  rateRule dt
    (fun d _ s => if m.eff s = 0 then 0 else 1 / tR (m.eff s * (1 - d)))
    (fun d _ s => if m.eff s = 0 then 0 else
      dtR (m.eff s * (1 - d)) * m.eff s / (tR (m.eff s * (1 - d)) * tR (m.eff s * (1 - d))))
    (fun _ _ _ => 0)
    (fun d _ s => if m.eff s = 0 then 0 else fun i =>
      m.deff s i * (-dtR (m.eff s * (1 - d)) * (1 - d) /
        (tR (m.eff s * (1 - d)) * tR (m.eff s * (1 - d)))))

open Classical in
/-- damage.cxx:1537-1575 `PowerLawDamage` at a temperature. -/
noncomputable def powerLaw (S : Matrix (Fin 6) (Fin 6) ℝ) (A a : ℝ) : Rule (Fin 6) :=
  standardRule S (fun s _ => A * se s ^ a) (fun _ _ => 0)
    (fun s _ => if se s = 0 then 0 else fun i => devVec s i * (3 * A * a / 2 * se s ^ (a - 2)))

open Classical in
/-- damage.cxx:1610-1671 `ExponentialWorkDamage` at a temperature. -/
noncomputable def expWork (S : Matrix (Fin 6) (Fin 6) ℝ) (W0 k0 af : ℝ) : Rule (Fin 6) :=
  standardRule S
    (fun s d => if d + k0 < 0 then 0 else (d + k0) ^ af / W0 * se s)
    (fun s d => if d + k0 < 0 then 0 else af * (d + k0) ^ (af - 1) * se s / W0)
    (fun s d => if se s = 0 then 0 else if d + k0 < 0 then 0 else fun i =>
      devVec s i * (3 * (d + k0) ^ af / (2 * se s * W0)))

end Neml.Damage
