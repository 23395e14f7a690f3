import Verif.Model.Uniaxial
import Mathlib.Data.Fin.Tuple.Basic

/-!
# Model of the small strain driver (neml/drivers.py 12-358)

The nine recorded series are separate lists, as in the code. The material is a parameter (`Model3`) and may
raise. `none` is an exception, or a division by zero (in floating point the code goes on with infinities and
NaNs there, which the solver takes for convergence; not modelled). The iteration limit of the line search is
fuel. Exact reals.
-/

namespace Neml.Driver

open Matrix Neml.PySolve Neml.Uniaxial

/-- A recorded series (a Python list that starts with one entry): the last entry, and the entries before it,
newest first. -/
structure Series (α : Type) where
  last : α
  before : List α

/-- `append`. -/
def Series.push {α : Type} (s : Series α) (a : α) : Series α := ⟨a, s.last :: s.before⟩

/-- The entries, oldest first. -/
def Series.toList {α : Type} (s : Series α) : List α := s.before.reverse ++ [s.last]

/-- drivers.py:17-41, 76-88: the driver. -/
structure Driver (H : Type) where
  model : Model3 H
  rtol : ℝ
  atol : ℝ
  miter : Nat
  fuel : Nat
  nts : Bool
  stress : Series (Fin 6 → ℝ)
  stored : Series H
  T : Series ℝ
  t : Series ℝ
  u : Series ℝ
  p : Series ℝ
  strain : Series (Fin 6 → ℝ)
  thermal : Series (Fin 6 → ℝ)
  mech : Series (Fin 6 → ℝ)

variable {H : Type}

/-- drivers.py:34-41, 86-88: a new driver. -/
def Driver.new (m : Model3 H) (rtol atol : ℝ) (miter fuel : Nat) (T0 : ℝ) (nts : Bool) : Driver H :=
  ⟨m, rtol, atol, miter, fuel, nts, ⟨0, []⟩, ⟨m.init, []⟩, ⟨T0, []⟩, ⟨0, []⟩, ⟨0, []⟩, ⟨0, []⟩, ⟨0, []⟩, ⟨0, []⟩,
    ⟨0, []⟩⟩

/-- drivers.py:168 `np.array([1.0,1,1,0,0,0])`. -/
def isoDir : Fin 6 → ℝ := ![1, 1, 1, 0, 0, 0]

/-- drivers.py:154-168 `update_thermal_strain`. -/
noncomputable def Driver.thermalNext (d : Driver H) (T1 : ℝ) : Fin 6 → ℝ :=
  if d.nts then 0
  else d.thermal.last + ((T1 - d.T.last) * (d.model.alpha T1 + d.model.alpha d.T.last) / 2) • isoDir

/-- drivers.py:180-183, 206-209, 244-248, 337-340: the call of the material for the total strain `e`. -/
noncomputable def Driver.call (d : Driver H) (e : Fin 6 → ℝ) (t1 T1 : ℝ) : Option (Out3 H) :=
  d.model.update ⟨e - d.thermalNext T1, d.mech.last, T1, d.T.last, t1, d.t.last, d.stress.last, d.stored.last,
    d.u.last, d.p.last⟩

/-- drivers.py:170-193 `strain_step`. -/
noncomputable def Driver.strainStep (d : Driver H) (e1 : Fin 6 → ℝ) (t1 T1 : ℝ) : Option (Driver H) :=
  (d.call e1 t1 T1).map fun o =>
    { d with
      strain := d.strain.push e1
      mech := d.mech.push (e1 - d.thermalNext T1)
      thermal := d.thermal.push (d.thermalNext T1)
      stress := d.stress.push o.s
      stored := d.stored.push o.h
      T := d.T.push T1
      t := d.t.push t1
      u := d.u.push o.u
      p := d.p.push o.p }

/-- drivers.py:90-140 with the driver's own tolerances. -/
noncomputable def Driver.solveTry {n : Nat} (d : Driver H)
    (rj : (Fin n → ℝ) → Option ((Fin n → ℝ) × Matrix (Fin n) (Fin n) ℝ)) (x0 : Fin n → ℝ)
    (extra : List (Fin n → ℝ)) : Option (Fin n → ℝ) :=
  PySolve.solveTry rj d.rtol d.atol d.miter d.fuel x0 extra

/-- drivers.py:205-211: residual and Jacobian of a stress controlled step. -/
noncomputable def Driver.stressRJ (d : Driver H) (s1 : Fin 6 → ℝ) (t1 T1 : ℝ) (e : Fin 6 → ℝ) :
    Option ((Fin 6 → ℝ) × Matrix (Fin 6) (Fin 6) ℝ) := (d.call e t1 T1).map fun o => (o.s - s1, o.A)

/-- drivers.py:195-221 `stress_step`. -/
noncomputable def Driver.stressStep (d : Driver H) (s1 : Fin 6 → ℝ) (t1 T1 : ℝ) : Option (Driver H) :=
  let extra := match d.strain.before with
    | [] => []
    | e0 :: _ => [d.strain.last + (d.strain.last - e0)]
  match d.solveTry (d.stressRJ s1 t1 T1) d.strain.last extra with
  | none => none
  | some e1 => d.strainStep e1 t1 T1

/-- drivers.py:237 `sdir / la.norm(sdir)`. -/
noncomputable def unit (sdir : Fin 6 → ℝ) : Fin 6 → ℝ := (norm2 sdir)⁻¹ • sdir

open Classical in
/-- drivers.py:241-260: residual and Jacobian of a rate controlled step, for the normalised direction `n`. The
unknowns are the stress increment along the direction and the six strain increments; the rows are the six
stress equations and the rate equation. -/
noncomputable def Driver.erateRJ (d : Driver H) (n : Fin 6 → ℝ) (erate t1 T1 : ℝ) (x : Fin 7 → ℝ) :
    Option ((Fin 7 → ℝ) × Matrix (Fin 7) (Fin 7) ℝ) :=
  let a := x 0
  let einc : Fin 6 → ℝ := fun k => x k.succ
  let dt := t1 - d.t.last
  if dt = 0 then none
  else (d.call (d.strain.last + einc) t1 T1).map fun o =>
    (Fin.snoc (α := fun _ => ℝ) (fun k : Fin 6 => o.s k - (n k * a + d.stress.last k)) (einc ⬝ᵥ n / dt - erate),
     of fun i j => Fin.snoc (α := fun _ => ℝ) (fun k : Fin 6 => Fin.cases (-n k) (fun l => o.A k l) j)
       (Fin.cases 0 (fun l => n l / dt) j) i)

open Classical in
/-- drivers.py:223-279 `erate_step`; also returns the strain and stress increments found. -/
noncomputable def Driver.erateStep (d : Driver H) (sdir : Fin 6 → ℝ) (erate t1 T1 : ℝ)
    (einc : Option (Fin 6 → ℝ)) (ainc : Option ℝ) : Option (Driver H × (Fin 6 → ℝ) × ℝ) :=
  if norm2 sdir = 0 then none
  else
    let n := unit sdir
    let x0 : Fin 7 → ℝ := Fin.cons (ainc.getD 1) (einc.getD ((1 / 10000 : ℝ) • n))
    match d.solveTry (d.erateRJ n erate t1 T1) x0 [] with
    | none => none
    | some x =>
      let de : Fin 6 → ℝ := fun k => x k.succ
      (d.strainStep (d.strain.last + de) t1 T1).map fun d' => (d', de, x 0)

open Classical in
/-- drivers.py:281-293 `erate_einc_step`. -/
noncomputable def Driver.erateEincStep (d : Driver H) (sdir : Fin 6 → ℝ) (erate einc T1 : ℝ)
    (eg : Option (Fin 6 → ℝ)) (ag : Option ℝ) : Option (Driver H × (Fin 6 → ℝ) × ℝ) :=
  if erate = 0 then none else d.erateStep sdir erate (d.t.last + einc / erate) T1 eg ag

/-- numpy `isclose` with its default tolerances. -/
def IsClose (a b : ℝ) : Prop := |a - b| ≤ 1 / 10 ^ 8 + 1 / 10 ^ 5 * |b|

open Classical in
/-- drivers.py:307-310: the next stress. -/
noncomputable def Driver.sincStress (d : Driver H) (sdir : Fin 6 → ℝ) (sinc : ℝ) : Fin 6 → ℝ :=
  if ∀ k, IsClose (sdir k) 0 then d.stress.last else d.stress.last + sinc • unit sdir

open Classical in
/-- drivers.py:311-314: the time increment. -/
noncomputable def Driver.sincTime (d : Driver H) (sdir : Fin 6 → ℝ) (srate : ℝ) (s1 : Fin 6 → ℝ) : ℝ :=
  if IsClose srate 0 then 0 else |((s1 - d.stress.last) ⬝ᵥ sdir) / srate|

/-- drivers.py:295-316 `srate_sinc_step`. -/
noncomputable def Driver.srateSincStep (d : Driver H) (sdir : Fin 6 → ℝ) (srate sinc T1 : ℝ) : Option (Driver H) :=
  let s1 := d.sincStress sdir sinc
  d.stressStep s1 (d.t.last + d.sincTime sdir srate s1) T1

open Classical in
/-- drivers.py:335-352: residual and Jacobian of a strain hold; `i.succAbove` lists the other five components in
order (`oset`). -/
noncomputable def Driver.holdRJ (d : Driver H) (i : Fin 6) (t1 T1 q E : ℝ) (e : Fin 6 → ℝ) :
    Option ((Fin 6 → ℝ) × Matrix (Fin 6) (Fin 6) ℝ) :=
  if E = 0 then none
  else (d.call e t1 T1).map fun o =>
    (Fin.cons ((e i - d.strain.last i) + (o.s i - d.stress.last i) / E * (q - 1))
       (fun k : Fin 5 => o.s (i.succAbove k) - d.stress.last (i.succAbove k)),
     of fun r j => Fin.cases ((if j = 0 then 1 else 0) + o.A i j / E * (q - 1)) (fun k => o.A (i.succAbove k) j) r)

open Classical in
/-- drivers.py:318-358 `strain_hold_step`. -/
noncomputable def Driver.holdStep (d : Driver H) (i : Fin 6) (t1 T1 q E : ℝ) : Option (Driver H) :=
  if ¬ IsClose q 1 ∧ IsClose E (-1) then none
  else
    match d.solveTry (d.holdRJ i t1 T1 q E) d.strain.last [] with
    | none => none
    | some e1 => d.strainStep e1 t1 T1

/-! ## Sequences of steps -/

/-- One call of a step method. -/
inductive Op
  | strain (e : Fin 6 → ℝ) (t T : ℝ)
  | stress (s : Fin 6 → ℝ) (t T : ℝ)
  | erate (sdir : Fin 6 → ℝ) (erate t T : ℝ) (eg : Option (Fin 6 → ℝ)) (ag : Option ℝ)
  | erateEinc (sdir : Fin 6 → ℝ) (erate einc T : ℝ) (eg : Option (Fin 6 → ℝ)) (ag : Option ℝ)
  | srateSinc (sdir : Fin 6 → ℝ) (srate sinc T : ℝ)
  | hold (i : Fin 6) (t T q E : ℝ)

/-- Make the call. -/
noncomputable def Driver.step (d : Driver H) : Op → Option (Driver H)
  | .strain e t T => d.strainStep e t T
  | .stress s t T => d.stressStep s t T
  | .erate n r t T eg ag => (d.erateStep n r t T eg ag).map Prod.fst
  | .erateEinc n r e T eg ag => (d.erateEincStep n r e T eg ag).map Prod.fst
  | .srateSinc n r s T => d.srateSincStep n r s T
  | .hold i t T q E => d.holdStep i t T q E

/-- Make the calls in turn. -/
noncomputable def Driver.run (d : Driver H) : List Op → Option (Driver H)
  | [] => some d
  | o :: os => (d.step o).bind fun d' => d'.run os

end Neml.Driver
