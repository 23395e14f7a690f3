import Verif.Model.Surface
import Verif.Model.Newton
import Mathlib.Analysis.SpecialFunctions.Log.Base
import Mathlib.Analysis.Complex.Trigonometric

/-!
# Model of src/creep.cxx

Scalar rules take the equivalent stress, equivalent strain, time and temperature. Interpolated
coefficients are functions of temperature. `eps` stands for `numeric_limits<double>::epsilon()`.
-/

namespace Neml.Creep

open Matrix Neml.Mandel

/-- creep.h `ScalarCreepRule`: rate and derivatives; arguments stress, strain, time, temperature. -/
structure Scalar where
  g : ℝ → ℝ → ℝ → ℝ → ℝ
  dg_ds : ℝ → ℝ → ℝ → ℝ → ℝ
  dg_de : ℝ → ℝ → ℝ → ℝ → ℝ
  /-- creep.cxx:19-24, the default is zero and no rule overrides it -/
  dg_dt : ℝ → ℝ → ℝ → ℝ → ℝ := fun _ _ _ _ => 0
  /-- creep.cxx:26-31, the default is zero -/
  dg_dT : ℝ → ℝ → ℝ → ℝ → ℝ := fun _ _ _ _ => 0

/-- creep.cxx:63-78 `PowerLawCreep`. -/
noncomputable def powerLaw (A n : ℝ → ℝ) : Scalar where
  g s _ _ T := A T * s ^ n T
  dg_ds s _ _ T := A T * n T * s ^ (n T - 1)
  dg_de _ _ _ _ := 0

/-- creep.cxx:120-136 `NormalizedPowerLawCreep`. -/
noncomputable def normalizedPowerLaw (s0 n : ℝ → ℝ) : Scalar where
  g s _ _ T := (s / s0 T) ^ n T
  dg_ds s _ _ T := n T / s0 T * (s / s0 T) ^ (n T - 1)
  dg_de _ _ _ _ := 0

/-- creep.cxx:174-209 `BlackburnMinimumCreep`. -/
noncomputable def blackburn (A n beta : ℝ → ℝ) (R Q : ℝ) : Scalar where
  g s _ _ T := A T * Real.sinh (beta T * s / n T) ^ n T * Real.exp (-Q / (R * T))
  dg_ds s _ _ T := A T * beta T * Real.exp (-Q / (R * T)) * Real.cosh (beta T * s / n T) *
    Real.sinh (beta T * s / n T) ^ (n T - 1)
  dg_de _ _ _ _ := 0
  dg_dT s _ _ T := A T * Real.sinh (beta T * s / n T) ^ n T * Real.exp (-Q / (R * T)) * Q / (R * T * T)

/-- creep.cxx:246-270 `SwindemanMinimumCreep`; `shift` is 273.15 or 0 (line 217). -/
noncomputable def swindeman (C n V Q shift : ℝ) : Scalar where
  g s _ _ T := C * s ^ n * Real.exp (V * s) * Real.exp (-Q / (T + shift))
  dg_ds s _ _ T := C * Real.exp (-Q / (T + shift)) * (n + s * V) * Real.exp (s * V) * s ^ (n - 1)
  dg_de _ _ _ _ := 0
  dg_dT s _ _ T := C * s ^ n * Real.exp (V * s) * Real.exp (-Q / (T + shift)) * Q /
    ((T + shift) * (T + shift))

/-- creep.cxx:340-368 `RegionKMCreep::select_region_`: the index of the region; `nregion` is the
number of constants given. `none` is an access past the end. -/
noncomputable def selectRegion (cuts : List ℝ) (nregion : Nat) (neq : ℝ) : Option Nat :=
  if nregion = 1 then some 0
  else match cuts with
    | [] => none
    | c0 :: _ =>
      if neq < c0 then (if 0 < nregion then some 0 else none)
      else match cuts.findIdx? (fun c => neq > c) with
        | some i => if i + 1 < nregion then some (i + 1) else none
        | none => if cuts.length < nregion then some cuts.length else none

/-- creep.cxx:313-322 and 324-333: value and stress derivative with the constants of one region. `C1`
is `-G b^3 / (k (T+shift))`. -/
noncomputable def kmRate (eps0 C1 G A B s : ℝ) : ℝ :=
  eps0 * Real.exp (C1 * B) * (s / G) ^ (C1 * A)

/-- creep.cxx:324-333. -/
noncomputable def kmRateDs (eps0 C1 G A B s : ℝ) : ℝ :=
  eps0 * Real.exp (C1 * B) * C1 * A / G * (s / G) ^ (C1 * A - 1)

/-- creep.cxx:271-368 `RegionKMCreep`: `AB` are the constants of the regions, `G` the shear modulus.
An access past the end (undefined behaviour) gives 0 here. -/
noncomputable def regionKM (cuts : List ℝ) (AB : List ((ℝ → ℝ) × (ℝ → ℝ))) (kboltz b eps0 shift : ℝ)
    (G : ℝ → ℝ) : Scalar where
  g s _ _ T :=
    match (selectRegion cuts AB.length (s / G T)).bind (AB[·]?) with
    | some (A, B) => kmRate eps0 (-G T * b ^ 3 / (kboltz * (T + shift))) (G T) (A T) (B T) s
    | none => 0
  dg_ds s _ _ T :=
    match (selectRegion cuts AB.length (s / G T)).bind (AB[·]?) with
    | some (A, B) => kmRateDs eps0 (-G T * b ^ 3 / (kboltz * (T + shift))) (G T) (A T) (B T) s
    | none => 0
  dg_de _ _ _ _ := 0

/-- creep.cxx:401-453 `NortonBaileyCreep`, with the guards against small arguments. -/
noncomputable def nortonBailey (eps : ℝ) (A m n : ℝ → ℝ) : Scalar where
  g s e _ T := m T * A T ^ (1 / m T) * (if s < eps then eps else s) ^ (n T / m T) *
    (if e < eps then eps else e) ^ ((m T - 1) / m T)
  dg_ds s e _ T := n T * A T ^ (1 / m T) * (if s < eps then eps else s) ^ (n T / m T - 1) *
    (if e < eps then eps else e) ^ ((m T - 1) / m T)
  dg_de s e _ T := (m T - 1) * A T ^ (1 / m T) * (if s < eps then eps else s) ^ (n T / m T) *
    (if e < eps then eps else e) ^ (-1 / m T)

/-- creep.cxx:511-531 `MukherjeeCreep`; `mu` is the shear modulus. -/
noncomputable def mukherjee (mu : ℝ → ℝ) (A n D0 Q b k R : ℝ) : Scalar where
  g s _ _ T := A * (D0 * Real.exp (-Q / (R * T))) * mu T * b / (k * T) * (s / mu T) ^ n
  dg_ds s _ _ T :=
    n * A * (D0 * Real.exp (-Q / (R * T))) * mu T * b / (k * T) * (s / mu T) ^ (n - 1) / mu T
  dg_de _ _ _ _ := 0

/-- creep.cxx:594-615 `GenericCreep`; `f`, `f'` are value and derivative of the interpolation
function. Line 605 has the factor `f`. -/
noncomputable def generic (f f' : ℝ → ℝ) : Scalar where
  g s _ _ _ := Real.exp (f (Real.log s))
  dg_ds s _ _ _ :=
    if s > 0 then f (Real.log s) * Real.exp (f (Real.log s)) * f' (Real.log s) / s else 0
  dg_de _ _ _ _ := 0

/-- creep.cxx:758,774: the temperature at which the rule changes. -/
noncomputable def minCreepLimit (s : ℝ) : ℝ := 13.571 * s ^ (0.68127 : ℝ) - 1.8 * s + 710.78

/-- creep.cxx:752-815 `MinCreep225Cr1MoCreep`. `U` is the table (line 817). The constants `k1`, `k2` are
the literals 428.961 and 2546.01 of lines 803-815. -/
noncomputable def minCreep (U : ℝ → ℝ) (k1 k2 : ℝ) : Scalar where
  g s _ _ T :=
    let e1 := (10 : ℝ) ^ (6.7475 + 0.011426 * s + 987.72 / U T * Real.logb 10 s - 13494 / T) / 100
    let e2 := (10 : ℝ) ^ (11.498 - 8.2226 * U T / T - 20448 / T + 5862.4 / T * Real.logb 10 s) / 100
    if s < 60 then e1 else if T ≤ minCreepLimit s then e1 else e2
  dg_ds s _ _ T :=
    let d1 := (10 : ℝ) ^ (4.7475 + 0.011426 * s + k1 / U T * Real.log s - 13494 / T) *
      (0.011426 + k1 / (s * U T)) * Real.log 10
    let d2 := k2 * (10 : ℝ) ^ (9.498 - 8.2226 * U T / T - 20448 / T + k2 / T * Real.log s) *
      Real.log 10 / (s * T)
    if s < 60 then d1 else if T ≤ minCreepLimit s then d1 else d2
  dg_de _ _ _ _ := 0

/-! ## Multiaxial creep -/

/-- creep.h `CreepModel`: creep strain rate with derivatives; arguments stress, creep strain, time,
temperature. -/
structure Model where
  f : (Fin 6 → ℝ) → (Fin 6 → ℝ) → ℝ → ℝ → Fin 6 → ℝ
  df_ds : (Fin 6 → ℝ) → (Fin 6 → ℝ) → ℝ → ℝ → Matrix (Fin 6) (Fin 6) ℝ
  df_de : (Fin 6 → ℝ) → (Fin 6 → ℝ) → ℝ → ℝ → Matrix (Fin 6) (Fin 6) ℝ

/-- creep.cxx:991-998 `seq`. -/
noncomputable def seq (s : Fin 6 → ℝ) : ℝ := √(3 / 2) * Flow.norm2 (devVec s)

/-- creep.cxx:1000-1003 `eeq`. -/
noncomputable def eeq (e : Fin 6 → ℝ) : ℝ := √(2 / 3) * Flow.norm2 e

/-- creep.cxx:1005-1015 `sdir`. -/
noncomputable def sdir (eps : ℝ) (s : Fin 6 → ℝ) : Fin 6 → ℝ :=
  if seq s < eps then 0 else fun i => devVec s i / seq s

/-- creep.cxx:1017-1026 `edir`. -/
noncomputable def edir (eps : ℝ) (e : Fin 6 → ℝ) : Fin 6 → ℝ :=
  if eeq e < eps then 0 else fun i => e i / eeq e

/-- creep.cxx:891-903: the "usual funny identity tensor". -/
noncomputable def devId : Matrix (Fin 6) (Fin 6) ℝ :=
  Matrix.of fun i j => 3 / 2 * ((if i = j then 1 else 0) - if i.val < 3 ∧ j.val < 3 then 1 / 3 else 0)

/-- creep.cxx:851-947 `J2CreepModel`. -/
noncomputable def j2 (eps : ℝ) (r : Scalar) : Model where
  f s e t T := fun i => sdir eps s i * (3 / 2 * r.g (seq s) (eeq e) t T)
  df_ds s e t T :=
    let se := if seq s < eps then eps else seq s
    let rate := r.g (seq s) (eeq e) t T
    ((3 / 2 * (r.dg_ds (seq s) (eeq e) t T - rate / se)) • vecMulVec (sdir eps s) (sdir eps s) +
      (rate / se) • 1) * devId
  df_de s e t T := vecMulVec (sdir eps s) fun i => edir eps e i * r.dg_de (seq s) (eeq e) t T

/-- creep.cxx:694-707 `CreepModel::RJ`. -/
def creepRJ (m : Model) (s en : Fin 6 → ℝ) (t T dt : ℝ) (x : Fin 6 → ℝ) :
    (Fin 6 → ℝ) × Matrix (Fin 6) (Fin 6) ℝ :=
  (fun i => x i - en i - m.f s x t T i * dt,
   Matrix.of fun i j => -(m.df_de s x t T i j) * dt + if i = j then 1 else 0)

/-- creep.cxx:686-692 `init_x` and 694-707: the system handed to the solver. -/
def creepSystem (m : Model) (s en : Fin 6 → ℝ) (t T dt : ℝ) : Newton.System 6 where
  init := en
  RJ x := some (creepRJ m s en t T dt x)

/-- creep.cxx:710-726 `calc_tangent_`; `inv` is `invert_mat`. -/
def creepTangent (inv : Matrix (Fin 6) (Fin 6) ℝ → Option (Matrix (Fin 6) (Fin 6) ℝ)) (m : Model)
    (s en : Fin 6 → ℝ) (t T dt : ℝ) (x : Fin 6 → ℝ) : Option (Matrix (Fin 6) (Fin 6) ℝ) :=
  match inv (creepRJ m s en t T dt x).2 with
  | none => none
  | some Ji => some (Matrix.of (fun i j => Ji i j * dt) * m.df_ds s x t T)

/-- creep.cxx:645-665 `CreepModel::update`: new creep strain and its stress derivative. `none` is a thrown
error (or, for the model, too little fuel, see C18). -/
noncomputable def update (m : Model)
    (lin : Matrix (Fin 6) (Fin 6) ℝ → (Fin 6 → ℝ) → Option (Fin 6 → ℝ))
    (inv : Matrix (Fin 6) (Fin 6) ℝ → Option (Matrix (Fin 6) (Fin 6) ℝ)) (p : Newton.Params) (fuel : Nat)
    (T1 t1 t0 : ℝ) (s en : Fin 6 → ℝ) : Option ((Fin 6 → ℝ) × Matrix (Fin 6) (Fin 6) ℝ) :=
  match Newton.newton (creepSystem m s en t1 T1 (t1 - t0)) lin p fuel with
  | some (.ok it) =>
    match creepTangent inv m s en t1 T1 (t1 - t0) it.x with
    | none => none
    | some A => some (it.x, A)
  | _ => none

end Neml.Creep
