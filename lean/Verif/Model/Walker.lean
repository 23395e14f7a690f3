import Verif.Model.FlowRule
import Mathlib.Tactic.DeriveFintype

/-!
# Model of the Walker alloy 617 subsystem (src/walker.cxx, include/walker.h, include/internalvariable.h)

Exact reals. Tensors are Mandel vectors, temperature dependent parameters are functions of temperature. `std::pow` is
the real power; where the code takes it of a nonpositive number is said at the place. The named history of the flow
rule is the function from its names (`Var`); the wrapper `WrappedViscoPlasticFlowRule` (walker.cxx:1494-1665) turns it
into flat arrays and back, which is the subject of the properties C01-C08. Names with a prefix are not modelled.
-/

namespace Neml.Walker

open Matrix Neml.Flow Neml.Mandel Neml.SmallStrain

/-! ## The Walker-Krempl switch -/

/-- walker.cxx:333-343 `kappa`. -/
noncomputable def kappa (lam : ℝ → ℝ) (eps0 : ℝ) (ed : Fin 6 → ℝ) (T : ℝ) : ℝ :=
  1 - lam T + lam T * (√(2 / 3) * norm2 (devVec ed)) / eps0

open Classical in
/-- walker.cxx:345-361 `dkappa`. -/
noncomputable def dkappa (lam : ℝ → ℝ) (eps0 : ℝ) (ed : Fin 6 → ℝ) (T : ℝ) : Fin 6 → ℝ :=
  if norm2 (devVec ed) = 0 then 0
  else fun i => devVec ed i * (lam T / eps0 * √(2 / 3) / norm2 (devVec ed))

/-- walker.cxx:49-326 `WalkerKremplSwitchRule`. -/
noncomputable def switchRule {κ : Type} (el : Elastic ℝ (Fin 6)) (fl : Visco (Fin 6) κ) (lam : ℝ → ℝ) (eps0 : ℝ) :
    GenFlow ℝ (Fin 6) κ where
  s s a ed T _ := el.C T *ᵥ fun i => ed i - fl.y s a T * kappa lam eps0 ed T * fl.g.v s a T i
  ds_ds s a ed T _ := el.C T *
    ((-fl.y s a T * kappa lam eps0 ed T) • fl.g.ds s a T -
      vecMulVec (fl.g.v s a T) (kappa lam eps0 ed T • fl.dy_ds s a T))
  ds_da s a ed T _ := el.C T *
    ((-fl.y s a T * kappa lam eps0 ed T) • fl.g.da s a T -
      vecMulVec (fl.g.v s a T) (kappa lam eps0 ed T • fl.dy_da s a T))
  ds_de s a ed T _ := el.C T * (1 - vecMulVec (fl.y s a T • fl.g.v s a T) (dkappa lam eps0 ed T))
  a s a ed T Td := fun i =>
    fl.h.v s a T i * (fl.y s a T * kappa lam eps0 ed T) + fl.h_temp.v s a T i * Td +
      fl.h_time.v s a T i * kappa lam eps0 ed T
  da_ds s a ed T Td :=
    (fl.y s a T * kappa lam eps0 ed T) • fl.h.ds s a T +
      vecMulVec (fl.h.v s a T) (kappa lam eps0 ed T • fl.dy_ds s a T) + Td • fl.h_temp.ds s a T +
      kappa lam eps0 ed T • fl.h_time.ds s a T
  da_da s a ed T Td :=
    (fl.y s a T * kappa lam eps0 ed T) • fl.h.da s a T +
      vecMulVec (fl.h.v s a T) (kappa lam eps0 ed T • fl.dy_da s a T) + Td • fl.h_temp.da s a T +
      kappa lam eps0 ed T • fl.h_time.da s a T
  da_de s a ed T _ :=
    vecMulVec (fl.y s a T • fl.h.v s a T) (dkappa lam eps0 ed T) +
      vecMulVec (fl.h_time.v s a T) (dkappa lam eps0 ed T)
  work_rate s a ed T Td := s ⬝ᵥ fun i =>
    fl.y s a T * kappa lam eps0 ed T * fl.g.v s a T i + Td * fl.g_temp.v s a T i + fl.g_time.v s a T i

/-! ## Softening and thermal scaling -/

/-- walker.h `SofteningModel`; the arguments are the plastic strain and the temperature. -/
structure Soft where
  phi : ℝ → ℝ → ℝ
  dphi : ℝ → ℝ → ℝ

/-- walker.cxx:391-399 `SofteningModel`. -/
def noSoft : Soft := ⟨fun _ _ => 1, fun _ _ => 0⟩

/-- walker.h `ainc_`. -/
noncomputable def ainc : ℝ := 1 / 1000

/-- walker.cxx:429-449 `WalkerSofteningModel`. -/
noncomputable def walkerSoft (phi0 phi1 : ℝ → ℝ) : Soft where
  phi a T :=
    if a ≤ 0 then 1
    else if a < ainc then phi0 T * ainc ^ phi1 T / ainc * a + 1
    else 1 + phi0 T * a ^ phi1 T
  dphi a T :=
    if a ≤ 0 then phi0 T * ainc ^ phi1 T / ainc
    else if a < ainc then phi0 T * ainc ^ phi1 T / ainc
    else phi1 T * phi0 T * a ^ (phi1 T - 1)

/-- walker.cxx:474-477 `ThermalScaling`. -/
def noScaling : ℝ → ℝ := fun _ => 1

/-- walker.cxx:515-518 `arr_`. -/
noncomputable def arr (Q : ℝ → ℝ) (R T : ℝ) : ℝ := Real.exp (-Q T / (R * T))

/-- walker.cxx:510-513 `ArrheniusThermalScaling`. -/
noncomputable def arrhenius (Q : ℝ → ℝ) (R Tref : ℝ) : ℝ → ℝ := fun T => arr Q R T / arr Q R Tref

/-! ## Internal variables -/

/-- internalvariable.h:41-49 `VariableState`; `η` has one element for a scalar variable and six for a tensor. -/
structure VState (η : Type) where
  h : η → ℝ
  a : ℝ
  adot : ℝ
  D : ℝ
  s : Fin 6 → ℝ
  g : Fin 6 → ℝ
  T : ℝ

/-- internalvariable.h:58-64 (and 66-72, 74-80): a rate with its derivatives. -/
structure Rate (η : Type) where
  v : VState η → η → ℝ
  dh : VState η → Matrix η η ℝ
  da : VState η → η → ℝ
  dadot : VState η → η → ℝ
  dD : VState η → η → ℝ
  ds : VState η → Matrix η (Fin 6) ℝ
  dg : VState η → Matrix η (Fin 6) ℝ

/-- The defaults that are zero (walker.cxx:528-610, 803-890, 1102-1183). -/
def Rate.zero {η : Type} : Rate η := ⟨0, 0, 0, 0, 0, 0, 0⟩

/-- An internal variable: initial value, and the rates with plastic strain and with time. The rate with temperature is
not used by the flow rule. -/
structure IntVar (η : Type) where
  init : η → ℝ
  p : Rate η
  t : Rate η

/-- walker.cxx:640-679 `ConstantIsotropicHardening`. -/
def constIso : IntVar Unit := ⟨0, Rate.zero, Rate.zero⟩

/-- walker.cxx:718-793 `WalkerIsotropicHardening`; the thermal scaling is not used. A zero base of the power is met
for `R = R0`; it gives no number there if `r2 < 1`. -/
noncomputable def walkerIso (r0 Rinf R0 r1 r2 : ℝ → ℝ) : IntVar Unit where
  init := 0
  p := { v := fun st _ => r0 st.T * (Rinf st.T - st.h ())
         dh := fun st => of fun _ _ => -r0 st.T
         da := 0, dadot := 0, dD := 0, ds := 0, dg := 0 }
  t := { v := fun st _ => r1 st.T * (R0 st.T - st.h ()) * |R0 st.T - st.h ()| ^ (r2 st.T - 1)
         dh := fun st => of fun _ _ => -r1 st.T * r2 st.T * |R0 st.T - st.h ()| ^ (r2 st.T - 1)
         da := 0, dadot := 0, dD := 0, ds := 0, dg := 0 }

/-- walker.h `DragStress`. -/
structure Drag extends IntVar Unit where
  Dxi : ℝ → ℝ
  D0 : ℝ → ℝ

/-- walker.cxx:922-965 `ConstantDragStress`. -/
def constDrag (value : ℝ) : Drag := ⟨⟨fun _ => value, Rate.zero, Rate.zero⟩, fun _ => 1, fun _ => value⟩

/-- walker.cxx:1007-1092 `WalkerDragStress`; `chi` is the thermal scaling. -/
noncomputable def walkerDrag (d0 d1 d2 Dxi : ℝ → ℝ) (D0 : ℝ) (soft : Soft) (chi : ℝ → ℝ) : Drag where
  init := fun _ => D0
  Dxi := Dxi
  D0 := fun _ => D0
  p := { v := fun st _ => d0 st.T * (1 - (st.h () - D0) / Dxi st.T)
         dh := fun st => of fun _ _ => -d0 st.T / Dxi st.T
         da := 0, dadot := 0, dD := 0, ds := 0, dg := 0 }
  t := { v := fun st _ =>
           if st.h () - D0 ≤ 0 then 0
           else -chi st.T * soft.phi st.a st.T * d1 st.T * (st.h () - D0) ^ d2 st.T
         dh := fun st => of fun _ _ =>
           if st.h () - D0 ≤ 0 then 1
           else -d2 st.T * chi st.T * soft.phi st.a st.T * d1 st.T * (st.h () - D0) ^ (d2 st.T - 1)
         da := fun st _ =>
           if st.h () - D0 ≤ 0 then 1
           else -chi st.T * soft.dphi st.a st.T * d1 st.T * (st.h () - D0) ^ d2 st.T
         dadot := 0, dD := 0, ds := 0, dg := 0 }

/-- walker.cxx:1217-1255 `FAKinematicHardening`. -/
noncomputable def faKin (c g : ℝ → ℝ) : IntVar (Fin 6) where
  init := 0
  p := { v := fun st => (2 / 3 * c st.T) • st.g - g st.T • st.h
         dh := fun st => (-g st.T) • 1
         da := 0, dadot := 0, dD := 0, ds := 0
         dg := fun st => (2 / 3 * c st.T) • 1 }
  t := Rate.zero

/-- The parameters of `WalkerKinematicHardening`. -/
structure KinPar where
  c0 : ℝ → ℝ
  c1 : ℝ → ℝ
  c2 : ℝ → ℝ
  l0 : ℝ → ℝ
  l1 : ℝ → ℝ
  l : ℝ → ℝ
  b0 : ℝ → ℝ
  x0 : ℝ → ℝ
  x1 : ℝ → ℝ

namespace KinPar

variable (k : KinPar)

/-- walker.cxx:1415-1422 `c_`. -/
noncomputable def c (adot T : ℝ) : ℝ := if adot ≤ 0 then k.c0 T else k.c0 T + k.c1 T * adot ^ (1 / k.c2 T)

/-- walker.cxx:1424-1431 `dc_`. -/
noncomputable def dc (adot T : ℝ) : ℝ := if adot ≤ 0 then 0 else k.c1 T / k.c2 T * adot ^ (1 / k.c2 T - 1)

/-- walker.cxx:1433-1438 `L_`. -/
noncomputable def L (a T : ℝ) : ℝ :=
  if a ≤ 0 then k.l1 T + 1 else k.l T * (k.l1 T + (1 - k.l1 T) * Real.exp (-k.l0 T * a))

/-- walker.cxx:1440-1445 `dL_`. -/
noncomputable def dL (a T : ℝ) : ℝ :=
  if a ≤ 0 then -k.l0 T * k.l T else -k.l0 T * k.l T * (1 - k.l1 T) * Real.exp (-k.l0 T * a)

end KinPar

open Classical in
/-- walker.cxx:1447-1454 `n_` (and 1927-1934 `g` of the flow rule), for the effective deviator `d`. -/
noncomputable def dirOf (d : Fin 6 → ℝ) : Fin 6 → ℝ :=
  if norm2 d = 0 then 0 else fun i => 3 / 2 * d i / (√(3 / 2) * norm2 d)

open Classical in
/-- walker.cxx:1484-1492 `dN_` (and 2342-2350 `G_` of the flow rule). -/
noncomputable def dDirOf (d : Fin 6 → ℝ) : Matrix (Fin 6) (Fin 6) ℝ :=
  if norm2 d = 0 then 1
  else (√(3 / 2) / norm2 d) • (1 - vecMulVec (fun i => d i / norm2 d) (fun i => d i / norm2 d))

/-- The effective deviator of one backstress (walker.cxx:1449, 1486). -/
noncomputable def effOne (st : VState (Fin 6)) : Fin 6 → ℝ := devVec st.s - st.h

namespace KinPar

variable (k : KinPar)

/-- walker.cxx:1456-1461 `b_`. -/
noncomputable def b (st : VState (Fin 6)) : Fin 6 → ℝ :=
  let n := dirOf (effOne st)
  (1 - k.b0 st.T) • st.h + (2 / 3 * k.b0 st.T) • (vecMulVec n n *ᵥ st.h)

/-- walker.cxx:1463-1471 `db_ds_`. -/
noncomputable def dbds (st : VState (Fin 6)) : Matrix (Fin 6) (Fin 6) ℝ :=
  let N := dDirOf (effOne st) * devProj
  let n := dirOf (effOne st)
  (2 / 3 * k.b0 st.T) • ((n ⬝ᵥ st.h) • N + vecMulVec n (N *ᵥ st.h))

/-- walker.cxx:1473-1482 `db_dx_`. -/
noncomputable def dbdx (st : VState (Fin 6)) : Matrix (Fin 6) (Fin 6) ℝ :=
  let n := dirOf (effOne st)
  let N := dDirOf (effOne st)
  (1 - k.b0 st.T) • (1 : Matrix (Fin 6) (Fin 6) ℝ) + (2 / 3 * k.b0 st.T) • vecMulVec n n -
    (2 / 3 * k.b0 st.T) • ((n ⬝ᵥ st.h) • N + vecMulVec n (N *ᵥ st.h))

end KinPar

open Classical in
/-- walker.cxx:1307-1413 `WalkerKinematicHardening`. -/
noncomputable def walkerKin (k : KinPar) (soft : Soft) (chi : ℝ → ℝ) : IntVar (Fin 6) where
  init := 0
  p :=
    { v := fun st => k.c st.adot st.T • ((2 / 3 : ℝ) • st.g - (1 / k.L st.a st.T) • k.b st)
      dh := fun st => (-k.c st.adot st.T / k.L st.a st.T) • k.dbdx st
      da := fun st => (k.c st.adot st.T / k.L st.a st.T ^ 2 * k.dL st.a st.T) • k.b st
      dadot := fun st => k.dc st.adot st.T • ((2 / 3 : ℝ) • st.g - (1 / k.L st.a st.T) • k.b st)
      dD := 0
      ds := fun st => (-k.c st.adot st.T / k.L st.a st.T) • k.dbds st
      dg := fun st => (k.c st.adot st.T * 2 / 3) • 1 }
  t :=
    { v := fun st =>
        if norm2 st.h = 0 ∨ st.D ≤ 0 then 0
        else (-chi st.T * k.x0 st.T * soft.phi st.a st.T * (√(3 / 2) * norm2 st.h / st.D) ^ k.x1 st.T) •
          fun i => st.h i / (norm2 st.h * √(3 / 2))
      dh := fun st =>
        if norm2 st.h = 0 ∨ st.D ≤ 0 then 0
        else
          let d : Fin 6 → ℝ := fun i => st.h i / norm2 st.h
          let dd := (1 / (√(3 / 2) * norm2 st.h)) • (1 - vecMulVec d d)
          (-chi st.T * k.x0 st.T * soft.phi st.a st.T) •
            ((k.x1 st.T / st.D * (√(3 / 2) * norm2 st.h / st.D) ^ (k.x1 st.T - 1)) • vecMulVec d d +
              ((√(3 / 2) * norm2 st.h / st.D) ^ k.x1 st.T) • dd)
      da := fun st =>
        if norm2 st.h = 0 ∨ st.D ≤ 0 then 0
        else (-chi st.T * k.x0 st.T * soft.dphi st.a st.T * (√(3 / 2) * norm2 st.h / st.D) ^ k.x1 st.T) •
          fun i => st.h i / (norm2 st.h * √(3 / 2))
      dadot := 0
      dD := fun st =>
        if norm2 st.h = 0 ∨ st.D ≤ 0 then 0
        else (chi st.T * k.x0 st.T * soft.phi st.a st.T * k.x1 st.T *
            (√(3 / 2) * norm2 st.h / st.D) ^ (k.x1 st.T - 1)) •
          fun i => st.h i / (norm2 st.h * √(3 / 2)) * √(3 / 2) * norm2 st.h / (st.D * st.D)
      ds := 0
      dg := 0 }

/-! ## The test flow rule -/

/-- Names of the history of the test rule (walker.cxx:1701-1705). -/
inductive TestVar
  | alpha
  | iso
  deriving DecidableEq

instance : Fintype TestVar := ⟨{.alpha, .iso}, fun x => by cases x <;> simp⟩

/-- walker.cxx:1715-1716 the overstress of the test rule. -/
noncomputable def testOver (D : ℝ) (s : Fin 6 → ℝ) (a : TestVar → ℝ) : ℝ :=
  (√(3 / 2) * norm2 (devVec s) - a .iso) / D

open Classical in
/-- walker.cxx:1701-1789 `TestFlowRule`. -/
noncomputable def testFlow (eps0 D n K : ℝ) : Visco (Fin 6) TestVar where
  y s a _ := if testOver D s a > 0 then eps0 * testOver D s a ^ n else 0
  dy_ds s a _ :=
    if testOver D s a > 0 then
      fun i => eps0 * n * testOver D s a ^ (n - 1) * √(3 / 2) * devVec s i / norm2 (devVec s) / D
    else 0
  dy_da s a _ v := match v with
    | .alpha => 0
    | .iso => if testOver D s a > 0 then -eps0 * n * testOver D s a ^ (n - 1) / D else 0
  g := ⟨fun s _ _ => if norm2 (devVec s) > 0 then fun i => √(3 / 2) * devVec s i / norm2 (devVec s) else 0,
    fun s _ _ => if norm2 (devVec s) > 0 then
      (√(3 / 2) / norm2 (devVec s)) •
        (devProj - vecMulVec (fun i => devVec s i / norm2 (devVec s)) (fun i => devVec s i / norm2 (devVec s)))
      else 0,
    fun _ _ _ => 0⟩
  g_time := Part.zero
  g_temp := Part.zero
  h := ⟨fun _ _ _ v => match v with
      | .alpha => 1
      | .iso => K,
    fun _ _ _ => 0, fun _ _ _ => 0⟩
  h_time := Part.zero
  h_temp := Part.zero

/-! ## The Walker flow rule -/

/-- Names of the history (walker.cxx:1849-1857): plastic strain, isotropic hardening, drag stress, and the components of
`n` backstresses. -/
inductive Var (n : Nat)
  | alpha
  | R
  | D
  | X (i : Fin n) (j : Fin 6)
  deriving DecidableEq, Fintype

/-- walker.cxx:1791-1820: the parts of the rule. The constructor hands its own thermal scaling to the internal variables
(1811-1816); `walkerFlow` is about variables made with it. -/
structure Parts (n : Nat) where
  eps0 : ℝ → ℝ
  soft : Soft
  chi : ℝ → ℝ
  pow : ℝ → ℝ
  k : ℝ → ℝ
  m : ℝ → ℝ
  R : IntVar Unit
  D : Drag
  X : Fin n → IntVar (Fin 6)

namespace Parts

variable {n : Nat} (P : Parts n)

/-- walker.cxx:1859-1867 `init_hist`. -/
def init : Var n → ℝ
  | .alpha => 0
  | .R => P.R.init ()
  | .D => P.D.init ()
  | .X i j => (P.X i).init j

/-- walker.cxx:2267-2273 `TX_`. -/
def TX (a : Var n → ℝ) : Fin 6 → ℝ := fun j => (List.finRange n).foldl (fun x i => x + a (.X i j)) 0

/-- The effective deviator (walker.cxx:1876, 1907, 1929, 2314, 2325, 2344). -/
noncomputable def eff (s : Fin 6 → ℝ) (a : Var n → ℝ) : Fin 6 → ℝ := devVec s - TX a

/-- walker.cxx:2305-2310 `prefactor_`. -/
noncomputable def prefactor (a : Var n → ℝ) (T : ℝ) : ℝ := P.eps0 T * P.soft.phi (a .alpha) T * P.chi T

/-- walker.cxx:2334-2340 `Y_`. A power of zero is met for `D ≤ D_0`; it is infinite for `m < 0`. -/
noncomputable def Y (a : Var n → ℝ) (T : ℝ) : ℝ :=
  let xi := (a .D - P.D.D0 T) / P.D.Dxi T
  (P.k T + a .R) * (if xi < 0 then 0 else xi) ^ P.m T

/-- walker.cxx:2316, 2327 `h`. -/
noncomputable def over (s : Fin 6 → ℝ) (a : Var n → ℝ) (T : ℝ) : ℝ := (√(3 / 2) * norm2 (eff s a) - P.Y a T) / a .D

/-- walker.cxx:2312-2321 `flow_`. -/
noncomputable def flow (s : Fin 6 → ℝ) (a : Var n → ℝ) (T : ℝ) : ℝ :=
  if P.over s a T ≤ 0 then 0 else |P.over s a T| ^ P.pow T

/-- walker.cxx:2323-2332 `dflow_`. -/
noncomputable def dflow (s : Fin 6 → ℝ) (a : Var n → ℝ) (T : ℝ) : ℝ :=
  if P.over s a T ≤ 0 then 0 else P.pow T * |P.over s a T| ^ (P.pow T - 1)

/-- walker.cxx:1869-1872 `y`. -/
noncomputable def y (s : Fin 6 → ℝ) (a : Var n → ℝ) (T : ℝ) : ℝ := P.prefactor a T * P.flow s a T

open Classical in
/-- walker.cxx:1874-1883 `dy_ds`. -/
noncomputable def dyds (s : Fin 6 → ℝ) (a : Var n → ℝ) (T : ℝ) : Fin 6 → ℝ :=
  let d := eff s a
  if norm2 d = 0 then 0
  else (P.prefactor a T * P.dflow s a T * √(3 / 2) / (a .D * norm2 d)) • (devProj *ᵥ d)

/-- walker.cxx:1900-1901 `Dr`. -/
noncomputable def Dr (a : Var n → ℝ) (T : ℝ) : ℝ :=
  if a .D - P.D.D0 T > 0 then (a .D - P.D.D0 T) / P.D.Dxi T else 1 / 10 ^ 8

open Classical in
/-- walker.cxx:1885-1925 `dy_da`. -/
noncomputable def dyda (s : Fin 6 → ℝ) (a : Var n → ℝ) (T : ℝ) : Var n → ℝ
  | .alpha => P.eps0 T * P.soft.dphi (a .alpha) T * P.chi T * P.flow s a T
  | .R => -P.prefactor a T * P.dflow s a T * P.Dr a T ^ P.m T / a .D
  | .D =>
    let p1 := -(P.k T + a .R) * P.m T * P.Dr a T ^ (P.m T - 1) / (P.D.Dxi T * a .D)
    let p2 := -(√(3 / 2) * norm2 (eff s a) - (P.k T + a .R) * P.Dr a T ^ P.m T) / (a .D * a .D)
    P.prefactor a T * P.dflow s a T * (p1 + p2)
  | .X _ j =>
    if norm2 (eff s a) = 0 then 0
    else -P.prefactor a T * P.dflow s a T * √(3 / 2) / (a .D * norm2 (eff s a)) * eff s a j

/-- walker.cxx:1927-1951 `g`, `dg_ds` and `dg_da`. -/
noncomputable def g : Part (Fin 6) (Var n) (Fin 6) where
  v s a _ := dirOf (eff s a)
  ds s a _ := dDirOf (eff s a) * devProj
  da s a _ := of fun i v => match v with
    | .X _ j => -dDirOf (eff s a) i j
    | _ => 0

/-- walker.cxx:2275-2303 `scalar_state_` and `symmetric_state_`, with the value `h` of the variable. -/
noncomputable def state {η : Type} (s : Fin 6 → ℝ) (a : Var n → ℝ) (T : ℝ) (h : η → ℝ) : VState η :=
  ⟨h, a .alpha, P.y s a T, a .D, s, g.v s a T, T⟩

/-- The values of the variables. -/
def valR (a : Var n → ℝ) : Unit → ℝ := fun _ => a .R
def valD (a : Var n → ℝ) : Unit → ℝ := fun _ => a .D
def valX (a : Var n → ℝ) (i : Fin n) : Fin 6 → ℝ := fun j => a (.X i j)

/-- walker.cxx:1986-1997 and 2143-2154, the rows of a scalar variable in the derivatives by the stress; `M` is `dg_ds` and
`dy` is `dy_ds`. -/
def rowS (r : Rate Unit) (st : VState Unit) (dy : Fin 6 → ℝ) (M : Matrix (Fin 6) (Fin 6) ℝ) : Fin 6 → ℝ :=
  r.ds st () + r.dadot st () • dy + M *ᵥ r.dg st ()

/-- walker.cxx:1953-1969 and 2110-2126 (values), 1971-2008 and 2128-2165 (by the stress), 2010-2108 and 2167-2265 (by the
history): `h` and `h_time` have the same code; `c` is the rate of the plastic strain and `rR`, `rD`, `rX` are the rates of
the variables. -/
noncomputable def hist (c : ℝ) (rR rD : Rate Unit) (rX : Fin n → Rate (Fin 6)) : Part (Fin 6) (Var n) (Var n) where
  v s a T := fun v => match v with
    | .alpha => c
    | .R => rR.v (P.state s a T (valR a)) ()
    | .D => rD.v (P.state s a T (valD a)) ()
    | .X i j => (rX i).v (P.state s a T (valX a i)) j
  ds s a T := of fun v => match v with
    | .alpha => 0
    | .R => rowS rR (P.state s a T (valR a)) (P.dyds s a T) (g.ds s a T)
    | .D => rowS rD (P.state s a T (valD a)) (P.dyds s a T) (g.ds s a T)
    | .X i j =>
      let st := P.state s a T (valX a i)
      ((rX i).ds st + vecMulVec ((rX i).dadot st) (P.dyds s a T) + (rX i).dg st * g.ds s a T) j
  da s a T :=
    let dy := P.dyda s a T
    let dg : Var n → Fin 6 → ℝ := fun v i => g.da s a T i v
    let dgX : Matrix (Fin 6) (Fin 6) ℝ := -dDirOf (eff s a)
    of fun v w => match v with
      | .alpha => 0
      | .R =>
        let st := P.state s a T (valR a)
        match w with
        | .alpha => rR.da st () + rR.dadot st () * dy .alpha + rR.dg st () ⬝ᵥ dg .alpha
        | .R => rR.dh st () () + rR.dadot st () * dy .R + rR.dg st () ⬝ᵥ dg .R
        | .D => rR.dD st () + rR.dadot st () * dy .D + rR.dg st () ⬝ᵥ dg .D
        | .X i j => rR.dadot st () * dy (.X i j) + (dgX *ᵥ rR.dg st ()) j
      | .D =>
        let st := P.state s a T (valD a)
        match w with
        | .alpha => rD.da st () + rD.dadot st () * dy .alpha + rD.dg st () ⬝ᵥ dg .alpha
        | .R => rD.dadot st () * dy .R + rD.dg st () ⬝ᵥ dg .R
        | .D => rD.dh st () () + rD.dadot st () * dy .D + rD.dg st () ⬝ᵥ dg .D
        | .X i j => rD.dadot st () * dy (.X i j) + (dgX *ᵥ rD.dg st ()) j
      | .X i j =>
        let r := rX i
        let st := P.state s a T (valX a i)
        match w with
        | .alpha => (r.da st + dy .alpha • r.dadot st + r.dg st *ᵥ dg .alpha) j
        | .R => (dy .R • r.dadot st + r.dg st *ᵥ dg .R) j
        | .D => (r.dD st + dy .D • r.dadot st + r.dg st *ᵥ dg .D) j
        | .X k l => (if k = i then r.dh st j l else 0) + (r.dadot st j * dy (.X k l) + (r.dg st * dgX) j l)

end Parts

/-- walker.cxx:1791-2350 `WalkerFlowRule`. The flow directions with time and temperature and the hardening with temperature
are the zeros of the base classes (visco_flow.cxx:16-102, walker.cxx:1631-1665). -/
noncomputable def walkerFlow {n : Nat} (P : Parts n) : Visco (Fin 6) (Var n) where
  y := P.y
  dy_ds := P.dyds
  dy_da := P.dyda
  g := Parts.g
  g_time := Part.zero
  g_temp := Part.zero
  h := P.hist 1 P.R.p P.D.p fun i => (P.X i).p
  h_time := P.hist 0 P.R.t P.D.t fun i => (P.X i).t
  h_temp := Part.zero

/-- walker.cxx:2352-2362 `override_guess`, for the stress and the plastic strain of the guess. -/
noncomputable def overrideGuess (s : Fin 6 → ℝ) (alpha : ℝ) : (Fin 6 → ℝ) × ℝ :=
  open Classical in
  (if norm2 s = 0 then Function.update s 0 (s 0 + 1 / 1000) else s,
    if alpha < 1 / 100 then alpha + 1 / 1000 else alpha)

end Neml.Walker
