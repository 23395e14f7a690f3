import Verif.Model.FlowRule
import Mathlib.Analysis.SpecialFunctions.Log.Basic
import Mathlib.Tactic.DeriveFintype

/-!
# Model of the Yaguchi flow rule for grade 91 steel (src/visco_flow.cxx 1313-2011)

Exact reals. The parameters are functions of temperature; `gr91` are those of the code. The code divides by the
equivalent effective stress without a guard in the hardening and in all derivatives: `defined` says where there are
numbers, elsewhere the numbers here mean nothing. `std::pow` of a nonpositive number is met only in `D`, see `baseD`.
-/

namespace Neml.Yaguchi

open Matrix Neml.Flow Neml.Mandel Neml.SmallStrain

/-- The parameters as functions of temperature. -/
structure Par where
  D : ℝ → ℝ
  n : ℝ → ℝ
  a10 : ℝ → ℝ
  C1 : ℝ → ℝ
  C2 : ℝ → ℝ
  a2 : ℝ → ℝ
  g1 : ℝ → ℝ
  g2 : ℝ → ℝ
  m : ℝ → ℝ
  br : ℝ → ℝ
  bh : ℝ → ℝ
  A : ℝ → ℝ
  B : ℝ → ℝ
  d : ℝ → ℝ
  q : ℝ → ℝ

/-- visco_flow.cxx:1337-1348: the history. In the flat array, 0-5, 6-11, 12 and 13. -/
inductive Var
  | X1 (j : Fin 6)
  | X2 (j : Fin 6)
  | Q
  | sa
  deriving DecidableEq, Fintype

/-- visco_flow.cxx:1350-1356 `init_hist`. -/
def init : Var → ℝ := fun _ => 0

/-- visco_flow.cxx:1989-1995 `J2_`. -/
noncomputable def J2 (v : Fin 6 → ℝ) : ℝ := √(3 / 2 * (devVec v ⬝ᵥ devVec v))

/-- visco_flow.cxx:1997-2009 `dev_vec_deriv_`. -/
noncomputable def devDeriv (a : Fin 6 → ℝ) : Fin 6 → ℝ :=
  ![2 / 3 * a 0 - a 1 / 3 - a 2 / 3, 2 / 3 * a 1 - a 0 / 3 - a 2 / 3, 2 / 3 * a 2 - a 0 / 3 - a 1 / 3, a 3, a 4, a 5]

/-- `copysign(1.0, x)`; a negative zero does not occur. -/
noncomputable def sgn (x : ℝ) : ℝ := if x < 0 then -1 else 1

/-- `&alpha[0]` and `&alpha[6]`. -/
def X1 (a : Var → ℝ) : Fin 6 → ℝ := fun j => a (.X1 j)
def X2 (a : Var → ℝ) : Fin 6 → ℝ := fun j => a (.X2 j)

/-- The stress less both backstresses (visco_flow.cxx:1366-1370 and so on): `dS`. -/
def dS (s : Fin 6 → ℝ) (a : Var → ℝ) : Fin 6 → ℝ := s - (X1 a + X2 a)

/-- Where `h` and the derivatives are numbers: they divide by `J2_(dS)`. -/
def defined (s : Fin 6 → ℝ) (a : Var → ℝ) : Prop := J2 (dS s a) ≠ 0

/-- visco_flow.h:606 `log_tol_`. -/
noncomputable def logTol : ℝ := 1 / 10 ^ 15

/-- `log10`. -/
noncomputable def log10 (x : ℝ) : ℝ := Real.log x / Real.log 10

namespace Par

variable (P : Par)

/-- visco_flow.cxx:1372 before the power. -/
noncomputable def over (s : Fin 6 → ℝ) (a : Var → ℝ) (T : ℝ) : ℝ := (J2 (dS s a) - a .sa) / P.D T

/-- visco_flow.cxx:1359-1379 `y`. -/
noncomputable def y (s : Fin 6 → ℝ) (a : Var → ℝ) (T : ℝ) : ℝ :=
  if P.over s a T > 0 then |P.over s a T| ^ P.n T else 0

/-- visco_flow.cxx:1402-1403, 1439-1440: `sp`. -/
noncomputable def sp (s : Fin 6 → ℝ) (a : Var → ℝ) (T : ℝ) : ℝ :=
  |P.over s a T| ^ (P.n T - 1) * P.n T * sgn (P.over s a T) / P.D T

/-- visco_flow.cxx:1381-1413 `dy_ds`. -/
noncomputable def dyds (s : Fin 6 → ℝ) (a : Var → ℝ) (T : ℝ) : Fin 6 → ℝ :=
  if P.y s a T > 0 then fun i => devDeriv (dS s a) i * (3 / 2 / J2 (dS s a) * P.sp s a T) else 0

/-- visco_flow.cxx:1415-1466 `dy_da`. -/
noncomputable def dyda (s : Fin 6 → ℝ) (a : Var → ℝ) (T : ℝ) : Var → ℝ :=
  if P.y s a T > 0 then fun v => match v with
    | .X1 j => devDeriv (dS s a) j * (-3 / 2 / J2 (dS s a) * P.sp s a T)
    | .X2 j => devDeriv (dS s a) j * (-3 / 2 / J2 (dS s a) * P.sp s a T)
    | .Q => 0
    | .sa => -P.n T * |P.over s a T| ^ (P.n T - 1) * sgn (P.over s a T) / P.D T
  else 0

end Par

/-- visco_flow.cxx:1493-1529 `dg_ds`. -/
noncomputable def dgds (s : Fin 6 → ℝ) (a : Var → ℝ) : Matrix (Fin 6) (Fin 6) ℝ :=
  (3 / (2 * J2 (dS s a))) • (devProj -
    vecMulVec (fun i => devVec (dS s a) i * (3 / (2 * J2 (dS s a) ^ 2))) (devDeriv (dS s a)))

/-- visco_flow.cxx:1531-1550 `dg_da`. -/
noncomputable def dgda (s : Fin 6 → ℝ) (a : Var → ℝ) : Matrix (Fin 6) Var ℝ := of fun i v => match v with
  | .X1 j => -dgds s a i j
  | .X2 j => -dgds s a i j
  | _ => 0

/-- visco_flow.cxx:1469-1550 `g`, `dg_ds` and `dg_da`. -/
noncomputable def g : Part (Fin 6) Var (Fin 6) where
  v s a _ := if J2 (dS s a) > 0 then fun i => 3 / 2 * devVec (dS s a) i / J2 (dS s a) else 0
  ds s a _ := dgds s a
  da s a _ := dgda s a

/-- visco_flow.cxx:1563-1570, 1713-1720 `n`, without the guard that `g` has. -/
noncomputable def dir (s : Fin 6 → ℝ) (a : Var → ℝ) : Fin 6 → ℝ := fun i => 3 / 2 * devVec (dS s a) i / J2 (dS s a)

namespace Par

variable (P : Par)

/-- visco_flow.cxx:1601, 1652, 1740 `sas` before it is cut off at zero. -/
noncomputable def sas (s : Fin 6 → ℝ) (a : Var → ℝ) (T : ℝ) : ℝ := P.A T + P.B T * log10 (P.y s a T)

/-- visco_flow.cxx:1606-1612, 1654-1660, 1742-1747 `bi`, for the value `x` of `sas`. -/
noncomputable def bi (x : ℝ) (a : Var → ℝ) (T : ℝ) : ℝ := if x - a .sa ≥ 0 then P.bh T else P.br T

/-- visco_flow.cxx:1553-1619 `h`. -/
noncomputable def hv (s : Fin 6 → ℝ) (a : Var → ℝ) (T : ℝ) : Var → ℝ
  | .X1 j => P.C1 T * (2 / 3 * (P.a10 T - a .Q) * dir s a j - a (.X1 j))
  | .X2 j => P.C2 T * (2 / 3 * P.a2 T * dir s a j - a (.X2 j))
  | .Q => P.d T * (P.q T - a .Q)
  | .sa =>
    if |P.y s a T| > logTol then
      let x := if P.sas s a T < 0 then 0 else P.sas s a T
      P.bi x a T * (x - a .sa)
    else 0

/-- visco_flow.cxx:1621-1668 `dh_ds`. -/
noncomputable def hds (s : Fin 6 → ℝ) (a : Var → ℝ) (T : ℝ) : Matrix Var (Fin 6) ℝ := of fun v j => match v with
  | .X1 i => dgds s a i j * 2 / 3 * P.C1 T * (P.a10 T - a .Q)
  | .X2 i => dgds s a i j * 2 / 3 * P.C2 T * P.a2 T
  | .Q => 0
  | .sa =>
    if |P.y s a T| > logTol then
      if P.sas s a T > 0 then
        P.bi (P.sas s a T) a T * P.B T / (P.y s a T * Real.log 10) * P.dyds s a T j
      else 0
    else 0

/-- visco_flow.cxx:1670-1756 `dh_da`. Here `bi` is that of `sas` before the cut. -/
noncomputable def hda (s : Fin 6 → ℝ) (a : Var → ℝ) (T : ℝ) : Matrix Var Var ℝ := of fun v w => match v with
  | .X1 i => (2 / 3 * (P.a10 T - a .Q) * dgda s a i w - if w = .X1 i then 1 else 0) * P.C1 T -
      if w = .Q then P.C1 T * 2 / 3 * dir s a i else 0
  | .X2 i => (2 / 3 * P.a2 T * dgda s a i w - if w = .X2 i then 1 else 0) * P.C2 T
  | .Q => if w = .Q then -P.d T else 0
  | .sa =>
    if |P.y s a T| > logTol then
      (if P.sas s a T > 0 then
        P.bi (P.sas s a T) a T * P.B T / (P.y s a T * Real.log 10) * P.dyda s a T w
      else 0) + if w = .sa then -P.bi (P.sas s a T) a T else 0
    else 0

/-- visco_flow.cxx:1759-1780 `h_time`. -/
noncomputable def htv (a : Var → ℝ) (T : ℝ) : Var → ℝ
  | .X1 j => -P.g1 T * J2 (X1 a) ^ (P.m T - 1) * a (.X1 j)
  | .X2 j => -P.g2 T * J2 (X2 a) ^ (P.m T - 1) * a (.X2 j)
  | .Q => 0
  | .sa => 0

/-- visco_flow.cxx:1800-1821, 1826-1846: `dX1` and `dX2`, for the backstress `x`. -/
noncomputable def dX (x : Fin 6 → ℝ) (T : ℝ) : Matrix (Fin 6) (Fin 6) ℝ :=
  J2 x ^ (P.m T - 1) • (1 : Matrix (Fin 6) (Fin 6) ℝ) +
    vecMulVec (fun i => devVec x i * ((P.m T - 1) * J2 x ^ (P.m T - 3) * 3 / 2)) (devDeriv x)

/-- visco_flow.cxx:1790-1852 `dh_da_time`. -/
noncomputable def htda (a : Var → ℝ) (T : ℝ) : Matrix Var Var ℝ := of fun v w => match v, w with
  | .X1 i, .X1 j => -P.g1 T * P.dX (X1 a) T i j
  | .X2 i, .X2 j => -P.g2 T * P.dX (X2 a) T i j
  | _, _ => 0

/-- visco_flow.cxx:1313-1852 `YaguchiGr91FlowRule`, for any parameters. What it does not define is zero
(visco_flow.cxx:16-102). -/
noncomputable def flow : Visco (Fin 6) Var where
  y := P.y
  dy_ds := P.dyds
  dy_da := P.dyda
  g := g
  g_time := Part.zero
  g_temp := Part.zero
  h := ⟨P.hv, P.hds, P.hda⟩
  h_time := ⟨fun _ a T => P.htv a T, fun _ _ _ => 0, fun _ a T => P.htda a T⟩
  h_temp := Part.zero

end Par

/-- visco_flow.cxx:1859: what is raised to a negative power in `D`; there is no number unless it is positive. -/
noncomputable def baseD (T : ℝ) : ℝ := -1.119e-9 + 5.145e-11 * T - 5.450e-14 * T * T

/-- visco_flow.cxx:1854-1984: the parameters. -/
noncomputable def gr91 : Par where
  D T := baseD T ^ (-1 / 2.85 : ℝ)
  n _ := 2.850
  a10 T := 2.082e3 - 8.110 * T + 1.321e-2 * T * T - 7.278e-6 * T * T * T
  C2 T := if T < 798 then 2.0e2 else -2.992e3 + 4.000 * T
  a2 T := if T < 773 then 1.100e2 else 3.373e3 - 7.622 * T + 4.400e-3 * T * T
  g1 T := if T < 773 then 5.064e-137 * Real.exp (3.545e-1 * T) else 5.336e-33 * Real.exp (4.470e-2 * T)
  g2 T := if T < 773 then 8.572e-108 * Real.exp (2.771e-1 * T) else 2.817e-11 - 7.538e-14 * T + 5.039e-17 * T * T
  m T := if T < 673 then 1.200e1 else if T < 773 then 5.766e2 * Real.exp (-5.754e-3 * T) else 6.750
  br _ := 1.0e3
  bh T := 1.065e3 - 1.404 * T + 4.417e-4 * T * T
  A T := if T < 673 then -1.841e2 + 2.075e-1 * T
    else if T < 823 then -4.799e2 + 1.262 * T - 9.133e-4 * T * T else -6.000e1
  B T := if T < 773 then -6.340e1 + 6.850e-2 * T else -1.730e1
  d T := 3.208 - 1.010e-2 * T + 1.012e-5 * T * T
  q T := if T < 673 then 9.500e1 else if T < 823 then -2.467e2 + 7.320e-1 * T - 3.333e-4 * T * T else 1.300e2
  C1 T := if T < 673 then 1.500e3 else if T < 773 then -2.879e4 + 45.0 * T else 6.000e3

end Neml.Yaguchi
