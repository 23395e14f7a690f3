import Verif.Model.Slip
import Mathlib.Analysis.SpecialFunctions.Log.Basic
import Mathlib.Analysis.SpecialFunctions.Sqrt
import Mathlib.Analysis.Real.Pi.Bounds
import Mathlib.Algebra.BigOperators.Fin

/-!
# Precipitation, dislocation spacing and the Arrhenius slip rule of Hu and Cocks

Models of /repo/src/cp/hucocks.cxx at one temperature.

Simplifications:
* Coefficients are the values of the interpolates at the temperature. The vectors `c0`, `cp` and `ceq` have the same
  length and the rate limiting species is one of them; the constructor (lines 6-33) checks neither and the code would
  read outside the vectors.
* The three variables of a precipitation model are a function on `Fin 3`: volume fraction, radius, number density.
* `log` of a number that is not positive, `sqrt` of a negative number and division by zero are not numbers in the
  code; theorems exclude them.
* The variable `ds` that the callers of `sfn_` leave uninitialised (e.g. line 194) starts with the parameter `junk`.
-/

namespace Neml.HuCocks

open Neml.Slip (Crys Hard Rule sgn fillFlat ownOf)

/-- hucocks.cxx:6-33, the parameters of `HuCocksPrecipitationModel` and the temperature. -/
structure Chem where
  ns : Nat
  c0 : Fin ns → ℝ
  cp : Fin ns → ℝ
  ceq : Fin ns → ℝ
  rate : Fin ns
  am : ℝ
  N0 : ℝ
  Vm : ℝ
  chi : ℝ
  D0 : ℝ
  Q0 : ℝ
  Cf : ℝ
  kb : ℝ
  R : ℝ
  Na : ℝ
  w : ℝ
  T : ℝ
  fs : ℝ
  rs : ℝ
  Ns : ℝ
  fInit : ℝ
  rInit : ℝ
  NInit : ℝ

namespace Chem

variable (p : Chem)

/-- hucocks.cxx:31 `vm_`. -/
noncomputable def vm : ℝ := p.Vm / p.Na

/-- hucocks.cxx:418-425 `c`. -/
noncomputable def c (f : ℝ) (i : Fin p.ns) : ℝ := (p.c0 i - f * p.cp i) / (1 - f)

/-- hucocks.cxx:427-434 `dc_df`. -/
noncomputable def dc (f : ℝ) (i : Fin p.ns) : ℝ := (p.c0 i - p.cp i) / (1 - f) ^ 2

/-- hucocks.cxx:436-440 `D_`. -/
noncomputable def D : ℝ := p.D0 * Real.exp (-p.Q0 / (p.R * p.T))

/-- hucocks.cxx:448-451, the product of the concentrations. -/
noncomputable def cEff (f : ℝ) : ℝ := ((List.finRange p.ns).map (p.c f)).foldl (· * ·) 1

/-- hucocks.cxx:453-456. -/
noncomputable def ceqEff : ℝ := ((List.finRange p.ns).map p.ceq).foldl (· * ·) 1

/-- hucocks.cxx:442-459 `Gv`. -/
noncomputable def Gv (f : ℝ) : ℝ := -p.kb * p.T / p.vm * Real.log (p.cEff f / p.ceqEff)

/-- hucocks.cxx:475-489, the derivative of the product of the concentrations. -/
noncomputable def dcEff (f : ℝ) : ℝ :=
  ((List.finRange p.ns).map fun i =>
    ((List.finRange p.ns).map fun j => if i = j then p.dc f j else p.c f j).foldl (· * ·) 1).foldl (· + ·) 0

/-- hucocks.cxx:461-491 `dG_df`. -/
noncomputable def dG (f : ℝ) : ℝ := -p.kb * p.T / p.vm * p.dcEff f / p.cEff f

/-- hucocks.cxx:507, how far a species is on its way from the initial to the equilibrium concentration. -/
noncomputable def xi (f : ℝ) (i : Fin p.ns) : ℝ := (p.c f i - p.c0 i) / (p.ceq i - p.c0 i)

/-- hucocks.cxx:505-514, the loop of `sfn_`. -/
noncomputable def sfnLoop (f : ℝ) (l : List (Fin p.ns)) (s : ℝ × ℝ) : ℝ × ℝ :=
  l.foldl (fun s i => if s.1 < p.xi f i then (p.xi f i, p.dc f i / (p.ceq i - p.c0 i)) else s) s

/-- hucocks.cxx:499-526 `sfn_`: the switch from nucleation to ripening and its derivative. -/
noncomputable def sfn (junk f : ℝ) : ℝ × ℝ :=
  let s := p.sfnLoop f (List.finRange p.ns) (0, junk)
  let s := if s.1 < 0 then (0, 0) else s
  if 1 < s.1 then (1, 0) else s

/-- hucocks.cxx:351. -/
noncomputable def Gstar (f : ℝ) : ℝ := 16 * Real.pi * p.chi ^ 3 / (3 * p.Gv f ^ 2) * p.w

/-- hucocks.cxx:366. -/
noncomputable def dGstar (f : ℝ) : ℝ := -32 * Real.pi * p.chi ^ 3 / (3 * p.Gv f ^ 3) * p.dG f * p.w

/-- hucocks.cxx:352. -/
noncomputable def ZB (f : ℝ) : ℝ :=
  2 * p.vm * p.D * p.c f p.rate / p.am ^ 4 * Real.sqrt (p.chi / (p.kb * p.T))

/-- hucocks.cxx:369. -/
noncomputable def dZB (f : ℝ) : ℝ :=
  2 * p.vm * p.D * p.dc f p.rate / p.am ^ 4 * Real.sqrt (p.chi / (p.kb * p.T))

/-- hucocks.cxx:344-354 `N_rate_nucleation_`. -/
noncomputable def NNuc (f : ℝ) : ℝ := p.N0 * p.ZB f * Real.exp (-p.Gstar f / (p.kb * p.T))

/-- hucocks.cxx:356-373 `dN_df_nucleation_`; lines 375-385 are zero. -/
noncomputable def NNuc_f (f : ℝ) : ℝ :=
  p.N0 * p.dZB f * Real.exp (-p.Gstar f / (p.kb * p.T)) -
    p.N0 * p.ZB f * Real.exp (-p.Gstar f / (p.kb * p.T)) * p.dGstar f / (p.kb * p.T)

/-- hucocks.cxx:227. -/
noncomputable def rc (f : ℝ) : ℝ := -2 * p.chi / p.Gv f

/-- hucocks.cxx:243. -/
noncomputable def drc (f : ℝ) : ℝ := 2 * p.chi / (p.Gv f * p.Gv f) * p.dG f

/-- hucocks.cxx:219-230 `r_rate_nucleation_`. -/
noncomputable def rNuc (f r N : ℝ) : ℝ :=
  p.D / r * (p.c f p.rate - p.ceq p.rate) / (p.cp p.rate - p.ceq p.rate) + p.NNuc f / N * (p.rc f - r)

/-- hucocks.cxx:232-245 `dr_df_nucleation_`. -/
noncomputable def rNuc_f (f r N : ℝ) : ℝ :=
  p.D / r * p.dc f p.rate / (p.cp p.rate - p.ceq p.rate) + p.NNuc_f f / N * (p.rc f - r) + p.NNuc f / N * p.drc f

/-- hucocks.cxx:247-258 `dr_dr_nucleation_`. -/
noncomputable def rNuc_r (f r N : ℝ) : ℝ :=
  -p.D / (r * r) * (p.c f p.rate - p.ceq p.rate) / (p.cp p.rate - p.ceq p.rate) + 0 / N * (p.rc f - r) - p.NNuc f / N

/-- hucocks.cxx:260-269 `dr_dN_nucleation_`. -/
noncomputable def rNuc_N (f r N : ℝ) : ℝ := 0 / N * (p.rc f - r) - p.NNuc f / (N * N) * (p.rc f - r)

/-- hucocks.cxx:278. -/
noncomputable def K (f : ℝ) : ℝ := p.Cf * 8 * p.chi * p.Vm * p.D * p.c f p.rate / (9 * p.R * p.T)

/-- hucocks.cxx:287. -/
noncomputable def dK (f : ℝ) : ℝ := p.Cf * 8 * p.chi * p.Vm * p.D * p.dc f p.rate / (9 * p.R * p.T)

/-- hucocks.cxx:271-279 `r_rate_ripening_`. -/
noncomputable def rRip (f r : ℝ) : ℝ := p.K f / (3 * r ^ 2)

/-- hucocks.cxx:281-288 `dr_df_ripening_`. -/
noncomputable def rRip_f (f r : ℝ) : ℝ := p.dK f / (3 * r ^ 2)

/-- hucocks.cxx:291-298 `dr_dr_ripening_`; `dr_dN_ripening_` (301-304) is zero. -/
noncomputable def rRip_r (f r : ℝ) : ℝ := -2 * p.K f / (3 * r ^ 3)

/-- hucocks.cxx:387-391 `N_rate_ripening_`. -/
noncomputable def NRip (f r N : ℝ) : ℝ := -3 * N / r * p.rRip f r

/-- hucocks.cxx:393-397 `dN_df_ripening_`. -/
noncomputable def NRip_f (f r N : ℝ) : ℝ := -3 * N / r * p.rRip_f f r

/-- hucocks.cxx:399-404 `dN_dr_ripening_`. -/
noncomputable def NRip_r (f r N : ℝ) : ℝ := -3 * N / r * p.rRip_r f r + 3 * N / (r * r) * p.rRip f r

/-- hucocks.cxx:406-410 `dN_dN_ripening_`. -/
noncomputable def NRip_N (f r N : ℝ) : ℝ := -3 * N / r * 0 - 3 / r * p.rRip f r

/-- hucocks.cxx:182-189 `r_rate`. The value of the switch does not depend on `junk` (see `sfn_val`). -/
noncomputable def rRate (f r N : ℝ) : ℝ := (1 - (p.sfn 0 f).1) * p.rNuc f r N + (p.sfn 0 f).1 * p.rRip f r

/-- hucocks.cxx:191-199 `dr_df`. -/
noncomputable def rRate_f (junk f r N : ℝ) : ℝ :=
  (1 - (p.sfn junk f).1) * p.rNuc_f f r N + (p.sfn junk f).1 * p.rRip_f f r - (p.sfn junk f).2 * p.rNuc f r N +
    (p.sfn junk f).2 * p.rRip f r

/-- hucocks.cxx:201-208 `dr_dr`. -/
noncomputable def rRate_r (f r N : ℝ) : ℝ := (1 - (p.sfn 0 f).1) * p.rNuc_r f r N + (p.sfn 0 f).1 * p.rRip_r f r

/-- hucocks.cxx:210-217 `dr_dN`. -/
noncomputable def rRate_N (f r N : ℝ) : ℝ := (1 - (p.sfn 0 f).1) * p.rNuc_N f r N + (p.sfn 0 f).1 * 0

/-- hucocks.cxx:307-314 `N_rate`. -/
noncomputable def NRate (f r N : ℝ) : ℝ := (1 - (p.sfn 0 f).1) * p.NNuc f + (p.sfn 0 f).1 * p.NRip f r N

/-- hucocks.cxx:316-324 `dN_df`. -/
noncomputable def NRate_f (junk f r N : ℝ) : ℝ :=
  (1 - (p.sfn junk f).1) * p.NNuc_f f + (p.sfn junk f).1 * p.NRip_f f r N - (p.sfn junk f).2 * p.NNuc f +
    (p.sfn junk f).2 * p.NRip f r N

/-- hucocks.cxx:326-333 `dN_dr`. -/
noncomputable def NRate_r (f r N : ℝ) : ℝ := (1 - (p.sfn 0 f).1) * 0 + (p.sfn 0 f).1 * p.NRip_r f r N

/-- hucocks.cxx:335-342 `dN_dN`. -/
noncomputable def NRate_N (f r N : ℝ) : ℝ := (1 - (p.sfn 0 f).1) * 0 + (p.sfn 0 f).1 * p.NRip_N f r N

/-- hucocks.cxx:152-157 `f_rate`. -/
noncomputable def fRate (f r N : ℝ) : ℝ :=
  4 * Real.pi / 3 * (p.NRate f r N * r ^ 3 + N * 3 * r ^ 2 * p.rRate f r N)

/-- hucocks.cxx:159-164 `df_df`. -/
noncomputable def fRate_f (junk f r N : ℝ) : ℝ :=
  4 * Real.pi / 3 * (p.NRate_f junk f r N * r ^ 3 + N * 3 * r ^ 2 * p.rRate_f junk f r N)

/-- hucocks.cxx:166-172 `df_dr`. -/
noncomputable def fRate_r (f r N : ℝ) : ℝ :=
  4 * Real.pi / 3 * (p.NRate_r f r N * r ^ 3 + 3 * p.NRate f r N * r ^ 2 + 6 * N * r * p.rRate f r N +
    N * 3 * r ^ 2 * p.rRate_r f r N)

/-- hucocks.cxx:174-180 `df_dN`. -/
noncomputable def fRate_N (f r N : ℝ) : ℝ :=
  4 * Real.pi / 3 * (p.NRate_N f r N * r ^ 3 + 3 * r ^ 2 * p.rRate f r N + N * 3 * r ^ 2 * p.rRate_N f r N)

/-- hucocks.cxx:98-104 `init_hist`. -/
noncomputable def init : Fin 3 → ℝ := ![p.fInit / p.fs, p.rInit / p.rs, p.NInit / p.Ns]

/-- hucocks.cxx:106-114 `rate`, with 134-150 `f`, `r` and `N`. -/
noncomputable def rates (h : Fin 3 → ℝ) : Fin 3 → ℝ :=
  let f := h 0 * p.fs
  let r := h 1 * p.rs
  let N := h 2 * p.Ns
  ![p.fRate f r N / p.fs, p.rRate f r N / p.rs, p.NRate f r N / p.Ns]

/-- hucocks.cxx:116-132 `jac`. -/
noncomputable def jac (junk : ℝ) (h : Fin 3 → ℝ) : Fin 3 → Fin 3 → ℝ :=
  let f := h 0 * p.fs
  let r := h 1 * p.rs
  let N := h 2 * p.Ns
  ![![p.fRate_f junk f r N / p.fs * p.fs, p.fRate_r f r N / p.fs * p.rs, p.fRate_N f r N / p.fs * p.Ns],
    ![p.rRate_f junk f r N / p.rs * p.fs, p.rRate_r f r N / p.rs * p.rs, p.rRate_N f r N / p.rs * p.Ns],
    ![p.NRate_f junk f r N / p.Ns * p.fs, p.NRate_r f r N / p.Ns * p.rs, p.NRate_N f r N / p.Ns * p.Ns]]

end Chem

variable {N : Type} [DecidableEq N]

/-- hucocks.cxx:655-660, the interaction of two systems. -/
def inter (J1 J2 : ℝ) (i j : Nat) : ℝ := if i = j then J1 else J2

/-- hucocks.cxx:539-805 `DislocationSpacingHardening`. The matrix of `d_hist_d_h` covers every variable of the history,
not only those of the model (line 722). -/
noncomputable def spacing (c : Crys) (vars : Nat → N) (J1 J2 K L0 a G b : ℝ) : Hard N where
  own := ownOf c.ntotal vars
  init := fillFlat c.ntotal vars fun _ => L0
  tau g i h := a * G * b / h (vars (c.flat g i))
  dtau g i h := Function.update 0 (vars (c.flat g i)) (-a * G * b / h (vars (c.flat g i)) ^ 2)
  rate R h := fillFlat c.ntotal vars fun i =>
    (c.systems.foldl (fun r p => r - h (vars i) ^ 3 * inter J1 J2 i (c.flat p.1 p.2) * |R p.1 p.2|) 0) +
      K / h (vars i) ^ 3
  rateS R dR h := fillFlat c.ntotal vars fun i =>
    c.systems.foldl (fun r p =>
      r - (h (vars i) ^ 3 * inter J1 J2 i (c.flat p.1 p.2) * sgn (R p.1 p.2)) • dR p.1 p.2) 0
  rateH R dR h := fillFlat c.ntotal vars fun i a =>
    (c.systems.foldl (fun r p =>
      r - (if a = vars i then 3 * h (vars i) ^ 2 * inter J1 J2 i (c.flat p.1 p.2) * |R p.1 p.2| else 0) -
        h (vars i) ^ 3 * inter J1 J2 i (c.flat p.1 p.2) * sgn (R p.1 p.2) * dR p.1 p.2 a) 0) -
      (if a = vars i then 3 * K / h (vars i) ^ 4 else 0)
  rateX R dR h := fillFlat c.ntotal vars fun i a =>
    c.systems.foldl (fun r p =>
      r - h (vars i) ^ 3 * inter J1 J2 i (c.flat p.1 p.2) * sgn (R p.1 p.2) * dR p.1 p.2 a) 0

/-- The precipitation models of a hardening model with the names of their variables, hucocks.cxx:817-829. -/
structure Phase (N : Type) where
  chem : Chem
  name : Fin 3 → N

/-- The history of one precipitation model. -/
def Phase.hist (q : Phase N) (h : N → ℝ) : Fin 3 → ℝ := fun k => h (q.name k)

/-- The number of a variable among those of a precipitation model. -/
def Phase.index (q : Phase N) (a : N) : Option (Fin 3) := (List.finRange 3).find? fun k => q.name k = a

/-- The precipitation model that holds a variable. -/
def find (ps : List (Phase N)) (a : N) : Option (Phase N × Fin 3) := ps.findSome? fun q => (q.index a).map fun k => (q, k)

/-- hucocks.cxx:1081-1092 `c_eff_`. -/
noncomputable def solute (ps : List (Phase N)) (h : N → ℝ) : ℝ :=
  ps.foldl (fun r q => (List.finRange q.chem.ns).foldl (fun r i => r + q.chem.c (h (q.name 0) * q.chem.fs) i / q.chem.vm) r) 0

/-- hucocks.cxx:1094-1103 `NA_eff_`. -/
noncomputable def areal (ps : List (Phase N)) (h : N → ℝ) : ℝ :=
  ps.foldl (fun r q => r + 2 * (h (q.name 1) * q.chem.rs) * (h (q.name 2) * q.chem.Ns)) 0

/-- hucocks.cxx:807-1079 `HuCocksHardening`. Names of variables are distinct. The dislocation model must report
derivatives by every variable, as `spacing` does: lines 1026-1027 do not add the missing columns. -/
noncomputable def hardening (junk : ℝ) (d : Hard N) (ps : List (Phase N)) (ap ac b G : ℝ) : Hard N where
  own a := d.own a || (find ps a).isSome
  init a := match find ps a with
    | some (q, k) => q.chem.init k
    | none => d.init a
  tau g i h :=
    let td := d.tau g i h
    let tp := ap * G * b * Real.sqrt (areal ps h)
    Real.sqrt (td * td + tp * tp) + ac * G * b * Real.sqrt (solute ps h * b)
  dtau g i h a :=
    let td := d.tau g i h
    let tp := ap * G * b * Real.sqrt (areal ps h)
    match find ps a with
    | some (q, k) => ![
        (List.finRange q.chem.ns).foldl (fun r j => r + ac * G * b * b / (2 * Real.sqrt (solute ps h * b)) *
          q.chem.dc (h (q.name 0) * q.chem.fs) j / q.chem.vm * q.chem.fs) 0,
        tp / Real.sqrt (tp * tp + td * td) * ap * G * b * (h (q.name 2) * q.chem.Ns) / Real.sqrt (areal ps h) *
          q.chem.rs,
        tp / Real.sqrt (tp * tp + td * td) * ap * G * b * (h (q.name 1) * q.chem.rs) / Real.sqrt (areal ps h) *
          q.chem.Ns] k
    | none => td / Real.sqrt (tp * tp + td * td) * d.dtau g i h a
  rate R h a := match find ps a with
    | some (q, k) => q.chem.rates (q.hist h) k
    | none => d.rate R h a
  rateS R dR h a := match find ps a with
    | some _ => 0
    | none => d.rateS R dR h a
  rateH R dR h a b := match find ps a with
    | some (q, k) => match q.index b with
      | some l => q.chem.jac junk (q.hist h) k l
      | none => 0
    | none => d.rateH R dR h a b
  rateX R dR h a b := match find ps a with
    | some _ => 0
    | none => d.rateX R dR h a b

/-- hucocks.cxx:1105-1187 `ArrheniusSlipRule`; `F` is `a0 G0 b^3 / (k T)`. -/
noncomputable def arrhenius (hard : Hard N) (g0 A B F : ℝ) : Rule N 1 where
  hard _ := hard
  sslip tau s := if tau = 0 then 0 else g0 * Real.exp (-F * (1 - |tau / s 0| ^ A) ^ B) * sgn tau
  dTau tau s := if tau = 0 then 0 else
    |-g0 * A * B * F * tau * |tau / s 0| ^ (A - 2) * (1 - |tau / s 0| ^ A) ^ (B - 1) *
      Real.exp (-F * (1 - |tau / s 0| ^ A) ^ B) / s 0 ^ 2|
  dStr tau s _ := if tau = 0 then 0 else
    -g0 * A * B * F * tau ^ 2 * |tau / s 0| ^ (A - 2) * (1 - |tau / s 0| ^ A) ^ (B - 1) *
      Real.exp (-F * (1 - |tau / s 0| ^ A) ^ B) / s 0 ^ 3 * sgn tau

/-- hucocks.cxx:1153 the scaled activation energy. -/
noncomputable def activation (a0 G0 b k T : ℝ) : ℝ := a0 * G0 * b ^ 3 / (k * T)

end Neml.HuCocks
