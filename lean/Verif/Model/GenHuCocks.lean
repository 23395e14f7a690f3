import Verif.Model.HuCocks

/-!
# The generalized Hu-Cocks model (src/cp/generalizedhucocks.cxx, include/cp/generalizedhucocks.h)

Several precipitates compete for the same species.

Simplifications:
* Species and precipitates are numbered; comparing pointers to species is comparing numbers.
* Coefficients are the values of the interpolates at the temperature. Precipitates list as many `cp` as species
  (`species_cp_map`, lines 89-102, reads past the end otherwise).
* `std::map::at` on a missing name throws; here it gives zero. Theorems assume the name is there.
* History variables are numbered by precipitate; `0` is the scaled radius, `1` the scaled number density.
-/

namespace Neml.GenHuCocks

open Neml.Slip

/-- generalizedhucocks.cxx:34-45, the constants of a precipitate. -/
structure Consts where
  am : ℝ
  Vm : ℝ
  D0 : ℝ
  Q0 : ℝ
  N0 : ℝ
  chi : ℝ
  Cf : ℝ
  rInit : ℝ
  NInit : ℝ
  rs : ℝ
  Ns : ℝ

/-- generalizedhucocks.cxx:27-48, a precipitate as constructed; `sp` holds the species already entered. -/
structure Raw (ns : Nat) where
  names : List String
  cps : List ℝ
  rateName : String
  sp : List (Fin ns)
  k : Consts

/-- A precipitate that knows its species, generalizedhucocks.h:59-66. -/
structure Prec (ns : Nat) where
  names : List String
  cps : List ℝ
  sp : List (Fin ns)
  rate : Fin ns
  k : Consts

variable {ns np : Nat}

/-- generalizedhucocks.cxx:89-102 `species_cp_map`; inserting a name twice keeps the first entry. -/
def Prec.cp (p : Prec ns) (n : String) : Option ℝ := (p.names.zip p.cps).lookup n

/-- generalizedhucocks.cxx:126-132, the first species with a name. -/
def firstOf (comp : Fin ns → String) (n : String) : Option (Fin ns) := (List.finRange ns).find? fun s => comp s = n

/-- generalizedhucocks.cxx:123-151, the work of `initialize` on one precipitate; `none` is the exception. The species
are added to those already there. -/
def initPrec (comp : Fin ns → String) (p : Raw ns) : Option (Prec ns) :=
  (p.names.foldlM (fun acc n => (firstOf comp n).map fun s => acc ++ [s]) p.sp).bind fun sp =>
    (firstOf comp p.rateName).map fun rate => ⟨p.names, p.cps, sp, rate, p.k⟩

/-- generalizedhucocks.cxx:115-154 `initialize`. -/
def build (comp : Fin ns → String) (ps : Fin np → Raw ns) : Option (Fin np → Prec ns) :=
  if h : ∀ i, (initPrec comp (ps i)).isSome then some fun i => (initPrec comp (ps i)).get (h i) else none

/-- A built precipitate handed to a second model, generalizedhucocks.cxx:130: the object keeps its species. -/
def Prec.again (p : Prec ns) (rateName : String) : Raw ns := ⟨p.names, p.cps, rateName, p.sp, p.k⟩

/-- The model with its species and precipitates, generalizedhucocks.h:162-164. `eps` is the smallest concentration. -/
structure Sys (ns np : Nat) where
  comp : Fin ns → String
  c0 : Fin ns → ℝ
  ceq : Fin ns → ℝ
  prec : Fin np → Prec ns
  kb : ℝ
  Na : ℝ
  R : ℝ
  T : ℝ
  eps : ℝ

/-- The history of the precipitates. -/
abbrev Hist (np : Nat) := Fin np → Fin 2 → ℝ

namespace Sys

variable (m : Sys ns np)

/-- generalizedhucocks.h:54 `r`. -/
def r (h : Hist np) (i : Fin np) : ℝ := h i 0 * (m.prec i).k.rs

/-- generalizedhucocks.h:55 `N`. -/
def N (h : Hist np) (i : Fin np) : ℝ := h i 1 * (m.prec i).k.Ns

/-- generalizedhucocks.h:51 `f`. -/
noncomputable def f (h : Hist np) (i : Fin np) : ℝ := 4 / 3 * Real.pi * m.r h i ^ 3 * m.N h i

/-- generalizedhucocks.h:52 `d_f_d_r`. -/
noncomputable def f_r (h : Hist np) (i : Fin np) : ℝ := 4 * Real.pi * m.r h i ^ 2 * m.N h i

/-- generalizedhucocks.h:53 `d_f_d_N`. -/
noncomputable def f_N (h : Hist np) (i : Fin np) : ℝ := 4 / 3 * Real.pi * m.r h i ^ 3

/-- generalizedhucocks.cxx:82-87 `init_hist`. -/
noncomputable def init : Hist np := fun i => ![(m.prec i).k.rInit / (m.prec i).k.rs, (m.prec i).k.NInit / (m.prec i).k.Ns]

/-- `cp.at (species)`. -/
def cpAt (i : Fin np) (s : Fin ns) : ℝ := ((m.prec i).cp (m.comp s)).getD 0

/-- generalizedhucocks.cxx:196-201 `diffusivity`. -/
noncomputable def D (i : Fin np) : ℝ := (m.prec i).k.D0 * Real.exp (-(m.prec i).k.Q0 / (m.R * m.T))

/-- generalizedhucocks.cxx:207-215, amount and volume left outside the precipitates; species are compared by `same`. -/
noncomputable def left (same : Fin ns → Fin ns → Bool) (h : Hist np) (ss : Fin ns) : ℝ × ℝ :=
  (List.finRange np).foldl (fun acc i => (m.prec i).sp.foldl (fun acc s =>
    if same s ss then (acc.1 - m.f h i * m.cpAt i s, acc.2 - m.f h i) else acc) acc) (m.c0 ss, 1)

/-- generalizedhucocks.cxx:203-218 `concentration`. -/
noncomputable def c (h : Hist np) (s : Fin ns) : ℝ :=
  let l := m.left (fun a b => a = b) h s
  if l.1 / l.2 > m.eps then l.1 / l.2 else m.eps

/-- generalizedhucocks.cxx:220-248 `d_concentration_d_f`. -/
noncomputable def dc (h : Hist np) (s : Fin ns) (j : Fin np) : ℝ :=
  if ((m.prec j).cp (m.comp s)).isNone then 0 else
    let dct := -m.cpAt j s
    let dft : ℝ := -1
    let l := m.left (fun a b => m.comp a = m.comp b) h s
    if l.1 / l.2 > m.eps then dct / l.2 - l.1 / l.2 / l.2 * dft else 0

/-- generalizedhucocks.cxx:250-257 `precipitate_areal_density`. -/
noncomputable def areal (h : Hist np) : ℝ := (List.finRange np).foldl (fun r i => r + 2 * m.r h i * m.N h i) 0

/-- generalizedhucocks.cxx:259-265 `d_precipitate_areal_density_d_r`. -/
def areal_r (h : Hist np) (i : Fin np) : ℝ := 2 * m.N h i

/-- generalizedhucocks.cxx:267-273 `d_precipitate_areal_density_d_N`. -/
def areal_N (h : Hist np) (i : Fin np) : ℝ := 2 * m.r h i

/-- generalizedhucocks.cxx:279-287, volume weighted and plain volume of the precipitates with a species. -/
noncomputable def held (same : Fin ns → Fin ns → Bool) (h : Hist np) (ss : Fin ns) : ℝ × ℝ :=
  (List.finRange np).foldl (fun acc i => (m.prec i).sp.foldl (fun acc s =>
    if same s ss then (acc.1 + m.f h i * (m.prec i).k.Vm / m.Na, acc.2 + m.f h i) else acc) acc) (0, 0)

/-- generalizedhucocks.cxx:275-289 `effective_molecular_volume`. -/
noncomputable def vm (h : Hist np) (s : Fin ns) : ℝ :=
  let l := m.held (fun a b => a = b) h s
  l.1 / l.2

/-- generalizedhucocks.cxx:291-318 `d_effective_molecular_volume_d_f`. -/
noncomputable def dvm (h : Hist np) (s : Fin ns) (j : Fin np) : ℝ :=
  let l := m.held (fun a b => m.comp a = m.comp b) h s
  let d : ℝ × ℝ := if (m.prec j).sp.any fun a => m.comp a = m.comp s then ((m.prec j).k.Vm / m.Na, 1) else (0, 0)
  d.1 / l.2 - l.1 / l.2 / l.2 * d.2

/-- generalizedhucocks.cxx:320-328 `solution_volumetric_density`. -/
noncomputable def density (h : Hist np) : ℝ := (List.finRange ns).foldl (fun r s => r + m.c h s / m.vm h s) 0

/-- generalizedhucocks.cxx:330-346 `d_solution_volumetric_density_d_f`. -/
noncomputable def ddensity (h : Hist np) (j : Fin np) : ℝ :=
  (List.finRange ns).foldl (fun r s =>
    r + (m.dc h s j / m.vm h s - m.c h s / m.vm h s / m.vm h s * m.dvm h s j)) 0

/-- The molecular volume of a precipitate. -/
noncomputable def vmol (i : Fin np) : ℝ := (m.prec i).k.Vm / m.Na

/-- generalizedhucocks.cxx:348-360 `gibbs_free_energy`. -/
noncomputable def Gv (h : Hist np) (i : Fin np) : ℝ :=
  ((m.prec i).sp.foldl (fun g s => g + -Real.log (m.c h s / m.ceq s)) 0) * (m.kb * m.T / m.vmol i)

/-- generalizedhucocks.cxx:362-376 `d_gibbs_free_energy_d_f`. -/
noncomputable def dGv (h : Hist np) (i j : Fin np) : ℝ :=
  ((m.prec i).sp.foldl (fun g s => g + -1 / m.c h s * m.dc h s j) 0) * (m.kb * m.T / m.vmol i)

/-- The slope of `Zbeta` by concentration, generalizedhucocks.cxx:434. -/
noncomputable def zb (i : Fin np) : ℝ :=
  2 * m.vmol i * m.D i / (m.prec i).k.am ^ 4 * Real.sqrt ((m.prec i).k.chi / m.kb / m.T)

/-- generalizedhucocks.cxx:396 `Zbeta`. -/
noncomputable def Zbeta (h : Hist np) (i : Fin np) : ℝ :=
  2 * m.vmol i * m.D i * m.c h (m.prec i).rate / (m.prec i).k.am ^ 4 * Real.sqrt ((m.prec i).k.chi / m.kb / m.T)

/-- generalizedhucocks.cxx:398 `Gs`. -/
noncomputable def Gs (h : Hist np) (i : Fin np) : ℝ := 16 * Real.pi * (m.prec i).k.chi ^ 3 / 3 / m.Gv h i ^ 2

/-- generalizedhucocks.cxx:399 `rc`. -/
noncomputable def rc (h : Hist np) (i : Fin np) : ℝ := -2 * (m.prec i).k.chi / m.Gv h i

/-- generalizedhucocks.cxx:401, the rate of the number density in growth. -/
noncomputable def NGrow (h : Hist np) (i : Fin np) : ℝ :=
  (m.prec i).k.N0 * m.Zbeta h i * Real.exp (-m.Gs h i / m.kb / m.T)

/-- generalizedhucocks.cxx:402, the rate of the radius in growth. -/
noncomputable def rGrow (h : Hist np) (i : Fin np) : ℝ :=
  let s := (m.prec i).rate
  m.D i / m.r h i * (m.c h s - m.ceq s) / (m.cpAt i s - m.ceq s) + m.NGrow h i / m.N h i * (m.rc h i - m.r h i)

/-- generalizedhucocks.cxx:433-440, growth of the number density by volume fraction. -/
noncomputable def NGrow_f (h : Hist np) (i j : Fin np) : ℝ :=
  let E := Real.exp (-m.Gs h i / m.kb / m.T)
  let dZ := (m.prec i).k.N0 * E
  let dG := (m.prec i).k.N0 * m.Zbeta h i * E * -1 / m.kb / m.T
  let dGs := -32 * Real.pi * (m.prec i).k.chi ^ 3 / 3 / m.Gv h i ^ 3
  dZ * m.zb i * m.dc h (m.prec i).rate j + dG * dGs * m.dGv h i j

/-- generalizedhucocks.cxx:443-448, growth of the radius by volume fraction. -/
noncomputable def rGrow_f (h : Hist np) (i j : Fin np) : ℝ :=
  let s := (m.prec i).rate
  m.D i / m.r h i / (m.cpAt i s - m.ceq s) * m.dc h s j +
    m.NGrow h i / m.N h i * (2 * (m.prec i).k.chi / m.Gv h i / m.Gv h i) * m.dGv h i j +
    m.NGrow_f h i j / m.N h i * (m.rc h i - m.r h i)

/-- generalizedhucocks.cxx:407-455 `d_growth_rate`: row `0` radius, row `1` number density; columns likewise. -/
noncomputable def dGrow (h : Hist np) (i j : Fin np) : Fin 2 → Fin 2 → ℝ :=
  let s := (m.prec i).rate
  ![![m.rGrow_f h i j * m.f_r h j +
        (if i = j then -m.D i / m.r h i / m.r h i * (m.c h s - m.ceq s) / (m.cpAt i s - m.ceq s) - m.NGrow h i / m.N h i
          else 0),
      m.rGrow_f h i j * m.f_N h j +
        (if i = j then -m.NGrow h i / m.N h i / m.N h i * (m.rc h i - m.r h i) else 0)],
    ![m.NGrow_f h i j * m.f_r h j, m.NGrow_f h i j * m.f_N h j]]

/-- generalizedhucocks.cxx:472, the mobility per concentration. -/
noncomputable def mob (i : Fin np) : ℝ :=
  (m.prec i).k.Cf * 8 * (m.prec i).k.chi * (m.prec i).k.Vm * m.D i / 9 / m.R / m.T

/-- generalizedhucocks.cxx:472 `M`. -/
noncomputable def M (h : Hist np) (i : Fin np) : ℝ :=
  (m.prec i).k.Cf * 8 * (m.prec i).k.chi * (m.prec i).k.Vm * m.D i * m.c h (m.prec i).rate / 9 / m.R / m.T

/-- generalizedhucocks.cxx:474, the rate of the radius in ripening. -/
noncomputable def rRip (h : Hist np) (i : Fin np) : ℝ := m.M h i / 3 / m.r h i / m.r h i

/-- generalizedhucocks.cxx:475, the rate of the number density in ripening. -/
noncomputable def NRip (h : Hist np) (i : Fin np) : ℝ := -3 * m.N h i / m.r h i * m.rRip h i

/-- generalizedhucocks.cxx:500-503, ripening of the radius by volume fraction. -/
noncomputable def rRip_f (h : Hist np) (i j : Fin np) : ℝ :=
  1 / 3 / m.r h i / m.r h i * m.mob i * m.dc h (m.prec i).rate j

/-- generalizedhucocks.cxx:480-517 `d_ripening_rate`. -/
noncomputable def dRip (h : Hist np) (i j : Fin np) : Fin 2 → Fin 2 → ℝ :=
  let rr := m.rRip_f h i j * m.f_r h j + (if i = j then -2 * m.M h i / 3 / m.r h i / m.r h i / m.r h i else 0)
  let rN := m.rRip_f h i j * m.f_N h j
  let dN := -3 * m.N h i / m.r h i
  let Nf := dN * m.rRip_f h i j
  ![![rr, rN],
    ![Nf * m.f_r h j + ((if i = j then 3 * m.N h i / m.r h i / m.r h i * m.rRip h i else 0) + dN * rr),
      Nf * m.f_N h j + (if i = j then -3 / m.r h i * m.rRip h i else 0)]]

/-- How far a species has moved to equilibrium, generalizedhucocks.cxx:531. -/
noncomputable def xi (h : Hist np) (s : Fin ns) : ℝ := (m.c h s - m.c0 s) / (m.ceq s - m.c0 s)

/-- generalizedhucocks.cxx:526-537, the loop of `switching_function`. -/
noncomputable def switchLoop (h : Hist np) (j : Fin np) (l : List (Fin ns)) (acc : ℝ × ℝ) : ℝ × ℝ :=
  l.foldl (fun acc s => if m.xi h s > acc.1 then (m.xi h s, m.dc h s j / (m.ceq s - m.c0 s)) else acc) acc

/-- generalizedhucocks.cxx:519-544 `switching_function`. -/
noncomputable def switch (h : Hist np) (i j : Fin np) : ℝ × ℝ :=
  let l := m.switchLoop h j (m.prec i).sp (0, 0)
  if l.1 > 1 then (1, 0) else l

/-- generalizedhucocks.cxx:546-560 `mixed_rate`, by radius and number density. -/
noncomputable def mixed (h : Hist np) (i : Fin np) : Fin 2 → ℝ :=
  let fi := (m.switch h i i).1
  ![(1 - fi) * m.rGrow h i + fi * m.rRip h i, (1 - fi) * m.NGrow h i + fi * m.NRip h i]

/-- generalizedhucocks.cxx:562-591 `d_mixed_rate`. -/
noncomputable def dMixed (h : Hist np) (i j : Fin np) : Fin 2 → Fin 2 → ℝ :=
  let s := m.switch h i j
  let rf := s.2 * (m.rRip h i - m.rGrow h i)
  let Nf := s.2 * (m.NRip h i - m.NGrow h i)
  ![![(1 - s.1) * m.dGrow h i j 0 0 + s.1 * m.dRip h i j 0 0 + rf * m.f_r h j,
      (1 - s.1) * m.dGrow h i j 0 1 + s.1 * m.dRip h i j 0 1 + rf * m.f_N h j],
    ![(1 - s.1) * m.dGrow h i j 1 0 + s.1 * m.dRip h i j 1 0 + Nf * m.f_r h j,
      (1 - s.1) * m.dGrow h i j 1 1 + s.1 * m.dRip h i j 1 1 + Nf * m.f_N h j]]

/-- The scale of a variable. -/
def scale (i : Fin np) : Fin 2 → ℝ := ![(m.prec i).k.rs, (m.prec i).k.Ns]

/-- generalizedhucocks.cxx:593-605 `rate`. -/
noncomputable def rate (h : Hist np) (i : Fin np) (k : Fin 2) : ℝ := m.mixed h i k / m.scale i k

/-- generalizedhucocks.cxx:607-628 `d_rate`. -/
noncomputable def jac (h : Hist np) (i : Fin np) (k : Fin 2) (j : Fin np) (l : Fin 2) : ℝ :=
  m.dMixed h i j k l / m.scale i k * m.scale j l

end Sys

variable {N : Type} [DecidableEq N] [Fintype N]

/-- The precipitate and number of a variable. -/
def find (name : Fin np → Fin 2 → N) (a : N) : Option (Fin np × Fin 2) :=
  ((List.finRange np).flatMap fun i => (List.finRange 2).map fun k => (i, k)).find? fun p => name p.1 p.2 = a

/-- The history of the precipitates within that of the crystal. -/
def histOf (name : Fin np → Fin 2 → N) (h : N → ℝ) : Hist np := fun i k => h (name i k)

/-- generalizedhucocks.cxx:630-836 `GeneralizedHuCocksHardening`. Names of variables are distinct. The dislocation model
must report derivatives by every variable (lines 793-805). -/
noncomputable def hardening (d : Hard N) (m : Sys ns np) (name : Fin np → Fin 2 → N) (ap ac b G : ℝ) : Hard N where
  own a := d.own a || (find name a).isSome
  init a := match find name a with
    | some (i, k) => m.init i k
    | none => d.init a
  tau g i h :=
    let td := d.tau g i h
    let tp := ap * G * b * Real.sqrt (m.areal (histOf name h))
    Real.sqrt (td * td + tp * tp) + ac * G * b * Real.sqrt (m.density (histOf name h) * b)
  dtau g i h a :=
    let x := histOf name h
    let svd := m.density x
    let pad := m.areal x
    let td := d.tau g i h
    let tp := ap * G * b * Real.sqrt pad
    let tc := ac * G * b * Real.sqrt (svd * b)
    let ts := Real.sqrt (tp * tp + td * td)
    match find name a with
    | some (j, k) => ![
        (1 / 2 * tc / svd * m.ddensity x j * m.f_r x j + 1 / 2 * tp * tp / ts / pad * m.areal_r x j) * (m.prec j).k.rs,
        (1 / 2 * tc / svd * m.ddensity x j * m.f_N x j + 1 / 2 * tp * tp / ts / pad * m.areal_N x j) * (m.prec j).k.Ns] k
    | none => td / ts * d.dtau g i h a
  rate R h a := match find name a with
    | some (i, k) => m.rate (histOf name h) i k
    | none => d.rate R h a
  rateS R dR h a := match find name a with
    | some _ => 0
    | none => d.rateS R dR h a
  rateH R dR h a b := match find name a with
    | some (i, k) => match find name b with
      | some (j, l) => m.jac (histOf name h) i k j l
      | none => 0
    | none => d.rateH R dR h a b
  rateX R dR h a b := match find name a with
    | some _ => 0
    | none => d.rateX R dR h a b

end Neml.GenHuCocks
