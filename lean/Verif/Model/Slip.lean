import Verif.Model.Lattice
import Mathlib.Analysis.SpecialFunctions.Pow.Real
import Mathlib.Algebra.BigOperators.Group.Finset.Basic

/-!
# Slip rules and slip hardening

Models of /repo/src/cp/sliprules.cxx and /repo/src/cp/slipharden.cxx at one temperature, one orientation and one
set of fixed variables.

Simplifications:
* A history is a function from variable names `N` to numbers. The names of different strengths are distinct (the
  constructor appends a number, sliprules.cxx:73-81).
* Arrays are functions of the index whose values outside the array are arbitrary, like memory that is read by
  mistake. `c.ntotal` is the size of every array: the `consistency` checks throw otherwise.
* Coefficients are the values of the interpolates at the temperature.
* `pow` of a negative number with a fractional exponent is not a number in the code; theorems exclude it.
-/

namespace Neml.Slip

open Matrix

/-- What the slip rules read from the lattice for a fixed orientation: crystallography.cxx `ngroup`, `nslip`,
`slip_type`, `burgers`, `M` and `N`. -/
structure Crys where
  ngroup : Nat
  nslip : Nat → Nat
  twin : Nat → Bool
  burgers : Nat → Nat → ℝ
  M : Nat → Nat → Fin 6 → ℝ
  W : Nat → Nat → Fin 3 → ℝ

/-- crystallography.cxx:456-465 `ntotal`. -/
def Crys.ntotal (c : Crys) : Nat := ((List.range c.ngroup).map c.nslip).sum

/-- crystallography.cxx:477-480 `flat` with the offsets accumulated at 361. -/
def Crys.flat (c : Crys) (g i : Nat) : Nat := ((List.range g).map c.nslip).sum + i

/-- The order of the double loop over groups and systems, e.g. sliprules.cxx:16-17. -/
def Crys.systems (c : Crys) : List (Nat × Nat) :=
  (List.range c.ngroup).flatMap fun g => (List.range (c.nslip g)).map fun i => (g, i)

/-- crystallography.cxx:514-518 `shear`. -/
def Crys.shear (c : Crys) (g i : Nat) (s : Fin 6 → ℝ) : ℝ := c.M g i ⬝ᵥ s

/-- The lattice of `Verif.Model.Lattice` at an orientation. -/
noncomputable def Crys.ofLat (L : Lattice.Lat) (Q : Rotation.Quat) (b : Nat → Nat → ℝ) : Crys where
  ngroup := Lattice.ngroup L
  nslip g := (Lattice.nslip L g).getD 0
  twin g := ((L.groups[g]?).map Lattice.Group.twin).getD false
  burgers := b
  M g i := ((Lattice.system L g i).map fun s => (Lattice.schmid Q s).1).getD 0
  W g i := ((Lattice.system L g i).map fun s => (Lattice.schmid Q s).2).getD 0

/-- `copysign(1.0, x)` for numbers that are not a negative zero; `copysign(y, x)` is `sgn x * |y|`. -/
noncomputable def sgn (x : ℝ) : ℝ := if x < 0 then -1 else 1

variable {N : Type} [DecidableEq N]

/-- The loop that writes one entry for each system at its flat number, e.g. slipharden.cxx:249-260. -/
def fill {A : Type} [Zero A] (c : Crys) (vars : Nat → N) (val : Nat → Nat → A) : N → A :=
  c.systems.foldl (fun r p => Function.update r (vars (c.flat p.1 p.2)) (val p.1 p.2)) 0

/-- The same loop with its own counter, e.g. slipharden.cxx:843-849. -/
def fillCount {A : Type} [Zero A] (c : Crys) (vars : Nat → N) (val : Nat → Nat → A) : N → A :=
  (c.systems.foldl (fun r p => (Function.update r.1 (vars r.2) (val p.1 p.2), r.2 + 1))
    ((0 : N → A), 0)).1

/-- A loop over the flat numbers, e.g. slipharden.cxx:660-664. -/
def fillFlat {A : Type} [Zero A] (n : Nat) (vars : Nat → N) (val : Nat → A) : N → A :=
  (List.range n).foldl (fun r i => Function.update r (vars i) (val i)) 0

/-! ## Hardening -/

/-- The interface of slipharden.h:26-94. The slip rates and their derivatives are what the slip rule answers. -/
structure Hard (N : Type) where
  /-- `varnames` -/
  own : N → Bool
  /-- `init_hist` -/
  init : N → ℝ
  /-- `hist_to_tau` -/
  tau : Nat → Nat → (N → ℝ) → ℝ
  /-- `d_hist_to_tau` -/
  dtau : Nat → Nat → (N → ℝ) → N → ℝ
  /-- `hist` -/
  rate : (Nat → Nat → ℝ) → (N → ℝ) → N → ℝ
  /-- `d_hist_d_s` -/
  rateS : (Nat → Nat → ℝ) → (Nat → Nat → Fin 6 → ℝ) → (N → ℝ) → N → Fin 6 → ℝ
  /-- `d_hist_d_h` -/
  rateH : (Nat → Nat → ℝ) → (Nat → Nat → N → ℝ) → (N → ℝ) → N → N → ℝ
  /-- `d_hist_d_h_ext` -/
  rateX : (Nat → Nat → ℝ) → (Nat → Nat → N → ℝ) → (N → ℝ) → N → N → ℝ

/-- The names `vars 0`, ..., `vars (n-1)`. -/
def ownOf (n : Nat) (vars : Nat → N) (a : N) : Bool := (List.range n).any fun k => vars k = a

/-- slipharden.cxx:58-146 `FixedStrengthHardening`. -/
def fixedStrength (c : Crys) (str : Nat → ℝ) : Hard N where
  own _ := false
  init := 0
  tau g i _ := str (c.flat g i)
  dtau _ _ _ := 0
  rate _ _ := 0
  rateS _ _ _ := 0
  rateH _ _ _ := 0
  rateX _ _ _ := 0

/-- slipharden.cxx:148-334 `VocePerSystemHardening`. The derivatives by other variables are the inherited zero
(slipharden.cxx:43-51). -/
noncomputable def vocePer (c : Crys) (vars : Nat → N) (ini k sat m : Nat → ℝ) : Hard N where
  own := ownOf c.ntotal vars
  init := fillFlat c.ntotal vars ini
  tau g i h := h (vars (c.flat g i))
  dtau g i _ := Function.update 0 (vars (c.flat g i)) 1
  rate R h := fill c vars fun g i =>
    let q := c.flat g i
    k q * (1 - (h (vars q) - ini q) / (sat q - ini q)) ^ m q * R g i
  rateS _ dR h := fill c vars fun g i =>
    let q := c.flat g i
    (k q * (1 - (h (vars q) - ini q) / (sat q - ini q)) ^ m q) • dR g i
  rateH R dR h := fill c vars fun g i =>
    let q := c.flat g i
    let self : N → ℝ := Function.update 0 (vars q)
      (-k q * m q / (sat q - ini q) * (1 - (h (vars q) - ini q) / (sat q - ini q)) ^ (m q - 1) * R g i)
    fun a => if ownOf c.ntotal vars a then
      self a + k q * (1 - (h (vars q) - ini q) / (sat q - ini q)) ^ m q * dR g i a else 0
  rateX _ _ _ := 0

/-- slipharden.cxx:336-509 `FASlipHardening`. -/
noncomputable def faSlip (c : Crys) (vars : Nat → N) (k sat : Nat → ℝ) : Hard N where
  own := ownOf c.ntotal vars
  init := 0
  tau g i h := h (vars (c.flat g i))
  dtau g i _ := Function.update 0 (vars (c.flat g i)) 1
  rate R h := fill c vars fun g i =>
    let q := c.flat g i
    k q * (R g i - h (vars q) / sat q * |R g i|)
  rateS R dR h := fill c vars fun g i =>
    let q := c.flat g i
    (k q * (1 - h (vars q) / sat q * sgn (R g i))) • dR g i
  rateH R dR h := fill c vars fun g i =>
    let q := c.flat g i
    let self : N → ℝ := Function.update 0 (vars q) (-k q / sat q * |R g i|)
    fun a => if ownOf c.ntotal vars a then self a + k q * (1 - h (vars q) / sat q * sgn (R g i)) * dR g i a else 0
  rateX _ _ _ := 0

/-- slipharden.cxx:511-738 `GeneralLinearHardening`; `M` is the interaction matrix. -/
noncomputable def generalLinear (c : Crys) (vars : Nat → N) (M : Nat → Nat → ℝ) (tau0 : Nat → ℝ) (absval : Bool) :
    Hard N where
  own := ownOf c.ntotal vars
  init := fillFlat c.ntotal vars tau0
  tau g i h := h (vars (c.flat g i)) + tau0 (c.flat g i)
  dtau g i _ := Function.update 0 (vars (c.flat g i)) 1
  rate R _ :=
    let v : Nat → ℝ := fill c id R
    fillFlat c.ntotal vars fun i => ((List.range c.ntotal).map fun j => M i j * (if absval then |v j| else v j)).sum
  rateS R dR _ :=
    let v : Nat → Fin 6 → ℝ := fill c id fun g i => if absval then sgn (R g i) • dR g i else dR g i
    fillFlat c.ntotal vars fun i => ((List.range c.ntotal).map fun j => M i j • v j).sum
  rateH R dR _ := fillFlat c.ntotal vars fun i a =>
    if ownOf c.ntotal vars a then
      (c.systems.map fun p => M i (c.flat p.1 p.2) * (if absval then sgn (R p.1 p.2) else 1) * dR p.1 p.2 a).sum
    else 0
  rateX R dR _ := fillFlat c.ntotal vars fun i a =>
    (c.systems.map fun p => M i (c.flat p.1 p.2) * (if absval then sgn (R p.1 p.2) else 1) * dR p.1 p.2 a).sum

/-- slipharden.cxx:740-934 `SimpleLinearHardening`. The row of the matrix is the number of the system inside its
group (lines 814 and 829). -/
noncomputable def simpleLinear (c : Crys) (vars : Nat → N) (G : Nat → Nat → ℝ) (tau0 : Nat → ℝ) : Hard N where
  own := ownOf c.ntotal vars
  init := 0
  tau g i h := ((List.range c.ntotal).map fun j => G i j * h (vars j)).sum + tau0 (c.flat g i)
  dtau _ i _ := fillFlat c.ntotal vars fun j => G i j
  rate R _ := fillCount c vars fun g i => |R g i|
  rateS R dR _ := fillCount c vars fun g i => sgn (R g i) • dR g i
  rateH R dR _ := fillCount c vars fun g i a => if ownOf c.ntotal vars a then dR g i a * sgn (R g i) else 0
  rateX R dR _ := fillCount c vars fun g i a => sgn (R g i) * dR g i a

/-- slipharden.cxx:936-1229 `LANLTiModel`; `ns` is the number of slip systems and `C` the matrix of the twins. -/
noncomputable def lanlTi (c : Crys) (vars : Nat → N) (ns : Nat) (tau0 mu k1 k2 : Nat → ℝ) (C : Nat → Nat → ℝ)
    (X ini : ℝ) : Hard N where
  own := ownOf c.ntotal vars
  init := fillFlat c.ntotal vars fun i => if i < ns then ini else 0
  tau g i h :=
    if c.twin g then
      (c.systems.map fun p =>
        if c.twin p.1 then 0
        else if 0 < h (vars (c.flat p.1 p.2)) then
          C (c.flat g i - ns) (c.flat p.1 p.2) * c.burgers p.1 p.2 * h (vars (c.flat p.1 p.2)) *
            h (vars (c.flat p.1 p.2))
        else 0).sum * c.burgers g i * mu (c.flat g i) + tau0 (c.flat g i)
    else X * c.burgers g i * mu (c.flat g i) * h (vars (c.flat g i)) + tau0 (c.flat g i)
  dtau g i h :=
    if c.twin g then
      fill c vars fun g2 i2 =>
        if c.twin g2 then 0
        else if 0 < h (vars (c.flat g2 i2)) then
          2 * C (c.flat g i - ns) (c.flat g2 i2) * c.burgers g2 i2 * mu (c.flat g i) * c.burgers g i *
            h (vars (c.flat g2 i2))
        else 0
    else Function.update 0 (vars (c.flat g i)) (X * c.burgers g i * mu (c.flat g i))
  rate R h := fill c vars fun g i =>
    let q := c.flat g i
    if c.twin g then |R g i| else 0.5 * (k1 q - k2 q * h (vars q)) * |R g i|
  rateS R dR h := fill c vars fun g i =>
    let q := c.flat g i
    if c.twin g then sgn (R g i) • dR g i else (0.5 * (k1 q - k2 q * h (vars q)) * sgn (R g i)) • dR g i
  rateH R dR h := fill c vars fun g i =>
    let q := c.flat g i
    let self : N → ℝ := Function.update 0 (vars q) (-0.5 * k2 q * |R g i|)
    fun a =>
      if ownOf c.ntotal vars a then
        if c.twin g then dR g i a * sgn (R g i)
        else self a + 0.5 * (k1 q - k2 q * h (vars q)) * dR g i a * sgn (R g i)
      else 0
  rateX R dR h := fill c vars fun g i =>
    let q := c.flat g i
    fun a => if c.twin g then dR g i a * sgn (R g i) else 0.5 * (k1 q - k2 q * h (vars q)) * dR g i a

/-- sliprules.cxx:11-23 `sum_slip`. -/
noncomputable def sumSlip (c : Crys) (R : Nat → Nat → ℝ) : ℝ := (c.systems.map fun p => |R p.1 p.2|).sum

/-- sliprules.cxx:25-41 `d_sum_slip_d_stress`, and 43-60 `d_sum_slip_d_hist`. -/
noncomputable def dSumSlip {A : Type} (c : Crys) (R : Nat → Nat → ℝ) (dR : Nat → Nat → A → ℝ) : A → ℝ :=
  (c.systems.map fun p => sgn (R p.1 p.2) • dR p.1 p.2).sum

/-- slipharden.cxx:1551-1621 `PlasticSlipHardening` inside slipharden.cxx:1231-1376 `SlipSingleStrengthHardening`:
`f`, `df` are `hist_factor` and its derivative, `static` the sum of the static strength and the part of the Nye
tensor. -/
noncomputable def plastic (c : Crys) (var : N) (ini static : ℝ) (f df : ℝ → ℝ) : Hard N where
  own a := a = var
  init := Function.update 0 var ini
  tau _ _ h := h var + static
  dtau _ _ _ := Function.update 0 var 1
  rate R h := Function.update 0 var (f (h var) * sumSlip c R)
  rateS R dR h := Function.update 0 var (f (h var) • dSumSlip c R dR)
  rateH R dR h := Function.update 0 var fun a =>
    if a = var then f (h var) * dSumSlip c R dR a + df (h var) * sumSlip c R else 0
  rateX R dR h := Function.update 0 var fun a => f (h var) * dSumSlip c R dR a

/-- slipharden.cxx:1658-1683 `VoceSlipHardening`: initial variable, static strength and factor. -/
noncomputable def voce (c : Crys) (var : N) (tau0 nye sat b : ℝ) : Hard N :=
  plastic c var 0 (tau0 + nye) (fun x => b * (sat - x)) (fun _ => -b)

/-- slipharden.cxx:1739-1759 `LinearSlipHardening`. -/
noncomputable def linear (c : Crys) (var : N) (tau0 nye k1 : ℝ) : Hard N :=
  plastic c var 0 (tau0 + nye) (fun _ => k1) (fun _ => 0)

/-- slipharden.cxx:1685-1699 `VoceSlipHardening::use_nye`. A failed cast of a pointer does not throw, so the
coefficient counts as constant whatever it is. -/
noncomputable def voceUsesNye (k : ℝ → ℝ) : Prop := ¬ k 0 = 0

/-- slipharden.cxx:1360-1371 `nye_contribution` with slipharden.cxx:1701-1704 `nye_part` of `VoceSlipHardening`;
the norm of the Nye tensor is absent where the fixed variables do not hold one. -/
noncomputable def voceNye (k : ℝ → ℝ) (T : ℝ) (norm : Option ℝ) : ℝ :=
  open Classical in if voceUsesNye k then (norm.map fun x => k T * √x).getD 0 else 0

/-- A member of slipharden.cxx:1378-1549 `SumSlipSingleStrengthHardening`. -/
structure Member where
  ini : ℝ
  static : ℝ
  f : ℝ → ℝ
  df : ℝ → ℝ

/-- slipharden.cxx:1378-1549 `SumSlipSingleStrengthHardening` of plastic members with variables `vars 0`, ... -/
noncomputable def sumHard (c : Crys) (vars : Nat → N) (n : Nat) (ms : Nat → Member) : Hard N where
  own := ownOf n vars
  init := fillFlat n vars fun i => (ms i).ini
  tau _ _ h := ((List.range n).map fun i => h (vars i) + (ms i).static).sum
  dtau _ _ _ := fillFlat n vars fun _ => 1
  rate R h := fillFlat n vars fun i => (ms i).f (h (vars i)) * sumSlip c R
  rateS R dR h := fillFlat n vars fun i => (ms i).f (h (vars i)) • dSumSlip c R dR
  rateH R dR h := fillFlat n vars fun i a =>
    if ownOf n vars a then
      (ms i).f (h (vars i)) * dSumSlip c R dR a +
        (if a = vars i then (ms i).df (h (vars i)) * sumSlip c R else 0)
    else 0
  rateX R dR h := fillFlat n vars fun i a => (ms i).f (h (vars i)) * dSumSlip c R dR a

/-! ## Slip rules -/

/-- sliprules.cxx:67-245 `SlipMultiStrengthSlipRule` with the scalar rule of its subclass: rate, derivative by the
resolved shear and by the strengths. -/
structure Rule (N : Type) (m : Nat) where
  hard : Fin m → Hard N
  sslip : ℝ → (Fin m → ℝ) → ℝ
  dTau : ℝ → (Fin m → ℝ) → ℝ
  dStr : ℝ → (Fin m → ℝ) → Fin m → ℝ

/-- sliprules.cxx:129-131, 146-149 and 164-167. The inner loop variable has the name of the system, so strength `k`
is asked for system `k` of the group. -/
def Rule.strengths {m : Nat} (r : Rule N m) (g : Nat) (h : N → ℝ) : Fin m → ℝ := fun k => (r.hard k).tau g k h

/-- sliprules.cxx:122-137 `slip`. -/
noncomputable def Rule.slip {m : Nat} (r : Rule N m) (c : Crys) (s : Fin 6 → ℝ) (h : N → ℝ) (g i : Nat) : ℝ :=
  if c.twin g ∧ c.shear g i s < 0 then 0 else r.sslip (c.shear g i s) (r.strengths g h)

/-- sliprules.cxx:139-155 `d_slip_d_s`. -/
noncomputable def Rule.slipS {m : Nat} (r : Rule N m) (c : Crys) (s : Fin 6 → ℝ) (h : N → ℝ) (g i : Nat) :
    Fin 6 → ℝ :=
  if c.twin g ∧ c.shear g i s < 0 then 0 else r.dTau (c.shear g i s) (r.strengths g h) • c.M g i

/-- The strength that holds a variable: `add_union` of histories with distinct names. -/
def Rule.owner {m : Nat} (r : Rule N m) (a : N) : Option (Fin m) := (List.finRange m).find? fun k => (r.hard k).own a

/-- sliprules.cxx:157-182 `d_slip_d_h`. -/
noncomputable def Rule.slipH {m : Nat} (r : Rule N m) (c : Crys) (s : Fin 6 → ℝ) (h : N → ℝ) (g i : Nat) : N → ℝ :=
  if c.twin g ∧ c.shear g i s < 0 then 0
  else fun a => ((r.owner a).map fun k =>
    r.dStr (c.shear g i s) (r.strengths g h) k * (r.hard k).dtau g k h a).getD 0

/-- sliprules.cxx:184-193 `hist_rate`. -/
noncomputable def Rule.rate {m : Nat} (r : Rule N m) (c : Crys) (s : Fin 6 → ℝ) (h : N → ℝ) (a : N) : ℝ :=
  ((r.owner a).map fun k => (r.hard k).rate (r.slip c s h) h a).getD 0

/-- sliprules.cxx:195-204 `d_hist_rate_d_stress`. -/
noncomputable def Rule.rateS {m : Nat} (r : Rule N m) (c : Crys) (s : Fin 6 → ℝ) (h : N → ℝ) (a : N) : Fin 6 → ℝ :=
  ((r.owner a).map fun k => (r.hard k).rateS (r.slip c s h) (r.slipS c s h) h a).getD 0

/-- sliprules.cxx:206-245 `d_hist_rate_d_hist`. -/
noncomputable def Rule.rateH {m : Nat} (r : Rule N m) (c : Crys) (s : Fin 6 → ℝ) (h : N → ℝ) (a b : N) : ℝ :=
  ((r.owner a).bind fun k => (r.owner b).map fun l =>
    if k = l then (r.hard k).rateH (r.slip c s h) (r.slipH c s h) h a b
    else (r.hard k).rateX (r.slip c s h) (r.slipH c s h) h a b).getD 0

/-- sliprules.cxx:104-120 `strength`: the mean over strengths and systems; not a number without systems. -/
noncomputable def Rule.strength {m : Nat} (r : Rule N m) (c : Crys) (h : N → ℝ) : Option ℝ :=
  let n := ((List.finRange m).map fun _ => (c.systems.map fun _ => (1 : ℝ)).sum).sum
  if n = 0 then none
  else some (((List.finRange m).map fun k => (c.systems.map fun p => (r.hard k).tau p.1 p.2 h).sum).sum / n)

/-- sliprules.cxx:409-436 `PowerLawSlipRule`. -/
noncomputable def powerLaw (hard : Hard N) (g0 n : ℝ) : Rule N 1 where
  hard _ := hard
  sslip tau s := g0 * tau / s 0 * |tau / s 0| ^ (n - 1)
  dTau tau s := g0 * n * |tau / s 0| ^ (n - 1) / s 0
  dStr tau s _ := -n * g0 * tau * |tau| ^ (n - 1) / s 0 ^ (n + 1)

/-- sliprules.cxx:290-348 `KinematicPowerLawSlipRule`: back strength, isotropic strength, flow resistance. -/
noncomputable def kinematicPowerLaw (back iso flow : Hard N) (g0 n : ℝ) : Rule N 3 where
  hard := ![back, iso, flow]
  sslip tau s :=
    if |tau - s 0| - s 1 ≤ 0 then 0 else sgn (tau - s 0) * |g0 * ((|tau - s 0| - s 1) / s 2) ^ n|
  dTau tau s := if |tau - s 0| - s 1 ≤ 0 then 0 else g0 * n * ((|tau - s 0| - s 1) / s 2) ^ (n - 1) / s 2
  dStr tau s :=
    if |tau - s 0| - s 1 ≤ 0 then 0
    else ![g0 * n * ((|tau - s 0| - s 1) / s 2) ^ n / (s 1 - |tau - s 0|),
      -(sgn (tau - s 0) * |g0 * n * ((|tau - s 0| - s 1) / s 2) ^ (n - 1) / s 2|),
      -(sgn (tau - s 0) * |g0 * n * ((|tau - s 0| - s 1) / s 2) ^ n / s 2|)]

end Neml.Slip
