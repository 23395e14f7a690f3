import Mathlib.Data.Real.Basic
import Mathlib.Data.List.Basic
import Mathlib.Analysis.SpecialFunctions.Pow.Real

/-!
# Model of how src/cp/inelasticity.cxx joins the variables and derivatives of several inelastic models

`Model/Kinematics` adds the histories of the parts of a `CombinedInelasticity`. This file models what the code does: it puts
them one after the other with `add_union` (src/history.cxx:86-101), and the crystal model reads some of them by name and some by
position. All entries of one history have the same type here, so places are counted in entries. Rates and derivatives are values
at one stress, history and temperature. A place beyond the end is `none`.
-/

namespace Neml.CombinedInel

/-- A history whose entries have one type: names in order, the map of places, the entries (include/history.h:242-251). -/
structure Flat (N V : Type) where
  order : List N
  loc : N → Option ℕ
  data : List V

variable {N M V : Type} [DecidableEq N]

/-- history.cxx:8-13 `History()`. -/
def Flat.empty : Flat N V := ⟨[], fun _ => none, []⟩

/-- A history built with `add`, one variable after the other (history.cxx:157-164; the first entry of a name wins). -/
def Flat.ofNames (l : List N) (f : N → V) : Flat N V :=
  ⟨l, fun x => if x ∈ l then some (l.idxOf x) else none, l.map f⟩

/-- history.cxx:94-96: the loop that moves the places of the names of the other history. -/
def shift (loc : N → Option ℕ) (names : List N) (offset : ℕ) : N → Option ℕ :=
  names.foldl (fun f v => fun x => if x = v then some ((f x).getD 0 + offset) else f x) loc

/-- history.cxx:86-101 `add_union`: names already present keep their entry in the map before the places are moved. -/
def Flat.union (a b : Flat N V) : Flat N V :=
  { order := a.order ++ b.order
    loc := shift (fun x => (a.loc x).orElse fun _ => b.loc x) b.order a.data.length
    data := a.data ++ b.data }

/-- include/history.h:121-127 `get`: through the map of places. -/
def Flat.get (a : Flat N V) (x : N) : Option V := (a.loc x).bind fun i => a.data[i]?

/-- `rawptr()[i]`. -/
def Flat.raw (a : Flat N V) (i : ℕ) : Option V := a.data[i]?

/-- What an inelastic model returns (include/cp/inelasticity.h): its variables, their rates, the derivatives of the rates by
stress and by variables, and the derivative of the plastic strain rate by the variables, which takes the names of the history it
is called with. `V` is the type of second order tensors. -/
structure Part (N V : Type) where
  vars : List N
  rate : Flat N ℝ
  rateS : Flat N V
  rateH : Flat (N × N) ℝ
  dpH : List N → Flat N V
  strength : ℝ

/-- inelasticity.cxx:171-186, 222-269 `AsaroInelasticity`: rates and their derivatives are those of the slip rule, over the
variables of the rule (slipharden.cxx:138-146 and the others: `blank_hist().derivative<History>()`); the derivative of the
plastic strain rate has an entry for every variable of the history it is called with (line 227). -/
def asaro (vars : List N) (rate : N → ℝ) (rateS : N → V) (rateH : N × N → ℝ) (dpH : N → V) (strength : ℝ) : Part N V where
  vars := vars
  rate := .ofNames vars rate
  rateS := .ofNames vars rateS
  rateH := .ofNames (vars.flatMap fun a => vars.map fun b => (a, b)) rateH
  dpH all := .ofNames all dpH
  strength := strength

/-- inelasticity.cxx:38-140 `NoInelasticity`. -/
def none' : Part N V := ⟨[], .empty, .empty, .empty, fun _ => .empty, 0⟩

/-- inelasticity.cxx:362-476 `PowerLawInelasticity`, its variables and strength. -/
noncomputable def powerLaw (A n : ℝ) : Part N V := ⟨[], .empty, .empty, .empty, fun _ => .empty, A ^ (-1 / n)⟩

/-- inelasticity.cxx:511-537, 564-610 `CombinedInelasticity`. -/
noncomputable def combined (ps : List (Part N V)) : Part N V where
  vars := ps.flatMap fun p => p.vars
  rate := ps.foldl (fun h p => h.union p.rate) .empty
  rateS := ps.foldl (fun h p => h.union p.rateS) .empty
  rateH := ps.foldl (fun h p => h.union p.rateH) .empty
  dpH all := ps.foldl (fun h p => h.union (p.dpH all)) .empty
  strength := ps.foldl (fun m p => open Classical in if p.strength > m then p.strength else m) 0

/-- singlecrystal.cxx:382-384 and 414-418: the residual and the derivative by the stress read the rates by position. -/
def readRate (p : Part N V) (i : ℕ) : Option ℝ × Option V := (p.rate.raw i, p.rateS.raw i)

/-- singlecrystal.cxx:419-423: the derivative of rate `i` by variable `j`. -/
def readRateH (p : Part N V) (i j : ℕ) : Option ℝ := p.rateH.raw (i * p.vars.length + j)

/-- kinematics.cxx:177-185: the derivative of the plastic strain rate by a variable of the model, read by name. -/
def readDpH (p : Part N V) (x : N) : Option V := (p.dpH p.vars).get x

end Neml.CombinedInel
