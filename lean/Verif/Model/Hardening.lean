import Verif.Model.FlowRule
import Mathlib.Analysis.SpecialFunctions.Exp

/-!
# Model of src/hardening.cxx

The history of a Chaboche rule with `n` backstresses is indexed by `Unit ⊕ (Fin n × Fin 6)`: `inl ()`
is `alpha[0]`, `inr (i, j)` is `alpha[1+i*6+j]`. Coefficients are functions of temperature.
-/

namespace Neml.Flow

open Matrix Neml.Mandel

/-- hardening.h `IsotropicHardeningRule`: one history variable, one hardening variable. -/
structure Iso where
  q : ℝ → ℝ → ℝ
  dq : ℝ → ℝ → ℝ

/-- An isotropic rule as a hardening rule. -/
def Iso.toHardening (r : Iso) : Hardening Unit Unit where
  q a T := fun _ => r.q (a ()) T
  dq_da a T := Matrix.of fun _ _ => r.dq (a ()) T

/-- hardening.cxx:63-75 `LinearIsotropicHardeningRule`. -/
def linearIso (s0 K : ℝ → ℝ) : Iso where
  q a T := -s0 T - K T * a
  dq _ T := -K T

/-- hardening.cxx:116-126 `InterpolatedIsotropicHardeningRule`: `f`, `f'` are value and derivative of
the interpolation function. -/
def interpolatedIso (f f' : ℝ → ℝ) : Iso where
  q a _ := -f a
  dq a _ := -f' a

/-- hardening.cxx:161-173 `VoceIsotropicHardeningRule`. -/
noncomputable def voceIso (s0 R d : ℝ → ℝ) : Iso where
  q a T := -s0 T - R T * (1 - Real.exp (-d T * a))
  dq a T := -d T * R T * Real.exp (-d T * a)

/-- hardening.cxx:222-238 `PowerLawIsotropicHardeningRule`. -/
noncomputable def powerLawIso (s0 A n : ℝ → ℝ) : Iso where
  q a T := -s0 T - A T * a ^ n T
  dq a T := if a = 0 then -10 ^ 15 else -A T * n T * a ^ (n T - 1)

/-- hardening.cxx:271-292 `CombinedIsotropicHardeningRule`: the loops over the rules. -/
def combinedIso (rules : List Iso) : Iso where
  q a T := rules.foldl (fun acc r => acc + r.q a T) 0
  dq a T := rules.foldl (fun acc r => acc + r.dq a T) 0

/-- hardening.cxx:342-360 `LinearKinematicHardeningRule`. -/
def linearKin (H : ℝ → ℝ) : Hardening (Fin 6) (Fin 6) where
  q a T := fun i => -H T * a i
  dq_da _ T := Matrix.of fun i j => if i = j then -H T else 0

/-- hardening.cxx:406-440 `CombinedHardeningRule`. -/
def combinedHardening (iso : Iso) (kin : Hardening (Fin 6) (Fin 6)) : Hardening Q7 Q7 where
  q a T := Sum.elim (fun _ => iso.q (a (.inl ())) T) (kin.q (fun i => a (.inr i)) T)
  dq_da a T := fromBlocks (Matrix.of fun _ _ => iso.dq (a (.inl ())) T) 0 0
    (kin.dq_da (fun i => a (.inr i)) T)

/-- hardening.h `GammaModel`. -/
structure Gamma where
  gamma : ℝ → ℝ → ℝ
  dgamma : ℝ → ℝ → ℝ

/-- hardening.cxx:531-537 `ConstantGamma`. -/
def constantGamma (g : ℝ → ℝ) : Gamma := ⟨fun _ T => g T, fun _ _ => 0⟩

/-- hardening.cxx:576-582 `SatGamma`. -/
noncomputable def satGamma (gs g0 beta : ℝ → ℝ) : Gamma where
  gamma ep T := gs T + (g0 T - gs T) * Real.exp (-beta T * ep)
  dgamma ep T := beta T * (gs T - g0 T) * Real.exp (-beta T * ep)

/-- Index set of the history of a Chaboche rule. -/
abbrev CH (n : Nat) := Unit ⊕ (Fin n × Fin 6)

/-- One backstress. -/
def back {n : Nat} (a : CH n → ℝ) (i : Fin n) : Fin 6 → ℝ := fun j => a (.inr (i, j))

/-- hardening.cxx:948-957, 1331-1340 `backstress_`. -/
def backstress {n : Nat} (a : CH n → ℝ) : Fin 6 → ℝ := fun j => ∑ i, a (.inr (i, j))

/-- hardening.cxx:692-696: the deviator of the stress plus the total backstress. -/
noncomputable def effStress {n : Nat} (s : Fin 6 → ℝ) (a : CH n → ℝ) : Fin 6 → ℝ :=
  fun j => devVec s j + backstress a j

/-- The isotropic entries of a Chaboche rule: hardening variable, rate with plastic strain, rate with
time, each with its derivative. Arguments are `alpha[0]` and the temperature. -/
structure ChabIso where
  q : ℝ → ℝ → ℝ
  dq : ℝ → ℝ → ℝ
  h : ℝ → ℝ → ℝ
  dh : ℝ → ℝ → ℝ
  ht : ℝ → ℝ → ℝ
  dht : ℝ → ℝ → ℝ

/-- hardening.cxx:657-957 `Chaboche` and 1029-1340 `ChabocheVoceRecovery`: the two classes share the
code of the backstresses. `rec i T x` is the factor of the static recovery of backstress `i` at
length `x`, `ex` its exponent. -/
noncomputable def chabBase {n : Nat} (eps : ℝ) (iso : ChabIso) (c dc : Fin n → ℝ → ℝ)
    (gm : Fin n → Gamma) (rec : Fin n → ℝ → ℝ → ℝ) (ex : Fin n → ℝ → ℝ) :
    NonAssoc (Fin 6) (CH n) Q7 where
  q a T := Sum.elim (fun _ => iso.q (a (.inl ())) T) (backstress a)
  dq_da a T := Matrix.of fun r k => match r, k with
    | .inl _, .inl _ => iso.dq (a (.inl ())) T
    | .inr j, .inr (_, l) => if j = l then 1 else 0
    | _, _ => 0
  h :=
    { v := fun s a T => Sum.elim (fun _ => iso.h (a (.inl ())) T) fun (i, j) =>
        -2 / 3 * c i T * normalize eps (effStress s a) j -
          √(2 / 3) * (gm i).gamma (a (.inl ())) T * a (.inr (i, j))
      ds := fun s a T =>
        let n := normalize eps (effStress s a)
        let nv := norm2 (effStress s a)
        let nn := if nv ≠ 0 then (1 / nv) • (devProj - vecMulVec n n) else devProj - vecMulVec n n
        Matrix.of fun r k => match r with
          | .inl _ => 0
          | .inr (i, j) => -2 / 3 * c i T * nn j k
      da := fun s a T =>
        let n := normalize eps (effStress s a)
        let nv := norm2 (effStress s a)
        let ss := if nv ≠ 0 then (1 / nv) • (1 - vecMulVec n n) else 1 - vecMulVec n n
        Matrix.of fun r k => match r, k with
          | .inl _, .inl _ => iso.dh (a (.inl ())) T
          | .inl _, .inr _ => 0
          | .inr (i, j), .inl _ => -√(2 / 3) * (gm i).dgamma (a (.inl ())) T * a (.inr (i, j))
          | .inr (i, j), .inr (i', j') =>
            (if (i, j) = (i', j') then -√(2 / 3) * (gm i).gamma (a (.inl ())) T else 0) -
              2 / 3 * c i T * ss j j' }
  h_time :=
    { v := fun _ a T => Sum.elim (fun _ => iso.ht (a (.inl ())) T) fun (i, j) =>
        -rec i T (norm2 (back a i)) * a (.inr (i, j))
      ds := fun _ _ _ => 0
      da := fun _ a T => Matrix.of fun r k => match r, k with
        | .inl _, .inl _ => iso.dht (a (.inl ())) T
        | .inr (i, j), .inr (i', j') =>
          if i = i' then
            -rec i T (norm2 (back a i)) * ((if j = j' then 1 else 0) +
              (ex i T - 1) * (normalize eps (back a i) j * normalize eps (back a i) j'))
          else 0
        | _, _ => 0 }
  h_temp :=
    { v := fun _ a T => Sum.elim (fun _ => 0) fun (i, j) =>
        if c i T = 0 then 0 else -√(2 / 3) * dc i T / c i T * a (.inr (i, j))
      ds := fun _ _ _ => 0
      da := fun _ _ T => Matrix.of fun r k => match r, k with
        | .inr (i, j), .inr (i', j') =>
          if (i, j) = (i', j') then if c i T = 0 then 0 else -√(2 / 3) * dc i T / c i T else 0
        | _, _ => 0 }

/-- hardening.cxx:657-957 `Chaboche`. The switch `noniso` is stored (line 608) and not used. -/
noncomputable def chaboche {n : Nat} (_noniso : Bool) (eps : ℝ) (iso : Iso) (c dc : Fin n → ℝ → ℝ)
    (gm : Fin n → Gamma) (A ex : Fin n → ℝ → ℝ) : NonAssoc (Fin 6) (CH n) Q7 :=
  chabBase eps ⟨iso.q, iso.dq, fun _ _ => √(2 / 3), fun _ _ => 0, fun _ _ => 0, fun _ _ => 0⟩ c dc gm
    (fun i T x => A i T * √(3 / 2) * x ^ (ex i T - 1)) ex

/-- hardening.cxx:1029-1340 `ChabocheVoceRecovery`. `copysign` gives the magnitude of its first
argument the sign of the second. The switch `noniso` is stored (line 974) and not used. -/
noncomputable def chabocheVoce {n : Nat} (_noniso : Bool) (eps : ℝ) (s0 theta0 Rmax Rmin r1 r2 : ℝ → ℝ)
    (c dc : Fin n → ℝ → ℝ) (gm : Fin n → Gamma) (A ex : Fin n → ℝ → ℝ) :
    NonAssoc (Fin 6) (CH n) Q7 :=
  chabBase eps
    { q := fun a T => -(s0 T + a)
      dq := fun _ _ => -1
      h := fun a T => theta0 T * (1 - a / Rmax T) * √(2 / 3)
      dh := fun _ T => -theta0 T / Rmax T * √(2 / 3)
      ht := fun a T => r1 T * (Rmin T - a) * |Rmin T - a| ^ (r2 T - 1)
      dht := fun a T =>
        let m := |r1 T * r2 T * |Rmin T - a| ^ (r2 T - 1)|
        if 0 ≤ Rmin T - a then m else -m }
    c dc gm (fun i T x => A i T * (√(3 / 2) * x) ^ (ex i T - 1)) ex

end Neml.Flow
