import Verif.Model.Slip
import Verif.Model.Crystal
import Mathlib.Data.Matrix.Block

/-!
# Crystal inelasticity, kinematics and the residual of a crystal substep

Models of /repo/src/cp/inelasticity.cxx, of `StandardKinematicModel` in /repo/src/cp/kinematics.cxx and of `RJ` and
`calc_tangents_` in /repo/src/cp/singlecrystal.cxx, at one temperature and orientation.

Simplifications:
* A history is a function from names `N`; the derivative of a history variable is one entry per name. The order of
  the names in the flat arrays is the same in all of them (history.cxx, properties C01-C08), so blocks are matrices
  with rows and columns `N`.
* Matrix inverses are exact.
-/

namespace Neml.Kinematics

open Matrix Neml.Mandel Neml.Rotation Neml.Slip

variable {N : Type}

/-- The interface of cp/inelasticity.h:18-101. -/
structure Inel (N : Type) where
  /-- `d_p` -/
  dp : (Fin 6 → ℝ) → (N → ℝ) → Fin 6 → ℝ
  /-- `d_d_p_d_stress` -/
  dpS : (Fin 6 → ℝ) → (N → ℝ) → Matrix (Fin 6) (Fin 6) ℝ
  /-- `d_d_p_d_history`: one column for each variable -/
  dpH : (Fin 6 → ℝ) → (N → ℝ) → Matrix (Fin 6) N ℝ
  /-- `history_rate` -/
  rate : (Fin 6 → ℝ) → (N → ℝ) → N → ℝ
  /-- `d_history_rate_d_stress` -/
  rateS : (Fin 6 → ℝ) → (N → ℝ) → Matrix N (Fin 6) ℝ
  /-- `d_history_rate_d_history` -/
  rateH : (Fin 6 → ℝ) → (N → ℝ) → Matrix N N ℝ
  /-- `w_p` -/
  wp : (Fin 6 → ℝ) → (N → ℝ) → Fin 3 → ℝ
  /-- `d_w_p_d_stress` -/
  wpS : (Fin 6 → ℝ) → (N → ℝ) → Matrix (Fin 3) (Fin 6) ℝ
  /-- `d_w_p_d_history` -/
  wpH : (Fin 6 → ℝ) → (N → ℝ) → Matrix (Fin 3) N ℝ

/-- inelasticity.cxx:18-139 `NoInelasticity`. -/
def noInel : Inel N := ⟨0, 0, 0, 0, 0, 0, 0, 0, 0⟩

/-- tensors.cxx:1476-1485 and 1904-1913 `douter`. -/
def douter {m n : Type} (a : m → ℝ) (b : n → ℝ) : Matrix m n ℝ := of fun i j => a i * b j

/-- inelasticity.cxx:188-328 `AsaroInelasticity`. -/
noncomputable def asaro [DecidableEq N] {m : Nat} (c : Crys) (r : Rule N m) : Inel N where
  dp s h := (c.systems.map fun p => r.slip c s h p.1 p.2 • c.M p.1 p.2).sum
  dpS s h := (c.systems.map fun p => douter (c.M p.1 p.2) (r.slipS c s h p.1 p.2)).sum
  dpH s h := (c.systems.map fun p => douter (c.M p.1 p.2) (r.slipH c s h p.1 p.2)).sum
  rate s h := r.rate c s h
  rateS s h := of (r.rateS c s h)
  rateH s h := of (r.rateH c s h)
  wp s h := (c.systems.map fun p => if c.twin p.1 then 0 else r.slip c s h p.1 p.2 • c.W p.1 p.2).sum
  wpS s h := (c.systems.map fun p => if c.twin p.1 then 0 else douter (c.W p.1 p.2) (r.slipS c s h p.1 p.2)).sum
  wpH s h := (c.systems.map fun p => if c.twin p.1 then 0 else douter (c.W p.1 p.2) (r.slipH c s h p.1 p.2)).sum

/-- include/math/tensors.h:386-395 `id_dev`. -/
noncomputable def idDev : Matrix (Fin 6) (Fin 6) ℝ :=
  !![1 - 1/3, -(1/3), -(1/3), 0, 0, 0;
     -(1/3), 1 - 1/3, -(1/3), 0, 0, 0;
     -(1/3), -(1/3), 1 - 1/3, 0, 0, 0;
     0, 0, 0, 1, 0, 0;
     0, 0, 0, 0, 1, 0;
     0, 0, 0, 0, 0, 1]

/-- tensors.cxx:717-720 `dev`. -/
noncomputable def dev (s : Fin 6 → ℝ) : Fin 6 → ℝ := s - ((s 0 + s 1 + s 2) / 3) • ![1, 1, 1, 0, 0, 0]

/-- inelasticity.cxx:480-483 `seq_`; the norm of tensors.cxx:722-726 is that of the Mandel components (C47). -/
noncomputable def seq (s : Fin 6 → ℝ) : ℝ := √(3 / 2) * √(dev s ⬝ᵥ dev s)

/-- inelasticity.cxx:379-478 `PowerLawInelasticity`; `eps` is the machine epsilon. -/
noncomputable def powerInel (A n eps : ℝ) : Inel N where
  dp s _ := if seq s < eps then 0 else (A * seq s ^ (n - 1)) • dev s
  dpS s _ :=
    let q := if seq s < eps then eps else seq s
    let dir := q⁻¹ • dev s
    let rate := A * q ^ n
    let drate := A * n * q ^ (n - 1)
    idDev * ((3 / 2 * (drate - rate / q)) • douter dir dir + (rate / q) • (1 : Matrix (Fin 6) (Fin 6) ℝ))
  dpH _ _ := 0
  rate _ _ := 0
  rateS _ _ := 0
  rateH _ _ := 0
  wp _ _ := 0
  wpS _ _ := 0
  wpH _ _ := 0

/-- inelasticity.cxx:539-653 `CombinedInelasticity`. The histories of the parts are joined; the model covers parts of
which at most one is an `AsaroInelasticity`, so that joining is adding (`Model/CombinedInel` has the others). -/
noncomputable def combined (ms : List (Inel N)) : Inel N where
  dp s h := (ms.map fun m => m.dp s h).sum
  dpS s h := (ms.map fun m => m.dpS s h).sum
  dpH s h := (ms.map fun m => m.dpH s h).sum
  rate s h := (ms.map fun m => m.rate s h).sum
  rateS s h := (ms.map fun m => m.rateS s h).sum
  rateH s h := (ms.map fun m => m.rateH s h).sum
  wp s h := (ms.map fun m => m.wp s h).sum
  wpS s h := (ms.map fun m => m.wpS s h).sum
  wpH s h := (ms.map fun m => m.wpH s h).sum

/-! ## Kinematics -/

/-- `Symmetric(e*O - O*e)` as in kinematics.cxx:124, with the conversions of tensors.cxx:646-656 and 858-865. -/
noncomputable def symComm (e : Fin 6 → ℝ) (O : Fin 3 → ℝ) : Fin 6 → ℝ :=
  symOfFull (usym e * uskew O - uskew O * usym e)

/-- `Skew(e*dp - dp*e)` as in kinematics.cxx:257. -/
noncomputable def skewComm (e d : Fin 6 → ℝ) : Fin 3 → ℝ :=
  Lattice.skewOfFull (usym e * usym d - usym d * usym e)

/-- kinematics.cxx `StandardKinematicModel` at a temperature and orientation: `emodel_->C(T,Q)`, `emodel_->S(T,Q)`
and the inelastic model. -/
structure Kin (N : Type) where
  C : Matrix (Fin 6) (Fin 6) ℝ
  S : Matrix (Fin 6) (Fin 6) ℝ
  inel : Inel N

/-- kinematics.cxx:246-260 `spin`. -/
noncomputable def Kin.spin (k : Kin N) (s : Fin 6 → ℝ) (w : Fin 3 → ℝ) (h : N → ℝ) : Fin 3 → ℝ :=
  w - k.inel.wp s h - skewComm (k.S *ᵥ s) (k.inel.dp s h)

/-- kinematics.cxx:112-127 `stress_rate`; `espin` is the spin stored by `decouple` (lines 93-110). -/
noncomputable def Kin.stressRate (k : Kin N) (espin : Fin 3 → ℝ) (s d : Fin 6 → ℝ) (h : N → ℝ) : Fin 6 → ℝ :=
  k.C *ᵥ (d - k.inel.dp s h - symComm (k.S *ᵥ s) (espin + k.inel.wp s h))

/-- kinematics.cxx:129-150 `d_stress_rate_d_stress`. -/
noncomputable def Kin.stressRateS (k : Kin N) (espin : Fin 3 → ℝ) (s : Fin 6 → ℝ) (h : N → ℝ) :
    Matrix (Fin 6) (Fin 6) ℝ :=
  -k.C * (k.inel.dpS s h + symSymSkew k.S (espin + k.inel.wp s h) + symSkewSym (k.S *ᵥ s) (k.inel.wpS s h))

/-- kinematics.cxx:170-190 `d_stress_rate_d_history`, one column for each variable. -/
noncomputable def Kin.stressRateH (k : Kin N) (s : Fin 6 → ℝ) (h : N → ℝ) : Matrix (Fin 6) N ℝ :=
  of fun i a => ((-k.C) *ᵥ ((fun j => k.inel.dpH s h j a) + symComm (k.S *ᵥ s) fun j => k.inel.wpH s h j a)) i

/-- kinematics.cxx:152-159 `d_stress_rate_d_d` and lines 11-18. -/
def Kin.stressRateD (k : Kin N) : Matrix (Fin 6) (Fin 6) ℝ := k.C

/-- kinematics.cxx:161-168 `d_stress_rate_d_w` (zero) plus 235-244 `d_stress_rate_d_w_decouple`. -/
noncomputable def Kin.stressRateW (k : Kin N) (s : Fin 6 → ℝ) : Matrix (Fin 6) (Fin 3) ℝ :=
  (-2 : ℝ) • specialSymSym (k.S *ᵥ s) k.C

/-! ## Residual and tangent -/

/-- cp/singlecrystal.h:22-50 `SCTrialState`: rates, values at the start and step size of a substep. -/
structure Step (N : Type) where
  d : Fin 6 → ℝ
  Sn : Fin 6 → ℝ
  hn : N → ℝ
  dt : ℝ
  espin : Fin 3 → ℝ

/-- singlecrystal.cxx:359-381, the first six equations of `RJ`. -/
noncomputable def resS (k : Kin N) (st : Step N) (s : Fin 6 → ℝ) (h : N → ℝ) : Fin 6 → ℝ :=
  s - st.Sn - st.dt • k.stressRate st.espin s st.d h

/-- singlecrystal.cxx:382-384, the others. -/
noncomputable def resH (k : Kin N) (st : Step N) (s : Fin 6 → ℝ) (h : N → ℝ) : N → ℝ :=
  fun a => h a - st.hn a - k.inel.rate s h a * st.dt

/-- singlecrystal.cxx:385-428, the four blocks of `J`. -/
noncomputable def J11 (k : Kin N) (st : Step N) (s : Fin 6 → ℝ) (h : N → ℝ) : Matrix (Fin 6) (Fin 6) ℝ :=
  -(st.dt • k.stressRateS st.espin s h) + 1

noncomputable def J12 (k : Kin N) (st : Step N) (s : Fin 6 → ℝ) (h : N → ℝ) : Matrix (Fin 6) N ℝ :=
  -(st.dt • k.stressRateH s h)

noncomputable def J21 (k : Kin N) (st : Step N) (s : Fin 6 → ℝ) (h : N → ℝ) : Matrix N (Fin 6) ℝ :=
  -(st.dt • k.inel.rateS s h)

noncomputable def J22 [DecidableEq N] (k : Kin N) (st : Step N) (s : Fin 6 → ℝ) (h : N → ℝ) : Matrix N N ℝ :=
  -(st.dt • k.inel.rateH s h) + 1

/-- singlecrystal.cxx:557-575: `J11 - J12 J22⁻¹ J21`. -/
noncomputable def schur [DecidableEq N] [Fintype N] (k : Kin N) (st : Step N) (s : Fin 6 → ℝ) (h : N → ℝ) :
    Matrix (Fin 6) (Fin 6) ℝ :=
  J11 k st s h - J12 k st s h * (J22 k st s h)⁻¹ * J21 k st s h

/-- singlecrystal.cxx:582-613, 653-671: the tangent by the strain. The derivative of the history rates by the strain is zero
(kinematics.cxx:213-220 and 29-36), so the intermediate `I1` is `sd`. -/
noncomputable def tangentA [DecidableEq N] [Fintype N] (k : Kin N) (st : Step N) (s : Fin 6 → ℝ) (h : N → ℝ) :
    Matrix (Fin 6) (Fin 6) ℝ :=
  (schur k st s h)⁻¹ * k.stressRateD

/-- singlecrystal.cxx:617-646, 671-682: the tangent by the spin. -/
noncomputable def tangentB [DecidableEq N] [Fintype N] (k : Kin N) (st : Step N) (s : Fin 6 → ℝ) (h : N → ℝ) :
    Matrix (Fin 6) (Fin 3) ℝ :=
  (schur k st s h)⁻¹ * k.stressRateW s

/-- singlecrystal.cxx:196-208, 233-260: the rates of a step with increments `D1 - D0` and `W1 - W0`, and the substep of
the fraction `f` that starts at `Sn`, `hn`; the spin is decoupled at the stress `s0`, `h0`. -/
noncomputable def substep (k : Kin N) (D1 D0 : Fin 6 → ℝ) (W1 W0 : Fin 3 → ℝ) (dt f : ℝ) (Sn : Fin 6 → ℝ) (hn : N → ℝ)
    (s0 : Fin 6 → ℝ) : Step N where
  d := dt⁻¹ • (D1 - D0)
  Sn := Sn
  hn := hn
  dt := dt * f
  espin := k.spin s0 (dt⁻¹ • (W1 - W0)) hn

end Neml.Kinematics
