import Verif.Model.Kinematics

/-!
# Damage of crystals

Models of /repo/src/math/projections.cxx, /repo/src/cp/crystaldamage.cxx and of `DamagedStandardKinematicModel` in
/repo/src/cp/kinematics.cxx:284-655, at one temperature and orientation.

Simplifications:
* A history of the damaged crystal is a function from `N ⊕ D`, where `N` are the names of the inelastic model and `D`
  those of the damage model; the lists of names that split, join and reorder histories are the bookkeeping of C01-C08.
* Matrix inverses are exact. The code throws on a singular matrix, theorems ask for a determinant that is not zero.
* `pow` of zero with a negative exponent is infinite in the code. The value of the transformation at damage zero is
  written out; its derivative there is only modelled for `beta ≥ 1`.
-/

namespace Neml.CrystalDamage

open Matrix Neml.Mandel Neml.Rotation Neml.Slip Neml.Kinematics

/-! ## Projections -/

/-- math/projections.cxx:5-20 `normal_projection`. -/
def normalFull (n : Fin 3 → ℝ) (i j k l : Fin 3) : ℝ := n k * n l * n i * n j

/-- math/projections.cxx:22-67 `normal_projection_ss`, the entries as written. -/
noncomputable def normalSS (n : Fin 3 → ℝ) : Matrix (Fin 6) (Fin 6) ℝ :=
  !![n 0 * n 0 * n 0 * n 0,
       n 0 * n 0 * n 1 * n 1,
       n 0 * n 0 * n 2 * n 2,
       √2 * n 0 * n 0 * n 1 * n 2,
       √2 * n 0 * n 0 * n 0 * n 2,
       √2 * n 0 * n 0 * n 0 * n 1;
     n 0 * n 0 * n 1 * n 1,
       n 1 * n 1 * n 1 * n 1,
       n 1 * n 1 * n 2 * n 2,
       √2 * n 1 * n 1 * n 1 * n 2,
       √2 * n 0 * n 1 * n 1 * n 2,
       √2 * n 0 * n 1 * n 1 * n 1;
     n 0 * n 0 * n 2 * n 2,
       n 1 * n 1 * n 2 * n 2,
       n 2 * n 2 * n 2 * n 2,
       √2 * n 1 * n 2 * n 2 * n 2,
       √2 * n 0 * n 2 * n 2 * n 2,
       √2 * n 0 * n 1 * n 2 * n 2;
     √2 * n 0 * n 0 * n 1 * n 2,
       √2 * n 1 * n 1 * n 1 * n 2,
       √2 * n 1 * n 2 * n 2 * n 2,
       2 * n 1 * n 1 * n 2 * n 2,
       2 * n 0 * n 1 * n 2 * n 2,
       2 * n 0 * n 1 * n 1 * n 2;
     √2 * n 0 * n 0 * n 0 * n 2,
       √2 * n 0 * n 1 * n 1 * n 2,
       √2 * n 0 * n 2 * n 2 * n 2,
       2 * n 0 * n 1 * n 2 * n 2,
       2 * n 0 * n 0 * n 2 * n 2,
       2 * n 0 * n 0 * n 1 * n 2;
     √2 * n 0 * n 0 * n 0 * n 1,
       √2 * n 0 * n 1 * n 1 * n 1,
       √2 * n 0 * n 1 * n 2 * n 2,
       2 * n 0 * n 1 * n 1 * n 2,
       2 * n 0 * n 0 * n 1 * n 2,
       2 * n 0 * n 0 * n 1 * n 1]

/-- math/projections.cxx:69-85 `shear_projection`. -/
def shearFull (n : Fin 3 → ℝ) (i j k l : Fin 3) : ℝ := ((if i = k then 1 else 0) - n i * n k) * n j * n l

/-- math/projections.cxx:87-131 `shear_projection_ss`, the entries as written. -/
noncomputable def shearSS (n : Fin 3 → ℝ) : Matrix (Fin 6) (Fin 6) ℝ :=
  !![2 * n 0 * n 0 * (1 - n 0 * n 0),
       -2 * n 0 * n 0 * n 1 * n 1,
       -2 * n 0 * n 0 * n 2 * n 2,
       -2 * √2 * n 0 * n 0 * n 1 * n 2,
       √2 * n 0 * n 2 * (1 - 2 * n 0 * n 0),
       √2 * n 0 * n 1 * (1 - 2 * n 0 * n 0);
     -2 * n 0 * n 0 * n 1 * n 1,
       2 * n 1 * n 1 * (1 - n 1 * n 1),
       -2 * n 1 * n 1 * n 2 * n 2,
       √2 * n 1 * n 2 * (1 - 2 * n 1 * n 1),
       -2 * √2 * n 0 * n 1 * n 1 * n 2,
       √2 * n 0 * n 1 * (1 - 2 * n 1 * n 1);
     -2 * n 0 * n 0 * n 2 * n 2,
       -2 * n 1 * n 1 * n 2 * n 2,
       2 * n 2 * n 2 * (1 - n 2 * n 2),
       √2 * n 1 * n 2 * (1 - 2 * n 2 * n 2),
       √2 * n 0 * n 2 * (1 - 2 * n 2 * n 2),
       -2 * √2 * n 0 * n 1 * n 2 * n 2;
     -2 * √2 * n 0 * n 0 * n 1 * n 2,
       √2 * n 1 * n 2 * (1 - 2 * n 1 * n 1),
       √2 * n 1 * n 2 * (1 - 2 * n 2 * n 2),
       -4 * n 1 * n 1 * n 2 * n 2 + n 1 * n 1 + n 2 * n 2,
       n 0 * n 1 * (1 - 4 * n 2 * n 2),
       n 0 * n 2 * (1 - 4 * n 1 * n 1);
     √2 * n 0 * n 2 * (1 - 2 * n 0 * n 0),
       -2 * √2 * n 0 * n 1 * n 1 * n 2,
       √2 * n 0 * n 2 * (1 - 2 * n 2 * n 2),
       n 0 * n 1 * (1 - 4 * n 2 * n 2),
       -4 * n 0 * n 0 * n 2 * n 2 + n 0 * n 0 + n 2 * n 2,
       n 1 * n 2 * (1 - 4 * n 0 * n 0);
     √2 * n 0 * n 1 * (1 - 2 * n 0 * n 0),
       √2 * n 0 * n 1 * (1 - 2 * n 1 * n 1),
       -2 * √2 * n 0 * n 1 * n 2 * n 2,
       n 0 * n 2 * (1 - 4 * n 1 * n 1),
       n 1 * n 2 * (1 - 4 * n 0 * n 0),
       -4 * n 0 * n 0 * n 1 * n 1 + n 0 * n 0 + n 1 * n 1]

/-! ## Transformations of the damage variable -/

/-- cp/crystaldamage.h `TransformationFunction`; the arguments are the damage and the normal stress. -/
structure Transform where
  /-- `map` -/
  map : ℝ → ℝ → ℝ
  /-- `d_map_d_damage` -/
  dDamage : ℝ → ℝ → ℝ
  /-- `d_map_d_normal` -/
  dNormal : ℝ → ℝ → ℝ

/-- crystaldamage.cxx:562 and 576 `dtrial`. At zero the quotient is infinite, and so is its power for `beta > 0`; the
power is one for `beta = 0` and zero for `beta < 0`. -/
noncomputable def sigTrial (c β d : ℝ) : ℝ :=
  if d = 0 then (if 0 < β then 0 else if β = 0 then 1 / 2 else 1) else 1 / (1 + (c / d - 1) ^ β)

/-- crystaldamage.cxx:525-589 `SigmoidTransformation`. -/
noncomputable def sigmoid (c β cut : ℝ) : Transform where
  map d _ :=
    if d < 0 then 0
    else if d < c then (if cut < sigTrial c β d then cut else sigTrial c β d)
    else cut
  dDamage d _ :=
    if d < 0 then 0
    else if d < c then
      (if cut < sigTrial c β d then 0
       else β * c * d ^ (β - 1) * (1 / (c - d)) ^ (β + 1) / ((d / (c - d)) ^ β + 1) ^ 2)
    else 0
  dNormal _ _ := 0

/-- crystaldamage.cxx:591-637 `SwitchTransformation`. -/
noncomputable def switch (base : Transform) : Transform where
  map d ns := if 0 ≤ ns then base.map d ns else 0
  dDamage d ns := if 0 ≤ ns then base.dDamage d ns else 0
  dNormal _ _ := 0

/-! ## Damage of one plane -/

/-- cp/crystaldamage.h `SlipPlaneDamage`; the arguments are the shears, the slip rates, the normal stress and the
damage. -/
structure PlaneRule where
  /-- `setup` -/
  setup : ℝ
  /-- `damage_rate` -/
  rate : List ℝ → List ℝ → ℝ → ℝ → ℝ
  /-- `d_damage_rate_d_shear` -/
  dShear : List ℝ → List ℝ → ℝ → ℝ → List ℝ
  /-- `d_damage_rate_d_slip` -/
  dSlip : List ℝ → List ℝ → ℝ → ℝ → List ℝ
  /-- `d_damage_rate_d_normal` -/
  dNormal : List ℝ → List ℝ → ℝ → ℝ → ℝ
  /-- `d_damage_rate_d_damage` -/
  dDamage : List ℝ → List ℝ → ℝ → ℝ → ℝ

/-- crystaldamage.cxx:444-517 `WorkPlaneDamage`. -/
noncomputable def workPlane : PlaneRule where
  setup := 0
  rate shears slips _ _ := (List.zipWith (· * ·) shears slips).sum
  dShear _ slips _ _ := slips
  dSlip shears _ _ _ := shears
  dNormal _ _ _ _ := 0
  dDamage _ _ _ _ := 0

/-! ## Damage models -/

/-- The interface of cp/crystaldamage.h:20-120 `CrystalDamageModel`. -/
structure Dmg (N D : Type) where
  /-- `init_hist` -/
  init : D → ℝ
  /-- `projection` -/
  proj : (Fin 6 → ℝ) → (D → ℝ) → Matrix (Fin 6) (Fin 6) ℝ
  /-- `d_projection_d_stress`; the last index is that of the stress -/
  projS : (Fin 6 → ℝ) → (D → ℝ) → Fin 6 → Fin 6 → Fin 6 → ℝ
  /-- `d_projection_d_history` -/
  projH : (Fin 6 → ℝ) → (D → ℝ) → D → Matrix (Fin 6) (Fin 6) ℝ
  /-- `damage_rate` -/
  rate : (Fin 6 → ℝ) → (N ⊕ D → ℝ) → D → ℝ
  /-- `d_damage_d_stress` -/
  rateS : (Fin 6 → ℝ) → (N ⊕ D → ℝ) → Matrix D (Fin 6) ℝ
  /-- `d_damage_d_history` -/
  rateH : (Fin 6 → ℝ) → (N ⊕ D → ℝ) → Matrix D (N ⊕ D) ℝ

/-- crystaldamage.cxx:36-136 `NilDamageModel`; the only variable is "whatever". -/
def nilDmg (N : Type) : Dmg N Unit := ⟨0, fun _ _ => 1, 0, 0, 0, 0, 0⟩

/-- `stress.dot(n).dot(n)`, e.g. crystaldamage.cxx:191. -/
noncomputable def normalStress (s : Fin 6 → ℝ) (n : Fin 3 → ℝ) : ℝ := (usym s *ᵥ n) ⬝ᵥ n

/-- crystaldamage.cxx:196: what one plane contributes to the product. -/
noncomputable def factor (ds dn : ℝ) (n : Fin 3 → ℝ) : Matrix (Fin 6) (Fin 6) ℝ := 1 - ds • shearSS n - dn • normalSS n

/-- math/tensors.cxx:2155-2169 `outer_product_k`. -/
def outerK (A : Matrix (Fin 6) (Fin 6) ℝ) (b : Fin 6 → ℝ) (i j k : Fin 6) : ℝ := A i j * b k

/-- math/tensors.cxx:2121-2136 `middle_dot_after`, with the indices as written. -/
def middleDotAfter (A : Fin 6 → Fin 6 → Fin 6 → ℝ) (B : Matrix (Fin 6) (Fin 6) ℝ) (i j k : Fin 6) : ℝ :=
  ∑ l, A i j l * B j k

/-- math/tensors.cxx:2138-2153 `middle_dot_before`, with the indices as written. -/
def middleDotBefore (A : Fin 6 → Fin 6 → Fin 6 → ℝ) (B : Matrix (Fin 6) (Fin 6) ℝ) (i j k : Fin 6) : ℝ :=
  ∑ l, B i j * A j k l

/-- math/tensors.cxx:2106-2119 `dot_k`. -/
def dotK (A : Fin 6 → Fin 6 → Fin 6 → ℝ) (b : Fin 6 → ℝ) : Matrix (Fin 6) (Fin 6) ℝ := of fun i j => ∑ k, A i j k * b k

/-- The planes of a crystal: `Q.apply(lattice.unique_planes()[i])` and `lattice.plane_systems(i)`. -/
structure Planes (p : Nat) where
  normal : Fin p → Fin 3 → ℝ
  systems : Fin p → List (Nat × Nat)

/-- The planes of the lattice of `Verif.Model.Lattice` at an orientation. -/
noncomputable def Planes.ofLat (L : Lattice.Lat) (Q : Quat) : Planes L.normals.length where
  normal i := applyVec Q L.normals[i]
  systems i := Lattice.planeSystems L i

variable {N : Type} [DecidableEq N]

/-- crystaldamage.cxx:138-436 `PlanarDamageModel`. -/
noncomputable def planar {m p : Nat} (c : Crys) (r : Rule N m) (pl : Planes p) (shear normal : Transform)
    (rule : PlaneRule) : Dmg N (Fin p) where
  init _ := rule.setup
  proj s d := (List.finRange p).foldl (fun P i =>
    let n := pl.normal i
    let ns := normalStress s n
    P * factor (shear.map (d i) ns) (normal.map (d i) ns) n) 1
  projS s d := (List.finRange p).foldl (fun Pd i =>
    let bma := (List.finRange p).foldl (fun (bma : Matrix (Fin 6) (Fin 6) ℝ × (Fin 6 → Fin 6 → Fin 6 → ℝ) ×
        Matrix (Fin 6) (Fin 6) ℝ) j =>
      let n := pl.normal j
      let ns := normalStress s n
      let F := factor (shear.map (d j) ns) (normal.map (d j) ns) n
      if i < j then (bma.1 * F, bma.2)
      else if i = j then
        (bma.1,
          -outerK (shearSS n) (shear.dNormal (d j) ns • symOfFull (vecMulVec n n)) -
            outerK (normalSS n) (normal.dNormal (d j) ns • symOfFull (vecMulVec n n)), bma.2.2)
      else (bma.1, bma.2.1, bma.2.2 * F)) (1, 0, 1)
    Pd + middleDotBefore (middleDotAfter bma.2.1 bma.2.2) bma.1) 0
  projH s d i := (List.finRange p).foldl (fun R j =>
    let n := pl.normal j
    let ns := normalStress s n
    if i ≠ j then R * factor (shear.map (d j) ns) (normal.map (d j) ns) n
    else R * (-(shear.dDamage (d j) ns • shearSS n) - normal.dDamage (d j) ns • normalSS n)) 1
  rate s h i :=
    let taus := (pl.systems i).map fun q => c.shear q.1 q.2 s
    let gammas := (pl.systems i).map fun q => r.slip c s (h ∘ Sum.inl) q.1 q.2
    rule.rate taus gammas (normalStress s (pl.normal i)) (h (.inr i))
  rateS s h := of fun i =>
    let n := pl.normal i
    let ns := normalStress s n
    let taus := (pl.systems i).map fun q => c.shear q.1 q.2 s
    let gammas := (pl.systems i).map fun q => r.slip c s (h ∘ Sum.inl) q.1 q.2
    rule.dNormal taus gammas ns (h (.inr i)) • symOfFull (vecMulVec n n) +
      (List.zipWith (· + ·)
        (List.zipWith (fun a (q : Nat × Nat) => a • c.M q.1 q.2)
          (rule.dShear taus gammas ns (h (.inr i))) (pl.systems i))
        (List.zipWith (fun a (q : Nat × Nat) => a • r.slipS c s (h ∘ Sum.inl) q.1 q.2)
          (rule.dSlip taus gammas ns (h (.inr i))) (pl.systems i))).sum
  rateH s h := of fun i a =>
    let ns := normalStress s (pl.normal i)
    let taus := (pl.systems i).map fun q => c.shear q.1 q.2 s
    let gammas := (pl.systems i).map fun q => r.slip c s (h ∘ Sum.inl) q.1 q.2
    match a with
    | .inl a => (List.zipWith (fun b (q : Nat × Nat) => b * r.slipH c s (h ∘ Sum.inl) q.1 q.2 a)
        (rule.dSlip taus gammas ns (h (.inr i))) (pl.systems i)).sum
    | .inr j => if i = j then rule.dDamage taus gammas ns (h (.inr i)) else 0

/-! ## Kinematics of the damaged crystal -/

/-- kinematics.cxx:284-655 `DamagedStandardKinematicModel` at a temperature and orientation. -/
structure DKin (N D : Type) where
  C : Matrix (Fin 6) (Fin 6) ℝ
  S : Matrix (Fin 6) (Fin 6) ℝ
  inel : Inel N
  dmg : Dmg N D

variable {N D : Type}

/-- kinematics.cxx:335-336: the projection at a history. -/
def DKin.P (k : DKin N D) (s : Fin 6 → ℝ) (h : N ⊕ D → ℝ) : Matrix (Fin 6) (Fin 6) ℝ := k.dmg.proj s (h ∘ Sum.inr)

/-- kinematics.cxx:337-338 `stress_p`. -/
noncomputable def DKin.sp (k : DKin N D) (s : Fin 6 → ℝ) (h : N ⊕ D → ℝ) : Fin 6 → ℝ := (k.P s h)⁻¹ *ᵥ s

/-- kinematics.cxx:326-346 `stress_rate`; `espin` is the spin stored by `decouple`. -/
noncomputable def DKin.stressRate (k : DKin N D) (espin : Fin 3 → ℝ) (s d : Fin 6 → ℝ) (h : N ⊕ D → ℝ) : Fin 6 → ℝ :=
  let sp := k.sp s h
  k.P s h *ᵥ (k.C *ᵥ (d - k.inel.dp sp (h ∘ Sum.inl))) - symComm sp (espin + k.inel.wp sp (h ∘ Sum.inl))

/-- kinematics.cxx:624-653 `d_stress_partial`. -/
noncomputable def DKin.partialS (k : DKin N D) (espin : Fin 3 → ℝ) (s : Fin 6 → ℝ) (h : N ⊕ D → ℝ) :
    Matrix (Fin 6) (Fin 6) ℝ :=
  let sp := k.sp s h;
  -(k.P s h * k.C * k.inel.dpS sp (h ∘ Sum.inl) + symSymSkew 1 (espin + k.inel.wp sp (h ∘ Sum.inl)) +
    symSkewSym sp (k.inel.wpS sp (h ∘ Sum.inl)))

/-- kinematics.cxx:348-380 `d_stress_rate_d_stress`. -/
noncomputable def DKin.stressRateS (k : DKin N D) (espin : Fin 3 → ℝ) (s d : Fin 6 → ℝ) (h : N ⊕ D → ℝ) :
    Matrix (Fin 6) (Fin 6) ℝ :=
  let sp := k.sp s h
  (dotK (k.dmg.projS s (h ∘ Sum.inr)) (d - k.inel.dp sp (h ∘ Sum.inl)) -
    (k.P s h * k.C * k.inel.dpS sp (h ∘ Sum.inl) + symSymSkew 1 (espin + k.inel.wp sp (h ∘ Sum.inl)) +
      symSkewSym sp (k.inel.wpS sp (h ∘ Sum.inl)))) * (k.P s h)⁻¹

/-- kinematics.cxx:382-393 `d_stress_rate_d_d`. -/
noncomputable def DKin.stressRateD (k : DKin N D) (s : Fin 6 → ℝ) (h : N ⊕ D → ℝ) : Matrix (Fin 6) (Fin 6) ℝ :=
  k.P s h * k.C

/-- kinematics.cxx:395-442 `d_stress_rate_d_history`, one column for each variable. -/
noncomputable def DKin.stressRateH (k : DKin N D) (espin : Fin 3 → ℝ) (s d : Fin 6 → ℝ) (h : N ⊕ D → ℝ) :
    Matrix (Fin 6) (N ⊕ D) ℝ :=
  let sp := k.sp s h
  of fun i a => match a with
    | .inl a => ((-(k.P s h * k.C)) *ᵥ (fun j => k.inel.dpH sp (h ∘ Sum.inl) j a) -
        symComm sp fun j => k.inel.wpH sp (h ∘ Sum.inl) j a) i
    | .inr a => (k.dmg.projH s (h ∘ Sum.inr) a *ᵥ (k.C *ᵥ (d - k.inel.dp sp (h ∘ Sum.inl))) -
        k.partialS espin s h *ᵥ ((k.P s h)⁻¹ *ᵥ (k.dmg.projH s (h ∘ Sum.inr) a *ᵥ sp))) i

/-- kinematics.cxx:444-462 `history_rate`. -/
noncomputable def DKin.rate (k : DKin N D) (s : Fin 6 → ℝ) (h : N ⊕ D → ℝ) : N ⊕ D → ℝ
  | .inl a => k.inel.rate (k.sp s h) (h ∘ Sum.inl) a
  | .inr a => k.dmg.rate (k.sp s h) h a

/-- kinematics.cxx:477-479: the derivatives of the rates by the stress of the material, before the multiplication. -/
noncomputable def DKin.rateP (k : DKin N D) (s : Fin 6 → ℝ) (h : N ⊕ D → ℝ) : Matrix (N ⊕ D) (Fin 6) ℝ :=
  of fun a => match a with
    | .inl a => k.inel.rateS (k.sp s h) (h ∘ Sum.inl) a
    | .inr a => k.dmg.rateS (k.sp s h) h a

/-- kinematics.cxx:464-483 `d_history_rate_d_stress`. -/
noncomputable def DKin.rateS (k : DKin N D) (s : Fin 6 → ℝ) (h : N ⊕ D → ℝ) : Matrix (N ⊕ D) (Fin 6) ℝ :=
  k.rateP s h * (k.P s h)⁻¹

/-- kinematics.cxx:485-541 `d_history_rate_d_history`. -/
noncomputable def DKin.rateH (k : DKin N D) (s : Fin 6 → ℝ) (h : N ⊕ D → ℝ) : Matrix (N ⊕ D) (N ⊕ D) ℝ :=
  let base : N ⊕ D → N ⊕ D → ℝ := fun a b => match a, b with
    | .inl a, .inl b => k.inel.rateH (k.sp s h) (h ∘ Sum.inl) a b
    | .inl _, .inr _ => 0
    | .inr a, b => k.dmg.rateH (k.sp s h) h a b
  of fun a b => match b with
    | .inl b => base a (.inl b)
    | .inr b => base a (.inr b) -
        k.rateP s h a ⬝ᵥ ((k.P s h)⁻¹ *ᵥ (k.dmg.projH s (h ∘ Sum.inr) b *ᵥ k.sp s h))

/-- kinematics.cxx:543-556 `d_stress_rate_d_w_decouple`. -/
noncomputable def DKin.stressRateW (k : DKin N D) (s : Fin 6 → ℝ) (h : N ⊕ D → ℝ) : Matrix (Fin 6) (Fin 3) ℝ :=
  (-2 : ℝ) • specialSymSym (k.sp s h) 1

/-- kinematics.cxx:559-579 `spin`: the rates are those at the stress of the damaged crystal. -/
noncomputable def DKin.spin (k : DKin N D) (s : Fin 6 → ℝ) (w : Fin 3 → ℝ) (h : N ⊕ D → ℝ) : Fin 3 → ℝ :=
  w - k.inel.wp s (h ∘ Sum.inl) - skewComm ((k.S * (k.P s h)⁻¹) *ᵥ s) (k.inel.dp s (h ∘ Sum.inl))

/-- kinematics.cxx:581-589 `elastic_strains`. -/
noncomputable def DKin.elastic (k : DKin N D) (s : Fin 6 → ℝ) (h : N ⊕ D → ℝ) : Fin 6 → ℝ :=
  k.S *ᵥ ((k.P s h)⁻¹ *ᵥ s)

/-- kinematics.cxx:591-600 `stress_increment`. -/
noncomputable def DKin.increment (k : DKin N D) (s d : Fin 6 → ℝ) (dt : ℝ) (h : N ⊕ D → ℝ) : Fin 6 → ℝ :=
  k.P s h *ᵥ (k.C *ᵥ (dt • d))

/-! ## Residual -/

/-- singlecrystal.cxx:359-428, the residual and the Jacobian of a substep of the damaged crystal. -/
noncomputable def dresS (k : DKin N D) (st : Step (N ⊕ D)) (s : Fin 6 → ℝ) (h : N ⊕ D → ℝ) : Fin 6 → ℝ :=
  s - st.Sn - st.dt • k.stressRate st.espin s st.d h

noncomputable def dresH (k : DKin N D) (st : Step (N ⊕ D)) (s : Fin 6 → ℝ) (h : N ⊕ D → ℝ) : N ⊕ D → ℝ :=
  fun a => h a - st.hn a - k.rate s h a * st.dt

noncomputable def dJ11 (k : DKin N D) (st : Step (N ⊕ D)) (s : Fin 6 → ℝ) (h : N ⊕ D → ℝ) : Matrix (Fin 6) (Fin 6) ℝ :=
  -(st.dt • k.stressRateS st.espin s st.d h) + 1

noncomputable def dJ12 (k : DKin N D) (st : Step (N ⊕ D)) (s : Fin 6 → ℝ) (h : N ⊕ D → ℝ) : Matrix (Fin 6) (N ⊕ D) ℝ :=
  -(st.dt • k.stressRateH st.espin s st.d h)

noncomputable def dJ21 (k : DKin N D) (st : Step (N ⊕ D)) (s : Fin 6 → ℝ) (h : N ⊕ D → ℝ) : Matrix (N ⊕ D) (Fin 6) ℝ :=
  -(st.dt • k.rateS s h)

noncomputable def dJ22 [DecidableEq N] [DecidableEq D] (k : DKin N D) (st : Step (N ⊕ D)) (s : Fin 6 → ℝ)
    (h : N ⊕ D → ℝ) : Matrix (N ⊕ D) (N ⊕ D) ℝ :=
  -(st.dt • k.rateH s h) + 1

end Neml.CrystalDamage
