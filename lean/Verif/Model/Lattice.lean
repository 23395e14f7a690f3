import Verif.Model.Symmetry
import Mathlib.Data.Int.GCD

/-!
# Model of crystal lattices (src/cp/crystallography.cxx, lines 251-610, 746-775)

Exact reals. Vectors that the code divides by a zero length become NaN there, and every comparison with
NaN is false; the model makes these tests explicit (`norm3 v ≠ 0`). Exceptions and integer division by
zero are `none`. Reading a vector beyond its end is `none`. The hash of an orientation
(rotations.cxx:201-211) is a parameter. `int` overflow is not modelled. The parameter-set constructors
are not modelled (see Model/Objects).
-/

namespace Neml.Lattice

open Neml.Rotation Neml.Mandel Neml.Symmetry Matrix

/-! ## Miller indices -/

/-- nemlmath.cxx:1027-1031 `gcd`; `%` truncates. -/
def gcd (a b : ℤ) : ℤ := if h : a = 0 then b else gcd (b.tmod a) a
termination_by a.natAbs
decreasing_by
  have := Int.natAbs_tmod b a
  rw [this]
  exact Nat.mod_lt _ (Int.natAbs_pos.mpr h)

/-- nemlmath.cxx:1033-1040 `common_gcd` of three numbers. -/
def commonGcd (m : ℤ × ℤ × ℤ) : ℤ := gcd (gcd m.1 m.2.1) m.2.2

/-- nemlmath.cxx:1042-1051 `reduce_gcd` of three numbers; `none` is the division by zero. -/
def reduceGcd (m : ℤ × ℤ × ℤ) : Option (ℤ × ℤ × ℤ) :=
  let f := commonGcd m
  if f = 0 then none else some (m.1.tdiv |f|, m.2.1.tdiv |f|, m.2.2.tdiv |f|)

/-- crystallography.cxx:564-569 `assert_miller_`. -/
def assertMiller : List ℤ → Option (ℤ × ℤ × ℤ)
  | [h, k, l] => some (h, k, l)
  | _ => none

/-- A 3-vector. -/
abbrev Vec := Fin 3 → ℝ

/-- The three vectors of a direct or reciprocal lattice. -/
structure Basis where
  v1 : Vec
  v2 : Vec
  v3 : Vec

/-- crystallography.cxx:557-562 `make_reciprocal_lattice_`. -/
noncomputable def reciprocal (a : Basis) : Basis :=
  ⟨(a.v1 ⬝ᵥ cross a.v2 a.v3)⁻¹ • cross a.v2 a.v3, (a.v2 ⬝ᵥ cross a.v3 a.v1)⁻¹ • cross a.v3 a.v1,
   (a.v3 ⬝ᵥ cross a.v1 a.v2)⁻¹ • cross a.v1 a.v2⟩

/-- The combination with integer coefficients (crystallography.cxx:274, 282). -/
def combine (a : Basis) (m : ℤ × ℤ × ℤ) : Vec := (m.1 : ℝ) • a.v1 + (m.2.1 : ℝ) • a.v2 + (m.2.2 : ℝ) • a.v3

/-- crystallography.cxx:269-283 `miller2cart_direction`, and `miller2cart_plane` with the reciprocal
vectors. -/
noncomputable def miller2cart (a : Basis) (m : List ℤ) : Option Vec :=
  (assertMiller m).bind fun m => (reduceGcd m).map (combine a)

/-- crystallography.cxx:766-775 `assert_miller_bravais_`. -/
def assertMillerBravais : List ℤ → Option (ℤ × ℤ × ℤ × ℤ)
  | [h, k, i, l] => if h + k + i = 0 then some (h, k, i, l) else none
  | _ => none

/-- crystallography.cxx:746-751 `HCPLattice::miller2cart_direction`. -/
noncomputable def hcpDirection (a : Basis) (m : List ℤ) : Option Vec :=
  (assertMillerBravais m).bind fun m => miller2cart a [2 * m.1 + m.2.1, 2 * m.2.1 + m.1, m.2.2.2]

/-- crystallography.cxx:753-757 `HCPLattice::miller2cart_plane`. -/
noncomputable def hcpPlane (a : Basis) (m : List ℤ) : Option Vec :=
  (assertMillerBravais m).bind fun m => miller2cart (reciprocal a) [m.1, m.2.1, m.2.2.2]

/-- crystallography.cxx:661-663, the cubic basis. -/
def cubicBasis (a : ℝ) : Basis := ⟨![a, 0, 0], ![0, a, 0], ![0, 0, a]⟩

/-- crystallography.cxx:704-706, the hexagonal basis. -/
noncomputable def hcpBasis (a c : ℝ) : Basis :=
  ⟨![a / 2, -√3 * a / 2, 0], ![a / 2, √3 * a / 2, 0], ![0, 0, c]⟩

/-! ## Equivalent vectors -/

/-- nemlmath.cxx:1106-1109 `isclose`, with nemlmath.h:175-176. -/
def isclose (x y : ℝ) : Prop := |x - y| ≤ 1e-8 + 1e-5 * |y|

open Classical in
/-- tensors.cxx:126-133 `operator==` for vectors. -/
def veq (u v : Vec) : Prop := ∀ i, isclose (u i) (v i)

open Classical in
/-- crystallography.cxx:285-303 `equivalent_vectors`. -/
noncomputable def equivalentVectors (ops : List Quat) (v : Vec) : List Vec :=
  ops.foldl (fun uniques R =>
    if ∃ u ∈ uniques, veq u (applyVec R v) then uniques else uniques ++ [applyVec R v]) []

open Classical in
/-- crystallography.cxx:305-325 `equivalent_vectors_bidirectional`. -/
noncomputable def bidirectional (ops : List Quat) (v : Vec) : List Vec :=
  (equivalentVectors ops v).foldl (fun single a =>
    if ∃ b ∈ single, veq a (-b) then single else single ++ [a]) []

/-! ## Groups of systems -/

/-- One slip or twin system (crystallography.h, the entries at the same position of `burgers_vectors_`,
`slip_directions_`, `slip_planes_`, `reorientations_`). -/
structure Sys where
  burgers : Vec
  dir : Vec
  normal : Vec
  reorient : Quat

/-- One group (crystallography.h, the entries at the same position of `slip_types_`, `shear_`). -/
structure Group where
  twin : Bool
  shear : ℝ
  systems : List Sys

/-- `v / v.norm()` -/
noncomputable def unit (v : Vec) : Vec := (norm3 v)⁻¹ • v

open Classical in
/-- crystallography.cxx:331-351: the systems of a slip family. -/
noncomputable def slipSystems (pbs pns : List Vec) : List Sys :=
  pbs.flatMap fun bi => pns.filterMap fun ni =>
    if norm3 bi ≠ 0 ∧ norm3 ni ≠ 0 ∧ isclose (unit bi ⬝ᵥ unit ni) 0 then some ⟨bi, unit bi, unit ni, ⟨1, 0, 0, 0⟩⟩
    else none

/-- crystallography.cxx:387-413: the conditions on one candidate for a twin system. -/
def twinOk (K1 eta1 K2 eta2 : Vec) : Prop :=
  norm3 eta1 ≠ 0 ∧ norm3 K1 ≠ 0 ∧ norm3 K2 ≠ 0 ∧ norm3 eta2 ≠ 0 ∧
  let l := unit eta1
  let m := unit K1
  let n := unit K2
  let g := unit eta2
  let val := g ⬝ᵥ m
  ¬ isclose val 0 ∧
  let tr := (2 : ℝ) • (m - val⁻¹ • g)
  norm3 tr ≠ 0 ∧ isclose |unit tr ⬝ᵥ l| 1 ∧
  let P := cross l m
  norm3 P ≠ 0 ∧
  let ntr := cross g (unit P)
  norm3 ntr ≠ 0 ∧ isclose |unit ntr ⬝ᵥ n| 1 ∧
  l ⬝ᵥ g < 0 ∧ l ⬝ᵥ n > 0.5 ∧ g ⬝ᵥ m > 0.5

/-- crystallography.cxx:415-426: the system is already there, possibly with both signs changed. -/
def twinDup (sys : List Sys) (l m : Vec) : Prop :=
  ∃ s ∈ sys, (isclose (s.dir ⬝ᵥ l) (-1) ∧ isclose (s.normal ⬝ᵥ m) (-1)) ∨
    (isclose (s.dir ⬝ᵥ l) 1 ∧ isclose (s.normal ⬝ᵥ m) 1)

open Classical in
/-- crystallography.cxx:387-438, one candidate. -/
noncomputable def twinStep (st : ℝ × List Sys) (x : Vec × Vec × Vec × Vec) : ℝ × List Sys :=
  let (K1, eta1, K2, eta2) := x
  if twinOk K1 eta1 K2 eta2 ∧ ¬ twinDup st.2 (unit eta1) (unit K1) then
    (√(4 * (1 / (unit eta2 ⬝ᵥ unit K1) ^ 2 - 1)),
     st.2 ++ [⟨eta1, unit eta1, unit K1, setAxisAngle (unit K1) Real.pi⟩])
  else st

/-- crystallography.cxx:380-442, the four nested loops. -/
noncomputable def twinSystems (K1s eta1s K2s eta2s : List Vec) : ℝ × List Sys :=
  (K1s.flatMap fun K1 => eta1s.flatMap fun eta1 => K2s.flatMap fun K2 => eta2s.map fun eta2 =>
    (K1, eta1, K2, eta2)).foldl twinStep (0, [])

/-- crystallography.cxx:592-610 `update_normals_`, one new plane: the unique planes and the index. -/
noncomputable def numberPlane (normals : List Vec) (p : Vec) : List Vec × Nat :=
  open Classical in
  match normals.findIdx? fun n => isclose |n ⬝ᵥ p| 1 with
  | some j => (normals, j)
  | none => (normals ++ [p], normals.length)

/-- crystallography.cxx:592-610 `update_normals_`. -/
noncomputable def numberPlanes : List Vec → List Vec → List Vec × List Nat
  | normals, [] => (normals, [])
  | normals, p :: ps =>
    let a := numberPlane normals p
    let b := numberPlanes a.1 ps
    (b.1, a.2 :: b.2)

/-- The data of a lattice that change (crystallography.h, private members). `cache` is absent before
`setup_`; it holds `hash_`, `Ms_` and `Ns_`. -/
structure Lat where
  groups : List Group
  offsets : List Nat
  normals : List Vec
  normalMap : List (List Nat)
  cache : Option (Nat × List (List ((Fin 6 → ℝ) × Vec)))

/-- crystallography.cxx:255-256, before any system is added. -/
def empty : Lat := ⟨[], [0], [], [], none⟩

/-- crystallography.cxx:353-362 and 444-453: a group without systems is not added. -/
noncomputable def addGroup (L : Lat) (g : Group) : Lat :=
  if g.systems = [] then L
  else
    { L with
      groups := L.groups ++ [g]
      offsets := L.offsets ++ [L.offsets.getLastD 0 + g.systems.length]
      normals := (numberPlanes L.normals (g.systems.map Sys.normal)).1
      normalMap := L.normalMap ++ [(numberPlanes L.normals (g.systems.map Sys.normal)).2] }

/-- crystallography.cxx:327-363 `add_slip_system`. The two conversions from Miller indices are virtual
functions of the lattice. -/
noncomputable def addSlip (ops : List Quat) (dirOf planeOf : List ℤ → Option Vec) (L : Lat) (d p : List ℤ) :
    Option Lat :=
  (dirOf d).bind fun bv => (planeOf p).map fun nv =>
    addGroup L ⟨false, 0, slipSystems (bidirectional ops bv) (bidirectional ops nv)⟩

/-- crystallography.cxx:365-454 `add_twin_system`. -/
noncomputable def addTwin (ops : List Quat) (dirOf planeOf : List ℤ → Option Vec) (L : Lat)
    (eta1 K1 eta2 K2 : List ℤ) : Option Lat :=
  (planeOf K1).bind fun k1 => (dirOf eta2).bind fun e2 => (dirOf eta1).bind fun e1 => (planeOf K2).map fun k2 =>
    let r := twinSystems (equivalentVectors ops k1) (equivalentVectors ops e1) (equivalentVectors ops k2)
      (equivalentVectors ops e2)
    addGroup L ⟨true, r.1, r.2⟩

/-! ## Reading -/

/-- crystallography.cxx:467-470 `ngroup`. -/
def ngroup (L : Lat) : Nat := L.groups.length

/-- crystallography.cxx:472-475 `nslip`. -/
def nslip (L : Lat) (g : Nat) : Option Nat := (L.groups[g]?).map fun x => x.systems.length

/-- crystallography.cxx:456-465 `ntotal`. -/
def ntotal (L : Lat) : Nat := (L.groups.map fun g => g.systems.length).sum

/-- crystallography.cxx:477-480 `flat`. -/
def flat (L : Lat) (g i : Nat) : Option Nat := (L.offsets[g]?).map (· + i)

/-- The system with its group, where the code indexes with `[g][i]`. -/
def system (L : Lat) (g i : Nat) : Option Sys := (L.groups[g]?).bind fun x => x.systems[i]?

/-- crystallography.cxx:541-544 `plane_index`. -/
def planeIndex (L : Lat) (g i : Nat) : Option Nat := (L.normalMap[g]?).bind fun x => x[i]?

/-- crystallography.cxx:546-555 `plane_systems`. -/
def planeSystems (L : Lat) (k : Nat) : List (Nat × Nat) :=
  (List.range (ngroup L)).flatMap fun g =>
    ((List.range ((nslip L g).getD 0)).filter fun j => planeIndex L g j = some k).map fun j => (g, j)

/-- tensors.cxx:206-217 `outer`. -/
def outer (d n : Vec) : Matrix (Fin 3) (Fin 3) ℝ := of fun i j => d i * n j

/-- tensors.cxx:858-865 `Skew(RankTwo)`. -/
noncomputable def skewOfFull (a : Matrix (Fin 3) (Fin 3) ℝ) : Fin 3 → ℝ :=
  let s : Matrix (Fin 3) (Fin 3) ℝ := (0.5 : ℝ) • (a - aᵀ)
  ![-s 1 2, s 0 2, -s 0 1]

/-- crystallography.cxx:584-587: the two rotated tensors of a system. -/
noncomputable def schmid (Q : Quat) (s : Sys) : (Fin 6 → ℝ) × Vec :=
  (applySym Q (symOfFull (outer s.dir s.normal)), applySkew Q (skewOfFull (outer s.dir s.normal)))

/-- crystallography.cxx:571-590 `cache_rot_`. -/
noncomputable def cacheRot (hash : Quat → Nat) (L : Lat) (Q : Quat) : Lat :=
  match L.cache with
  | some (h, _) => if h = hash Q then L else { L with cache := some (hash Q, tensors L Q) }
  | none => { L with cache := some (hash Q, tensors L Q) }
where
  /-- The tensors of all groups. -/
  tensors (L : Lat) (Q : Quat) : List (List ((Fin 6 → ℝ) × Vec)) := L.groups.map fun g => g.systems.map (schmid Q)

/-- crystallography.cxx:502-512 `M` and `N`, both at once: the answer and the lattice afterwards. -/
noncomputable def ask (hash : Quat → Nat) (L : Lat) (g i : Nat) (Q : Quat) : Option ((Fin 6 → ℝ) × Vec) × Lat :=
  let L' := cacheRot hash L Q
  ((L'.cache.bind fun c => c.2[g]?).bind fun x => x[i]?, L')

/-- crystallography.cxx:514-518 `shear`. -/
noncomputable def shear (hash : Quat → Nat) (L : Lat) (g i : Nat) (Q : Quat) (stress : Fin 6 → ℝ) :
    Option ℝ × Lat :=
  let r := ask hash L g i Q
  (r.1.map fun m => m.1 ⬝ᵥ stress, r.2)

end Neml.Lattice
