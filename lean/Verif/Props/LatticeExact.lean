import Verif.Props.LatticeSystems
import Verif.Props.Misorientation
import Mathlib.LinearAlgebra.Matrix.Determinant.Basic

/-!
# C59: exact orthogonality of direction and normal, and C98: geometry of twins

The search for systems accepts a direction and a normal that are orthogonal up to a tolerance. If the operators
map the lattice to itself the products are whole numbers over the lengths, so for all but huge indices the
accepted ones are exactly orthogonal.
-/

namespace Neml.Lattice

open Neml.Rotation Neml.Mandel Neml.Symmetry Matrix

/-- The matrix whose columns are the lattice vectors. -/
def cell (a : Basis) : Matrix (Fin 3) (Fin 3) ℝ := of fun i j => a.v j i

/-- The operators form a group and map lattice points to lattice points. -/
structure Compatible (ops : List Quat) (a : Basis) : Prop where
  group : RotationGroup ops
  whole : ∀ R ∈ ops, ∃ Z : Matrix (Fin 3) (Fin 3) ℤ, toMatrix R * cell a = cell a * Z.map Int.cast

theorem combine_cell (a : Basis) (m : ℤ × ℤ × ℤ) :
    combine a m = cell a *ᵥ fun i => ((![m.1, m.2.1, m.2.2] i : ℤ) : ℝ) := by
  ext i
  simp [combine, cell, Basis.v, mulVec, dotProduct, Fin.sum_univ_three]
  ring

theorem dot_whole {ops : List Quat} {a : Basis} (hv : volume a ≠ 0) (hc : Compatible ops a) {R S : Quat}
    (hR : R ∈ ops) (hS : S ∈ ops) (m k : ℤ × ℤ × ℤ) :
    ∃ N : ℤ, applyVec R (combine a m) ⬝ᵥ applyVec S (combine (reciprocal a) k) = N := by
  have uR := hc.group.unit R hR
  have uS := hc.group.unit S hS
  obtain ⟨S', hS', e1⟩ := op_inverse hc.group hS
  obtain ⟨T, hT, e2⟩ := op_product hc.group hS' hR
  obtain ⟨Z, hZ⟩ := hc.whole T hT
  rw [(C51_faithful uR uR _).2.2.2.2.2.2, (C51_faithful uS uS _).2.2.2.2.2.2]
  have e3 : (toMatrix R *ᵥ combine a m) ⬝ᵥ (toMatrix S *ᵥ combine (reciprocal a) k) =
      (toMatrix T *ᵥ combine a m) ⬝ᵥ combine (reciprocal a) k := by
    rw [e2, e1, ← mulVec_mulVec, dotProduct_comm, ← vecMul_transpose, ← dotProduct_mulVec, dotProduct_comm]
  let z : Fin 3 → ℤ := Z *ᵥ ![m.1, m.2.1, m.2.2]
  have e4 : toMatrix T *ᵥ combine a m = combine a (z 0, z 1, z 2) := by
    rw [combine_cell, combine_cell, mulVec_mulVec, hZ, ← mulVec_mulVec]
    congr 1
    ext i
    fin_cases i <;> simp [z, mulVec, dotProduct, Fin.sum_univ_three]
  rw [e3, e4, combine_dot hv]
  exact ⟨_, rfl⟩

theorem norm3_applyVec {R : Quat} (hR : Unit4 R) (v : Vec) : norm3 (applyVec R v) = norm3 v := by
  have h := (C55_invariants hR 0 0 v v 0 0).2.2.2.1
  have h1 := norm3_sq (applyVec R v)
  rw [h, ← norm3_sq] at h1
  exact (mul_self_inj (norm3_nonneg _) (norm3_nonneg _)).mp h1

theorem exact_zero {ops : List Quat} {a : Basis} (hv : volume a ≠ 0) (hc : Compatible ops a) {R S : Quat}
    (hR : R ∈ ops) (hS : S ∈ ops) (m k : ℤ × ℤ × ℤ) {eps : ℝ}
    (hb : eps * (norm3 (combine a m) * norm3 (combine (reciprocal a) k)) < 1)
    (h1 : norm3 (applyVec R (combine a m)) ≠ 0) (h2 : norm3 (applyVec S (combine (reciprocal a) k)) ≠ 0)
    (h : |unit (applyVec R (combine a m)) ⬝ᵥ unit (applyVec S (combine (reciprocal a) k))| ≤ eps) :
    unit (applyVec R (combine a m)) ⬝ᵥ unit (applyVec S (combine (reciprocal a) k)) = 0 := by
  obtain ⟨N, hN⟩ := dot_whole hv hc hR hS m k
  have p1 := lt_of_le_of_ne (norm3_nonneg _) h1.symm
  have p2 := lt_of_le_of_ne (norm3_nonneg _) h2.symm
  have e : unit (applyVec R (combine a m)) ⬝ᵥ unit (applyVec S (combine (reciprocal a) k)) =
      N / (norm3 (applyVec R (combine a m)) * norm3 (applyVec S (combine (reciprocal a) k))) := by
    rw [unit, unit, smul_dotProduct, dotProduct_smul, hN]
    simp only [smul_eq_mul]
    field_simp
  have h3 := h
  rw [e, abs_div, abs_of_pos (mul_pos p1 p2), div_le_iff₀ (mul_pos p1 p2)] at h3
  rw [norm3_applyVec (hc.group.unit R hR), norm3_applyVec (hc.group.unit S hS)] at h3
  have h4 : |(N : ℝ)| < 1 := h3.trans_lt hb
  have h5 : N = 0 := by
    have : |N| < 1 := by exact_mod_cast h4
    exact Int.abs_lt_one_iff.mp this
  rw [e, h5]
  simp

/-- The indices are accepted only as whole combinations of the lattice vectors (directions) and of the
reciprocal vectors (planes). Both kinds of indices do that, see `dirOf_whole`. -/
structure WholeIndices (a : Basis) (dirOf planeOf : List ℤ → Option Vec) : Prop where
  dir : ∀ d v, dirOf d = some v → ∃ m, v = combine a m
  plane : ∀ p n, planeOf p = some n → ∃ k, n = combine (reciprocal a) k

theorem miller2cart_whole {a : Basis} {d : List ℤ} {v : Vec} (h : miller2cart a d = some v) :
    ∃ m, v = combine a m := by
  simp only [miller2cart, Option.bind_eq_some_iff, Option.map_eq_some_iff] at h
  obtain ⟨_, _, m, _, rfl⟩ := h
  exact ⟨m, rfl⟩

theorem dirOf_whole (a : Basis) : WholeIndices a (miller2cart a) (miller2cart (reciprocal a)) ∧
    WholeIndices a (hcpDirection a) (hcpPlane a) := by
  refine ⟨⟨fun _ _ => miller2cart_whole, fun _ _ => miller2cart_whole⟩, ⟨fun d v h => ?_, fun p n h => ?_⟩⟩
  · simp only [hcpDirection, Option.bind_eq_some_iff] at h
    obtain ⟨_, _, h⟩ := h
    exact miller2cart_whole h
  · simp only [hcpPlane, Option.bind_eq_some_iff] at h
    obtain ⟨_, _, h⟩ := h
    exact miller2cart_whole h

theorem system_addGroup_new {L : Lat} {G : Group} {i : Nat} {s : Sys}
    (h : system (addGroup L G) (ngroup L) i = some s) : G.systems[i]? = some s := by
  unfold addGroup at h
  split_ifs at h with he
  · simp [system, ngroup] at h
  · simpa [system, ngroup] using h

/-- Adding systems leaves the earlier groups alone. -/
theorem system_addGroup_old {L : Lat} {G : Group} {g i : Nat} (hg : g < ngroup L) :
    system (addGroup L G) g i = system L g i := by
  unfold addGroup
  split_ifs with he
  · rfl
  · simp only [system]
    rw [List.getElem?_append_left hg]

/-- In a lattice whose operators map it to itself, direction and normal of every slip system added are exactly
orthogonal (unless the vectors are longer than any in use), so its Schmid tensor has no trace and a pressure has
no resolved shear at any orientation. -/
theorem C59_exact {ops : List Quat} {a : Basis} {dirOf planeOf : List ℤ → Option Vec} (hv : volume a ≠ 0)
    (hc : Compatible ops a) (hw : WholeIndices a dirOf planeOf) {L L' : Lat} {d p : List ℤ}
    (h : addSlip ops dirOf planeOf L d p = some L')
    (hb : ∀ v n, dirOf d = some v → planeOf p = some n → norm3 v * norm3 n < 1e8) {i : Nat} {s : Sys}
    (hs : system L' (ngroup L) i = some s) :
    s.dir ⬝ᵥ s.normal = 0 ∧ ∀ Q, Unit4 Q →
      (schmid Q s).1 0 + (schmid Q s).1 1 + (schmid Q s).1 2 = 0 ∧
      ∀ sigma (q : ℝ), (schmid Q s).1 ⬝ᵥ (sigma + q • ![1, 1, 1, 0, 0, 0]) = (schmid Q s).1 ⬝ᵥ sigma := by
  have key : s.dir ⬝ᵥ s.normal = 0 := by
    simp only [addSlip, Option.bind_eq_some_iff, Option.map_eq_some_iff] at h
    obtain ⟨bv, hbv, nv, hnv, rfl⟩ := h
    have hlen := hb bv nv hbv hnv
    obtain ⟨m, rfl⟩ := hw.dir d bv hbv
    obtain ⟨k, rfl⟩ := hw.plane p nv hnv
    obtain ⟨ok, b, hbm, n, hnm, e1, e2, e3, hn0⟩ := slipSystems_ok _ _ s (List.mem_of_getElem? (system_addGroup_new hs))
    obtain ⟨R, hR, rfl⟩ := (C96_bidirectional ops (combine a m)).1 b hbm
    obtain ⟨S, hS, rfl⟩ := (C96_bidirectional ops (combine (reciprocal a) k)).1 n hnm
    have h0 := (ok.slip rfl).1
    have hbp := ok.burgers.2
    rw [e1] at hbp
    rw [e2, e3] at h0 ⊢
    exact exact_zero hv hc hR hS m k (by norm_num at hlen ⊢; linarith) hbp.ne' hn0 h0
  refine ⟨key, fun Q hQ => ⟨?_, fun sigma q => ?_⟩⟩
  · rw [(C59_schmid hQ s 0 0).2.2.2.1, key]
  · rw [(C59_schmid hQ s sigma q).2.2.2.2, key]; simp

theorem twinSystems_from (K1s eta1s K2s eta2s : List Vec) :
    ∀ s ∈ (twinSystems K1s eta1s K2s eta2s).2, ∃ K ∈ K1s, ∃ e ∈ eta1s, norm3 K ≠ 0 ∧ norm3 e ≠ 0 ∧
      s.dir = unit e ∧ s.normal = unit K ∧ s.burgers = e := by
  unfold twinSystems
  generalize hl : (K1s.flatMap fun K1 => eta1s.flatMap fun eta1 => K2s.flatMap fun K2 => eta2s.map fun eta2 =>
    (K1, eta1, K2, eta2)) = l
  have hmem : ∀ x ∈ l, x.1 ∈ K1s ∧ x.2.1 ∈ eta1s := by
    intro x hx
    rw [← hl] at hx
    simp only [List.mem_flatMap, List.mem_map] at hx
    obtain ⟨K1, hK, e1, he, K2, -, e2, -, rfl⟩ := hx
    exact ⟨hK, he⟩
  clear hl
  suffices ∀ st : ℝ × List Sys, (∀ s ∈ st.2, ∃ K ∈ K1s, ∃ e ∈ eta1s, norm3 K ≠ 0 ∧ norm3 e ≠ 0 ∧
      s.dir = unit e ∧ s.normal = unit K ∧ s.burgers = e) → ∀ s ∈ (l.foldl twinStep st).2,
      ∃ K ∈ K1s, ∃ e ∈ eta1s, norm3 K ≠ 0 ∧ norm3 e ≠ 0 ∧ s.dir = unit e ∧ s.normal = unit K ∧ s.burgers = e from
    this (0, []) (by simp)
  induction l with
  | nil => intro st h; simpa using h
  | cons x l ih =>
    intro st h
    refine ih (fun y hy => hmem y (by simp [hy])) _ ?_
    obtain ⟨hK, he⟩ := hmem x (by simp)
    obtain ⟨K1, e1, K2, e2⟩ := x
    simp only [twinStep]
    split_ifs with hcond
    · intro s hs
      rcases List.mem_append.mp hs with hs | hs
      · exact h s hs
      · rw [List.mem_singleton.mp hs]
        exact ⟨K1, hK, e1, he, hcond.1.2.1, hcond.1.1, rfl, rfl, rfl⟩
    · exact h

/-- The same for twin systems, with the larger tolerance of the twin search. -/
theorem C59_exact_twin {ops : List Quat} {a : Basis} {dirOf planeOf : List ℤ → Option Vec} (hv : volume a ≠ 0)
    (hc : Compatible ops a) (hw : WholeIndices a dirOf planeOf) {L L' : Lat} {e1 k1 e2 k2 : List ℤ}
    (h : addTwin ops dirOf planeOf L e1 k1 e2 k2 = some L')
    (hb : ∀ v n, dirOf e1 = some v → planeOf k1 = some n → norm3 v * norm3 n < 200) {i : Nat} {s : Sys}
    (hs : system L' (ngroup L) i = some s) :
    s.dir ⬝ᵥ s.normal = 0 ∧ applyVec s.reorient s.normal = s.normal ∧ applyVec s.reorient s.dir = -s.dir := by
  simp only [addTwin, Option.bind_eq_some_iff, Option.map_eq_some_iff] at h
  obtain ⟨kv, hkv, e2v, -, ev, hev, k2v, -, rfl⟩ := h
  have hlen := hb ev kv hev hkv
  obtain ⟨m, rfl⟩ := hw.dir _ ev hev
  obtain ⟨k, rfl⟩ := hw.plane _ kv hkv
  have hmem := List.mem_of_getElem? (system_addGroup_new hs)
  have ok := twinSystems_ok _ _ _ _ s hmem
  obtain ⟨K, hK, e, he, hK0, he0, q1, q2, q3⟩ := twinSystems_from _ _ _ _ s hmem
  obtain ⟨R, hR, rfl⟩ := (C96_equivalent ops (combine a m)).1 e he
  obtain ⟨S, hS, rfl⟩ := (C96_equivalent ops (combine (reciprocal a) k)).1 K hK
  obtain ⟨h0, hr⟩ := ok.twinned rfl
  have key : s.dir ⬝ᵥ s.normal = 0 := by
    rw [q1, q2] at h0 ⊢
    refine exact_zero (eps := 0.0046) hv hc hR hS m k (by norm_num at hlen ⊢; linarith) he0 hK0 ?_
    apply abs_le_of_sq_le_sq _ (by norm_num)
    norm_num at h0 ⊢
    linarith
  refine ⟨key, ?_, ?_⟩
  · rw [hr, ok.normal]; ext i; simp; ring
  · rw [hr, dotProduct_comm, key]; simp

/-! ## The built-in lattices -/

/-- Twice the rational parts of the rotation matrix of an exact quaternion. -/
def matA (d : ℤ) (u : QZ) : Matrix (Fin 3) (Fin 3) ℤ :=
  let ss := fun p q p' q' : ℤ => p * p' + d * q * q'
  !![2 - ss u.yp u.yq u.yp u.yq - ss u.zp u.zq u.zp u.zq, ss u.xp u.xq u.yp u.yq - ss u.zp u.zq u.sp u.sq,
      ss u.xp u.xq u.zp u.zq + ss u.yp u.yq u.sp u.sq;
     ss u.xp u.xq u.yp u.yq + ss u.zp u.zq u.sp u.sq, 2 - ss u.xp u.xq u.xp u.xq - ss u.zp u.zq u.zp u.zq,
      ss u.yp u.yq u.zp u.zq - ss u.xp u.xq u.sp u.sq;
     ss u.xp u.xq u.zp u.zq - ss u.yp u.yq u.sp u.sq, ss u.yp u.yq u.zp u.zq + ss u.xp u.xq u.sp u.sq,
      2 - ss u.xp u.xq u.xp u.xq - ss u.yp u.yq u.yp u.yq]

/-- Twice the coefficients of the root. -/
def matB (u : QZ) : Matrix (Fin 3) (Fin 3) ℤ :=
  let ss := fun p q p' q' : ℤ => p * q' + q * p'
  !![-ss u.yp u.yq u.yp u.yq - ss u.zp u.zq u.zp u.zq, ss u.xp u.xq u.yp u.yq - ss u.zp u.zq u.sp u.sq,
      ss u.xp u.xq u.zp u.zq + ss u.yp u.yq u.sp u.sq;
     ss u.xp u.xq u.yp u.yq + ss u.zp u.zq u.sp u.sq, -ss u.xp u.xq u.xp u.xq - ss u.zp u.zq u.zp u.zq,
      ss u.yp u.yq u.zp u.zq - ss u.xp u.xq u.sp u.sq;
     ss u.xp u.xq u.zp u.zq - ss u.yp u.yq u.sp u.sq, ss u.yp u.yq u.zp u.zq + ss u.xp u.xq u.sp u.sq,
      -ss u.xp u.xq u.xp u.xq - ss u.yp u.yq u.yp u.yq]

theorem toMatrix_val {d : ℤ} (hd : 0 ≤ d) (u : QZ) (i j : Fin 3) :
    toMatrix (u.val d) i j = ((matA d u i j : ℝ) + matB u i j * √d) / 2 := by
  have h := sqrt_cast_sq hd
  generalize hr : √(d : ℝ) = r at h
  fin_cases i <;> fin_cases j <;> simp [toMatrix, QZ.val, matA, matB, hr] <;> grind

theorem cub_whole : ∀ u ∈ slice 0 24 cubZ, matB u = 0 ∧ ∀ i j, 2 ∣ matA 2 u i j := by
  have h : ∀ u ∈ slice 0 24 cubZ, matB u = 0 := by decide +kernel
  have h' : ∀ u ∈ slice 0 24 cubZ, (of fun i j => matA 2 u i j % 2 : Matrix (Fin 3) (Fin 3) ℤ) = 0 := by
    decide +kernel
  exact fun u hu => ⟨h u hu, fun i j => Int.dvd_of_emod_eq_zero (congrFun (congrFun (h' u hu) i) j)⟩

theorem mem_of_class {c : String} {d : ℤ} {l : List QZ} {ops : List Quat} (ht : (c, d, l) ∈ table)
    (h : symmetryRotations c = some ops) {R : Quat} (hR : R ∈ ops) : ∃ u ∈ l, R = u.val d := by
  have := rotations_table _ ht
  rw [h] at this
  rw [Option.some.inj this] at hR
  obtain ⟨u, hu, rfl⟩ := List.mem_map.mp hR
  exact ⟨u, hu, rfl⟩

/-- The cubic lattice with the operators it is given. -/
theorem C59_cubic (a : ℝ) {ops : List Quat} (h : symmetryRotations "432" = some ops) :
    Compatible ops (cubicBasis a) := by
  refine ⟨C68_group h, fun R hR => ?_⟩
  obtain ⟨u, hu, rfl⟩ := mem_of_class (d := 2) (l := slice 0 24 cubZ) (by simp [table]) h hR
  obtain ⟨hB, hA⟩ := cub_whole u hu
  refine ⟨of fun i j => matA 2 u i j / 2, ?_⟩
  have hcell : cell (cubicBasis a) = a • (1 : Matrix (Fin 3) (Fin 3) ℝ) := by
    ext i j
    fin_cases i <;> fin_cases j <;> simp [cell, cubicBasis, Basis.v]
  rw [hcell, Matrix.mul_smul, Matrix.mul_one, Matrix.smul_mul, Matrix.one_mul]
  congr 1
  ext i j
  rw [toMatrix_val (by norm_num), hB, Matrix.map_apply, of_apply, Matrix.zero_apply]
  obtain ⟨c, hc⟩ := hA i j
  rw [hc]
  simp

theorem hex_whole : ∀ u ∈ slice 0 12 hexZ,
    (matA 3 u 0 1 = 0 ∧ matA 3 u 1 0 = 0 ∧ matA 3 u 0 2 = 0 ∧ matA 3 u 1 2 = 0 ∧ matA 3 u 2 0 = 0 ∧ matA 3 u 2 1 = 0) ∧
    (matB u 0 0 = 0 ∧ matB u 1 1 = 0 ∧ matB u 2 2 = 0 ∧ matB u 0 2 = 0 ∧ matB u 1 2 = 0 ∧ matB u 2 0 = 0 ∧
      matB u 2 1 = 0) ∧
    4 ∣ matA 3 u 0 0 - 3 * matB u 0 1 + (matB u 1 0 - matA 3 u 1 1) ∧
    4 ∣ matA 3 u 0 0 - 3 * matB u 0 1 - (matB u 1 0 - matA 3 u 1 1) ∧
    4 ∣ matA 3 u 0 0 + 3 * matB u 0 1 + (matB u 1 0 + matA 3 u 1 1) ∧
    4 ∣ matA 3 u 0 0 + 3 * matB u 0 1 - (matB u 1 0 + matA 3 u 1 1) ∧ 2 ∣ matA 3 u 2 2 := by decide +kernel

/-- The hexagonal lattice with the operators it is given. -/
theorem C59_hexagonal (a c : ℝ) {ops : List Quat} (h : symmetryRotations "622" = some ops) :
    Compatible ops (hcpBasis a c) := by
  refine ⟨C68_group h, fun R hR => ?_⟩
  obtain ⟨u, hu, rfl⟩ := mem_of_class (d := 3) (l := slice 0 12 hexZ) (by simp [table]) h hR
  obtain ⟨⟨a1, a2, a3, a4, a5, a6⟩, ⟨b1, b2, b3, b4, b5, b6, b7⟩, ⟨z10, c1⟩, ⟨z00, c2⟩, ⟨z11, c3⟩, ⟨z01, c4⟩,
    ⟨z22, c5⟩⟩ := hex_whole u hu
  refine ⟨!![z00, z01, 0; z10, z11, 0; 0, 0, z22], ?_⟩
  have hT := toMatrix_val (d := 3) (by norm_num) u
  have h3 := s3
  have e1 := congrArg (Int.cast : ℤ → ℝ) c1
  have e2 := congrArg (Int.cast : ℤ → ℝ) c2
  have e3 := congrArg (Int.cast : ℤ → ℝ) c3
  have e4 := congrArg (Int.cast : ℤ → ℝ) c4
  have e5 := congrArg (Int.cast : ℤ → ℝ) c5
  push_cast at e1 e2 e3 e4 e5
  have t00 := hT 0 0; have t01 := hT 0 1; have t02 := hT 0 2
  have t10 := hT 1 0; have t11 := hT 1 1; have t12 := hT 1 2
  have t20 := hT 2 0; have t21 := hT 2 1; have t22 := hT 2 2
  simp only [a1, a2, a3, a4, a5, a6, b1, b2, b3, b4, b5, b6, b7, Int.cast_zero, Int.cast_ofNat, zero_mul, add_zero,
    zero_add, zero_div] at t00 t01 t02 t10 t11 t12 t20 t21 t22
  ext i j
  rw [Matrix.mul_apply, Matrix.mul_apply, Fin.sum_univ_three, Fin.sum_univ_three]
  fin_cases i <;> fin_cases j <;>
    simp [cell, hcpBasis, Basis.v, t00, t01, t02, t10, t11, t12, t20, t21, t22]
  · linear_combination (a / 8) * e1 + (a / 8) * e2 - (a / 4) * (matB u 0 1) * h3
  · linear_combination (a / 8) * e3 + (a / 8) * e4 + (a / 4) * (matB u 0 1) * h3
  · linear_combination (√3 * a / 8) * e1 - (√3 * a / 8) * e2
  · linear_combination (√3 * a / 8) * e3 - (√3 * a / 8) * e4
  · linear_combination (c / 2) * e5

/-! ## Cases with systems -/

theorem first_kept (ops : List Quat) (v : Vec) :
    v ∈ equivalentVectors (Rotation.one :: ops) v ∧ v ∈ bidirectional (Rotation.one :: ops) v := by
  classical
  have h1 : applyVec Rotation.one v = v := by
    have hu : Unit4 Rotation.one := by norm_num [Unit4, Rotation.one]
    rw [(C51_faithful hu hu v).2.2.2.2.2.2, toMatrix_one, one_mulVec]
  have hE : ∃ t, equivalentVectors (Rotation.one :: ops) v = v :: t := by
    have e : equivalentVectors (Rotation.one :: ops) v = (ops.map fun R => applyVec R v).foldl
        (fun acc x => if ∃ b ∈ acc, veq b x then acc else acc ++ [x]) [v] := by
      rw [List.foldl_map]
      simp [equivalentVectors, h1]
    have gen : ∀ (l : List Vec) (acc : List Vec), (∃ t, acc = v :: t) →
        ∃ t, l.foldl (fun acc x => if ∃ b ∈ acc, veq b x then acc else acc ++ [x]) acc = v :: t := by
      intro l
      induction l with
      | nil => intro acc h; exact h
      | cons x l ih =>
        rintro acc ⟨t, rfl⟩
        rw [List.foldl_cons]
        apply ih
        split_ifs
        · exact ⟨t, rfl⟩
        · exact ⟨t ++ [x], rfl⟩
    rw [e]
    exact gen _ _ ⟨[], rfl⟩
  obtain ⟨t, ht⟩ := hE
  refine ⟨by rw [ht]; simp, ?_⟩
  have e : bidirectional (Rotation.one :: ops) v =
      t.foldl (fun acc x => if ∃ b ∈ acc, veq x (-b) then acc else acc ++ [x]) [v] := by
    rw [bidirectional, ht]
    simp
  rw [e]
  exact (keep_spec (fun b a => veq a (-b)) t [v] (by simp)).1 v (by simp)

theorem class432 : ∃ ops, symmetryRotations "432" = some (Rotation.one :: ops) := by
  rw [rotations_table ("432", 2, slice 0 24 cubZ) (by simp [table])]
  refine ⟨(slice 1 24 cubZ).map (QZ.val 2), ?_⟩
  rw [show slice 0 24 cubZ = oneZ :: slice 1 24 cubZ from by decide +kernel]
  simp only [List.map_cons]
  rw [oneZ_val]

/-- The octahedral slip systems of a cubic lattice of any size are a case of `C59_exact`: the family is not
empty and the lengths are small. -/
theorem C59_case {a : ℝ} (ha : 0 < a) : ∃ ops L', symmetryRotations "432" = some ops ∧ volume (cubicBasis a) ≠ 0 ∧
    addSlip ops (miller2cart (cubicBasis a)) (miller2cart (reciprocal (cubicBasis a))) empty [1, 1, 0] [1, -1, 1] =
      some L' ∧
    (∀ v n, miller2cart (cubicBasis a) [1, 1, 0] = some v →
      miller2cart (reciprocal (cubicBasis a)) [1, -1, 1] = some n → norm3 v * norm3 n < 1e8) ∧
    ∃ s, system L' 0 0 = some s := by
  obtain ⟨ops, hops⟩ := class432
  have r1 : reduceGcd (1, 1, 0) = some (1, 1, 0) := by
    refine ((C96_reduce _).2 _).mpr ⟨?_, 1, by norm_num, by norm_num⟩
    rintro d h - -
    exact Int.isUnit_iff.mp (isUnit_of_dvd_one h)
  have r2 : reduceGcd (1, -1, 1) = some (1, -1, 1) := by
    refine ((C96_reduce _).2 _).mpr ⟨?_, 1, by norm_num, by norm_num⟩
    rintro d h - -
    exact Int.isUnit_iff.mp (isUnit_of_dvd_one h)
  have hrec : reciprocal (cubicBasis a) = cubicBasis a⁻¹ := by
    simp only [reciprocal, cubicBasis, Basis.mk.injEq]
    refine ⟨?_, ?_, ?_⟩ <;>
      (ext i; fin_cases i <;> simp [cross, dotProduct, Fin.sum_univ_three] <;> try field_simp)
  have m1 : miller2cart (cubicBasis a) [1, 1, 0] = some (combine (cubicBasis a) (1, 1, 0)) := by
    simp [miller2cart, assertMiller, r1]
  have m2 : miller2cart (reciprocal (cubicBasis a)) [1, -1, 1] = some (combine (cubicBasis a⁻¹) (1, -1, 1)) := by
    simp [miller2cart, assertMiller, r2, hrec]
  have n1 : norm3 (combine (cubicBasis a) (1, 1, 0)) = a * √2 := by
    have : norm3 (combine (cubicBasis a) (1, 1, 0)) = √(a ^ 2 * 2) := by
      rw [norm3]; congr 1; simp [combine, cubicBasis]; ring
    rw [this, Real.sqrt_mul (by positivity), Real.sqrt_sq ha.le]
  have n2 : norm3 (combine (cubicBasis a⁻¹) (1, -1, 1)) = a⁻¹ * √3 := by
    have : norm3 (combine (cubicBasis a⁻¹) (1, -1, 1)) = √(a⁻¹ ^ 2 * 3) := by
      rw [norm3]; congr 1; simp [combine, cubicBasis]; ring
    rw [this, Real.sqrt_mul (by positivity), Real.sqrt_sq (by positivity)]
  refine ⟨_, addGroup empty ⟨false, 0, slipSystems
      (bidirectional (Rotation.one :: ops) (combine (cubicBasis a) (1, 1, 0)))
      (bidirectional (Rotation.one :: ops) (combine (cubicBasis a⁻¹) (1, -1, 1)))⟩, hops, ?_, ?_, ?_, ?_⟩
  rotate_left 1
  · rw [addSlip, m1, m2]; rfl
  · intro v n hv hn
    rw [m1] at hv; rw [m2] at hn
    rw [← Option.some.inj hv, ← Option.some.inj hn, n1, n2]
    have : √2 * √3 < (4 : ℝ) := by
      nlinarith [Real.sq_sqrt (show (0 : ℝ) ≤ 2 by norm_num), Real.sq_sqrt (show (0 : ℝ) ≤ 3 by norm_num),
        Real.sqrt_nonneg 2, Real.sqrt_nonneg 3, sq_nonneg (√2 - √3)]
    calc a * √2 * (a⁻¹ * √3) = √2 * √3 := by field_simp
      _ < 1e8 := by linarith
  · obtain ⟨s, hs, -⟩ := slipSystems_all _ _ (first_kept ops (combine (cubicBasis a) (1, 1, 0))).2
      (first_kept ops (combine (cubicBasis a⁻¹) (1, -1, 1))).2 (by rw [n1]; positivity) (by rw [n2]; positivity) (by
        have h0 : combine (cubicBasis a) (1, 1, 0) ⬝ᵥ combine (cubicBasis a⁻¹) (1, -1, 1) = 0 := by
          simp [combine, cubicBasis, dotProduct, Fin.sum_univ_three]
        rw [unit, unit, smul_dotProduct, dotProduct_smul, h0]
        norm_num)
    rw [addGroup, if_neg (List.ne_nil_of_mem hs)]
    exact ⟨_, List.getElem?_eq_getElem (List.length_pos_of_mem hs)⟩
  · rw [cubic_volume]; positivity

/-! ## C98: the twinning shear -/

/-- The displacement of a simple shear by `s` in direction `l` on the plane `m`. -/
def simpleShear (s : ℝ) (l m v : Vec) : Vec := v + (s * (m ⬝ᵥ v)) • l

/-- For unit vectors along `K1` and `eta2` at an acute angle, the characteristic shear computed for a twin is the
length of the shear vector, it leaves the habit plane alone, keeps volumes, and carries `eta2` to where the
reorientation of the twin carries it. -/
theorem C98_twin_shear {m g : Vec} (hm : m ⬝ᵥ m = 1) (hg : g ⬝ᵥ g = 1) (h0 : 0 < g ⬝ᵥ m) (h1 : g ⬝ᵥ m < 1) :
    let l := unit ((2 : ℝ) • (m - (g ⬝ᵥ m)⁻¹ • g))
    let s := √(4 * (1 / (g ⬝ᵥ m) ^ 2 - 1))
    0 < s ∧ l ⬝ᵥ l = 1 ∧ l ⬝ᵥ m = 0 ∧ l ⬝ᵥ g < 0 ∧
      simpleShear s l m g = applyVec (setAxisAngle m Real.pi) g ∧
      applyVec (setAxisAngle m Real.pi) l = -l ∧
      (∀ v, m ⬝ᵥ v = 0 → simpleShear s l m v = v) ∧
      (1 + s • outer l m).det = 1 := by
  intro l s
  set c := g ⬝ᵥ m with hc
  have hmg : m ⬝ᵥ g = c := by rw [dotProduct_comm]
  have hlt : 0 < 1 / c ^ 2 - 1 := by
    have : c ^ 2 < 1 := by nlinarith
    rw [sub_pos, lt_div_iff₀ (by positivity)]
    linarith
  have hs : 0 < s := Real.sqrt_pos.mpr (by linarith)
  have htr : norm3 ((2 : ℝ) • (m - c⁻¹ • g)) = s := by
    have h2 := norm3_sq ((2 : ℝ) • (m - c⁻¹ • g))
    have h3 : ((2 : ℝ) • (m - c⁻¹ • g)) ⬝ᵥ ((2 : ℝ) • (m - c⁻¹ • g)) = s * s := by
      rw [show s * s = 4 * (1 / c ^ 2 - 1) from Real.mul_self_sqrt (by linarith)]
      simp only [smul_dotProduct, dotProduct_smul, sub_dotProduct, dotProduct_sub, hm, hg, hmg, ← hc, smul_eq_mul]
      field_simp
      ring
    rw [h3] at h2
    exact (mul_self_inj (norm3_nonneg _) hs.le).mp h2
  have hsl : s • l = (2 : ℝ) • (m - c⁻¹ • g) := by
    rw [← htr]; exact norm3_smul_unit (by rw [htr]; exact hs.ne')
  have hlm : l ⬝ᵥ m = 0 := by
    have : s * (l ⬝ᵥ m) = 0 := by
      rw [← smul_eq_mul, ← smul_dotProduct, hsl]
      simp only [smul_dotProduct, sub_dotProduct, hm, ← hc, smul_eq_mul]
      field_simp
      ring
    exact (mul_eq_zero.mp this).resolve_left hs.ne'
  have hll : l ⬝ᵥ l = 1 := unit_dot (by rw [htr]; exact hs.ne')
  refine ⟨hs, hll, hlm, ?_, ?_, ?_, ?_, ?_⟩
  · have : s * (l ⬝ᵥ g) = 2 * (c - c⁻¹) := by
      rw [← smul_eq_mul, ← smul_dotProduct, hsl]
      simp only [smul_dotProduct, sub_dotProduct, hg, hmg, smul_eq_mul]
      ring
    have h2 : c - c⁻¹ < 0 := by
      rw [sub_neg]
      exact h1.trans ((one_lt_inv₀ h0).mpr h1)
    by_contra hn
    push Not at hn
    nlinarith [mul_nonneg hs.le hn]
  · rw [half_turn hm, simpleShear, hmg, mul_comm s c, mul_smul, hsl]
    ext i
    simp only [Pi.add_apply, Pi.sub_apply, Pi.smul_apply, smul_eq_mul]
    field_simp
    ring
  · rw [half_turn hm, dotProduct_comm, hlm]; simp
  · intro v hv
    simp [simpleShear, hv]
  · have : (1 + s • outer l m).det = 1 + s * (l ⬝ᵥ m) := by
      rw [det_fin_three]
      simp [outer, dotProduct, Fin.sum_univ_three]
      ring
    rw [this, hlm]; ring

/-- Every twin group has the shear computed from one of its own systems and an equivalent of `eta2` on the acute
side of its habit plane. -/
theorem C98_group_shear (K1s eta1s K2s eta2s : List Vec) (hne : (twinSystems K1s eta1s K2s eta2s).2 ≠ []) :
    ∃ t ∈ (twinSystems K1s eta1s K2s eta2s).2, ∃ e ∈ eta2s, norm3 e ≠ 0 ∧ 0.5 < unit e ⬝ᵥ t.normal ∧
      t.dir ⬝ᵥ unit e < 0 ∧
      isclose |unit ((2 : ℝ) • (t.normal - (unit e ⬝ᵥ t.normal)⁻¹ • unit e)) ⬝ᵥ t.dir| 1 ∧
      (twinSystems K1s eta1s K2s eta2s).1 = √(4 * (1 / (unit e ⬝ᵥ t.normal) ^ 2 - 1)) := by
  revert hne
  unfold twinSystems
  generalize hl : (K1s.flatMap fun K1 => eta1s.flatMap fun eta1 => K2s.flatMap fun K2 => eta2s.map fun eta2 =>
    (K1, eta1, K2, eta2)) = l
  have hmem : ∀ x ∈ l, x.2.2.2 ∈ eta2s := by
    intro x hx
    rw [← hl] at hx
    simp only [List.mem_flatMap, List.mem_map] at hx
    obtain ⟨K1, hK, e1, he, K2, -, e2, h2, rfl⟩ := hx
    exact h2
  clear hl
  suffices ∀ st : ℝ × List Sys, (st.2 ≠ [] → ∃ t ∈ st.2, ∃ e ∈ eta2s, norm3 e ≠ 0 ∧ 0.5 < unit e ⬝ᵥ t.normal ∧
      t.dir ⬝ᵥ unit e < 0 ∧
      isclose |unit ((2 : ℝ) • (t.normal - (unit e ⬝ᵥ t.normal)⁻¹ • unit e)) ⬝ᵥ t.dir| 1 ∧
      st.1 = √(4 * (1 / (unit e ⬝ᵥ t.normal) ^ 2 - 1))) → (l.foldl twinStep st).2 ≠ [] →
      ∃ t ∈ (l.foldl twinStep st).2, ∃ e ∈ eta2s, norm3 e ≠ 0 ∧ 0.5 < unit e ⬝ᵥ t.normal ∧
      t.dir ⬝ᵥ unit e < 0 ∧
      isclose |unit ((2 : ℝ) • (t.normal - (unit e ⬝ᵥ t.normal)⁻¹ • unit e)) ⬝ᵥ t.dir| 1 ∧
      (l.foldl twinStep st).1 = √(4 * (1 / (unit e ⬝ᵥ t.normal) ^ 2 - 1)) from
    this (0, []) (by simp)
  induction l with
  | nil => intro st h; simpa using h
  | cons x l ih =>
    intro st h
    refine ih (fun y hy => hmem y (by simp [hy])) _ ?_
    have he := hmem x (by simp)
    obtain ⟨K1, e1, K2, e2⟩ := x
    simp only [twinStep]
    split_ifs with hcond
    · obtain ⟨⟨h1, h2, h3, h4, h5, h6, h7, h8, h9, h10, h11, h12, h13⟩, -⟩ := hcond
      intro _
      exact ⟨_, List.mem_append_right _ (List.mem_singleton.mpr rfl), e2, he, h4, h13, h11, h7, rfl⟩
    · exact h

theorem unit_smul {c : ℝ} (hc : 0 < c) (v : Vec) : unit (c • v) = unit v := by
  have h : norm3 (c • v) = c * norm3 v := by
    rw [norm3, norm3, show (c • v) 0 * (c • v) 0 + (c • v) 1 * (c • v) 1 + (c • v) 2 * (c • v) 2 =
      c ^ 2 * (v 0 * v 0 + v 1 * v 1 + v 2 * v 2) by simp; ring, Real.sqrt_mul (by positivity), Real.sqrt_sq hc.le]
  rw [unit, unit, h, smul_smul, mul_inv]
  congr 1
  field_simp

theorem cross_smul (c d : ℝ) (u v : Vec) : cross (c • u) (d • v) = (c * d) • cross u v := by
  ext i
  fin_cases i <;> simp [cross] <;> ring

/-- The twin of a cubic crystal with habit plane (1 1 1). -/
theorem twin_case_ok : twinOk ![1, 1, 1] ![1, 1, -2] ![1, 1, -1] ![1, 1, 2] := by
  have q3 : √(3 : ℝ) * √3 = 3 := Real.mul_self_sqrt (by norm_num)
  have q6 : √(6 : ℝ) * √6 = 6 := Real.mul_self_sqrt (by norm_num)
  have p3 : 0 < √(3 : ℝ) := by positivity
  have p6 : 0 < √(6 : ℝ) := by positivity
  have n1 : norm3 ![1, 1, 1] = √3 := by rw [norm3]; congr 1; simp; norm_num
  have n2 : norm3 ![1, 1, -2] = √6 := by rw [norm3]; congr 1; simp; norm_num
  have n3 : norm3 ![1, 1, -1] = √3 := by rw [norm3]; congr 1; simp; norm_num
  have n4 : norm3 ![1, 1, 2] = √6 := by rw [norm3]; congr 1; simp; norm_num
  have u2 : norm3 ![1, 1, -2] ≠ 0 := by rw [n2]; exact p6.ne'
  have u3 : norm3 ![1, 1, -1] ≠ 0 := by rw [n3]; exact p3.ne'
  have q36 : √3 * √6 < (5 : ℝ) := by nlinarith
  have hval : unit ![1, 1, 2] ⬝ᵥ unit ![1, 1, 1] = 4 * ((√6)⁻¹ * (√3)⁻¹) := by
    rw [unit, unit, n1, n4, smul_dotProduct, dotProduct_smul]
    simp [dotProduct, Fin.sum_univ_three]
    ring
  have hbig : 0.5 < 4 * ((√6 : ℝ)⁻¹ * (√3 : ℝ)⁻¹) := by
    rw [← mul_inv, ← div_eq_mul_inv, lt_div_iff₀ (by positivity)]
    nlinarith
  have htr : (2 : ℝ) • (unit ![1, 1, 1] - (unit ![1, 1, 2] ⬝ᵥ unit ![1, 1, 1])⁻¹ • unit ![1, 1, 2]) =
      (√3 / 6) • ![1, 1, -2] := by
    rw [hval, unit, unit, n1, n4]
    ext i
    fin_cases i <;> simp <;> field_simp <;> grind
  have hP : cross (unit ![1, 1, -2]) (unit ![1, 1, 1]) = (3 * ((√6)⁻¹ * (√3)⁻¹)) • ![1, -1, 0] := by
    rw [unit, unit, n1, n2, cross_smul]
    ext i
    fin_cases i <;> simp [cross] <;> ring
  have c3 : (0 : ℝ) < 3 * ((√6)⁻¹ * (√3)⁻¹) := by positivity
  have np : norm3 ![1, -1, 0] = √2 := by rw [norm3]; congr 1; simp; norm_num
  have hn : cross (unit ![1, 1, 2]) (unit (cross (unit ![1, 1, -2]) (unit ![1, 1, 1]))) =
      (2 * ((√6)⁻¹ * (√2)⁻¹)) • ![1, 1, -1] := by
    rw [hP, unit_smul c3, unit, unit, n4, np, cross_smul]
    ext i
    fin_cases i <;> simp [cross] <;> ring
  have c4 : (0 : ℝ) < 2 * ((√6)⁻¹ * (√2)⁻¹) := by positivity
  have nz : ∀ (c : ℝ) (v : Vec), 0 < c → norm3 v ≠ 0 → norm3 (c • v) ≠ 0 := by
    intro c v hc hv h0
    have h1 := unit_smul hc v
    have h2 := unit_dot hv
    rw [← h1, unit, h0] at h2
    simp at h2
  refine ⟨u2, by rw [n1]; exact p3.ne', u3, by rw [n4]; exact p6.ne', ?_⟩
  dsimp only
  rw [htr, hn, unit_smul (by positivity), unit_smul c4, unit_dot u2, unit_dot u3, hval]
  refine ⟨?_, nz _ _ (by positivity) u2, ?_, ?_, nz _ _ c4 u3, ?_, ?_, ?_, hbig⟩
  · intro h
    simp only [isclose, sub_zero, abs_zero, mul_zero, add_zero] at h
    rw [abs_of_pos (by linarith)] at h
    norm_num at h hbig
    linarith
  · rw [abs_one]; exact isclose_refl 1
  · rw [hP]; exact nz _ _ c3 (by rw [np]; positivity)
  · rw [abs_one]; exact isclose_refl 1
  · rw [unit, unit, n2, n4, smul_dotProduct, dotProduct_smul]
    have : (0 : ℝ) < (√6)⁻¹ * (√6)⁻¹ := by positivity
    simp [dotProduct, Fin.sum_univ_three]
    nlinarith
  · rw [unit, unit, n2, n3, smul_dotProduct, dotProduct_smul]
    simp [dotProduct, Fin.sum_univ_three]
    norm_num at hbig ⊢
    linarith

theorem twinSystems_ne {K1s eta1s K2s eta2s : List Vec} {K1 eta1 K2 eta2 : Vec} (h1 : K1 ∈ K1s) (h2 : eta1 ∈ eta1s)
    (h3 : K2 ∈ K2s) (h4 : eta2 ∈ eta2s) (h : twinOk K1 eta1 K2 eta2) :
    (twinSystems K1s eta1s K2s eta2s).2 ≠ [] := by
  have hmem : (K1, eta1, K2, eta2) ∈ (K1s.flatMap fun K1 => eta1s.flatMap fun eta1 => K2s.flatMap fun K2 =>
      eta2s.map fun eta2 => (K1, eta1, K2, eta2)) := by
    simp only [List.mem_flatMap, List.mem_map]
    exact ⟨K1, h1, eta1, h2, K2, h3, eta2, h4, rfl⟩
  unfold twinSystems
  generalize (K1s.flatMap fun K1 => eta1s.flatMap fun eta1 => K2s.flatMap fun K2 =>
      eta2s.map fun eta2 => (K1, eta1, K2, eta2)) = l at hmem
  have step : ∀ st x, st.2 ≠ [] → (twinStep st x).2 ≠ [] := by
    rintro st ⟨a, b, c, d⟩ hst
    simp only [twinStep]
    split_ifs
    · simp
    · exact hst
  have mono : ∀ (l : List (Vec × Vec × Vec × Vec)) st, st.2 ≠ [] → (l.foldl twinStep st).2 ≠ [] := by
    intro l
    induction l with
    | nil => intro st h; exact h
    | cons x l ih => intro st h; exact ih _ (step st x h)
  obtain ⟨l1, l2, rfl⟩ := List.append_of_mem hmem
  rw [List.foldl_append, List.foldl_cons]
  apply mono
  generalize l1.foldl twinStep (0, []) = st
  by_cases hd : twinDup st.2 (unit eta1) (unit K1)
  · apply step
    obtain ⟨s, hs, -⟩ := hd
    exact List.ne_nil_of_mem hs
  · simp only [twinStep]
    rw [if_pos ⟨h, hd⟩]
    simp

/-- The twins of a cubic lattice are a case of `C59_exact_twin`. -/
theorem C59_case_twin : ∃ ops L', symmetryRotations "432" = some ops ∧
    addTwin ops (miller2cart (cubicBasis 1)) (miller2cart (reciprocal (cubicBasis 1))) empty [1, 1, -2] [1, 1, 1]
      [1, 1, 2] [1, 1, -1] = some L' ∧
    (∀ v n, miller2cart (cubicBasis 1) [1, 1, -2] = some v →
      miller2cart (reciprocal (cubicBasis 1)) [1, 1, 1] = some n → norm3 v * norm3 n < 200) ∧
    ∃ s, system L' 0 0 = some s := by
  obtain ⟨ops, hops⟩ := class432
  have red : ∀ k l : ℤ, reduceGcd (1, k, l) = some (1, k, l) := by
    intro k l
    refine ((C96_reduce _).2 _).mpr ⟨?_, 1, by norm_num, by simp⟩
    rintro d h - -
    exact Int.isUnit_iff.mp (isUnit_of_dvd_one h)
  have hrec : reciprocal (cubicBasis 1) = cubicBasis 1 := by
    simp only [reciprocal, cubicBasis, Basis.mk.injEq]
    refine ⟨?_, ?_, ?_⟩ <;>
      (ext i; fin_cases i <;> simp [cross, dotProduct, Fin.sum_univ_three])
  have mil : ∀ k l : ℤ, miller2cart (cubicBasis 1) [1, k, l] = some ![1, (k : ℝ), (l : ℝ)] := by
    intro k l
    simp only [miller2cart, assertMiller, Option.bind_some, red, Option.map_some, Option.some.injEq]
    ext i
    fin_cases i <;> simp [combine, cubicBasis]
  have m1 := mil 1 (-2)
  have m2 := mil 1 1
  have m3 := mil 1 2
  have m4 := mil 1 (-1)
  push_cast at m1 m2 m3 m4
  refine ⟨_, addGroup empty ⟨true, (twinSystems (equivalentVectors (Rotation.one :: ops) ![1, 1, 1])
      (equivalentVectors (Rotation.one :: ops) ![1, 1, -2]) (equivalentVectors (Rotation.one :: ops) ![1, 1, -1])
      (equivalentVectors (Rotation.one :: ops) ![1, 1, 2])).1,
    (twinSystems (equivalentVectors (Rotation.one :: ops) ![1, 1, 1])
      (equivalentVectors (Rotation.one :: ops) ![1, 1, -2]) (equivalentVectors (Rotation.one :: ops) ![1, 1, -1])
      (equivalentVectors (Rotation.one :: ops) ![1, 1, 2])).2⟩, hops, ?_, ?_, ?_⟩
  · rw [addTwin, hrec, m1, m2, m3, m4]; rfl
  · intro v n hv hn
    rw [hrec, m2] at hn
    rw [m1] at hv
    rw [← Option.some.inj hv, ← Option.some.inj hn]
    have n1 : norm3 ![1, 1, 1] = √3 := by rw [norm3]; congr 1; simp; norm_num
    have n2 : norm3 ![1, 1, -2] = √6 := by rw [norm3]; congr 1; simp; norm_num
    rw [n1, n2]
    nlinarith [Real.sq_sqrt (show (0 : ℝ) ≤ 6 by norm_num), Real.sq_sqrt (show (0 : ℝ) ≤ 3 by norm_num),
        Real.sqrt_nonneg 6, Real.sqrt_nonneg 3, sq_nonneg (√6 - √3)]
  · have hne := twinSystems_ne (first_kept ops ![1, 1, 1]).1 (first_kept ops ![1, 1, -2]).1
      (first_kept ops ![1, 1, -1]).1 (first_kept ops ![1, 1, 2]).1 twin_case_ok
    rw [addGroup, if_neg hne]
    exact ⟨_, List.getElem?_eq_getElem (List.length_pos_iff.mpr hne)⟩

example : (![0, 0, 1] : Vec) ⬝ᵥ ![0, 0, 1] = 1 ∧ (![3 / 5, 0, 4 / 5] : Vec) ⬝ᵥ ![3 / 5, 0, 4 / 5] = 1 ∧
    (0 : ℝ) < (![3 / 5, 0, 4 / 5] : Vec) ⬝ᵥ ![0, 0, 1] ∧ (![3 / 5, 0, 4 / 5] : Vec) ⬝ᵥ ![0, 0, 1] < 1 := by
  simp [dotProduct, Fin.sum_univ_three]
  norm_num

end Neml.Lattice
