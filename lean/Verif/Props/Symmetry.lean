import Verif.Model.Symmetry
import Verif.Props.Rotation
import Mathlib.NumberTheory.Real.Irrational

/-!
# C68: the symmetry operators form groups

The tables hold quaternions with entries `(p + q √d) / 2`, so closure is a finite exact computation on
integers which is carried over to the reals.
-/

namespace Neml.Symmetry

open Neml.Rotation Real Matrix

/-! ## Exact tables -/

/-- Four numbers `(p + q √d) / 2`. -/
structure QZ where
  sp : ℤ
  sq : ℤ
  xp : ℤ
  xq : ℤ
  yp : ℤ
  yq : ℤ
  zp : ℤ
  zq : ℤ
deriving DecidableEq

/-- The value of an exact quaternion. -/
noncomputable def QZ.val (d : ℤ) (u : QZ) : Quat :=
  ⟨(u.sp + u.sq * √d) / 2, (u.xp + u.xq * √d) / 2, (u.yp + u.yq * √d) / 2, (u.zp + u.zq * √d) / 2⟩

/-- Twice the product. -/
def QZ.mul (d : ℤ) (u v : QZ) : QZ :=
  ⟨u.sp * v.sp + d * u.sq * v.sq - (u.xp * v.xp + d * u.xq * v.xq) - (u.yp * v.yp + d * u.yq * v.yq) -
     (u.zp * v.zp + d * u.zq * v.zq),
   u.sp * v.sq + u.sq * v.sp - (u.xp * v.xq + u.xq * v.xp) - (u.yp * v.yq + u.yq * v.yp) -
     (u.zp * v.zq + u.zq * v.zp),
   u.sp * v.xp + d * u.sq * v.xq + (u.xp * v.sp + d * u.xq * v.sq) + (u.yp * v.zp + d * u.yq * v.zq) -
     (u.zp * v.yp + d * u.zq * v.yq),
   u.sp * v.xq + u.sq * v.xp + (u.xp * v.sq + u.xq * v.sp) + (u.yp * v.zq + u.yq * v.zp) -
     (u.zp * v.yq + u.zq * v.yp),
   u.sp * v.yp + d * u.sq * v.yq + (u.yp * v.sp + d * u.yq * v.sq) + (u.zp * v.xp + d * u.zq * v.xq) -
     (u.xp * v.zp + d * u.xq * v.zq),
   u.sp * v.yq + u.sq * v.yp + (u.yp * v.sq + u.yq * v.sp) + (u.zp * v.xq + u.zq * v.xp) -
     (u.xp * v.zq + u.xq * v.zp),
   u.sp * v.zp + d * u.sq * v.zq + (u.zp * v.sp + d * u.zq * v.sq) + (u.xp * v.yp + d * u.xq * v.yq) -
     (u.yp * v.xp + d * u.yq * v.xq),
   u.sp * v.zq + u.sq * v.zp + (u.zp * v.sq + u.zq * v.sp) + (u.xp * v.yq + u.xq * v.yp) -
     (u.yp * v.xq + u.yq * v.xp)⟩

/-- Twice the number. -/
def QZ.dbl (u : QZ) : QZ :=
  ⟨2 * u.sp, 2 * u.sq, 2 * u.xp, 2 * u.xq, 2 * u.yp, 2 * u.yq, 2 * u.zp, 2 * u.zq⟩

/-- The negative. -/
def QZ.neg (u : QZ) : QZ := ⟨-u.sp, -u.sq, -u.xp, -u.xq, -u.yp, -u.yq, -u.zp, -u.zq⟩

/-- The inverse of a unit quaternion. -/
def QZ.conj (u : QZ) : QZ := ⟨u.sp, u.sq, -u.xp, -u.xq, -u.yp, -u.yq, -u.zp, -u.zq⟩

theorem sqrt_cast_sq {d : ℤ} (hd : 0 ≤ d) : √(d : ℝ) * √(d : ℝ) = d :=
  Real.mul_self_sqrt (by exact_mod_cast hd)

theorem QZ.val_mul {d : ℤ} (hd : 0 ≤ d) {u v w : QZ} (h : QZ.mul d u v = w.dbl) :
    qmul (u.val d) (v.val d) = w.val d := by
  have h2 := sqrt_cast_sq hd
  simp only [QZ.mul, QZ.dbl, QZ.mk.injEq] at h
  obtain ⟨h1, h3, h4, h5, h6, h7, h8, h9⟩ := h
  have e1 := congrArg (Int.cast : ℤ → ℝ) h1
  have e3 := congrArg (Int.cast : ℤ → ℝ) h3
  have e4 := congrArg (Int.cast : ℤ → ℝ) h4
  have e5 := congrArg (Int.cast : ℤ → ℝ) h5
  have e6 := congrArg (Int.cast : ℤ → ℝ) h6
  have e7 := congrArg (Int.cast : ℤ → ℝ) h7
  have e8 := congrArg (Int.cast : ℤ → ℝ) h8
  have e9 := congrArg (Int.cast : ℤ → ℝ) h9
  push_cast at e1 e3 e4 e5 e6 e7 e8 e9
  simp only [qmul, QZ.val]
  ext
  · linear_combination (1 / 4) * e1 + (1 / 4) * √(d : ℝ) * e3 +
      (1 / 4) * (u.sq * v.sq - u.xq * v.xq - u.yq * v.yq - u.zq * v.zq) * h2
  · linear_combination (1 / 4) * e4 + (1 / 4) * √(d : ℝ) * e5 +
      (1 / 4) * (u.sq * v.xq + u.xq * v.sq + u.yq * v.zq - u.zq * v.yq) * h2
  · linear_combination (1 / 4) * e6 + (1 / 4) * √(d : ℝ) * e7 +
      (1 / 4) * (u.sq * v.yq + u.yq * v.sq + u.zq * v.xq - u.xq * v.zq) * h2
  · linear_combination (1 / 4) * e8 + (1 / 4) * √(d : ℝ) * e9 +
      (1 / 4) * (u.sq * v.zq + u.zq * v.sq + u.xq * v.yq - u.yq * v.xq) * h2

theorem QZ.val_neg (d : ℤ) (u : QZ) : u.neg.val d = opposite (u.val d) := by
  ext <;> simp [QZ.neg, QZ.val, opposite] <;> ring

theorem QZ.val_conj (d : ℤ) (u : QZ) : u.conj.val d = Rotation.conj (u.val d) := by
  ext <;> simp [QZ.conj, QZ.val, Rotation.conj] <;> ring

/-- The tetragonal table, `d = 2`. -/
def tetZ : List QZ :=
  [⟨2,0, 0,0, 0,0, 0,0⟩, ⟨0,0, 0,0, 2,0, 0,0⟩, ⟨0,0, 2,0, 0,0, 0,0⟩, ⟨0,0, 0,0, 0,0, 2,0⟩,
   ⟨0,1, 0,0, 0,0, 0,-1⟩, ⟨0,1, 0,0, 0,0, 0,1⟩, ⟨0,0, 0,1, 0,1, 0,0⟩, ⟨0,0, 0,-1, 0,1, 0,0⟩]

/-- The hexagonal table, `d = 3`. -/
def hexZ : List QZ :=
  [⟨2,0, 0,0, 0,0, 0,0⟩, ⟨-1,0, 0,0, 0,0, 0,1⟩, ⟨1,0, 0,0, 0,0, 0,1⟩, ⟨0,1, 0,0, 0,0, -1,0⟩,
   ⟨0,0, 0,0, 0,0, 2,0⟩, ⟨0,1, 0,0, 0,0, 1,0⟩, ⟨0,0, -1,0, 0,1, 0,0⟩, ⟨0,0, 2,0, 0,0, 0,0⟩,
   ⟨0,0, 1,0, 0,1, 0,0⟩, ⟨0,0, 0,1, 1,0, 0,0⟩, ⟨0,0, 0,0, 2,0, 0,0⟩, ⟨0,0, 0,1, -1,0, 0,0⟩]

/-- The cubic table, `d = 2`. -/
def cubZ : List QZ :=
  [⟨2,0, 0,0, 0,0, 0,0⟩, ⟨1,0, 1,0, 1,0, 1,0⟩, ⟨-1,0, 1,0, 1,0, 1,0⟩, ⟨1,0, -1,0, 1,0, 1,0⟩,
   ⟨1,0, 1,0, -1,0, 1,0⟩, ⟨-1,0, -1,0, -1,0, 1,0⟩, ⟨1,0, -1,0, -1,0, 1,0⟩, ⟨-1,0, -1,0, 1,0, 1,0⟩,
   ⟨-1,0, 1,0, -1,0, 1,0⟩, ⟨0,0, 0,0, 2,0, 0,0⟩, ⟨0,0, 0,0, 0,0, 2,0⟩, ⟨0,0, 2,0, 0,0, 0,0⟩,
   ⟨0,0, 0,-1, 0,0, 0,1⟩, ⟨0,0, 0,1, 0,0, 0,1⟩, ⟨0,1, 0,0, 0,1, 0,0⟩, ⟨0,1, 0,0, 0,-1, 0,0⟩,
   ⟨0,0, 0,0, 0,-1, 0,1⟩, ⟨0,1, 0,1, 0,0, 0,0⟩, ⟨0,1, 0,-1, 0,0, 0,0⟩, ⟨0,0, 0,0, 0,1, 0,1⟩,
   ⟨0,0, 0,-1, 0,1, 0,0⟩, ⟨0,1, 0,0, 0,0, 0,-1⟩, ⟨0,0, 0,1, 0,1, 0,0⟩, ⟨0,1, 0,0, 0,0, 0,1⟩]

/-- Normalizing a positive multiple of a unit quaternion gives the unit quaternion. -/
theorem normalize_qsmul {q r : Quat} {c : ℝ} (hc : 0 < c) (h : q = qsmul c r) (hr : Unit4 r) :
    normalize q = r := by
  have hn : qnorm q = c := by
    rw [qnorm, Real.sqrt_eq_iff_mul_self_eq_of_pos hc, h]
    simp only [qsmul]
    simp only [Unit4] at hr
    linear_combination (-c * c) * hr
  rw [Rotation.normalize, hn, if_neg hc.ne', h]
  ext <;> simp only [qsmul] <;> field_simp

theorem ori_val {d : ℤ} {s x y z : ℝ} {u : QZ} (c : ℝ) (hc : 0 < c) (h : (⟨s, x, y, z⟩ : Quat) = qsmul c (u.val d))
    (hr : Unit4 (u.val d)) : ori s x y z = u.val d := normalize_qsmul hc h hr

theorem s2 : √(2 : ℝ) * √2 = 2 := Real.mul_self_sqrt (by norm_num)
theorem s3 : √(3 : ℝ) * √3 = 3 := Real.mul_self_sqrt (by norm_num)

theorem h_eq : h = 2⁻¹ := by norm_num [h]

theorem tet_val : tetragonal = tetZ.map (QZ.val 2) := by
  have h2 := s2
  simp only [tetragonal, tetZ, List.map_cons, List.map_nil, List.cons.injEq, and_true]
  refine ⟨?_, ?_, ?_, ?_, ?_, ?_, ?_, ?_⟩ <;>
    (refine ori_val 1 one_pos ?_ ?_ <;> simp [QZ.val, qsmul, Unit4, a, neg_div] <;> try grind)

theorem hex_val : hexagonal = hexZ.map (QZ.val 3) := by
  have h2 := s3
  simp only [hexagonal, hexZ, List.map_cons, List.map_nil, List.cons.injEq, and_true]
  refine ⟨?_, ?_, ?_, ?_, ?_, ?_, ?_, ?_, ?_, ?_, ?_, ?_⟩ <;>
    (refine ori_val 1 one_pos ?_ ?_ <;> simp [QZ.val, qsmul, Unit4, b, h_eq, neg_div] <;> try grind)

theorem cub_val : cubic = cubZ.map (QZ.val 2) := by
  have h2 := s2
  have h3 : 0 < √(2 : ℝ) / 2 := by positivity
  simp only [cubic, cubZ, List.map_cons, List.map_nil, List.cons.injEq, and_true]
  refine ⟨?_, ?_, ?_, ?_, ?_, ?_, ?_, ?_, ?_, ?_, ?_, ?_, ?_, ?_, ?_, ?_, ?_, ?_, ?_, ?_, ?_, ?_, ?_, ?_⟩
  iterate 12 (refine ori_val 1 one_pos ?_ ?_ <;> simp [QZ.val, qsmul, Unit4, h_eq, neg_div] <;> try grind)
  all_goals (refine ori_val (√2 / 2) h3 ?_ ?_ <;> simp [QZ.val, qsmul, Unit4, h_eq, neg_div] <;> try grind)

/-- The classes with their root and their exact operators. -/
def table : List (String × ℤ × List QZ) :=
  [("432", 2, slice 0 24 cubZ), ("23", 2, slice 0 12 cubZ), ("622", 3, slice 0 12 hexZ),
   ("32", 3, slice 0 3 hexZ ++ slice 9 12 hexZ), ("6", 3, slice 0 6 hexZ), ("3", 3, slice 0 3 hexZ),
   ("42", 2, slice 0 8 tetZ), ("4", 2, slice 0 1 tetZ ++ slice 3 6 tetZ), ("222", 2, slice 0 4 tetZ),
   ("2", 2, slice 0 2 tetZ), ("1", 2, slice 0 1 tetZ)]

theorem slice_map {α β : Type} (f : α → β) (lo hi : Nat) (l : List α) :
    slice lo hi (l.map f) = (slice lo hi l).map f := by
  simp [slice, List.map_drop, List.map_take]

theorem rotations_table : ∀ e ∈ table, symmetryRotations e.1 = some (e.2.2.map (QZ.val e.2.1)) := by
  simp only [table, List.forall_mem_cons, symmetryRotations, tet_val, hex_val, cub_val]
  refine ⟨?_, ?_, ?_, ?_, ?_, ?_, ?_, ?_, ?_, ?_, ?_, by simp⟩ <;> simp [select, slice_map]

theorem rotations_of_some {c : String} {l : List Quat} (h : symmetryRotations c = some l) :
    ∃ e ∈ table, e.1 = c ∧ l = e.2.2.map (QZ.val e.2.1) := by
  have : ∃ e ∈ table, e.1 = c := by
    by_contra hc
    push Not at hc
    simp only [table, List.forall_mem_cons] at hc
    simp only [symmetryRotations, select] at h
    simp [Ne.symm hc.1, Ne.symm hc.2.1, Ne.symm hc.2.2.1, Ne.symm hc.2.2.2.1, Ne.symm hc.2.2.2.2.1,
      Ne.symm hc.2.2.2.2.2.1, Ne.symm hc.2.2.2.2.2.2.1, Ne.symm hc.2.2.2.2.2.2.2.1,
      Ne.symm hc.2.2.2.2.2.2.2.2.1, Ne.symm hc.2.2.2.2.2.2.2.2.2.1, Ne.symm hc.2.2.2.2.2.2.2.2.2.2.1] at h
  obtain ⟨e, he, rfl⟩ := this
  refine ⟨e, he, rfl, ?_⟩
  rw [rotations_table e he] at h
  exact (Option.some.inj h).symm

theorem table_root : ∀ e ∈ table, e.2.1 = 2 ∨ e.2.1 = 3 := by decide

theorem root_nonneg {e : String × ℤ × List QZ} (he : e ∈ table) : 0 ≤ e.2.1 := by
  rcases table_root e he with h | h <;> omega

theorem root_irrational {e : String × ℤ × List QZ} (he : e ∈ table) : Irrational √(e.2.1 : ℝ) := by
  rcases table_root e he with h | h <;> rw [h]
  · exact_mod_cast irrational_sqrt_two
  · exact_mod_cast Nat.Prime.irrational_sqrt Nat.prime_three

theorem lin_zero {r : ℝ} (hr : Irrational r) {p q p' q' : ℤ} (h : ((p : ℝ) + q * r) / 2 = (p' + q' * r) / 2) :
    p = p' ∧ q = q' := by
  have h1 : ((q - q' : ℤ) : ℝ) * r = ((p' - p : ℤ) : ℝ) := by push_cast; linarith
  have h2 : q = q' := by
    by_contra hne
    have h0 : ((q - q' : ℤ) : ℝ) ≠ 0 := by
      exact_mod_cast sub_ne_zero.mpr hne
    apply hr
    refine ⟨((p' - p : ℤ) : ℚ) / ((q - q' : ℤ) : ℚ), ?_⟩
    rw [Rat.cast_div, Rat.cast_intCast, Rat.cast_intCast, ← h1]
    field_simp
  subst h2
  refine ⟨?_, rfl⟩
  simp only [sub_self, Int.cast_zero, zero_mul] at h1
  have : p' - p = 0 := by exact_mod_cast h1.symm
  omega

theorem QZ.val_inj {d : ℤ} (hd : Irrational √(d : ℝ)) {u v : QZ} (h : u.val d = v.val d) : u = v := by
  simp only [QZ.val, Quat.mk.injEq] at h
  obtain ⟨h1, h2, h3, h4⟩ := h
  obtain ⟨a1, b1⟩ := lin_zero hd h1
  obtain ⟨a2, b2⟩ := lin_zero hd h2
  obtain ⟨a3, b3⟩ := lin_zero hd h3
  obtain ⟨a4, b4⟩ := lin_zero hd h4
  cases u; cases v
  simp_all

/-! ## The finite checks -/

/-- The exact identity. -/
def oneZ : QZ := ⟨2, 0, 0, 0, 0, 0, 0, 0⟩

theorem oneZ_val (d : ℤ) : oneZ.val d = Rotation.one := by ext <;> simp [oneZ, QZ.val, Rotation.one]

theorem table_one : ∀ e ∈ table, oneZ ∈ e.2.2 := by decide +kernel

theorem table_unit : ∀ e ∈ table, ∀ u ∈ e.2.2, QZ.mul e.2.1 u u.conj = oneZ.dbl := by decide +kernel

theorem table_mul : ∀ e ∈ table, ∀ u ∈ e.2.2, ∀ v ∈ e.2.2,
    ∃ w ∈ e.2.2, QZ.mul e.2.1 u v = w.dbl ∨ QZ.mul e.2.1 u v = w.neg.dbl := by decide +kernel

theorem table_inv : ∀ e ∈ table, ∀ u ∈ e.2.2, ∃ w ∈ e.2.2, u.conj = w ∨ u.conj = w.neg := by decide +kernel

theorem table_distinct : ∀ e ∈ table, e.2.2.Pairwise fun u v => u ≠ v ∧ u ≠ v.neg := by decide +kernel

/-! ## C68 -/

/-- A list of quaternions that stands for a finite group of rotations, each listed once. -/
structure RotationGroup (l : List Quat) : Prop where
  unit : ∀ q ∈ l, Unit4 q
  one : Rotation.one ∈ l
  mul : ∀ p ∈ l, ∀ q ∈ l, ∃ r ∈ l, qmul p q = r ∨ qmul p q = opposite r
  inv : ∀ p ∈ l, ∃ r ∈ l, Rotation.conj p = r ∨ Rotation.conj p = opposite r
  distinct : l.Pairwise fun p q => toMatrix p ≠ toMatrix q

theorem unit_of_mul_conj {q : Quat} (h : qmul q (Rotation.conj q) = Rotation.one) : Unit4 q := by
  have := congrArg Quat.s h
  simp only [qmul, Rotation.conj, Rotation.one] at this
  simp only [Unit4]
  linarith

theorem table_unit4 {e : String × ℤ × List QZ} (he : e ∈ table) {u : QZ} (hu : u ∈ e.2.2) :
    Unit4 (u.val e.2.1) := by
  apply unit_of_mul_conj
  rw [← QZ.val_conj, ← oneZ_val e.2.1]
  exact QZ.val_mul (root_nonneg he) (table_unit e he u hu)

/-- The operators of every supported class are unit quaternions and form a group of rotations up to
sign, with no rotation listed twice. -/
theorem C68_group {c : String} {l : List Quat} (h : symmetryRotations c = some l) : RotationGroup l := by
  obtain ⟨e, he, -, rfl⟩ := rotations_of_some h
  have hd := root_nonneg he
  refine ⟨?_, ?_, ?_, ?_, ?_⟩
  · intro q hq
    obtain ⟨u, hu, rfl⟩ := List.mem_map.mp hq
    exact table_unit4 he hu
  · rw [← oneZ_val e.2.1]
    exact List.mem_map_of_mem (table_one e he)
  · intro p hp q hq
    obtain ⟨u, hu, rfl⟩ := List.mem_map.mp hp
    obtain ⟨v, hv, rfl⟩ := List.mem_map.mp hq
    obtain ⟨w, hw, h1 | h1⟩ := table_mul e he u hu v hv
    · exact ⟨_, List.mem_map_of_mem hw, Or.inl (QZ.val_mul hd h1)⟩
    · exact ⟨_, List.mem_map_of_mem hw, Or.inr (by rw [← QZ.val_neg]; exact QZ.val_mul hd h1)⟩
  · intro p hp
    obtain ⟨u, hu, rfl⟩ := List.mem_map.mp hp
    obtain ⟨w, hw, h1 | h1⟩ := table_inv e he u hu
    · exact ⟨_, List.mem_map_of_mem hw, Or.inl (by rw [← QZ.val_conj, h1])⟩
    · exact ⟨_, List.mem_map_of_mem hw, Or.inr (by rw [← QZ.val_conj, h1, QZ.val_neg])⟩
  · rw [List.pairwise_map]
    refine List.Pairwise.imp_of_mem ?_ (table_distinct e he)
    intro u v hu hv huv hm
    rcases (toMatrix_inj (table_unit4 he hu) (table_unit4 he hv)).mp hm with h1 | h1
    · exact huv.1 (QZ.val_inj (root_irrational he) h1)
    · rw [← QZ.val_neg] at h1
      exact huv.2 (QZ.val_inj (root_irrational he) h1)

/-- The supported classes with the orders of their rotation groups. -/
def orders : List (String × Nat) :=
  [("432", 24), ("23", 12), ("622", 12), ("32", 6), ("6", 6), ("3", 3), ("42", 8), ("4", 4), ("222", 4), ("2", 2),
   ("1", 1)]

theorem table_orders : table.map (fun e => (e.1, e.2.2.length)) = orders := by decide +kernel

/-- A name is accepted exactly if it is one of the supported classes, and then as many operators are
listed as the class has rotations. -/
theorem C68_classes (c : String) (n : Nat) :
    (∃ l, symmetryRotations c = some l ∧ l.length = n) ↔ (c, n) ∈ orders := by
  rw [← table_orders, List.mem_map]
  constructor
  · rintro ⟨l, h, rfl⟩
    obtain ⟨e, he, rfl, rfl⟩ := rotations_of_some h
    exact ⟨e, he, by simp⟩
  · rintro ⟨e, he, h⟩
    simp only [Prod.mk.injEq] at h
    obtain ⟨rfl, rfl⟩ := h
    exact ⟨_, rotations_table e he, by simp⟩

example : (symmetryRotations "432").isSome ∧ symmetryRotations "m-3m" = none := by
  constructor
  · rw [rotations_table ("432", 2, slice 0 24 cubZ) (by simp [table])]; rfl
  · simp [symmetryRotations, select]

end Neml.Symmetry
