import Verif.Props.Symmetry

/-!
# C95: misorientations
-/

namespace Neml.Symmetry

open Neml.Rotation Real Matrix

/-! ## Specification -/

/-- The angle of a rotation matrix, between zero and a half turn. -/
noncomputable def angleOf (M : Matrix (Fin 3) (Fin 3) ℝ) : ℝ := arccos ((M.trace - 1) / 2)

/-- The angles of all rotations that lead from a description of the one orientation to a description of
the other, over all symmetric descriptions of both. -/
def angles (ops : List Quat) (p q : Quat) : Set ℝ :=
  {θ | ∃ g ∈ ops, ∃ k ∈ ops, θ = angleOf ((toMatrix g * toMatrix p) * (toMatrix k * toMatrix q)ᵀ)}

/-! ## Angles of quaternions -/

theorem Unit4.s_le {q : Quat} (hq : Unit4 q) : |q.s| ≤ 1 := by
  rw [abs_le_one_iff_mul_self_le_one]
  simp only [Unit4] at hq
  nlinarith [sq_nonneg q.x, sq_nonneg q.y, sq_nonneg q.z]

theorem toAxisAngle_angle {q : Quat} (hq : Unit4 q) : (toAxisAngle q).2 = 2 * arccos q.s := by
  have := abs_le.mp (Unit4.s_le hq)
  simp only [toAxisAngle]
  rw [min_eq_left this.2, max_eq_right this.1]

theorem angleOf_toMatrix {q : Quat} (hq : Unit4 q) : angleOf (toMatrix q) = 2 * arccos |q.s| := by
  have h1 : ((toMatrix q).trace - 1) / 2 = cos (2 * arccos |q.s|) := by
    rw [cos_two_mul, cos_arccos (by linarith [abs_nonneg q.s]) (Unit4.s_le hq), sq_abs]
    simp only [Unit4] at hq
    simp only [toMatrix, Matrix.trace, Matrix.diag, Fin.sum_univ_three]
    simp
    linear_combination (-2) * hq
  rw [angleOf, h1, arccos_cos (by linarith [arccos_nonneg |q.s|])]
  have := arccos_le_pi_div_two.mpr (abs_nonneg q.s)
  linarith

/-- The angle read from a quaternion is at least that of its rotation, and the same for a nonnegative real
part. -/
theorem angleOf_le {q : Quat} (hq : Unit4 q) : angleOf (toMatrix q) ≤ 2 * arccos q.s := by
  rw [angleOf_toMatrix hq]
  have := Real.antitone_arccos (le_abs_self q.s)
  linarith

theorem angleOf_transpose (M : Matrix (Fin 3) (Fin 3) ℝ) : angleOf Mᵀ = angleOf M := by
  rw [angleOf, angleOf, Matrix.trace_transpose]

/-! ## The search -/

/-- The value minimized. -/
noncomputable def key (ab m : Quat) : ℝ := (toAxisAngle (qmul m ab)).2

theorem fold_spec (ab : Quat) (l : List Quat) (st : Quat × ℝ) :
    (l.foldl (misStep ab) st).2 ≤ st.2 ∧ (∀ m ∈ l, (l.foldl (misStep ab) st).2 ≤ key ab m) ∧
      (l.foldl (misStep ab) st = st ∨
        ∃ m ∈ l, l.foldl (misStep ab) st = (qmul m ab, key ab m) ∧ key ab m < st.2) := by
  induction l generalizing st with
  | nil => simp
  | cons m l ih =>
    obtain ⟨h1, h2, h3⟩ := ih (misStep ab st m)
    have hs : misStep ab st m = if key ab m < st.2 then (qmul m ab, key ab m) else st := rfl
    rw [List.foldl_cons]
    by_cases hc : key ab m < st.2
    · rw [if_pos hc] at hs
      rw [hs] at h1 h2 h3 ⊢
      refine ⟨h1.trans hc.le, ?_, Or.inr ?_⟩
      · intro m' hm'
        rcases List.mem_cons.mp hm' with rfl | hm'
        · exact h1
        · exact h2 m' hm'
      · rcases h3 with h3 | ⟨m', hm', h3, h4⟩
        · exact ⟨m, List.mem_cons_self, h3, hc⟩
        · exact ⟨m', List.mem_cons_of_mem _ hm', h3, h4.trans hc⟩
    · rw [if_neg hc] at hs
      rw [hs] at h1 h2 h3 ⊢
      refine ⟨h1, ?_, ?_⟩
      · intro m' hm'
        rcases List.mem_cons.mp hm' with rfl | hm'
        · exact h1.trans (not_lt.mp hc)
        · exact h2 m' hm'
      · rcases h3 with h3 | ⟨m', hm', h3, h4⟩
        · exact Or.inl h3
        · exact Or.inr ⟨m', List.mem_cons_of_mem _ hm', h3, h4⟩

theorem mem_misops {ops : List Quat} {m : Quat} : m ∈ misops ops ↔ ∃ p ∈ ops, ∃ q ∈ ops, qmul p q = m := by
  simp [misops, List.mem_flatMap]

theorem misops_unit {ops : List Quat} (hg : RotationGroup ops) {m : Quat} (hm : m ∈ misops ops) : Unit4 m := by
  obtain ⟨p, hp, q, hq, rfl⟩ := mem_misops.mp hm
  exact (hg.unit p hp).mul (hg.unit q hq)

/-- Every product is an operator or the negative of one. -/
theorem misops_ops {ops : List Quat} (hg : RotationGroup ops) {m : Quat} (hm : m ∈ misops ops) :
    ∃ g ∈ ops, toMatrix m = toMatrix g := by
  obtain ⟨p, hp, q, hq, rfl⟩ := mem_misops.mp hm
  obtain ⟨r, hr, h | h⟩ := hg.mul p hp q hq
  · exact ⟨r, hr, by rw [h]⟩
  · exact ⟨r, hr, by rw [h, toMatrix_opposite]⟩

/-- The classes for which the products contain both signs of every operator. -/
def twoSigned : List String := ["432", "23", "622", "32", "42", "222"]

/-- The cyclic classes. -/
def cyclic : List String := ["6", "3", "4", "2", "1"]

theorem table_signs : ∀ e ∈ table, e.1 ∈ twoSigned → ∀ u ∈ e.2.2,
    (∃ v ∈ e.2.2, ∃ w ∈ e.2.2, QZ.mul e.2.1 v w = u.dbl) ∧
      ∃ v ∈ e.2.2, ∃ w ∈ e.2.2, QZ.mul e.2.1 v w = u.neg.dbl := by decide +kernel

theorem signs {c : String} {ops : List Quat} (h : symmetryRotations c = some ops) (hc : c ∈ twoSigned) {g : Quat}
    (hg : g ∈ ops) : g ∈ misops ops ∧ opposite g ∈ misops ops := by
  obtain ⟨e, he, rfl, rfl⟩ := rotations_of_some h
  obtain ⟨u, hu, rfl⟩ := List.mem_map.mp hg
  obtain ⟨⟨v, hv, w, hw, h1⟩, v', hv', w', hw', h2⟩ := table_signs e he hc u hu
  constructor
  · exact mem_misops.mpr ⟨_, List.mem_map_of_mem hv, _, List.mem_map_of_mem hw, QZ.val_mul (root_nonneg he) h1⟩
  · refine mem_misops.mpr ⟨_, List.mem_map_of_mem hv', _, List.mem_map_of_mem hw', ?_⟩
    rw [← QZ.val_neg]
    exact QZ.val_mul (root_nonneg he) h2

theorem opposite_qmul (p q : Quat) : qmul (opposite p) q = opposite (qmul p q) := by
  ext <;> simp [qmul, opposite] <;> ring

theorem qmul_s_comm (p q : Quat) : (qmul p q).s = (qmul q p).s := by simp only [qmul]; ring

section
variable {c : String} {ops : List Quat} {p q : Quat}

/-- For every operator the search has seen the sign with the smaller angle. -/
theorem search_le (h : symmetryRotations c = some ops) (hc : c ∈ twoSigned) (hp : Unit4 p) (hq : Unit4 q)
    {g : Quat} (hg : g ∈ ops) : ∃ m ∈ misops ops,
      key (qmul p (Rotation.conj q)) m = angleOf (toMatrix (qmul g (qmul p (Rotation.conj q)))) := by
  have hG := C68_group h
  have hab := hp.mul hq.conj
  obtain ⟨h1, h2⟩ := signs h hc hg
  have hu := (hG.unit g hg).mul hab
  rcases le_total 0 (qmul g (qmul p (Rotation.conj q))).s with hs | hs
  · refine ⟨g, h1, ?_⟩
    rw [key, toAxisAngle_angle hu, angleOf_toMatrix hu, abs_of_nonneg hs]
  · refine ⟨opposite g, h2, ?_⟩
    rw [key, opposite_qmul, toAxisAngle_angle hu.opposite, angleOf_toMatrix hu, abs_of_nonpos hs]
    rfl

theorem search_found (h : symmetryRotations c = some ops) (hc : c ∈ twoSigned) (hp : Unit4 p) (hq : Unit4 q) :
    ∃ m ∈ misops ops, (misops ops).foldl (misStep (qmul p (Rotation.conj q))) (defaultQuat, 2 * π) =
      (qmul m (qmul p (Rotation.conj q)), key (qmul p (Rotation.conj q)) m) := by
  obtain ⟨-, h2, h3⟩ := fold_spec (qmul p (Rotation.conj q)) (misops ops) (defaultQuat, 2 * π)
  rcases h3 with h3 | ⟨m, hm, h3, -⟩
  · exfalso
    obtain ⟨m, hm, hk⟩ := search_le h hc hp hq (C68_group h).one
    have h4 := h2 m hm
    rw [h3, hk, angleOf] at h4
    have := arccos_le_pi (((toMatrix (qmul Rotation.one (qmul p (Rotation.conj q)))).trace - 1) / 2)
    have := pi_pos
    simp only at h4
    linarith
  · exact ⟨m, hm, h3⟩

/-- For these classes the misorientation is a rotation between symmetric descriptions of the two
orientations, its angle is the smallest possible, and that is also the angle it shows as an axis and angle. -/
theorem C95_misorientation_partial (h : symmetryRotations c = some ops) (hc : c ∈ twoSigned) (hp : Unit4 p)
    (hq : Unit4 q) :
    Unit4 (misorientation ops p q) ∧
      (∃ g ∈ ops, toMatrix (misorientation ops p q) = toMatrix g * toMatrix p * (toMatrix q)ᵀ) ∧
      IsLeast (angles ops p q) (angleOf (toMatrix (misorientation ops p q))) ∧
      (toAxisAngle (misorientation ops p q)).2 = angleOf (toMatrix (misorientation ops p q)) := by
  have hG := C68_group h
  have hab := hp.mul hq.conj
  obtain ⟨m, hm, hr⟩ := search_found h hc hp hq
  obtain ⟨-, hmin, -⟩ := fold_spec (qmul p (Rotation.conj q)) (misops ops) (defaultQuat, 2 * π)
  rw [hr] at hmin
  have hmis : misorientation ops p q = qmul m (qmul p (Rotation.conj q)) := by rw [misorientation, hr]
  have hmu := misops_unit hG hm
  have hu := hmu.mul hab
  obtain ⟨g, hg, hmg⟩ := misops_ops hG hm
  have hmat : toMatrix (misorientation ops p q) = toMatrix g * toMatrix p * (toMatrix q)ᵀ := by
    rw [hmis, toMatrix_mul hmu hab, toMatrix_mul hp hq.conj, toMatrix_conj, hmg, Matrix.mul_assoc]
  have hle : angleOf (toMatrix (misorientation ops p q)) ≤ key (qmul p (Rotation.conj q)) m := by
    rw [hmis, key, toAxisAngle_angle hu]
    exact angleOf_le hu
  have hall : ∀ x ∈ ops, key (qmul p (Rotation.conj q)) m ≤ angleOf (toMatrix (qmul x (qmul p (Rotation.conj q)))) := by
    intro x hx
    obtain ⟨m', hm', hk⟩ := search_le h hc hp hq hx
    rw [← hk]
    exact hmin m' hm'
  refine ⟨by rw [hmis]; exact hu, ⟨g, hg, hmat⟩, ⟨?_, ?_⟩, ?_⟩
  · refine ⟨g, hg, Rotation.one, hG.one, ?_⟩
    rw [toMatrix_one, Matrix.one_mul, hmat]
  · rintro θ ⟨x, hx, k, hk, rfl⟩
    obtain ⟨k', hk', hkk⟩ := hG.inv k hk
    obtain ⟨r, hr', hrr⟩ := hG.mul k' hk' x hx
    refine hle.trans ((hall r hr').trans (le_of_eq ?_))
    have hxu := hG.unit x hx
    have hku := hG.unit k hk
    have e1 : toMatrix (qmul r (qmul p (Rotation.conj q))) =
        (toMatrix k)ᵀ * (toMatrix x * toMatrix p * (toMatrix q)ᵀ) := by
      have e2 : toMatrix r = (toMatrix k)ᵀ * toMatrix x := by
        rw [← toMatrix_conj]
        have e3 : toMatrix (Rotation.conj k) = toMatrix k' := by
          rcases hkk with h4 | h4
          · rw [h4]
          · rw [h4, toMatrix_opposite]
        rw [e3, ← toMatrix_mul (hG.unit k' hk') hxu]
        rcases hrr with h4 | h4
        · rw [h4]
        · rw [h4, toMatrix_opposite]
      rw [toMatrix_mul (hG.unit r hr') hab, toMatrix_mul hp hq.conj, toMatrix_conj, e2]
      simp only [Matrix.mul_assoc]
    rw [e1, angleOf, angleOf, Matrix.trace_mul_comm, Matrix.transpose_mul]
    simp only [Matrix.mul_assoc]
  · apply le_antisymm
    · rw [hmis, ← key]
      refine (hall g hg).trans (le_of_eq ?_)
      rw [toMatrix_mul (hG.unit g hg) hab, ← hmg, ← toMatrix_mul hmu hab]
    · rw [hmis, ← key, ← hmis]
      exact hle

theorem angles_symm (p q : Quat) : angles ops p q = angles ops q p := by
  ext θ
  constructor
  · rintro ⟨g, hg, k, hk, rfl⟩
    refine ⟨k, hk, g, hg, ?_⟩
    rw [← angleOf_transpose, Matrix.transpose_mul, Matrix.transpose_transpose]
  · rintro ⟨g, hg, k, hk, rfl⟩
    refine ⟨k, hk, g, hg, ?_⟩
    rw [← angleOf_transpose, Matrix.transpose_mul, Matrix.transpose_transpose]

theorem op_product (hG : RotationGroup ops) {x y : Quat} (hx : x ∈ ops) (hy : y ∈ ops) :
    ∃ r ∈ ops, toMatrix r = toMatrix x * toMatrix y := by
  obtain ⟨r, hr, h⟩ := hG.mul x hx y hy
  refine ⟨r, hr, ?_⟩
  rw [← toMatrix_mul (hG.unit x hx) (hG.unit y hy)]
  rcases h with h | h
  · rw [h]
  · rw [h, toMatrix_opposite]

theorem op_inverse (hG : RotationGroup ops) {x : Quat} (hx : x ∈ ops) : ∃ r ∈ ops, toMatrix r = (toMatrix x)ᵀ := by
  obtain ⟨r, hr, h⟩ := hG.inv x hx
  refine ⟨r, hr, ?_⟩
  rw [← toMatrix_conj]
  rcases h with h | h
  · rw [h]
  · rw [h, toMatrix_opposite]

theorem angles_left (hG : RotationGroup ops) {x : Quat} (hx : x ∈ ops) (hp : Unit4 p) :
    angles ops (qmul x p) q = angles ops p q := by
  have hxu := hG.unit x hx
  ext θ
  constructor
  · rintro ⟨g, hg, k, hk, rfl⟩
    obtain ⟨r, hr, h⟩ := op_product hG hg hx
    refine ⟨r, hr, k, hk, ?_⟩
    rw [h, toMatrix_mul hxu hp]
    simp only [Matrix.mul_assoc]
  · rintro ⟨g, hg, k, hk, rfl⟩
    obtain ⟨y, hy, h1⟩ := op_inverse hG hx
    obtain ⟨r, hr, h2⟩ := op_product hG hg hy
    refine ⟨r, hr, k, hk, ?_⟩
    have h3 : (toMatrix x)ᵀ * toMatrix x = 1 := mul_eq_one_comm.mp (toMatrix_SO3 hxu).1
    have h4 : toMatrix g * (toMatrix x)ᵀ * (toMatrix x * toMatrix p) = toMatrix g * toMatrix p := by
      rw [Matrix.mul_assoc, ← Matrix.mul_assoc (toMatrix x)ᵀ, h3, Matrix.one_mul]
    rw [h2, h1, toMatrix_mul hxu hp, h4]

/-- The misorientation angle does not depend on the order of the two orientations nor on which of their
symmetric descriptions is given. -/
theorem C95_invariant_partial (h : symmetryRotations c = some ops) (hc : c ∈ twoSigned) (hp : Unit4 p) (hq : Unit4 q)
    {x y : Quat} (hx : x ∈ ops) (hy : y ∈ ops) :
    angleOf (toMatrix (misorientation ops (qmul x p) (qmul y q))) = angleOf (toMatrix (misorientation ops p q)) ∧
      angleOf (toMatrix (misorientation ops q p)) = angleOf (toMatrix (misorientation ops p q)) := by
  have hG := C68_group h
  have h0 := (C95_misorientation_partial h hc hp hq).2.2.1
  have h1 := (C95_misorientation_partial h hc ((hG.unit x hx).mul hp) ((hG.unit y hy).mul hq)).2.2.1
  have h2 := (C95_misorientation_partial h hc hq hp).2.2.1
  rw [angles_left hG hx hp, angles_symm, angles_left hG hy hq, angles_symm] at h1
  rw [angles_symm] at h2
  exact ⟨h1.unique h0, h2.unique h0⟩

theorem angleOf_eq_zero {q : Quat} (hq : Unit4 q) (h : angleOf (toMatrix q) = 0) :
    q = Rotation.one ∨ q = opposite Rotation.one := by
  rw [angleOf_toMatrix hq] at h
  have h1 : arccos |q.s| = 0 := by linarith
  rw [arccos_eq_zero] at h1
  have h2 : |q.s| = 1 := le_antisymm (Unit4.s_le hq) h1
  have h3 : q.s ^ 2 = 1 := by rw [← sq_abs, h2]; norm_num
  simp only [Unit4] at hq
  have hx : q.x = 0 := by nlinarith [sq_nonneg q.x, sq_nonneg q.y, sq_nonneg q.z]
  have hy : q.y = 0 := by nlinarith [sq_nonneg q.x, sq_nonneg q.y, sq_nonneg q.z]
  have hz : q.z = 0 := by nlinarith [sq_nonneg q.x, sq_nonneg q.y, sq_nonneg q.z]
  rcases abs_eq (zero_le_one' ℝ) |>.mp h2 with h4 | h4
  · left; ext <;> simp [Rotation.one, h4, hx, hy, hz]
  · right; ext <;> simp [Rotation.one, opposite, h4, hx, hy, hz]

/-- The misorientation is no rotation exactly if the two orientations describe the same crystal. -/
theorem C95_zero_partial (h : symmetryRotations c = some ops) (hc : c ∈ twoSigned) (hp : Unit4 p) (hq : Unit4 q) :
    angleOf (toMatrix (misorientation ops p q)) = 0 ↔ ∃ g ∈ ops, toMatrix q = toMatrix g * toMatrix p := by
  have hG := C68_group h
  obtain ⟨hu, ⟨g, hg, hm⟩, hl, -⟩ := C95_misorientation_partial h hc hp hq
  have hqq : (toMatrix q)ᵀ * toMatrix q = 1 := mul_eq_one_comm.mp (toMatrix_SO3 hq).1
  constructor
  · intro h0
    have h1 : toMatrix (misorientation ops p q) = 1 := by
      rcases angleOf_eq_zero hu h0 with h1 | h1
      · rw [h1, toMatrix_one]
      · rw [h1, toMatrix_opposite, toMatrix_one]
    refine ⟨g, hg, ?_⟩
    rw [h1] at hm
    calc toMatrix q = 1 * toMatrix q := (Matrix.one_mul _).symm
      _ = toMatrix g * toMatrix p := by rw [hm, Matrix.mul_assoc, hqq, Matrix.mul_one]
  · rintro ⟨x, hx, hxq⟩
    apply le_antisymm
    · apply hl.2
      refine ⟨x, hx, Rotation.one, hG.one, ?_⟩
      rw [toMatrix_one, Matrix.one_mul, ← hxq, (toMatrix_SO3 hq).1, angleOf]
      norm_num [Matrix.trace, Fin.sum_univ_three]
    · exact arccos_nonneg _

/-! ## The block version -/

theorem key_block {m ab : Quat} (hu : Unit4 (qmul m ab)) :
    2 * arccos (max (-1) (min 1 ((productMatrix m *ᵥ toVec ab) 0))) = key ab m ∧
      productMatrix m *ᵥ toVec ab = toVec (qmul m ab) ∧ key ab m ≤ 2 * π := by
  have h1 := C51_product_matrix m ab
  refine ⟨?_, h1, ?_⟩
  · rw [h1, key]
    simp [toVec, toAxisAngle, min_comm]
  · rw [key, toAxisAngle_angle hu]
    linarith [arccos_le_pi (qmul m ab).s]

theorem block_fold (ab : Quat) (l : List Quat) (hl : ∀ m ∈ l, Unit4 (qmul m ab)) (st : Quat × ℝ)
    (st2 : Option (Fin 4 → ℝ) × ℝ)
    (hst : (st2.1 = some (toVec st.1) ∧ st2.2 = st.2) ∨ (st = (defaultQuat, 2 * π) ∧ 2 * π ≤ st2.2)) :
    let r := l.foldl (misStep ab) st
    let r2 := l.foldl (blockStep (toVec ab)) st2
    (r2.1 = some (toVec r.1) ∧ r2.2 = r.2) ∨ (r = (defaultQuat, 2 * π) ∧ 2 * π ≤ r2.2) := by
  induction l generalizing st st2 with
  | nil => exact hst
  | cons m l ih =>
    obtain ⟨hk, hv, hle⟩ := key_block (hl m List.mem_cons_self)
    simp only [List.foldl_cons]
    refine ih (fun x hx => hl x (List.mem_cons_of_mem _ hx)) _ _ ?_
    have e1 : misStep ab st m = if key ab m < st.2 then (qmul m ab, key ab m) else st := rfl
    have e2 : blockStep (toVec ab) st2 m =
        if key ab m < st2.2 then (some (toVec (qmul m ab)), key ab m) else st2 := by
      simp only [blockStep]; rw [hk, hv]
    rw [e1, e2]
    rcases hst with ⟨h1, h2⟩ | ⟨h1, h2⟩
    · rw [h2]
      split_ifs
      · exact Or.inl ⟨rfl, rfl⟩
      · exact Or.inl ⟨h1, h2⟩
    · have hst2 : st.2 = 2 * π := by rw [h1]
      rcases lt_or_eq_of_le hle with h3 | h3
      · have c1 : key ab m < st.2 := by rw [hst2]; exact h3
        rw [if_pos c1, if_pos (lt_of_lt_of_le h3 h2)]
        exact Or.inl ⟨rfl, rfl⟩
      · have c1 : ¬ key ab m < st.2 := by rw [hst2, h3]; exact lt_irrefl _
        rw [if_neg c1]
        right
        refine ⟨h1, ?_⟩
        by_cases c2 : key ab m < st2.2
        · rw [if_pos c2]; exact h3.ge
        · rw [if_neg c2]; exact h2

/-- The block version returns the pairwise misorientations, pair by pair, for lists of any length; lists of
different length are refused. -/
theorem C95_block_partial (h : symmetryRotations c = some ops) (hc : c ∈ twoSigned) (A B : List Quat)
    (hA : ∀ x ∈ A, Unit4 x) (hB : ∀ x ∈ B, Unit4 x) :
    misorientationBlock ops A B =
      if A.length = B.length then some (A.zipWith (fun x y => some (misorientation ops x y)) B) else none := by
  have hG := C68_group h
  have key1 : ∀ x ∈ A, ∀ y ∈ B, blockOne ops x y = some (misorientation ops x y) := by
    intro x hx y hy
    have hab := (hA x hx).mul (hB y hy).conj
    obtain ⟨m, hm, hr⟩ := search_found h hc (hA x hx) (hB y hy)
    have hu := (misops_unit hG hm).mul hab
    have hmis : misorientation ops x y = qmul m (qmul x (Rotation.conj y)) := by rw [misorientation, hr]
    rcases block_fold (qmul x (Rotation.conj y)) (misops ops) (fun m hm => (misops_unit hG hm).mul hab)
        (defaultQuat, 2 * π) (none, 3 * π) (Or.inr ⟨rfl, by simp only; linarith [pi_pos]⟩) with ⟨h1, -⟩ | ⟨h1, -⟩
    · rw [blockOne, h1, hr, hmis]
      simp only [Option.map_some, ori]
      exact congrArg some (normalize_of_unit hu)
    · exfalso
      obtain ⟨-, h2, -⟩ := fold_spec (qmul x (Rotation.conj y)) (misops ops) (defaultQuat, 2 * π)
      obtain ⟨m', hm', hk⟩ := search_le h hc (hA x hx) (hB y hy) hG.one
      have h4 := h2 m' hm'
      rw [h1, hk, angleOf] at h4
      have := arccos_le_pi (((toMatrix (qmul Rotation.one (qmul x (Rotation.conj y)))).trace - 1) / 2)
      have := pi_pos
      simp only at h4
      linarith
  rw [misorientationBlock]
  split_ifs
  · congr 1
    clear h hc
    induction A generalizing B with
    | nil => simp
    | cons x A ih =>
      cases B with
      | nil => simp
      | cons y B =>
        simp only [List.zipWith_cons_cons, List.cons.injEq]
        refine ⟨key1 x List.mem_cons_self y List.mem_cons_self, ?_⟩
        apply ih B (fun z hz => hA z (List.mem_cons_of_mem _ hz)) (fun z hz => hB z (List.mem_cons_of_mem _ hz))
        · intro z hz w hw
          exact key1 z (List.mem_cons_of_mem _ hz) w (List.mem_cons_of_mem _ hw)
        · simp_all
  · rfl

/-! ## The cyclic classes -/

/-- For each cyclic class some operator is missing with its negative sign among the products. -/
theorem table_missing : ∀ e ∈ table, e.1 ∈ cyclic → ∃ u ∈ e.2.2, ∀ v ∈ e.2.2, ∀ w ∈ e.2.2,
    QZ.mul e.2.1 v w ≠ u.neg.dbl := by decide +kernel

theorem QZ.val_mul_inj {d : ℤ} (hd : 0 ≤ d) (hi : Irrational √(d : ℝ)) {e : List QZ} {u v w : QZ}
    (hcl : ∃ r ∈ e, QZ.mul d v w = r.dbl ∨ QZ.mul d v w = r.neg.dbl) (h : qmul (v.val d) (w.val d) = u.val d) :
    QZ.mul d v w = u.dbl := by
  obtain ⟨r, -, h1 | h1⟩ := hcl
  · rw [QZ.val_mul hd h1] at h
    rw [h1, QZ.val_inj hi h]
  · rw [QZ.val_mul hd h1] at h
    rw [h1, QZ.val_inj hi h]

/-- For the cyclic classes the claim fails: there are two orientations that describe the same crystal, one
of them the sample axes, with a misorientation that is a rotation by a nonzero angle. -/
theorem C95_cyclic (hc : c ∈ cyclic) : ∃ ops p, symmetryRotations c = some ops ∧ Unit4 p ∧
    (∃ g ∈ ops, toMatrix Rotation.one = toMatrix g * toMatrix p) ∧
      0 < angleOf (toMatrix (misorientation ops p Rotation.one)) := by
  have hmem : ∃ e ∈ table, e.1 = c := by
    simp only [cyclic, List.mem_cons, List.not_mem_nil, or_false] at hc
    rcases hc with rfl | rfl | rfl | rfl | rfl <;> decide +kernel
  obtain ⟨e, he, rfl⟩ := hmem
  have hops := rotations_table e he
  have hG := C68_group hops
  obtain ⟨u, hu, hmiss⟩ := table_missing e he hc
  have huu := table_unit4 he hu
  set P := opposite (Rotation.conj (u.val e.2.1)) with hP
  have hPu : Unit4 P := huu.conj.opposite
  have hconj1 : Rotation.conj Rotation.one = Rotation.one := by ext <;> simp [Rotation.conj, Rotation.one]
  have hone : Unit4 Rotation.one := by norm_num [Unit4, Rotation.one]
  refine ⟨_, P, hops, hPu, ⟨_, List.mem_map_of_mem hu, ?_⟩, ?_⟩
  · rw [hP, toMatrix_opposite, toMatrix_conj, (toMatrix_SO3 huu).1, toMatrix_one]
  · apply lt_of_le_of_ne (arccos_nonneg _)
    intro h0
    obtain ⟨-, -, h3⟩ := fold_spec (qmul P (Rotation.conj Rotation.one)) (misops (e.2.2.map (QZ.val e.2.1)))
      (defaultQuat, 2 * π)
    rcases h3 with h3 | ⟨m, hm, h3, hlt⟩
    · have hd : misorientation (e.2.2.map (QZ.val e.2.1)) P Rotation.one = defaultQuat := by
        rw [misorientation, h3]
      have hdu : Unit4 defaultQuat := by norm_num [Unit4, defaultQuat]
      rw [hd] at h0
      rcases angleOf_eq_zero hdu h0.symm with h4 | h4
      · have := congrArg Quat.s h4; simp [defaultQuat, Rotation.one] at this
      · have := congrArg Quat.s h4; simp [defaultQuat, Rotation.one, opposite] at this
    · have hmu := misops_unit hG hm
      rw [hconj1, qmul_one] at h3 hlt
      have hmis : misorientation (e.2.2.map (QZ.val e.2.1)) P Rotation.one = qmul m P := by
        rw [misorientation, hconj1, qmul_one, h3]
      have hmP := hmu.mul hPu
      rw [hmis] at h0
      rcases angleOf_eq_zero hmP h0.symm with h4 | h4
      · obtain ⟨x, hx, y, hy, rfl⟩ := mem_misops.mp hm
        obtain ⟨v, hv, rfl⟩ := List.mem_map.mp hx
        obtain ⟨w, hw, rfl⟩ := List.mem_map.mp hy
        have h5 : qmul (v.val e.2.1) (w.val e.2.1) = u.neg.val e.2.1 := by
          rw [QZ.val_neg]
          have h6 := congrArg (fun z => qmul z (Rotation.conj P)) h4
          simp only [qmul_assoc, qmul_conj hPu, qmul_one, one_qmul] at h6
          rw [h6, hP]
          ext <;> simp [opposite, Rotation.conj]
        exact hmiss v hv w hw
          (QZ.val_mul_inj (root_nonneg he) (root_irrational he) (table_mul e he v hv w hw) h5)
      · rw [key, toAxisAngle_angle hmP, h4] at hlt
        simp [opposite, Rotation.one, arccos_neg_one] at hlt

/-- For the class without symmetry the pairwise function can also return a half turn about the third axis
that has nothing to do with the orientations, where the block version returns the right rotation. -/
theorem C95_no_symmetry : ∃ ops, symmetryRotations "1" = some ops ∧
    misorientation ops (opposite Rotation.one) Rotation.one = defaultQuat ∧
      blockOne ops (opposite Rotation.one) Rotation.one = some (opposite Rotation.one) := by
  have hops : symmetryRotations "1" = some [Rotation.one] := by
    rw [rotations_table ("1", 2, slice 0 1 tetZ) (by simp [table])]
    simp only [slice, tetZ, List.drop_zero, List.take_succ_cons, List.take_zero, Nat.sub_zero, List.map_cons,
      List.map_nil]
    rw [show (⟨2, 0, 0, 0, 0, 0, 0, 0⟩ : QZ) = oneZ from rfl, oneZ_val]
  have hprod : qmul (qmul Rotation.one Rotation.one) (qmul (opposite Rotation.one) (Rotation.conj Rotation.one)) =
      opposite Rotation.one := by
    ext <;> simp [qmul, Rotation.one, Rotation.conj, opposite]
  have hu : Unit4 (opposite Rotation.one) := by norm_num [Unit4, Rotation.one, opposite]
  refine ⟨_, hops, ?_, ?_⟩
  · simp only [misorientation, misops, List.flatMap_cons, List.flatMap_nil, List.map_cons, List.map_nil,
      List.append_nil, List.foldl_cons, List.foldl_nil, misStep]
    rw [hprod, toAxisAngle_angle hu]
    simp [opposite, Rotation.one, arccos_neg_one]
  · obtain ⟨h1, h2, -⟩ := key_block (m := qmul Rotation.one Rotation.one)
      (ab := qmul (opposite Rotation.one) (Rotation.conj Rotation.one)) (by rw [hprod]; exact hu)
    simp only [blockOne, misops, List.flatMap_cons, List.flatMap_nil, List.map_cons, List.map_nil,
      List.append_nil, List.foldl_cons, List.foldl_nil, blockStep]
    rw [h1, key, hprod, toAxisAngle_angle hu, h2, hprod]
    have h3 : (2 * arccos (opposite Rotation.one).s < 3 * π) := by
      simp [opposite, Rotation.one, arccos_neg_one]; linarith [pi_pos]
    rw [if_pos h3]
    simp only [Option.map_some, ori]
    exact congrArg some (normalize_of_unit hu)

end

/-- Two orientations of a cubic crystal. -/
example : ∃ ops, symmetryRotations "432" = some ops ∧ Unit4 (⟨3 / 5, 4 / 5, 0, 0⟩ : Quat) ∧ Unit4 Rotation.one :=
  ⟨_, rotations_table ("432", 2, slice 0 24 cubZ) (by simp [table]), by norm_num [Unit4], by
    norm_num [Unit4, Rotation.one]⟩

end Neml.Symmetry
