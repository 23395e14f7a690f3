import Verif.Props.Rotation
import Mathlib.Analysis.Real.Pi.Bounds

/-!
# C52 (angles), C54, C90, C91: the parametrizations of an orientation

Specifications: proper rotation matrices `SO3`, the elementary rotations `Rx`, `Ry`, `Rz`, and equality
of rotation matrices (two unit quaternions with the same matrix differ by a sign at most).
-/

namespace Neml.Rotation

open Matrix Neml.Mandel Real

/-! ## Library functions -/

theorem atan2_facts (y x : ℝ) :
    √(x * x + y * y) * cos (atan2 y x) = x ∧ √(x * x + y * y) * sin (atan2 y x) = y := by
  have hn : ‖(⟨x, y⟩ : ℂ)‖ = √(x * x + y * y) := by
    rw [Complex.norm_def, Complex.normSq_mk]
  rw [atan2, ← hn]
  exact ⟨Complex.norm_mul_cos_arg _, Complex.norm_mul_sin_arg _⟩

theorem atan2_unit {y x : ℝ} (h : x * x + y * y = 1) : cos (atan2 y x) = x ∧ sin (atan2 y x) = y := by
  have := atan2_facts y x
  simpa [h] using this

theorem fmod_two_pi (x : ℝ) : cos (fmod x (2 * π)) = cos x ∧ sin (fmod x (2 * π)) = sin x := by
  unfold fmod
  split
  · rw [mul_comm (2 * π)]
    exact ⟨cos_sub_int_mul_two_pi _ _, sin_sub_int_mul_two_pi _ _⟩
  · rw [mul_comm (2 * π)]
    exact ⟨cos_sub_int_mul_two_pi _ _, sin_sub_int_mul_two_pi _ _⟩

theorem fmod_id {x y : ℝ} (h0 : 0 ≤ x) (h1 : x < y) : fmod x y = x := by
  have hy : 0 < y := lt_of_le_of_lt h0 h1
  have : ⌊x / y⌋ = 0 := by
    rw [Int.floor_eq_zero_iff]
    exact ⟨by positivity, by rwa [div_lt_one hy]⟩
  simp [fmod, h0, this]

theorem fmod_self {y : ℝ} (hy : 0 < y) : fmod y y = 0 := by
  simp [fmod, hy.le, div_self hy.ne']

/-! ## C52: Rodrigues vectors -/

theorem C52_rodrigues (r : Fin 3 → ℝ) : Unit4 (setRodrigues r) ∧ toRodrigues (setRodrigues r) = r := by
  have hp : 0 < 1 + (r 0 * r 0 + r 1 * r 1 + r 2 * r 2) := by
    nlinarith [mul_self_nonneg (r 0), mul_self_nonneg (r 1), mul_self_nonneg (r 2)]
  have h1 := Real.sqrt_pos.mpr hp
  have h2 := Real.mul_self_sqrt hp.le
  generalize hS : √(1 + (r 0 * r 0 + r 1 * r 1 + r 2 * r 2)) = S at *
  constructor
  · simp only [Unit4, setRodrigues, hS]
    field_simp
    linarith
  · have h0 : (1 / S) ≠ 0 := by positivity
    ext i
    fin_cases i <;> simp [toRodrigues, setRodrigues, hS, h1.ne']

/-- Reading a Rodrigues vector off and building from it gives the same rotation, unless it is a half
turn. -/
theorem C52_rodrigues_back {q : Quat} (hq : Unit4 q) (h : q.s ≠ 0) :
    setRodrigues (toRodrigues q) = q ∨ setRodrigues (toRodrigues q) = opposite q := by
  have e : 1 + (toRodrigues q 0 * toRodrigues q 0 + toRodrigues q 1 * toRodrigues q 1 +
      toRodrigues q 2 * toRodrigues q 2) = (1 / q.s) ^ 2 := by
    unfold Unit4 at hq
    simp only [toRodrigues, h, if_false, cons_val_zero, cons_val_one, cons_val]
    field_simp
    linarith
  have hS : √(1 + (toRodrigues q 0 * toRodrigues q 0 + toRodrigues q 1 * toRodrigues q 1 +
      toRodrigues q 2 * toRodrigues q 2)) = |1 / q.s| := by rw [e, Real.sqrt_sq_eq_abs]
  rcases lt_or_gt_of_ne h with h1 | h1
  · right
    have : |1 / q.s| = -(1 / q.s) := abs_of_neg (by rw [one_div]; exact inv_lt_zero.mpr h1)
    ext <;> simp only [setRodrigues, hS, this, opposite] <;>
      (try simp only [toRodrigues, h, if_false, cons_val_zero, cons_val_one, cons_val]) <;> field_simp
  · left
    have : |1 / q.s| = 1 / q.s := abs_of_pos (by positivity)
    ext <;> simp only [setRodrigues, hS, this] <;>
      (try simp only [toRodrigues, h, if_false, cons_val_zero, cons_val_one, cons_val]) <;> field_simp

/-- A half turn never survives the trip through its Rodrigues vector. -/
theorem C52_rodrigues_half_turn {q : Quat} (hq : Unit4 q) (h : q.s = 0) :
    toMatrix (setRodrigues (toRodrigues q)) ≠ toMatrix q := by
  intro hc
  have hp : ∀ r : Fin 3 → ℝ, (setRodrigues r).s ≠ 0 := by
    intro r
    have : 0 < 1 + (r 0 * r 0 + r 1 * r 1 + r 2 * r 2) := by
      nlinarith [mul_self_nonneg (r 0), mul_self_nonneg (r 1), mul_self_nonneg (r 2)]
    have := Real.sqrt_pos.mpr this
    simp only [setRodrigues]
    positivity
  rcases (toMatrix_inj (C52_rodrigues _).1 hq).mp hc with h1 | h1
  · exact hp _ (by rw [h1, h])
  · exact hp (toRodrigues q) (by rw [h1]; simp [opposite, h])

example : Unit4 ⟨0, 1, 0, 0⟩ ∧ (⟨0, 1, 0, 0⟩ : Quat).s = 0 := by norm_num [Unit4]

/-! ## C52: axis and angle -/

theorem setAxisAngle_unit {n : Fin 3 → ℝ} (hn : n ⬝ᵥ n = 1) (a : ℝ) : Unit4 (setAxisAngle n a) := by
  have h : n 0 * n 0 + n 1 * n 1 + n 2 * n 2 = 1 := by
    rw [← hn]; simp [dotProduct, Fin.sum_univ_three]
  have := sin_sq_add_cos_sq (a / 2)
  simp only [Unit4, setAxisAngle]
  linear_combination this + (sin (a / 2)) ^ 2 * h

/-- A unit axis and an angle below a full turn come back unchanged. -/
theorem C52_axis_angle {n : Fin 3 → ℝ} (hn : n ⬝ᵥ n = 1) {a : ℝ} (h0 : 1e-16 ≤ a) (h1 : a < 2 * π) :
    Unit4 (setAxisAngle n a) ∧ toAxisAngle (setAxisAngle n a) = (n, a) := by
  refine ⟨setAxisAngle_unit hn a, ?_⟩
  have hf : max (-1) (min (cos (a / 2)) 1) = cos (a / 2) := by
    rw [min_eq_left (cos_le_one _), max_eq_right (neg_one_le_cos _)]
  have ha : 2 * arccos (cos (a / 2)) = a := by
    rw [arccos_cos (by linarith) (by linarith)]; ring
  have hs : sin (a / 2) ≠ 0 := (sin_pos_of_pos_of_lt_pi (by linarith) (by linarith)).ne'
  unfold toAxisAngle
  simp only [setAxisAngle, hf, ha]
  rw [if_neg (by linarith)]
  refine Prod.ext ?_ rfl
  ext i
  fin_cases i <;> simp [hs]

/-- The axis and angle read off an orientation rebuild it, with a unit axis, as long as the angle is at
least the code's threshold of 1e-16 and short of a full turn. -/
theorem C52_axis_angle_back {q : Quat} (hq : Unit4 q) (h0 : 1e-16 ≤ (toAxisAngle q).2) (h1 : -1 < q.s) :
    (toAxisAngle q).1 ⬝ᵥ (toAxisAngle q).1 = 1 ∧ setAxisAngle (toAxisAngle q).1 (toAxisAngle q).2 = q := by
  have hq' := hq
  unfold Unit4 at hq
  have hs1 : q.s ≤ 1 := by nlinarith [sq_nonneg q.x, sq_nonneg q.y, sq_nonneg q.z]
  have hf : max (-1) (min q.s 1) = q.s := by
    rw [min_eq_left hs1, max_eq_right h1.le]
  have ha : (toAxisAngle q).2 = 2 * arccos q.s := by simp [toAxisAngle, hf]
  have hs2 : q.s ≠ 1 := by
    intro h
    rw [ha, h, arccos_one] at h0
    norm_num at h0
  have hpos : 0 < 1 - q.s ^ 2 := by
    have : q.s < 1 := lt_of_le_of_ne hs1 hs2
    nlinarith
  have hsin : sin (2 * arccos q.s / 2) = √(1 - q.s ^ 2) := by
    rw [mul_div_cancel_left₀ _ (by norm_num : (2 : ℝ) ≠ 0), sin_arccos]
  have hcos : cos (2 * arccos q.s / 2) = q.s := by
    rw [mul_div_cancel_left₀ _ (by norm_num : (2 : ℝ) ≠ 0), cos_arccos h1.le hs1]
  have hr := Real.sqrt_pos.mpr hpos
  have hr2 := Real.mul_self_sqrt hpos.le
  have hax : (toAxisAngle q).1 = ![q.x / √(1 - q.s ^ 2), q.y / √(1 - q.s ^ 2), q.z / √(1 - q.s ^ 2)] := by
    rw [← hsin]
    unfold toAxisAngle
    simp only [hf]
    rw [if_neg (by rw [ha] at h0; linarith)]
  rw [hax, ha]
  generalize √(1 - q.s ^ 2) = S at *
  constructor
  · simp [dotProduct, Fin.sum_univ_three]
    field_simp
    linarith
  · ext
    · exact hcos
    · simp only [setAxisAngle, hsin, cons_val_zero]; field_simp
    · simp only [setAxisAngle, hsin, cons_val_one, cons_val_zero]; field_simp
    · simp only [setAxisAngle, hsin, cons_val]; field_simp

/-- The identity also survives. -/
theorem C52_axis_angle_identity : setAxisAngle (toAxisAngle one).1 (toAxisAngle one).2 = one := by
  simp [toAxisAngle, one, setAxisAngle]

example : (![0, 3 / 5, 4 / 5] : Fin 3 → ℝ) ⬝ᵥ ![0, 3 / 5, 4 / 5] = 1 ∧ (1e-16 : ℝ) ≤ 1 ∧ (1 : ℝ) < 2 * π := by
  refine ⟨by simp [dotProduct, Fin.sum_univ_three]; norm_num, by norm_num, by linarith [pi_gt_three]⟩

/-! ## C52: a pair of orthonormal vectors -/

/-- Two orthonormal vectors give the rotation that carries the first two coordinate axes to them. -/
theorem C52_vectors {x y : Fin 3 → ℝ} (hx : x ⬝ᵥ x = 1) (hy : y ⬝ᵥ y = 1) (hxy : x ⬝ᵥ y = 0) :
    ∃ q, setVectors x y = some q ∧ Unit4 q ∧ applyVec q ![1, 0, 0] = x ∧ applyVec q ![0, 1, 0] = y := by
  have hc : ¬ |x ⬝ᵥ y| > 1e-16 := by rw [hxy]; norm_num
  simp only [dotProduct, Fin.sum_univ_three] at hx hy hxy
  have hM : SO3 !![x 0, y 0, cross x y 0; x 1, y 1, cross x y 1; x 2, y 2, cross x y 2] := by
    constructor
    · rw [mul_eq_one_comm]
      ext i j
      fin_cases i <;> fin_cases j <;>
        simp [Matrix.mul_apply, Fin.sum_univ_succ, cross] <;> grind
    · rw [det_fin_three]
      simp [cross]
      grind
  obtain ⟨h1, h2⟩ := C52_matrix hM
  refine ⟨_, by rw [setVectors, if_neg hc], h2, ?_, ?_⟩
  · rw [(C51_faithful h2 h2 _).2.2.2.2.2.2, h1]
    ext i
    fin_cases i <;> simp [mulVec, dotProduct, Fin.sum_univ_succ]
  · rw [(C51_faithful h2 h2 _).2.2.2.2.2.2, h1]
    ext i
    fin_cases i <;> simp [mulVec, dotProduct, Fin.sum_univ_succ]

/-- The code's check lets vectors through that are orthogonal but not of length one, and the result is
then no rotation. -/
theorem C52_vectors_unchecked : ∃ x y q, setVectors x y = some q ∧ ¬ Unit4 q := by
  refine ⟨![2, 0, 0], ![0, 2, 0], setMatrix !![2, 0, 0; 0, 2, 0; 0, 0, 4], ?_, ?_⟩
  · rw [setVectors, if_neg]
    · simp [cross]; norm_num
    · simp [dotProduct, Fin.sum_univ_three]
      norm_num
  · have h9 : √9 = 3 := by rw [show (9 : ℝ) = 3 ^ 2 by norm_num, Real.sqrt_sq (by norm_num)]
    have e : (setMatrix !![2, 0, 0; 0, 2, 0; 0, 0, 4]).s = 3 / 2 := by
      unfold setMatrix
      simp only
      rw [if_pos (by simp; norm_num)]
      simp
      rw [show (1 + (2 + 2 + 4) : ℝ) = 9 by norm_num, h9]
      norm_num
    intro h
    unfold Unit4 at h
    rw [e] at h
    nlinarith [sq_nonneg (setMatrix !![2, 0, 0; 0, 2, 0; 0, 0, 4]).x,
      sq_nonneg (setMatrix !![2, 0, 0; 0, 2, 0; 0, 0, 4]).y,
      sq_nonneg (setMatrix !![2, 0, 0; 0, 2, 0; 0, 0, 4]).z]

/-! ## C90: Hopf and hyperspherical coordinates -/

theorem C90_hopf {q : Quat} (hq : Unit4 q) :
    setHopf (toHopf q).1 (toHopf q).2.1 (toHopf q).2.2 = q := by
  unfold Unit4 at hq
  have h01 : 0 ≤ q.y * q.y + q.z * q.z := add_nonneg (mul_self_nonneg _) (mul_self_nonneg _)
  have h02 : 0 ≤ q.s * q.s + q.x * q.x := add_nonneg (mul_self_nonneg _) (mul_self_nonneg _)
  have hle : √(q.y * q.y + q.z * q.z) ≤ 1 := by
    exact Real.sqrt_le_one.mpr (by nlinarith [mul_self_nonneg q.s, mul_self_nonneg q.x])
  have hge : -1 ≤ √(q.y * q.y + q.z * q.z) := by linarith [Real.sqrt_nonneg (q.y * q.y + q.z * q.z)]
  have hsin : sin (2 * arcsin (√(q.y * q.y + q.z * q.z)) / 2) = √(q.y * q.y + q.z * q.z) := by
    rw [mul_div_cancel_left₀ _ (by norm_num : (2 : ℝ) ≠ 0), sin_arcsin hge hle]
  have hcos : cos (2 * arcsin (√(q.y * q.y + q.z * q.z)) / 2) = √(q.s * q.s + q.x * q.x) := by
    rw [mul_div_cancel_left₀ _ (by norm_num : (2 : ℝ) ≠ 0), cos_arcsin, Real.sq_sqrt h01]
    congr 1; linarith
  have hg : 2 * atan2 q.x q.s / 2 = atan2 q.x q.s := by ring
  have ha : atan2 q.z q.y - 2 * atan2 q.x q.s / 2 + 2 * atan2 q.x q.s / 2 = atan2 q.z q.y := by ring
  obtain ⟨f1, f2⟩ := atan2_facts q.x q.s
  obtain ⟨f3, f4⟩ := atan2_facts q.z q.y
  ext
  · simp only [setHopf, toHopf, hcos, hg, f1]
  · simp only [setHopf, toHopf, hcos, hg, f2]
  · simp only [setHopf, toHopf, hsin, ha, f3]
  · simp only [setHopf, toHopf, hsin, ha, f4]

/-- Both sets of coordinates always describe unit quaternions. -/
theorem C90_unit (a b c : ℝ) : Unit4 (setHopf a b c) ∧ Unit4 (setHyperspherical a b c) := by
  constructor
  · have h1 := sin_sq_add_cos_sq (b / 2)
    have h2 := sin_sq_add_cos_sq (c / 2)
    have h3 := sin_sq_add_cos_sq (a + c / 2)
    simp only [Unit4, setHopf]
    linear_combination h1 + cos (b / 2) ^ 2 * h2 + sin (b / 2) ^ 2 * h3
  · have h1 := sin_sq_add_cos_sq a
    have h2 := sin_sq_add_cos_sq b
    have h3 := sin_sq_add_cos_sq c
    simp only [Unit4, setHyperspherical]
    linear_combination h1 + sin a ^ 2 * h2 + sin a ^ 2 * sin b ^ 2 * h3

/-- Hyperspherical coordinates rebuild every orientation whose last two components do not both vanish. -/
theorem C90_hyperspherical {q : Quat} (hq : Unit4 q) (h : q.y ≠ 0 ∨ q.z ≠ 0) :
    ∃ a1 a2 a3, toHyperspherical q = some (a1, a2, a3) ∧ setHyperspherical a1 a2 a3 = q := by
  unfold Unit4 at hq
  have p3 : 0 < q.z * q.z + q.y * q.y := by
    rcases h with h | h
    · have := mul_self_pos.mpr h; linarith [mul_self_nonneg q.z]
    · have := mul_self_pos.mpr h; linarith [mul_self_nonneg q.y]
  have p2 : 0 < q.z * q.z + q.y * q.y + q.x * q.x := by linarith [mul_self_nonneg q.x]
  have e1 : √(q.z * q.z + q.y * q.y + q.x * q.x + q.s * q.s) = 1 := by
    rw [Real.sqrt_eq_one]; linarith
  have s2 := Real.sqrt_pos.mpr p2
  have s3 := Real.sqrt_pos.mpr p3
  have q2 := Real.mul_self_sqrt p2.le
  have q3 := Real.mul_self_sqrt p3.le
  have hsl : -1 ≤ q.s ∧ q.s ≤ 1 := by constructor <;> nlinarith
  generalize hr2 : √(q.z * q.z + q.y * q.y + q.x * q.x) = r2 at *
  generalize hr3 : √(q.z * q.z + q.y * q.y) = r3 at *
  have b2 : ∀ u r : ℝ, 0 < r → u * u ≤ r * r → -1 ≤ u / r ∧ u / r ≤ 1 := by
    intro u r hr hu
    have := abs_le_of_sq_le_sq' (by nlinarith : u ^ 2 ≤ r ^ 2) hr.le
    constructor
    · rw [le_div_iff₀ hr]; linarith [this.1]
    · rw [div_le_one hr]; exact this.2
  have hx := b2 q.x r2 s2 (by nlinarith [mul_self_nonneg q.z, mul_self_nonneg q.y])
  have hy := b2 q.y r3 s3 (by nlinarith [mul_self_nonneg q.z])
  have c1 : sin (arccos q.s) = r2 := by
    rw [sin_arccos, show 1 - q.s ^ 2 = r2 ^ 2 by nlinarith, Real.sqrt_sq s2.le]
  have c2 : sin (arccos (q.x / r2)) = r3 / r2 := by
    rw [sin_arccos, show 1 - (q.x / r2) ^ 2 = (r3 / r2) ^ 2 by field_simp; nlinarith, Real.sqrt_sq (by positivity)]
  have c3 : sin (arccos (q.y / r3)) = |q.z| / r3 := by
    rw [sin_arccos, show 1 - (q.y / r3) ^ 2 = (|q.z| / r3) ^ 2 by
      rw [div_pow |q.z|, sq_abs]; field_simp; nlinarith, Real.sqrt_sq (by positivity)]
  refine ⟨arccos (q.s / 1), arccos (q.x / r2),
    if q.z ≥ 0 then arccos (q.y / r3) else -arccos (q.y / r3), ?_, ?_⟩
  · simp only [toHyperspherical, e1, hr2, hr3]
    rw [if_neg (by simp [s2.ne', s3.ne'])]
  · ext
    · simp only [setHyperspherical, div_one]; exact cos_arccos hsl.1 hsl.2
    · simp only [setHyperspherical, div_one, c1]; rw [cos_arccos hx.1 hx.2]; field_simp
    · simp only [setHyperspherical, div_one, c1, c2]
      have : cos (if q.z ≥ 0 then arccos (q.y / r3) else -arccos (q.y / r3)) = q.y / r3 := by
        split
        · exact cos_arccos hy.1 hy.2
        · rw [cos_neg]; exact cos_arccos hy.1 hy.2
      rw [this]; field_simp
    · simp only [setHyperspherical, div_one, c1, c2]
      have : sin (if q.z ≥ 0 then arccos (q.y / r3) else -arccos (q.y / r3)) = q.z / r3 := by
        split
        · rename_i hz; rw [c3, abs_of_nonneg hz]
        · rename_i hz; rw [sin_neg, c3, abs_of_neg (not_le.mp hz)]; ring
      rw [this]; field_simp

/-- Otherwise, the identity among them, the coordinates are undefined numbers. -/
theorem C90_hyperspherical_undefined {q : Quat} (hy : q.y = 0) (hz : q.z = 0) : toHyperspherical q = none := by
  simp [toHyperspherical, hy, hz]

example : Unit4 ⟨1 / 2, 1 / 2, -1 / 2, 1 / 2⟩ ∧ (-1 / 2 : ℝ) ≠ 0 := by norm_num [Unit4]

/-! ## C91: what the Euler conventions mean -/

/-- Rotation about the x axis. -/
noncomputable def Rx (a : ℝ) : Matrix (Fin 3) (Fin 3) ℝ := !![1, 0, 0; 0, cos a, -sin a; 0, sin a, cos a]

/-- Rotation about the y axis. -/
noncomputable def Ry (a : ℝ) : Matrix (Fin 3) (Fin 3) ℝ := !![cos a, 0, sin a; 0, 1, 0; -sin a, 0, cos a]

/-- Rotation about the z axis. -/
noncomputable def Rz (a : ℝ) : Matrix (Fin 3) (Fin 3) ℝ := !![cos a, -sin a, 0; sin a, cos a, 0; 0, 0, 1]

theorem kocks_product (a b c : ℝ) : kocksMatrix a b c = Rz c * Ry b * Rz (π - a) := by
  ext i j
  fin_cases i <;> fin_cases j <;>
    simp [kocksMatrix, Rz, Ry, Matrix.mul_apply, Fin.sum_univ_succ] <;> ring

theorem SO3.mul {M N : Matrix (Fin 3) (Fin 3) ℝ} (hM : SO3 M) (hN : SO3 N) : SO3 (M * N) := by
  refine ⟨?_, by rw [det_mul, hM.2, hN.2, one_mul]⟩
  rw [transpose_mul, Matrix.mul_assoc, ← Matrix.mul_assoc N, hN.1, Matrix.one_mul, hM.1]

theorem Rz_SO3 (a : ℝ) : SO3 (Rz a) := by
  have := sin_sq_add_cos_sq a
  constructor
  · ext i j
    fin_cases i <;> fin_cases j <;> simp [Rz, Matrix.mul_apply, Fin.sum_univ_succ] <;> linarith
  · simp [Rz, det_fin_three]; linarith

theorem Ry_SO3 (a : ℝ) : SO3 (Ry a) := by
  have := sin_sq_add_cos_sq a
  constructor
  · ext i j
    fin_cases i <;> fin_cases j <;> simp [Ry, Matrix.mul_apply, Fin.sum_univ_succ] <;> linarith
  · simp [Ry, det_fin_three]; linarith

theorem kocks_SO3 (a b c : ℝ) : SO3 (kocksMatrix a b c) := by
  rw [kocks_product]
  exact ((Rz_SO3 c).mul (Ry_SO3 b)).mul (Rz_SO3 _)

/-- The matrix only sees the sines and cosines. -/
theorem kocks_congr {a b c a' b' c' : ℝ} (h1 : cos a = cos a') (h2 : sin a = sin a') (h3 : cos b = cos b')
    (h4 : sin b = sin b') (h5 : cos c = cos c') (h6 : sin c = sin c') :
    kocksMatrix a b c = kocksMatrix a' b' c' := by
  simp only [kocksMatrix, h1, h2, h3, h4, h5, h6]

/-- Degrees to radians. -/
noncomputable def inRadians (u : String) (a : ℝ) : ℝ := if u = "degrees" then a * (π / 180) else a

theorem convertAngle_eq {u : String} (hu : u = "radians" ∨ u = "degrees") (a : ℝ) :
    convertAngle u a = some (inRadians u a) := by
  rcases hu with rfl | rfl
  · simp [convertAngle, inRadians]
  · simp [convertAngle, inRadians]; ring

/-- Each convention gives its textbook product of elementary rotations. The Bunge form needs its middle
angle in the half-open range from 0 to π. -/
theorem C91_conventions {u : String} (hu : u = "radians" ∨ u = "degrees") (a b c : ℝ) :
    (∃ q, setEuler u "kocks" a b c = some q ∧ Unit4 q ∧
      toMatrix q = Rz (inRadians u c) * Ry (inRadians u b) * Rz (π - inRadians u a)) ∧
    (∃ q, setEuler u "roe" a b c = some q ∧ Unit4 q ∧
      toMatrix q = Rz (-inRadians u c) * Ry (-inRadians u b) * Rz (-inRadians u a)) ∧
    (0 ≤ inRadians u b → inRadians u b < π → ∃ q, setEuler u "bunge" a b c = some q ∧ Unit4 q ∧
      toMatrix q = Rz (-inRadians u c) * Rx (-inRadians u b) * Rz (-inRadians u a)) := by
  simp only [setEuler, convertAngle_eq hu]
  generalize inRadians u a = a
  generalize inRadians u b = b
  generalize inRadians u c = c
  refine ⟨?_, ?_, ?_⟩
  · obtain ⟨h1, h2⟩ := C52_matrix (kocks_SO3 a b c)
    exact ⟨_, rfl, h2, by rw [h1, kocks_product]⟩
  · obtain ⟨h1, h2⟩ := C52_matrix (kocks_SO3 a b (π - c))
    refine ⟨_, rfl, h2, ?_⟩
    rw [h1]
    ext i j
    fin_cases i <;> fin_cases j <;>
      simp [kocksMatrix, Rz, Ry, Matrix.mul_apply, Fin.sum_univ_succ] <;> ring
  · intro h0 hpi
    obtain ⟨h1, h2⟩ := C52_matrix (kocks_SO3 (fmod (a - π / 2) (2 * π)) (fmod b π) (fmod (π / 2 - c) (2 * π)))
    refine ⟨_, rfl, h2, ?_⟩
    rw [h1, fmod_id h0 hpi]
    obtain ⟨f1, f2⟩ := fmod_two_pi (a - π / 2)
    obtain ⟨f3, f4⟩ := fmod_two_pi (π / 2 - c)
    rw [kocks_congr f1 f2 rfl rfl f3 f4]
    ext i j
    fin_cases i <;> fin_cases j <;>
      simp [kocksMatrix, Rz, Rx, Matrix.mul_apply, Fin.sum_univ_succ, cos_sub_pi_div_two, sin_sub_pi_div_two,
        cos_pi_div_two_sub, sin_pi_div_two_sub] <;> ring

/-- Unknown units and conventions are refused. -/
theorem C91_refused (u conv : String) (a b c : ℝ)
    (h : (u ≠ "radians" ∧ u ≠ "degrees") ∨ (conv ≠ "kocks" ∧ conv ≠ "bunge" ∧ conv ≠ "roe")) :
    setEuler u conv a b c = none ∧ ∀ q, toEuler u conv q = none := by
  rcases h with ⟨h1, h2⟩ | ⟨h1, h2, h3⟩
  · refine ⟨by simp [setEuler, convertAngle, h1, h2], fun q => ?_⟩
    simp only [toEuler, castAngle, h1, h2, if_false]
    cases fromKocks conv (readKocks q).1 (readKocks q).2.1 (readKocks q).2.2 <;> rfl
  · refine ⟨?_, fun q => by simp [toEuler, fromKocks, h1, h2, h3]⟩
    simp only [setEuler, toKocks, h1, h2, h3, if_false]
    cases convertAngle u a <;> cases convertAngle u b <;> cases convertAngle u c <;> rfl

/-- In the Bunge convention a middle angle of π is treated as 0: the upside-down orientation comes out
upright. -/
theorem C91_bunge_pi (a c : ℝ) : setEuler "radians" "bunge" a π c = setEuler "radians" "bunge" a 0 c ∧
    ∀ q, setEuler "radians" "bunge" a π c = some q → toMatrix q 2 2 = 1 := by
  have e : fmod 0 π = 0 := fmod_id le_rfl pi_pos
  have e' : fmod π π = 0 := fmod_self pi_pos
  constructor
  · simp [setEuler, convertAngle, toKocks, e, e']
  · intro q hq
    simp [setEuler, convertAngle, toKocks, e'] at hq
    rw [← hq, (C52_matrix (kocks_SO3 _ _ _)).1]
    simp [kocksMatrix]

/-! ## C54 -/

theorem SO3.pole {M : Matrix (Fin 3) (Fin 3) ℝ} (hM : SO3 M) (h : M 2 2 = 1) :
    M 0 2 = 0 ∧ M 1 2 = 0 ∧ M 2 0 = 0 ∧ M 2 1 = 0 ∧ M 1 0 = -M 0 1 ∧ M 1 1 = M 0 0 ∧
      M 0 0 * M 0 0 + M 0 1 * M 0 1 = 1 := by
  have R := hM.rel
  have c := R.c22
  have r := R.r22
  rw [h] at c r
  have z1 : M 0 2 = 0 := mul_self_eq_zero.mp (by linarith [mul_self_nonneg (M 0 2), mul_self_nonneg (M 1 2)])
  have z2 : M 1 2 = 0 := mul_self_eq_zero.mp (by linarith [mul_self_nonneg (M 0 2), mul_self_nonneg (M 1 2)])
  have z3 : M 2 0 = 0 := mul_self_eq_zero.mp (by linarith [mul_self_nonneg (M 2 0), mul_self_nonneg (M 2 1)])
  have z4 : M 2 1 = 0 := mul_self_eq_zero.mp (by linarith [mul_self_nonneg (M 2 0), mul_self_nonneg (M 2 1)])
  refine ⟨z1, z2, z3, z4, ?_, ?_, ?_⟩
  · have := R.k1; rw [z1, h] at this; linarith
  · have := R.k4; rw [z1, h] at this; linarith
  · have := R.r00; rw [z1] at this; linarith

/-- At the upright pole. -/
theorem kocks_pole {M : Matrix (Fin 3) (Fin 3) ℝ} (hM : SO3 M) (h : M 2 2 = 1) {sa : ℝ}
    (h2 : 2 * sa = atan2 (M 0 1) (M 0 0) - π) : kocksMatrix sa 0 (-sa) = M := by
  obtain ⟨z1, z2, z3, z4, z5, z6, z7⟩ := hM.pole h
  obtain ⟨t1, t2⟩ := atan2_unit z7
  have u1 : cos (2 * sa) = -M 0 0 := by rw [h2, cos_sub_pi, t1]
  have u2 : sin (2 * sa) = -M 0 1 := by rw [h2, sin_sub_pi, t2]
  rw [cos_two_mul] at u1
  rw [sin_two_mul] at u2
  have u3 := sin_sq_add_cos_sq sa
  ext i j
  fin_cases i <;> fin_cases j <;> simp [kocksMatrix, z1, z2, z3, z4, z5, z6, h]
  · linear_combination u3 - u1
  · linear_combination -u2
  · linear_combination u2
  · linear_combination u3 - u1

/-- Away from the poles. -/
theorem kocks_general {M : Matrix (Fin 3) (Fin 3) ℝ} (hM : SO3 M) (h : |M 2 2| < 1) {S : ℝ} (hS : 0 < S)
    (hS2 : S * S = 1 - M 2 2 ^ 2) :
    kocksMatrix (π / 2 - atan2 (M 2 0 / S) (M 2 1 / S)) (arccos (M 2 2))
      (π / 2 - atan2 (M 0 2 / S) (M 1 2 / S)) = M := by
  have hb := abs_lt.mp h
  have R := hM.rel
  have r := R.r22
  have c := R.c22
  obtain ⟨t1, t2⟩ := atan2_unit (y := M 2 0 / S) (x := M 2 1 / S) (by field_simp; linarith)
  obtain ⟨t3, t4⟩ := atan2_unit (y := M 0 2 / S) (x := M 1 2 / S) (by field_simp; linarith)
  have hcb : cos (arccos (M 2 2)) = M 2 2 := cos_arccos hb.1.le hb.2.le
  have hsb : sin (arccos (M 2 2)) = S := by
    rw [sin_arccos, ← hS2, Real.sqrt_mul_self hS.le]
  have k0 := R.k0
  have k1 := R.k1
  have k3 := R.k3
  have k4 := R.k4
  ext i j
  fin_cases i <;> fin_cases j <;>
    simp [kocksMatrix, cos_pi_div_two_sub, sin_pi_div_two_sub, t1, t2, t3, t4, hcb, hsb] <;>
    field_simp
  · linear_combination k0 + M 2 2 * k4 - M 0 0 * hS2
  · linear_combination k3 - M 2 2 * k1 - M 0 1 * hS2
  · linear_combination k1 - M 2 2 * k3 - M 1 0 * hS2
  · linear_combination k4 + M 2 2 * k0 - M 1 1 * hS2

/-- Away from the poles (by the code's tolerance) and at the upright pole, the Kocks angles read off
describe the matrix exactly. -/
theorem readKocks_matrix {q : Quat} (hq : Unit4 q) (h : toMatrix q 2 2 = 1 ∨ |toMatrix q 2 2| ≤ 1 - 1e-15) :
    kocksMatrix (readKocks q).1 (readKocks q).2.1 (readKocks q).2.2 = toMatrix q ∧
      0 ≤ (readKocks q).2.1 ∧ (readKocks q).2.1 < π := by
  have hM := toMatrix_SO3 hq
  unfold readKocks
  generalize toMatrix q = M at *
  rcases h with h | h
  · have e : |(|M 2 2| - 1)| < 1e-15 := by rw [h]; norm_num
    simp only [if_pos e]
    exact ⟨kocks_pole hM h (by ring), le_rfl, pi_pos⟩
  · have hlt : |M 2 2| < 1 := lt_of_le_of_lt h (by norm_num)
    have e : ¬ |(|M 2 2| - 1)| < 1e-15 := by
      rw [abs_of_neg (by linarith)]; linarith
    simp only [if_neg e]
    have hb := abs_lt.mp hlt
    have hpos : 0 < 1 - M 2 2 ^ 2 := by nlinarith
    rw [sin_arccos]
    refine ⟨kocks_general hM hlt (Real.sqrt_pos.mpr hpos) (Real.mul_self_sqrt hpos.le), arccos_nonneg _, ?_⟩
    rcases lt_or_eq_of_le (arccos_le_pi (M 2 2)) with h' | h'
    · exact h'
    · rw [arccos_eq_pi] at h'; linarith

theorem cast_convert {u : String} (hu : u = "radians" ∨ u = "degrees") (a : ℝ) :
    ∃ b, castAngle u a = some b ∧ convertAngle u b = some a := by
  rcases hu with rfl | rfl
  · exact ⟨a, by simp [castAngle], by simp [convertAngle]⟩
  · refine ⟨a / (2 * π) * 360, by simp [castAngle], ?_⟩
    have := pi_pos.ne'
    simp [convertAngle]
    field_simp

/-- To a convention and back changes the Kocks angles by full turns at most. -/
theorem kocks_round {conv : String} (hc : conv = "kocks" ∨ conv = "bunge" ∨ conv = "roe") {a b c : ℝ}
    (h0 : 0 ≤ b) (h1 : b < π) :
    ∃ x y z a' b' c', fromKocks conv a b c = some (x, y, z) ∧ toKocks conv x y z = some (a', b', c') ∧
      kocksMatrix a' b' c' = kocksMatrix a b c := by
  rcases hc with rfl | rfl | rfl
  · exact ⟨a, b, c, a, b, c, by simp [fromKocks], by simp [toKocks], rfl⟩
  · refine ⟨_, _, _, _, _, _, by simp [fromKocks]; exact ⟨rfl, rfl, rfl⟩, by simp [toKocks]; exact ⟨rfl, rfl, rfl⟩, ?_⟩
    rw [fmod_id h0 h1, fmod_id h0 h1]
    obtain ⟨f1, f2⟩ := fmod_two_pi (a + π / 2)
    obtain ⟨f3, f4⟩ := fmod_two_pi (π / 2 - c)
    obtain ⟨g1, g2⟩ := fmod_two_pi (fmod (a + π / 2) (2 * π) - π / 2)
    obtain ⟨g3, g4⟩ := fmod_two_pi (π / 2 - fmod (π / 2 - c) (2 * π))
    apply kocks_congr
    · rw [g1, cos_sub_pi_div_two, f2, sin_add_pi_div_two]
    · rw [g2, sin_sub_pi_div_two, f1, cos_add_pi_div_two, neg_neg]
    · rfl
    · rfl
    · rw [g3, cos_pi_div_two_sub, f4, sin_pi_div_two_sub]
    · rw [g4, sin_pi_div_two_sub, f3, cos_pi_div_two_sub]
  · refine ⟨a, b, π - c, a, b, π - (π - c), by simp [fromKocks], by simp [toKocks], ?_⟩
    rw [sub_sub_cancel]

theorem euler_pipeline {u conv : String} (hu : u = "radians" ∨ u = "degrees")
    (hc : conv = "kocks" ∨ conv = "bunge" ∨ conv = "roe") (q : Quat)
    (h0 : 0 ≤ (readKocks q).2.1) (h1 : (readKocks q).2.1 < π) :
    ∃ a b c q', toEuler u conv q = some (a, b, c) ∧ setEuler u conv a b c = some q' ∧
      toMatrix q' = kocksMatrix (readKocks q).1 (readKocks q).2.1 (readKocks q).2.2 ∧ Unit4 q' := by
  obtain ⟨x, y, z, a', b', c', e1, e2, e3⟩ :=
    kocks_round hc (a := (readKocks q).1) (c := (readKocks q).2.2) h0 h1
  obtain ⟨x', cx, cx'⟩ := cast_convert hu x
  obtain ⟨y', cy, cy'⟩ := cast_convert hu y
  obtain ⟨z', cz, cz'⟩ := cast_convert hu z
  obtain ⟨m1, m2⟩ := C52_matrix (kocks_SO3 a' b' c')
  exact ⟨x', y', z', _, by simp [toEuler, e1, cx, cy, cz], by simp [setEuler, cx', cy', cz', e2],
    by rw [m1, e3], m2⟩

/-- Reading Euler angles off an orientation in any convention and unit, and building an orientation from
them, gives the same rotation, when the second angle is exactly 0 or lies between the code's tolerances
of the two poles. The upside-down pole is missing, see `C54_upside_down`, and so is the sliver between
each pole and the tolerance. -/
theorem C54_partial {u conv : String} (hu : u = "radians" ∨ u = "degrees")
    (hc : conv = "kocks" ∨ conv = "bunge" ∨ conv = "roe") {q : Quat} (hq : Unit4 q)
    (h : toMatrix q 2 2 = 1 ∨ |toMatrix q 2 2| ≤ 1 - 1e-15) :
    ∃ a b c q', toEuler u conv q = some (a, b, c) ∧ setEuler u conv a b c = some q' ∧
      toMatrix q' = toMatrix q ∧ (q' = q ∨ q' = opposite q) := by
  obtain ⟨k1, k2, k3⟩ := readKocks_matrix hq h
  obtain ⟨a, b, c, q', e1, e2, e3, e4⟩ := euler_pipeline hu hc q k2 k3
  exact ⟨a, b, c, q', e1, e2, e3.trans k1, (toMatrix_inj e4 hq).mp (e3.trans k1)⟩

/-- At the upside-down pole the trip gives an upright orientation, in every convention and unit. -/
theorem C54_upside_down {u conv : String} (hu : u = "radians" ∨ u = "degrees")
    (hc : conv = "kocks" ∨ conv = "bunge" ∨ conv = "roe") {q : Quat} (h : toMatrix q 2 2 = -1) :
    ∃ a b c q', toEuler u conv q = some (a, b, c) ∧ setEuler u conv a b c = some q' ∧
      toMatrix q' 2 2 = 1 ∧ toMatrix q' ≠ toMatrix q := by
  have hb : (readKocks q).2.1 = 0 := by
    unfold readKocks
    simp only [h]
    rw [if_pos (by norm_num)]
  obtain ⟨a, b, c, q', e1, e2, e3, e4⟩ := euler_pipeline hu hc q (by rw [hb]) (by rw [hb]; exact pi_pos)
  have e5 : toMatrix q' 2 2 = 1 := by rw [e3, hb]; simp [kocksMatrix]
  refine ⟨a, b, c, q', e1, e2, e5, fun hc => ?_⟩
  rw [hc, h] at e5
  norm_num at e5

/-- Both cases occur: a general orientation, the identity, and a half turn about the x axis. -/
example : Unit4 ⟨1 / 2, 1 / 2, -1 / 2, 1 / 2⟩ ∧ |toMatrix ⟨1 / 2, 1 / 2, -1 / 2, 1 / 2⟩ 2 2| ≤ 1 - 1e-15 ∧
    toMatrix one 2 2 = 1 ∧ Unit4 ⟨0, 1, 0, 0⟩ ∧ toMatrix ⟨0, 1, 0, 0⟩ 2 2 = -1 := by
  refine ⟨by norm_num [Unit4], ?_, by simp [toMatrix, one], by norm_num [Unit4], ?_⟩
  · simp [toMatrix]; norm_num
  · simp [toMatrix]; norm_num

/-- An orientation turned into an object built from its angles keeps its rotation under the same
condition; the upside-down ones do not. -/
theorem C54_crystal_orientation {q : Quat} (hq : Unit4 q) :
    ((toMatrix q 2 2 = 1 ∨ |toMatrix q 2 2| ≤ 1 - 1e-15) →
      ∃ q', makeCrystalOrientation q = some q' ∧ (q' = q ∨ q' = opposite q)) ∧
    (toMatrix q 2 2 = -1 → ∃ q', makeCrystalOrientation q = some q' ∧ toMatrix q' ≠ toMatrix q) := by
  constructor
  · intro h
    obtain ⟨a, b, c, q', e1, e2, -, e3⟩ := C54_partial (u := "radians") (conv := "kocks")
      (Or.inl rfl) (Or.inl rfl) hq h
    refine ⟨q', ?_, e3⟩
    rw [makeCrystalOrientation, e1, Option.bind_some]
    exact e2
  · intro h
    obtain ⟨a, b, c, q', e1, e2, -, e3⟩ := C54_upside_down (u := "radians") (conv := "kocks")
      (Or.inl rfl) (Or.inl rfl) h
    refine ⟨q', ?_, e3⟩
    rw [makeCrystalOrientation, e1, Option.bind_some]
    exact e2

/-- The generator of random orientations makes unit quaternions from draws in the unit interval. -/
theorem randomQuat_unit {u : Fin 3 → ℝ} (h0 : 0 ≤ u 0) (h1 : u 0 ≤ 1) : Unit4 (randomQuat u) := by
  have e1 := Real.sq_sqrt h0
  have e2 := Real.sq_sqrt (sub_nonneg.mpr h1)
  have f1 := sin_sq_add_cos_sq (2 * π * u 1)
  have f2 := sin_sq_add_cos_sq (2 * π * u 2)
  simp only [Unit4, randomQuat]
  linear_combination √(1 - u 0) ^ 2 * f1 + √(u 0) ^ 2 * f2 + e1 + e2

end Neml.Rotation
