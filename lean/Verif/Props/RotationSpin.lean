import Verif.Props.RotationAngles
import Mathlib.Analysis.SpecialFunctions.Trigonometric.Deriv
import Mathlib.Analysis.Quaternion
import Mathlib.Geometry.Euclidean.Angle.Unoriented.TriangleInequality

/-!
# C53, C89, C92, C93, C94: spins, quaternion powers, rotations between directions, distance

Specification for spins: `turn w t` is the matrix `1 + sin(tx)/x W + (1 - cos(tx))/x² W²` with `W` the
skew tensor of `w` and `x` its length. It starts at the identity and its rate is `W` times itself, so it
is the rotation reached after spinning at the constant rate `w` for the time `t`.
-/

namespace Neml.Rotation

open Matrix Neml.Mandel Real

theorem norm3_sq (v : Fin 3 → ℝ) : norm3 v * norm3 v = v 0 * v 0 + v 1 * v 1 + v 2 * v 2 :=
  Real.mul_self_sqrt (by linarith [mul_self_nonneg (v 0), mul_self_nonneg (v 1), mul_self_nonneg (v 2)])

theorem norm3_nonneg (v : Fin 3 → ℝ) : 0 ≤ norm3 v := Real.sqrt_nonneg _

theorem norm3_eq_zero {v : Fin 3 → ℝ} : norm3 v = 0 ↔ v = 0 := by
  constructor
  · intro h
    have := norm3_sq v
    rw [h] at this
    have h0 := mul_self_nonneg (v 0)
    have h1 := mul_self_nonneg (v 1)
    have h2 := mul_self_nonneg (v 2)
    have z0 : v 0 = 0 := mul_self_eq_zero.mp (by linarith)
    have z1 : v 1 = 0 := mul_self_eq_zero.mp (by linarith)
    have z2 : v 2 = 0 := mul_self_eq_zero.mp (by linarith)
    ext i
    fin_cases i
    · exact z0
    · exact z1
    · exact z2
  · rintro rfl; simp [norm3]

theorem norm3_smul (t : ℝ) (v : Fin 3 → ℝ) : norm3 (t • v) = |t| * norm3 v := by
  rw [norm3, norm3, ← Real.sqrt_sq_eq_abs, ← Real.sqrt_mul (sq_nonneg t)]
  congr 1
  simp only [Pi.smul_apply, smul_eq_mul]; ring

/-- The quaternion of a turn by `t` times the length of `w`. -/
noncomputable def spinQuat (w : Fin 3 → ℝ) (t : ℝ) : Quat :=
  ⟨cos (t * norm3 w / 2), sin (t * norm3 w / 2) / norm3 w * w 0, sin (t * norm3 w / 2) / norm3 w * w 1,
   sin (t * norm3 w / 2) / norm3 w * w 2⟩

theorem spinQuat_unit {w : Fin 3 → ℝ} (hw : w ≠ 0) (t : ℝ) : Unit4 (spinQuat w t) := by
  have hx : norm3 w ≠ 0 := mt norm3_eq_zero.mp hw
  have h2 := norm3_sq w
  have h3 := sin_sq_add_cos_sq (t * norm3 w / 2)
  unfold Unit4 spinQuat
  simp only
  generalize norm3 w = x at *
  field_simp
  linear_combination x ^ 2 * h3 - sin (t * x / 2) ^ 2 * h2

theorem spinQuat_add {w : Fin 3 → ℝ} (hw : w ≠ 0) (a b : ℝ) :
    qmul (spinQuat w a) (spinQuat w b) = spinQuat w (a + b) := by
  have hx : norm3 w ≠ 0 := mt norm3_eq_zero.mp hw
  have h2 := norm3_sq w
  have e : (a + b) * norm3 w / 2 = a * norm3 w / 2 + b * norm3 w / 2 := by ring
  simp only [qmul, spinQuat, e, cos_add, sin_add]
  generalize sin (a * norm3 w / 2) = A at *
  generalize sin (b * norm3 w / 2) = B at *
  generalize norm3 w = x at *
  ext
  · simp only; field_simp
    linear_combination A * B * h2
  all_goals simp only; field_simp; ring

/-- For a non-zero spin the code computes the quaternion of the turn. -/
theorem wexp_eq {w : Fin 3 → ℝ} (hw : w ≠ 0) : wexp w = spinQuat w 1 := by
  have hx : norm3 w ≠ 0 := mt norm3_eq_zero.mp hw
  have : (⟨cos (norm3 w / 2), sin (norm3 w / 2) / norm3 w * w 0, sin (norm3 w / 2) / norm3 w * w 1,
      sin (norm3 w / 2) / norm3 w * w 2⟩ : Quat) = spinQuat w 1 := by
    simp only [spinQuat, one_mul]
  rw [wexp]
  simp only [hx, if_false, this]
  exact normalize_of_unit (spinQuat_unit hw 1)

theorem wexp_smul {w : Fin 3 → ℝ} (hw : w ≠ 0) {t : ℝ} (ht : t ≠ 0) : wexp (t • w) = spinQuat w t := by
  have hx : norm3 w ≠ 0 := mt norm3_eq_zero.mp hw
  rw [wexp_eq (smul_ne_zero ht hw)]
  simp only [spinQuat, norm3_smul, one_mul, Pi.smul_apply, smul_eq_mul]
  have hc : cos (|t| * norm3 w / 2) = cos (t * norm3 w / 2) := by
    rcases abs_choice t with h | h
    · rw [h]
    · rw [h, ← cos_neg]; congr 1; ring
  have hs : ∀ c, sin (|t| * norm3 w / 2) / (|t| * norm3 w) * (t * c) = sin (t * norm3 w / 2) / norm3 w * c := by
    intro c
    rcases abs_choice t with h | h
    · rw [h]; field_simp
    · rw [h, show -t * norm3 w / 2 = -(t * norm3 w / 2) by ring, sin_neg]; field_simp
  ext
  · exact hc
  · exact hs _
  · exact hs _
  · exact hs _

/-! ## The specification: turning at a constant rate -/

/-- See the head of the file. -/
noncomputable def turn (w : Fin 3 → ℝ) (t : ℝ) : Matrix (Fin 3) (Fin 3) ℝ :=
  1 + (sin (t * norm3 w) / norm3 w) • uskew w + ((1 - cos (t * norm3 w)) / norm3 w ^ 2) • (uskew w * uskew w)

theorem uskew_cube (w : Fin 3 → ℝ) :
    uskew w * (uskew w * uskew w) = -(norm3 w ^ 2) • uskew w := by
  rw [pow_two, norm3_sq]
  ext i j
  fin_cases i <;> fin_cases j <;> simp [uskew, Matrix.mul_apply, Fin.sum_univ_succ] <;> ring

/-- The turn starts at the identity and its rate of change is the spin tensor times the turn. -/
theorem turn_spec {w : Fin 3 → ℝ} (hw : w ≠ 0) (t : ℝ) :
    turn w 0 = 1 ∧ ∀ i j, HasDerivAt (fun t => turn w t i j) ((uskew w * turn w t) i j) t := by
  have hx : norm3 w ≠ 0 := mt norm3_eq_zero.mp hw
  refine ⟨by simp [turn], fun i j => ?_⟩
  have e : (uskew w * turn w t) i j =
      cos (t * norm3 w) * uskew w i j + sin (t * norm3 w) / norm3 w * (uskew w * uskew w) i j := by
    have : uskew w * turn w t = cos (t * norm3 w) • uskew w + (sin (t * norm3 w) / norm3 w) • (uskew w * uskew w) := by
      rw [turn, Matrix.mul_add, Matrix.mul_add, Matrix.mul_one, Matrix.mul_smul, Matrix.mul_smul, uskew_cube,
        smul_smul]
      have : (1 - cos (t * norm3 w)) / norm3 w ^ 2 * -(norm3 w ^ 2) = cos (t * norm3 w) - 1 := by
        field_simp; ring
      rw [this, sub_smul, one_smul]
      abel
    rw [this]; simp
  rw [e]
  have ht : HasDerivAt (fun t : ℝ => t * norm3 w) (norm3 w) t := by
    simpa using (hasDerivAt_id t).mul_const (norm3 w)
  have d1 : HasDerivAt (fun t : ℝ => sin (t * norm3 w) / norm3 w * uskew w i j)
      (cos (t * norm3 w) * uskew w i j) t := by
    have := ((ht.sin.div_const (norm3 w)).mul_const (uskew w i j))
    refine this.congr_deriv ?_
    field_simp
  have d2 : HasDerivAt (fun t : ℝ => (1 - cos (t * norm3 w)) / norm3 w ^ 2 * (uskew w * uskew w) i j)
      (sin (t * norm3 w) / norm3 w * (uskew w * uskew w) i j) t := by
    have := (((ht.cos.const_sub 1).div_const (norm3 w ^ 2)).mul_const ((uskew w * uskew w) i j))
    refine this.congr_deriv ?_
    field_simp
  have := (d1.const_add ((1 : Matrix (Fin 3) (Fin 3) ℝ) i j)).add d2
  refine this.congr_of_eventuallyEq (Filter.Eventually.of_forall fun s => ?_)
  simp [turn]

theorem spinQuat_turn {w : Fin 3 → ℝ} (hw : w ≠ 0) (t : ℝ) : toMatrix (spinQuat w t) = turn w t := by
  have hx : norm3 w ≠ 0 := mt norm3_eq_zero.mp hw
  have h2 := norm3_sq w
  have e : t * norm3 w = 2 * (t * norm3 w / 2) := by ring
  have h3 := sin_sq_add_cos_sq (t * norm3 w / 2)
  unfold turn
  have e1 : sin (t * norm3 w) = 2 * sin (t * norm3 w / 2) * cos (t * norm3 w / 2) := by
    rw [← sin_two_mul, ← e]
  have e2 : 1 - cos (t * norm3 w) = 2 * sin (t * norm3 w / 2) ^ 2 := by
    rw [e, cos_two_mul, ← e]; linarith
  rw [e1, e2]
  unfold spinQuat
  clear e e1 e2
  generalize sin (t * norm3 w / 2) = S at *
  generalize cos (t * norm3 w / 2) = C at *
  generalize norm3 w = x at *
  ext i j
  fin_cases i <;> fin_cases j <;> simp [toMatrix, uskew, Matrix.mul_apply, Fin.sum_univ_succ] <;> field_simp <;> ring

/-! ## C53 -/

/-- With a spin that is not zero over a step that is not zero, the orientation is turned by exactly the
rotation reached by spinning at that constant rate for the step. -/
theorem C53_partial {spin : Fin 3 → ℝ} {dt : ℝ} (hs : spin ≠ 0) (ht : dt ≠ 0) {q : Quat} (hq : Unit4 q) :
    Unit4 (updateRot spin dt q) ∧ toMatrix (updateRot spin dt q) = turn spin dt * toMatrix q := by
  rw [updateRot, wexp_smul hs ht]
  have hu := spinQuat_unit hs dt
  exact ⟨hu.mul hq, by rw [toMatrix_mul hu hq, spinQuat_turn hs]⟩

example : (![0, 0, 1] : Fin 3 → ℝ) ≠ 0 ∧ (1 / 2 : ℝ) ≠ 0 ∧ Unit4 ⟨3 / 5, 0, 4 / 5, 0⟩ := by
  refine ⟨fun h => ?_, by norm_num, by norm_num [Unit4]⟩
  have := congrFun h 2
  simp at this

/-- With zero spin, or over a step of zero length, the orientation is not left alone: it is turned by half
a turn about the z axis, for every orientation. -/
theorem C53_zero_spin_half_turn (spin : Fin 3 → ℝ) (dt : ℝ) (h : spin = 0 ∨ dt = 0) {q : Quat} (hq : Unit4 q) :
    toMatrix (updateRot spin dt q) = !![-1, 0, 0; 0, -1, 0; 0, 0, 1] * toMatrix q ∧
      toMatrix (updateRot spin dt q) ≠ toMatrix q := by
  have e : dt • spin = 0 := by rcases h with rfl | rfl <;> simp
  have hw : wexp (dt • spin) = ⟨0, 0, 0, 1⟩ := by
    rw [wexp, e]; simp [norm3, defaultQuat]
  have hu : Unit4 ⟨0, 0, 0, 1⟩ := by norm_num [Unit4]
  have hm : toMatrix ⟨0, 0, 0, 1⟩ = !![-1, 0, 0; 0, -1, 0; 0, 0, 1] := by
    ext i j
    fin_cases i <;> fin_cases j <;> norm_num [toMatrix]
  have h1 : toMatrix (updateRot spin dt q) = !![-1, 0, 0; 0, -1, 0; 0, 0, 1] * toMatrix q := by
    rw [updateRot, hw, toMatrix_mul hu hq, hm]
  refine ⟨h1, fun hc => ?_⟩
  rw [h1] at hc
  have ho := (toMatrix_SO3 hq).1
  have : !![-1, 0, 0; 0, -1, 0; 0, 0, 1] = (1 : Matrix (Fin 3) (Fin 3) ℝ) := by
    calc _ = !![-1, 0, 0; 0, -1, 0; 0, 0, 1] * (toMatrix q * (toMatrix q)ᵀ) := by rw [ho, Matrix.mul_one]
      _ = 1 := by rw [← Matrix.mul_assoc, hc, ho]
  have h00 := congrFun (congrFun this 0) 0
  norm_num at h00

/-- Equal spins over consecutive steps add up, and the opposite spin undoes the step. -/
theorem C53_steps_add {spin : Fin 3 → ℝ} (hs : spin ≠ 0) {a b : ℝ} (ha : a ≠ 0) (hb : b ≠ 0) (q : Quat) :
    (a + b ≠ 0 → updateRot spin b (updateRot spin a q) = updateRot spin (a + b) q) ∧
      updateRot spin (-a) (updateRot spin a q) = q := by
  constructor
  · intro hab
    rw [updateRot, updateRot, updateRot, wexp_smul hs ha, wexp_smul hs hb, wexp_smul hs hab, ← qmul_assoc,
      spinQuat_add hs, add_comm b]
  · rw [updateRot, updateRot, wexp_smul hs ha, wexp_smul hs (neg_ne_zero.mpr ha), ← qmul_assoc,
      spinQuat_add hs]
    have : spinQuat spin (-a + a) = one := by ext <;> simp [spinQuat, one]
    rw [this, one_qmul]

/-! ## C92: spin logarithm -/

/-- The vector part. -/
def vpart (q : Quat) : Fin 3 → ℝ := ![q.x, q.y, q.z]

theorem vpart_sq {q : Quat} (hq : Unit4 q) : norm3 (vpart q) ^ 2 = 1 - q.s ^ 2 := by
  have : norm3 (vpart q) * norm3 (vpart q) = q.x * q.x + q.y * q.y + q.z * q.z := norm3_sq (vpart q)
  unfold Unit4 at hq
  linarith

theorem s_range {q : Quat} (hq : Unit4 q) (hv : vpart q ≠ 0) :
    -1 < q.s ∧ q.s < 1 ∧ 0 < norm3 (vpart q) ∧ sin (arccos q.s) = norm3 (vpart q) ∧ cos (arccos q.s) = q.s ∧
      0 < arccos q.s := by
  have h := vpart_sq hq
  have hp : 0 < norm3 (vpart q) := lt_of_le_of_ne (norm3_nonneg _) (Ne.symm (mt norm3_eq_zero.mp hv))
  have h1 : q.s ^ 2 < 1 := by nlinarith
  have h2 := abs_lt.mp ((sq_lt_one_iff_abs_lt_one _).mp h1)
  refine ⟨h2.1, h2.2, hp, ?_, cos_arccos h2.1.le h2.2.le, arccos_pos.mpr h2.2⟩
  rw [sin_arccos, ← h, Real.sqrt_sq hp.le]

/-- The logarithm of a turn short of a full one is the spin it came from. -/
theorem C92_log_exp {w : Fin 3 → ℝ} (hw : w ≠ 0) (h : norm3 w < 2 * π) : wlog (wexp w) = some w := by
  have hx : 0 < norm3 w := lt_of_le_of_ne (norm3_nonneg _) (Ne.symm (mt norm3_eq_zero.mp hw))
  have hs : 0 < sin (norm3 w / 2) := sin_pos_of_pos_of_lt_pi (by linarith) (by linarith)
  rw [wexp_eq hw]
  have hu := (unit_iff _).mp (spinQuat_unit hw 1)
  have hv : vpart (spinQuat w 1) = (sin (norm3 w / 2) / norm3 w) • w := by
    ext i
    fin_cases i <;> simp [vpart, spinQuat]
  have hn : norm3 (vpart (spinQuat w 1)) = sin (norm3 w / 2) := by
    rw [hv, norm3_smul, abs_of_pos (by positivity)]; field_simp
  have e : wlog (spinQuat w 1) = if norm3 (vpart (spinQuat w 1)) = 0 then none else
      some ((2 * arccos ((spinQuat w 1).s / qnorm (spinQuat w 1)) / norm3 (vpart (spinQuat w 1))) •
        vpart (spinQuat w 1)) := rfl
  rw [e, hn, if_neg hs.ne', hu, hv, div_one]
  have : (spinQuat w 1).s = cos (norm3 w / 2) := by simp [spinQuat]
  rw [this, arccos_cos (by linarith) (by linarith), smul_smul]
  congr 1
  rw [show 2 * (norm3 w / 2) / sin (norm3 w / 2) * (sin (norm3 w / 2) / norm3 w) = 1 by field_simp, one_smul]

/-- Every orientation other than the identity has a logarithm, and its exponential is the orientation. -/
theorem C92_exp_log {q : Quat} (hq : Unit4 q) (hv : vpart q ≠ 0) : ∃ w, wlog q = some w ∧ wexp w = q := by
  obtain ⟨h1, h2, hp, hsin, hcos, hth⟩ := s_range hq hv
  have hu := (unit_iff _).mp hq
  have e : wlog q = if norm3 (vpart q) = 0 then none else
      some ((2 * arccos (q.s / qnorm q) / norm3 (vpart q)) • vpart q) := rfl
  refine ⟨(2 * arccos q.s / norm3 (vpart q)) • vpart q, by rw [e, if_neg hp.ne', hu, div_one], ?_⟩
  rw [wexp_smul hv (by positivity)]
  have e2 : 2 * arccos q.s / norm3 (vpart q) * norm3 (vpart q) / 2 = arccos q.s := by field_simp
  ext
  · simp only [spinQuat, e2, hcos]
  · simp only [spinQuat, e2, hsin]; rw [div_self hp.ne', one_mul]; rfl
  · simp only [spinQuat, e2, hsin]; rw [div_self hp.ne', one_mul]; rfl
  · simp only [spinQuat, e2, hsin]; rw [div_self hp.ne', one_mul]; rfl

/-- The identity has none: the code divides zero by zero. -/
theorem C92_identity_undefined : wlog one = none := by
  simp [wlog, one, norm3]

/-! ## C89: exponential, logarithm and powers of quaternions -/

theorem qlog_eq (q : Quat) : qlog q = if norm3 (vpart q) = 0 then none else
    some ⟨Real.log (qnorm q), q.x / norm3 (vpart q) * arccos (q.s / qnorm q),
      q.y / norm3 (vpart q) * arccos (q.s / qnorm q), q.z / norm3 (vpart q) * arccos (q.s / qnorm q)⟩ := rfl

theorem qexp_eq (q : Quat) : qexp q = if norm3 (vpart q) = 0 then none else
    some ⟨cos (norm3 (vpart q)), q.x * (sin (norm3 (vpart q)) / norm3 (vpart q)),
      q.y * (sin (norm3 (vpart q)) / norm3 (vpart q)), q.z * (sin (norm3 (vpart q)) / norm3 (vpart q))⟩ := rfl

theorem axis_unit {q : Quat} (hv : vpart q ≠ 0) :
    (fun i => vpart q i / norm3 (vpart q)) ⬝ᵥ (fun i => vpart q i / norm3 (vpart q)) = 1 := by
  have hp : 0 < norm3 (vpart q) := lt_of_le_of_ne (norm3_nonneg _) (Ne.symm (mt norm3_eq_zero.mp hv))
  have := norm3_sq (vpart q)
  simp only [dotProduct, Fin.sum_univ_three]
  field_simp
  linarith

/-- Every unit quaternion other than plus and minus the identity is a turn about a unit axis by an angle
between zero and a full turn, and its `w`-th power turns about the same axis by `w` times that angle. -/
theorem C89_pow {q : Quat} (hq : Unit4 q) (hv : vpart q ≠ 0) :
    ∃ n a, n ⬝ᵥ n = 1 ∧ 0 < a ∧ a < 2 * π ∧ q = setAxisAngle n a ∧
      (∀ w, w ≠ 0 → opow q w = some (setAxisAngle n (w * a))) ∧ opow q 1 = some q := by
  obtain ⟨h1, h2, hp, hsin, hcos, hth⟩ := s_range hq hv
  have hu := (unit_iff _).mp hq
  have hq' : q = setAxisAngle (fun i => vpart q i / norm3 (vpart q)) (2 * arccos q.s) := by
    have e : 2 * arccos q.s / 2 = arccos q.s := by ring
    ext
    · simp only [setAxisAngle, e, hcos]
    all_goals simp only [setAxisAngle, e, hsin]; rw [mul_div_cancel₀ _ hp.ne']; rfl
  have hpow : ∀ w, w ≠ 0 → opow q w =
      some (setAxisAngle (fun i => vpart q i / norm3 (vpart q)) (w * (2 * arccos q.s))) := by
    intro w hw
    have hl : qlog q = some ⟨0, q.x / norm3 (vpart q) * arccos q.s, q.y / norm3 (vpart q) * arccos q.s,
        q.z / norm3 (vpart q) * arccos q.s⟩ := by
      rw [qlog_eq, if_neg hp.ne', hu, Real.log_one, div_one]
    have hvl : vpart (qsmul w ⟨0, q.x / norm3 (vpart q) * arccos q.s, q.y / norm3 (vpart q) * arccos q.s,
        q.z / norm3 (vpart q) * arccos q.s⟩) = (w * arccos q.s / norm3 (vpart q)) • vpart q := by
      ext i
      fin_cases i <;> simp [vpart, qsmul] <;> ring
    have hnl : norm3 ((w * arccos q.s / norm3 (vpart q)) • vpart q) = |w| * arccos q.s := by
      rw [norm3_smul, abs_div, abs_mul, abs_of_pos hth, abs_of_pos hp]; field_simp
    have hne : |w| * arccos q.s ≠ 0 := by positivity
    have he : qpow q w = some (setAxisAngle (fun i => vpart q i / norm3 (vpart q)) (w * (2 * arccos q.s))) := by
      rw [qpow, hl, Option.bind_some, qexp_eq, hvl, hnl, if_neg hne]
      have e : w * (2 * arccos q.s) / 2 = w * arccos q.s := by ring
      have hc : cos (|w| * arccos q.s) = cos (w * arccos q.s) := by
        rcases abs_choice w with h | h
        · rw [h]
        · rw [h, neg_mul, cos_neg]
      have hs : ∀ c, c / norm3 (vpart q) * arccos q.s * w * (sin (|w| * arccos q.s) / (|w| * arccos q.s)) =
          sin (w * arccos q.s) * (c / norm3 (vpart q)) := by
        intro c
        rcases abs_choice w with h | h
        · rw [h]; field_simp
        · rw [h, neg_mul, sin_neg]; field_simp
      congr 1
      ext
      · simp only [setAxisAngle, e, hc]
      · simp only [setAxisAngle, e, qsmul, hs]; rfl
      · simp only [setAxisAngle, e, qsmul, hs]; rfl
      · simp only [setAxisAngle, e, qsmul, hs]; rfl
    rw [opow, he, Option.map_some, normalize_of_unit (setAxisAngle_unit (axis_unit hv) _)]
  refine ⟨_, _, axis_unit hv, by linarith, ?_, hq', hpow, ?_⟩
  · have : arccos q.s ≠ π := by rw [Ne, arccos_eq_pi]; linarith
    have := lt_of_le_of_ne (arccos_le_pi q.s) this
    linarith
  · rw [hpow 1 one_ne_zero, one_mul, ← hq']

/-- Exponential of the logarithm: the quaternion itself when it has length one, otherwise its direction
only. -/
theorem C89_exp_log {q : Quat} (hv : vpart q ≠ 0) : (qlog q).bind qexp = some (normalize q) := by
  have hp : 0 < norm3 (vpart q) := lt_of_le_of_ne (norm3_nonneg _) (Ne.symm (mt norm3_eq_zero.mp hv))
  have hn2 := qnorm_sq q
  have hv2 := norm3_sq (vpart q)
  have hv3 : norm3 (vpart q) * norm3 (vpart q) = q.x * q.x + q.y * q.y + q.z * q.z := hv2
  have hn : 0 < qnorm q := by
    refine lt_of_le_of_ne (Real.sqrt_nonneg _) fun h => ?_
    rw [← h] at hn2
    nlinarith [mul_self_nonneg q.s]
  have hlt : (q.s / qnorm q) ^ 2 < 1 := by
    rw [div_pow, div_lt_one (by positivity)]
    nlinarith
  have h2 := abs_lt.mp ((sq_lt_one_iff_abs_lt_one _).mp hlt)
  have hth : 0 < arccos (q.s / qnorm q) := arccos_pos.mpr h2.2
  have hsin : sin (arccos (q.s / qnorm q)) = norm3 (vpart q) / qnorm q := by
    rw [sin_arccos, show 1 - (q.s / qnorm q) ^ 2 = (norm3 (vpart q) / qnorm q) ^ 2 by field_simp; linarith,
      Real.sqrt_sq (by positivity)]
  have hcos := cos_arccos h2.1.le h2.2.le
  have hvl : vpart ⟨Real.log (qnorm q), q.x / norm3 (vpart q) * arccos (q.s / qnorm q),
      q.y / norm3 (vpart q) * arccos (q.s / qnorm q), q.z / norm3 (vpart q) * arccos (q.s / qnorm q)⟩ =
        (arccos (q.s / qnorm q) / norm3 (vpart q)) • vpart q := by
    ext i
    fin_cases i <;> simp [vpart] <;> ring
  have hnl : norm3 ((arccos (q.s / qnorm q) / norm3 (vpart q)) • vpart q) = arccos (q.s / qnorm q) := by
    rw [norm3_smul, abs_of_pos (by positivity)]; field_simp
  rw [qlog_eq, if_neg hp.ne', Option.bind_some, qexp_eq, hvl, hnl, if_neg hth.ne', hsin, hcos, normalize,
    if_neg hn.ne']
  congr 1
  ext
  · rfl
  all_goals simp only; field_simp

/-- So the exponential does not invert the logarithm on quaternions that are not of length one. -/
theorem C89_length_lost {q : Quat} (hv : vpart q ≠ 0) (hn : ¬ Unit4 q) : (qlog q).bind qexp ≠ some q := by
  rw [C89_exp_log hv]
  intro h
  exact hn (Option.some.inj h ▸ normalize_unit q)

example : vpart ⟨0, 2, 0, 0⟩ ≠ 0 ∧ ¬ Unit4 ⟨0, 2, 0, 0⟩ := by
  refine ⟨fun h => ?_, by norm_num [Unit4]⟩
  have := congrFun h 0
  simp [vpart] at this

/-- The zeroth power of a rotation, and every power of the identity, is not a number. -/
theorem C89_undefined (q : Quat) (w : ℝ) : opow q 0 = none ∧ opow one w = none := by
  constructor
  · rw [opow, qpow, qlog_eq]
    split_ifs
    · rfl
    · rw [Option.bind_some, qexp_eq, if_pos (by simp [vpart, qsmul, norm3])]; rfl
  · rw [opow, qpow, qlog_eq, if_pos (by simp [vpart, one, norm3])]; rfl

/-! ## C93: rotations between directions -/

/-- Rodrigues' formula. -/
theorem applyVec_axis {n : Fin 3 → ℝ} (hn : n ⬝ᵥ n = 1) (a : ℝ) (v : Fin 3 → ℝ) :
    applyVec (setAxisAngle n a) v = cos a • v + sin a • cross n v + ((1 - cos a) * (n ⬝ᵥ v)) • n := by
  have e : a = 2 * (a / 2) := by ring
  have e1 : sin a = 2 * sin (a / 2) * cos (a / 2) := by rw [← sin_two_mul, ← e]
  have e2 : cos a = cos (a / 2) ^ 2 - sin (a / 2) ^ 2 := by rw [← cos_two_mul', ← e]
  have e3 : 1 - cos a = 2 * sin (a / 2) ^ 2 := by rw [e2]; linarith [sin_sq_add_cos_sq (a / 2)]
  rw [e1, e3, e2]
  clear e e1 e2 e3
  simp only [setAxisAngle]
  generalize sin (a / 2) = S at *
  generalize cos (a / 2) = C at *
  simp only [dotProduct, Fin.sum_univ_three] at hn ⊢
  ext i
  simp only [Pi.add_apply, Pi.smul_apply, smul_eq_mul]
  fin_cases i
  · simp [applyVec, qmul, conj, cross]
    linear_combination (-(S ^ 2) * v 0) * hn
  · simp [applyVec, qmul, conj, cross]
    linear_combination (-(S ^ 2) * v 1) * hn
  · simp [applyVec, qmul, conj, cross]
    linear_combination (-(S ^ 2) * v 2) * hn

theorem norm3_dot (v : Fin 3 → ℝ) : v ⬝ᵥ v = norm3 v * norm3 v := by
  rw [norm3_sq]; simp [dotProduct, Fin.sum_univ_three]

theorem unit_div {v : Fin 3 → ℝ} (h : norm3 v ≠ 0) : (fun i => v i / norm3 v) ⬝ᵥ (fun i => v i / norm3 v) = 1 := by
  have := norm3_dot v
  simp only [dotProduct, Fin.sum_univ_three] at this ⊢
  field_simp
  linarith

theorem cross_div (a b : Fin 3 → ℝ) (x y : ℝ) :
    cross (fun i => a i / x) (fun i => b i / y) = (1 / (x * y)) • cross a b := by
  ext i
  fin_cases i <;> simp [cross] <;> ring

/-- For two directions that are not parallel the rotation takes the first onto the second, and it leaves the
direction perpendicular to both alone. There is only one such rotation. -/
theorem C93_rotate_to {a b : Fin 3 → ℝ} (h : cross a b ≠ 0) :
    ∃ q, rotateTo a b = some q ∧ Unit4 q ∧ (norm3 b / norm3 a) • applyVec q a = b ∧
      applyVec q (cross a b) = cross a b := by
  have ha : norm3 a ≠ 0 := fun h0 => h (by rw [norm3_eq_zero.mp h0]; ext i; fin_cases i <;> simp [cross])
  have hb : norm3 b ≠ 0 := fun h0 => h (by rw [norm3_eq_zero.mp h0]; ext i; fin_cases i <;> simp [cross])
  have ha' := unit_div ha
  have hb' := unit_div hb
  have hcd := cross_div a b (norm3 a) (norm3 b)
  have haa : a = norm3 a • (fun i => a i / norm3 a) := by ext i; simp; field_simp
  have hbb : b = norm3 b • (fun i => b i / norm3 b) := by ext i; simp; field_simp
  rw [rotateTo, if_neg (by tauto)]
  simp only
  generalize (fun i => a i / norm3 a) = aa at *
  generalize (fun i => b i / norm3 b) = bb at *
  have hab : cross a b = (norm3 a * norm3 b) • cross aa bb := by
    rw [hcd, smul_smul, mul_one_div_cancel (by positivity), one_smul]
  have hx : cross aa bb ≠ 0 := fun h0 => h (by rw [hab, h0, smul_zero])
  have hxn : norm3 (cross aa bb) ≠ 0 := mt norm3_eq_zero.mp hx
  have hxp : 0 < norm3 (cross aa bb) := lt_of_le_of_ne (norm3_nonneg _) hxn.symm
  rw [if_neg hxn]
  have hn := unit_div hxn
  have hlag : norm3 (cross aa bb) * norm3 (cross aa bb) = 1 - (aa ⬝ᵥ bb) ^ 2 := by
    rw [norm3_sq]
    simp only [dotProduct, Fin.sum_univ_three, cross, cons_val_zero, cons_val_one, cons_val] at ha' hb' ⊢
    linear_combination (bb 0 * bb 0 + bb 1 * bb 1 + bb 2 * bb 2) * ha' + hb'
  have hc2 := abs_lt.mp ((sq_lt_one_iff_abs_lt_one (aa ⬝ᵥ bb)).mp (by nlinarith))
  have hcos := cos_arccos hc2.1.le hc2.2.le
  have hsin : sin (arccos (aa ⬝ᵥ bb)) = norm3 (cross aa bb) := by
    rw [sin_arccos, ← hlag, Real.sqrt_mul_self hxp.le]
  refine ⟨_, rfl, setAxisAngle_unit hn _, ?_, ?_⟩
  · have hlin : ∀ (q : Quat) (c : ℝ) (v : Fin 3 → ℝ), applyVec q (c • v) = c • applyVec q v := by
      intro q c v
      ext i
      fin_cases i <;> simp [applyVec, qmul, conj] <;> ring
    have key : applyVec (setAxisAngle (fun i => cross aa bb i / norm3 (cross aa bb)) (arccos (aa ⬝ᵥ bb))) aa =
        bb := by
      rw [applyVec_axis hn, hcos, hsin]
      have h0 : (fun i => cross aa bb i / norm3 (cross aa bb)) ⬝ᵥ aa = 0 := by
        simp [dotProduct, Fin.sum_univ_three, cross]; ring
      rw [h0, mul_zero, zero_smul, add_zero]
      have h1 : norm3 (cross aa bb) • cross (fun i => cross aa bb i / norm3 (cross aa bb)) aa =
          cross (cross aa bb) aa := by
        have := cross_div (cross aa bb) aa (norm3 (cross aa bb)) 1
        simp only [div_one] at this
        rw [this, smul_smul, mul_one, mul_one_div_cancel hxn, one_smul]
      rw [h1]
      simp only [dotProduct, Fin.sum_univ_three] at ha' ⊢
      ext i
      fin_cases i
      · simp [cross]
        linear_combination bb 0 * ha'
      · simp [cross]
        linear_combination bb 1 * ha'
      · simp [cross]
        linear_combination bb 2 * ha'
    have : applyVec (setAxisAngle (fun i => cross aa bb i / norm3 (cross aa bb)) (arccos (aa ⬝ᵥ bb))) a =
        norm3 a • bb := by
      conv_lhs => rw [haa]
      rw [hlin, key]
    rw [this, smul_smul, div_mul_cancel₀ _ ha, ← hbb]
  · rw [applyVec_axis hn, hab]
    have h0 : cross (fun i => cross aa bb i / norm3 (cross aa bb)) ((norm3 a * norm3 b) • cross aa bb) = 0 := by
      ext i
      fin_cases i <;> simp [cross] <;> ring
    have h1 : (fun i => cross aa bb i / norm3 (cross aa bb)) ⬝ᵥ ((norm3 a * norm3 b) • cross aa bb) =
        norm3 a * norm3 b * norm3 (cross aa bb) := by
      have := norm3_dot (cross aa bb)
      simp only [dotProduct, Fin.sum_univ_three, Pi.smul_apply, smul_eq_mul] at this ⊢
      field_simp
      linear_combination this
    rw [h0, h1]
    ext i
    simp
    field_simp
    ring

example : cross ![1, 0, 0] ![1, 2, 0] ≠ 0 := by
  intro h
  have := congrFun h 2
  simp [cross] at this

/-- For parallel or opposite directions the code divides zero by zero and returns no rotation, even when
the two directions are equal. -/
theorem C93_parallel_undefined {a b : Fin 3 → ℝ} (h : cross a b = 0) : rotateTo a b = none := by
  rw [rotateTo]
  split_ifs with h1
  · rfl
  · exact if_pos (by rw [cross_div, h, smul_zero]; simp [norm3])

/-- The family takes the first direction onto a second one of length one whatever the free angle is. -/
theorem C93_family {a b : Fin 3 → ℝ} (h : cross a b ≠ 0) (hb : b ⬝ᵥ b = 1) (ang : ℝ) :
    ∃ q, rotateToFamily a b ang = some q ∧ Unit4 q ∧ (1 / norm3 a) • applyVec q a = b := by
  obtain ⟨q, h1, h2, h3, -⟩ := C93_rotate_to h
  have hu := setAxisAngle_unit hb ang
  have hb1 : norm3 b = 1 := by
    have := norm3_dot b
    rw [hb] at this
    nlinarith [norm3_nonneg b]
  refine ⟨_, by rw [rotateToFamily, h1]; rfl, hu.mul h2, ?_⟩
  have hq : applyVec (qmul (setAxisAngle b ang) q) a = applyVec (setAxisAngle b ang) (applyVec q a) := by
    rw [(C51_faithful hu (hu.mul h2) a).2.2.2.2.2.2, (C51_faithful hu hu _).2.2.2.2.2.2,
      (C51_faithful hu h2 a).2.2.2.2.2.2, toMatrix_mul hu h2, Matrix.mulVec_mulVec]
  have hlin : ∀ (q : Quat) (c : ℝ) (v : Fin 3 → ℝ), applyVec q (c • v) = c • applyVec q v := by
    intro q c v
    ext i
    fin_cases i <;> simp [applyVec, qmul, conj] <;> ring
  rw [hb1] at h3
  rw [hq, ← hlin, h3, applyVec_axis hb, hb]
  have : cross b b = 0 := by ext i; fin_cases i <;> simp [cross] <;> ring
  rw [this]
  ext i
  simp
  ring

/-- With a second direction of any other length the family is not made of rotations. -/
theorem C93_family_unscaled : ∃ a b ang q, rotateToFamily a b ang = some q ∧ ¬ Unit4 q := by
  have h : cross ![1, 0, 0] ![0, 2, 0] ≠ 0 := by
    intro h
    have := congrFun h 2
    simp [cross] at this
  obtain ⟨q, h1, h2, -, -⟩ := C93_rotate_to h
  refine ⟨_, _, π, _, by rw [rotateToFamily, h1]; rfl, fun hc => ?_⟩
  have := (unit_iff _).mp hc
  rw [qnorm_mul, (unit_iff _).mp h2, mul_one] at this
  have h4 := (unit_iff _).mpr this
  simp [Unit4, setAxisAngle] at h4
  norm_num at h4

/-! ## C94: distance -/

theorem qdot_le {p q : Quat} (hp : Unit4 p) (hq : Unit4 q) : |qdot p q| ≤ 1 := by
  unfold Unit4 at hp hq
  rw [abs_le]
  simp only [qdot]
  constructor
  · nlinarith [sq_nonneg (p.s + q.s), sq_nonneg (p.x + q.x), sq_nonneg (p.y + q.y), sq_nonneg (p.z + q.z)]
  · nlinarith [sq_nonneg (p.s - q.s), sq_nonneg (p.x - q.x), sq_nonneg (p.y - q.y), sq_nonneg (p.z - q.z)]

theorem distance_eq {p q : Quat} (hp : Unit4 p) (hq : Unit4 q) : distance p q = arccos |qdot p q| := by
  rw [distance, if_neg (not_lt.mpr (qdot_le hp hq))]

theorem toH_norm {q : Quat} (hq : Unit4 q) : ‖toH q‖ = 1 := by
  have h : ‖toH q‖ * ‖toH q‖ = 1 := by
    rw [← Quaternion.normSq_eq_norm_mul_self, Quaternion.normSq_def']
    exact hq
  nlinarith [norm_nonneg (toH q)]

theorem toH_angle {p q : Quat} (hp : Unit4 p) (hq : Unit4 q) :
    InnerProductGeometry.angle (toH p) (toH q) = arccos (qdot p q) := by
  rw [InnerProductGeometry.angle, toH_norm hp, toH_norm hq, mul_one, div_one, Quaternion.inner_def,
    Quaternion.re_mul]
  congr 1
  rw [Quaternion.re_star, Quaternion.imI_star, Quaternion.imJ_star, Quaternion.imK_star]
  simp only [toH, qdot]
  ring

theorem distance_triangle {p q r : Quat} (hp : Unit4 p) (hq : Unit4 q) (hr : Unit4 r) :
    distance p r ≤ distance p q + distance q r := by
  have flip : ∀ {u v : Quat}, Unit4 u → ∃ u', (u' = u ∨ u' = opposite u) ∧ Unit4 u' ∧ qdot u' v = |qdot u v| := by
    intro u v hu
    rcases abs_choice (qdot u v) with h | h
    · exact ⟨u, Or.inl rfl, hu, h.symm⟩
    · exact ⟨opposite u, Or.inr rfl, hu.opposite, by rw [h]; simp [qdot, opposite]; ring⟩
  obtain ⟨p', ep, hp', h1⟩ := flip (v := q) hp
  obtain ⟨r', er, hr', h2⟩ := flip (v := q) hr
  have hs : ∀ u v, qdot u v = qdot v u := by intro u v; simp only [qdot]; ring
  have hpr : |qdot p r| = |qdot p' r'| := by
    rcases ep with rfl | rfl <;> rcases er with rfl | rfl
    · rfl
    · rw [← abs_neg]; congr 1; simp [qdot, opposite]; ring
    · rw [← abs_neg]; congr 1; simp [qdot, opposite]; ring
    · congr 1; simp [qdot, opposite]
  have tri := InnerProductGeometry.angle_le_angle_add_angle (toH p') (toH q) (toH r')
  rw [toH_angle hp' hr', toH_angle hp' hq, toH_angle hq hr', h1, hs q r', h2, hs r q] at tri
  rw [distance_eq hp hr, distance_eq hp hq, distance_eq hq hr, hpr]
  exact (arccos_le_arccos (le_abs_self _)).trans tri

/-- The distance between two orientations is a metric on rotations that does not depend on the frame: it is
between zero and a quarter turn, zero exactly when the rotations are equal, symmetric, it satisfies the
triangle inequality, and turning both orientations by a third changes nothing. It is half the angle of the
rotation from one to the other. -/
theorem C94_metric {p q r : Quat} (hp : Unit4 p) (hq : Unit4 q) (hr : Unit4 r) :
    0 ≤ distance p q ∧ distance p q ≤ π / 2 ∧
    (distance p q = 0 ↔ toMatrix p = toMatrix q) ∧
    distance p q = distance q p ∧
    distance p r ≤ distance p q + distance q r ∧
    distance (qmul r p) (qmul r q) = distance p q ∧ distance (qmul p r) (qmul q r) = distance p q ∧
    ((toMatrix p)ᵀ * toMatrix q).trace = 1 + 2 * cos (2 * distance p q) := by
  have hle := qdot_le hp hq
  have hs : ∀ u v, qdot u v = qdot v u := by intro u v; simp only [qdot]; ring
  have hrr := hr
  unfold Unit4 at hrr
  refine ⟨?_, ?_, ?_, ?_, distance_triangle hp hq hr, ?_, ?_, ?_⟩
  · rw [distance_eq hp hq]; exact arccos_nonneg _
  · rw [distance_eq hp hq]; exact arccos_le_pi_div_two.mpr (abs_nonneg _)
  · rw [distance_eq hp hq, arccos_eq_zero, toMatrix_inj hp hq]
    have hp' := hp
    have hq' := hq
    unfold Unit4 at hp' hq'
    constructor
    · intro h
      have h1 : |qdot p q| = 1 := le_antisymm hle h
      rcases (abs_eq zero_le_one).mp h1 with h | h
      · left
        simp only [qdot] at h
        have : (p.s - q.s) ^ 2 + (p.x - q.x) ^ 2 + (p.y - q.y) ^ 2 + (p.z - q.z) ^ 2 = 0 := by nlinarith
        have a0 := sq_nonneg (p.s - q.s)
        have a1 := sq_nonneg (p.x - q.x)
        have a2 := sq_nonneg (p.y - q.y)
        have a3 := sq_nonneg (p.z - q.z)
        ext
        · exact sub_eq_zero.mp (pow_eq_zero_iff two_ne_zero |>.mp (by linarith))
        · exact sub_eq_zero.mp (pow_eq_zero_iff two_ne_zero |>.mp (by linarith))
        · exact sub_eq_zero.mp (pow_eq_zero_iff two_ne_zero |>.mp (by linarith))
        · exact sub_eq_zero.mp (pow_eq_zero_iff two_ne_zero |>.mp (by linarith))
      · right
        simp only [qdot] at h
        have : (p.s + q.s) ^ 2 + (p.x + q.x) ^ 2 + (p.y + q.y) ^ 2 + (p.z + q.z) ^ 2 = 0 := by nlinarith
        have a0 := sq_nonneg (p.s + q.s)
        have a1 := sq_nonneg (p.x + q.x)
        have a2 := sq_nonneg (p.y + q.y)
        have a3 := sq_nonneg (p.z + q.z)
        ext
        · exact eq_neg_of_add_eq_zero_left (pow_eq_zero_iff two_ne_zero |>.mp (by linarith))
        · exact eq_neg_of_add_eq_zero_left (pow_eq_zero_iff two_ne_zero |>.mp (by linarith))
        · exact eq_neg_of_add_eq_zero_left (pow_eq_zero_iff two_ne_zero |>.mp (by linarith))
        · exact eq_neg_of_add_eq_zero_left (pow_eq_zero_iff two_ne_zero |>.mp (by linarith))
    · rintro (rfl | rfl)
      · have : qdot p p = 1 := by simp only [qdot]; linarith
        rw [this]; simp
      · have : qdot (opposite q) q = -1 := by simp only [qdot, opposite]; linarith
        rw [this]; simp
  · rw [distance_eq hp hq, distance_eq hq hp, hs]
  · rw [distance_eq (hr.mul hp) (hr.mul hq), distance_eq hp hq]
    congr 2
    simp only [qdot, qmul]
    linear_combination (p.s * q.s + p.x * q.x + p.y * q.y + p.z * q.z) * hrr
  · rw [distance_eq (hp.mul hr) (hq.mul hr), distance_eq hp hq]
    congr 2
    simp only [qdot, qmul]
    linear_combination (p.s * q.s + p.x * q.x + p.y * q.y + p.z * q.z) * hrr
  · have hu := hp.conj.mul hq
    have e : qdot p q = (qmul (conj p) q).s := by simp only [qdot, qmul, conj]; ring
    rw [← toMatrix_conj, ← toMatrix_mul hp.conj hq, distance_eq hp hq, cos_two_mul,
      cos_arccos (by linarith [abs_nonneg (qdot p q)]) hle, sq_abs, e]
    generalize qmul (conj p) q = u at *
    unfold Unit4 at hu
    simp [Matrix.trace, Fin.sum_univ_three, toMatrix]
    linarith

end Neml.Rotation
