import Verif.Props.Creep
import Verif.Props.NewtonChain

/-!
# C192: Norton–Bailey creep, implicit in the creep strain

Specification: the creep law in its time form, `A sⁿ tᵐ` under a held stress `s`. The code has the rate as a
function of stress and accumulated strain; with `m < 1` it grows without bound as the strain goes to zero,
and the code cuts the strain off below `eps`.

A creep step is the equation `e − e_n − Δt f(s, e) = 0`. Written on the line through the stress
direction it is `x − x_n − k x^(−p) = 0` with `p = (1 − m)/m` and `k = Δt m A^(1/m) s^(n/m)`.
-/

namespace Neml.Creep

open Matrix Neml.Mandel Neml.Flow Neml.SolveStep

/-! ## The line of the stress direction -/

/-- Creep strain `x` along the stress `s`: the strain whose equivalent is `|x|` and which has the direction
of the stress deviator. -/
noncomputable def along (s : Fin 6 → ℝ) (x : ℝ) : Fin 6 → ℝ := fun i => x * (3 / 2 * (devVec s i / seq s))

theorem along_eq (s : Fin 6 → ℝ) (x : ℝ) : along s x = x • along s 1 := by
  ext i; simp [along]

variable {eps : ℝ} {s : Fin 6 → ℝ}

theorem along_dot (hs : 0 < seq s) : along s 1 ⬝ᵥ along s 1 = 3 / 2 := by
  have h := devVec_dot s
  have e : along s 1 ⬝ᵥ along s 1 = (9 / 4) * (devVec s ⬝ᵥ devVec s) / (seq s * seq s) := by
    simp only [along, dotProduct, Finset.mul_sum, Finset.sum_div]
    refine Finset.sum_congr rfl fun i _ => ?_
    field_simp
    ring
  rw [e, h]
  field_simp
  norm_num

theorem norm2_along (hs : 0 < seq s) (x : ℝ) : norm2 (along s x) = |x| * √(3 / 2) := by
  rw [along_eq, norm2_smul]
  congr 1
  unfold norm2
  rw [along_dot hs]

theorem eeq_along (hs : 0 < seq s) (x : ℝ) : eeq (along s x) = |x| := by
  rw [eeq, norm2_along hs, mul_comm, mul_assoc, ← Real.sqrt_mul (by norm_num)]
  norm_num

theorem along_inj (hs : 0 < seq s) {x y : ℝ} (h : along s x = along s y) : x = y := by
  have h1 := congrArg (fun v => v ⬝ᵥ along s 1) h
  simp only [along_eq s x, along_eq s y, smul_dotProduct, along_dot hs, smul_eq_mul] at h1
  linarith

/-- The scalar equation of a step along the stress. -/
noncomputable def step (r : Scalar) (σ xn t T dt x : ℝ) : ℝ := x - xn - dt * r.g σ |x| t T

theorem residual_along (he : 0 < eps) (hs : eps ≤ seq s) (r : Scalar) (xn t T dt x : ℝ) :
    (creepRJ (j2 eps r) s (along s xn) t T dt (along s x)).1 = along s (step r (seq s) xn t T dt x) := by
  ext i
  simp only [creepRJ, j2, sdir_of_le hs, eeq_along (he.trans_le hs)]
  simp only [along, step]
  ring

/-- Every solution of a step from a strain along the stress is along the stress. -/
theorem solution_along (hs : eps ≤ seq s) (r : Scalar) (xn t T dt : ℝ) (e : Fin 6 → ℝ)
    (h : (creepRJ (j2 eps r) s (along s xn) t T dt e).1 = 0) :
    e = along s (xn + dt * r.g (seq s) (eeq e) t T) := by
  ext i
  have h1 := congrFun h i
  simp only [creepRJ, j2, sdir_of_le hs, Pi.zero_apply] at h1
  simp only [along] at *
  linear_combination h1

/-- The slope of the equation the solver works with. -/
noncomputable def slope (eps : ℝ) (r : Scalar) (σ t T dt x : ℝ) : ℝ :=
  if |x| < eps then 1 else 1 - dt * (x / |x| * r.dg_de σ |x| t T)

theorem jacobian_along (he : 0 < eps) (hs : eps ≤ seq s) (r : Scalar) (xn t T dt x : ℝ) (y : ℝ) :
    (creepRJ (j2 eps r) s (along s xn) t T dt (along s x)).2 *ᵥ along s y =
      along s (slope eps r (seq s) t T dt x * y) := by
  have hs0 := he.trans_le hs
  have hJ : (creepRJ (j2 eps r) s (along s xn) t T dt (along s x)).2 =
      1 - dt • vecMulVec (sdir eps s) fun i => edir eps (along s x) i * r.dg_de (seq s) |x| t T := by
    ext i j
    simp [creepRJ, j2, eeq_along hs0, Matrix.one_apply]
    ring
  rw [hJ, sub_mulVec, one_mulVec, smul_mulVec, vecMulVec_mulVec]
  have hd : (fun i => edir eps (along s x) i * r.dg_de (seq s) |x| t T) ⬝ᵥ along s y =
      if |x| < eps then 0 else 3 / 2 * (x / |x| * r.dg_de (seq s) |x| t T) * y := by
    split_ifs with h
    · simp [edir, eeq_along hs0, h, dotProduct]
    · have h1 : edir eps (along s x) = fun i => along s x i / |x| := by
        rw [edir_of_le (by rw [eeq_along hs0]; exact not_lt.mp h), eeq_along hs0]
      have h2 := along_dot hs0
      simp only [dotProduct, h1] at h2 ⊢
      rw [show (3 : ℝ) / 2 * (x / |x| * r.dg_de (seq s) |x| t T) * y =
        (x / |x| * r.dg_de (seq s) |x| t T) * y * (3 / 2) by ring, ← h2, Finset.mul_sum]
      refine Finset.sum_congr rfl fun i _ => ?_
      simp only [along]
      ring
  ext i
  simp only [hd, slope, sdir_of_le hs, Pi.sub_apply, Pi.smul_apply, smul_eq_mul, MulOpposite.smul_eq_mul_unop,
    MulOpposite.unop_op]
  split_ifs <;> simp only [along] <;> ring

theorem jacobian_det (he : 0 < eps) (hs : eps ≤ seq s) (r : Scalar) {xn t T dt x : ℝ}
    (h : slope eps r (seq s) t T dt x ≠ 0) :
    (creepRJ (j2 eps r) s (along s xn) t T dt (along s x)).2.det ≠ 0 := by
  intro hdet
  obtain ⟨v, hv, h0⟩ := Matrix.exists_mulVec_eq_zero_iff.mpr hdet
  have hs0 := he.trans_le hs
  have hJ : (creepRJ (j2 eps r) s (along s xn) t T dt (along s x)).2 =
      1 - dt • vecMulVec (sdir eps s) fun i => edir eps (along s x) i * r.dg_de (seq s) |x| t T := by
    ext i j
    simp [creepRJ, j2, eeq_along hs0, Matrix.one_apply]
    ring
  have hv' : ∃ c, v = along s c := by
    rw [hJ, sub_mulVec, one_mulVec, smul_mulVec, vecMulVec_mulVec, sub_eq_zero] at h0
    refine ⟨dt * (2 / 3) * ((fun i => edir eps (along s x) i * r.dg_de (seq s) |x| t T) ⬝ᵥ v), ?_⟩
    ext i
    rw [congrFun h0 i]
    simp only [sdir_of_le hs, Pi.smul_apply, smul_eq_mul, MulOpposite.smul_eq_mul_unop, MulOpposite.unop_op, along]
    ring
  obtain ⟨c, rfl⟩ := hv'
  rw [jacobian_along he hs] at h0
  have h1 : slope eps r (seq s) t T dt x * c = 0 := by
    refine along_inj hs0 (h0.trans ?_)
    ext i; simp [along]
  rcases mul_eq_zero.mp h1 with h2 | h2
  · exact h h2
  · exact hv (by rw [h2]; ext i; simp [along])

/-! ## The scalar equation -/

/-- `x − x_n − k x^(−p)`. -/
noncomputable def phi (k p xn x : ℝ) : ℝ := x - xn - k * x ^ (-p)

/-- Its derivative. -/
noncomputable def dphi (k p x : ℝ) : ℝ := 1 + k * p * x ^ (-p - 1)

theorem dphi_deriv {k p xn x : ℝ} (hx : 0 < x) : HasDerivAt (phi k p xn) (dphi k p x) x := by
  have h := ((hasDerivAt_id x).sub_const xn).sub ((Real.hasDerivAt_rpow_const (p := -p) (Or.inl hx.ne')).const_mul k)
  refine h.congr_deriv ?_
  simp only [dphi]
  ring

section scalar

variable {k p xn x y : ℝ}

theorem one_le_dphi (hk : 0 ≤ k) (hp : 0 ≤ p) (hx : 0 < x) : 1 ≤ dphi k p x := by
  have := mul_nonneg (mul_nonneg hk hp) (Real.rpow_nonneg hx.le (-p - 1))
  simp only [dphi]; linarith

theorem dphi_anti (hk : 0 ≤ k) (hp : 0 ≤ p) (hx : 0 < x) (h : x ≤ y) : dphi k p y ≤ dphi k p x := by
  have h1 : y ^ (-p - 1) ≤ x ^ (-p - 1) := Real.rpow_le_rpow_of_nonpos hx h (by linarith)
  have := mul_le_mul_of_nonneg_left h1 (mul_nonneg hk hp)
  simp only [dphi]; linarith

theorem phi_grows (hk : 0 ≤ k) (hp : 0 ≤ p) (hx : 0 < x) (h : x ≤ y) : y - x ≤ phi k p xn y - phi k p xn x := by
  have h1 : y ^ (-p) ≤ x ^ (-p) := Real.rpow_le_rpow_of_nonpos hx h (by linarith)
  have := mul_le_mul_of_nonneg_left h1 hk
  simp only [phi]; linarith

/-- The graph lies below its tangents. -/
theorem phi_concave (hk : 0 ≤ k) (hp : 0 ≤ p) (hx : 0 < x) (hy : 0 < y) :
    phi k p xn y ≤ phi k p xn x + dphi k p x * (y - x) := by
  have hu : 0 < y / x := div_pos hy hx
  have h1 : 1 - p * (y / x - 1) ≤ (y / x) ^ (-p) := by
    rw [Real.rpow_def_of_pos hu]
    have h2 := Real.add_one_le_exp (Real.log (y / x) * -p)
    have h3 := mul_le_mul_of_nonneg_left (Real.log_le_sub_one_of_pos hu) hp
    linarith
  rw [Real.div_rpow hy.le hx.le, le_div_iff₀ (Real.rpow_pos_of_pos hx _)] at h1
  have e : x ^ (-p - 1) = x ^ (-p) / x := by rw [Real.rpow_sub hx, Real.rpow_one]
  have h4 := mul_le_mul_of_nonneg_left h1 hk
  have h5 : k * ((1 - p * (y / x - 1)) * x ^ (-p)) = k * x ^ (-p) - k * p * (x ^ (-p) / x) * (y - x) := by
    field_simp
  simp only [phi, dphi, e]
  rw [h5] at h4
  linarith

/-- Newton's iterates. -/
noncomputable def iter (k p xn : ℝ) : ℕ → ℝ
  | 0 => xn
  | j + 1 => iter k p xn j - phi k p xn (iter k p xn j) / dphi k p (iter k p xn j)

theorem iter_spec (hk : 0 ≤ k) (hp : 0 ≤ p) (hxn : 0 < xn) (j : ℕ) :
    xn ≤ iter k p xn j ∧ phi k p xn (iter k p xn j) ≤ 0 ∧ iter k p xn j ≤ iter k p xn (j + 1) ∧
      (1 - 1 / dphi k p xn) * phi k p xn (iter k p xn j) ≤ phi k p xn (iter k p xn (j + 1)) := by
  have key : ∀ x, xn ≤ x → phi k p xn x ≤ 0 → x ≤ x - phi k p xn x / dphi k p x ∧
      phi k p xn (x - phi k p xn x / dphi k p x) ≤ 0 ∧
      (1 - 1 / dphi k p xn) * phi k p xn x ≤ phi k p xn (x - phi k p xn x / dphi k p x) := by
    intro x hx h
    have hx0 := hxn.trans_le hx
    have hd := one_le_dphi (k := k) hk hp hx0
    have hd0 : 0 < dphi k p x := by linarith
    have h1 : phi k p xn x / dphi k p x ≤ 0 := div_nonpos_of_nonpos_of_nonneg h hd0.le
    have hy : x ≤ x - phi k p xn x / dphi k p x := by linarith
    refine ⟨hy, ?_, ?_⟩
    · have h2 := phi_concave (xn := xn) hk hp hx0 (hx0.trans_le hy)
      have h3 : dphi k p x * (phi k p xn x / dphi k p x) = phi k p xn x := by field_simp
      nlinarith
    · have h2 := phi_grows (xn := xn) hk hp hx0 hy
      have h4 := dphi_anti hk hp hxn hx
      have h5 : phi k p xn x / dphi k p x ≤ 1 / dphi k p xn * phi k p xn x := by
        rw [div_eq_mul_one_div, mul_comm]
        exact mul_le_mul_of_nonpos_right (one_div_le_one_div_of_le hd0 h4) h
      linarith
  have base : ∀ j, xn ≤ iter k p xn j ∧ phi k p xn (iter k p xn j) ≤ 0 := by
    intro j
    induction j with
    | zero =>
      refine ⟨le_rfl, ?_⟩
      have := mul_nonneg hk (Real.rpow_nonneg hxn.le (-p))
      simp only [iter, phi]; linarith
    | succ j ih =>
      obtain ⟨h1, h2, -⟩ := key _ ih.1 ih.2
      exact ⟨ih.1.trans h1, h2⟩
  obtain ⟨h1, h2⟩ := base j
  obtain ⟨h3, -, h5⟩ := key _ h1 h2
  exact ⟨h1, h2, h3, h5⟩

theorem iter_rate (hk : 0 ≤ k) (hp : 0 ≤ p) (hxn : 0 < xn) (j : ℕ) :
    (1 - 1 / dphi k p xn) ^ j * phi k p xn xn ≤ phi k p xn (iter k p xn j) := by
  have hd := one_le_dphi (k := k) hk hp hxn
  have hq : 0 ≤ 1 - 1 / dphi k p xn := sub_nonneg.mpr ((div_le_one (by linarith)).mpr hd)
  induction j with
  | zero => simp [iter]
  | succ j ih =>
    refine le_trans ?_ (iter_spec hk hp hxn j).2.2.2
    rw [pow_succ', mul_assoc]
    exact mul_le_mul_of_nonneg_left ih hq

/-- The equation has a solution. -/
theorem phi_root (hk : 0 ≤ k) (hp : 0 ≤ p) (hxn : 0 < xn) : ∃ x, xn ≤ x ∧ phi k p xn x = 0 := by
  have hw := mul_nonneg hk (Real.rpow_nonneg hxn.le (-p))
  have h0 : phi k p xn xn = - (k * xn ^ (-p)) := by simp [phi]
  have h1 := phi_grows (xn := xn) (y := xn + k * xn ^ (-p)) hk hp hxn (by linarith)
  have hc : ContinuousOn (phi k p xn) (Set.Icc xn (xn + k * xn ^ (-p))) := fun z hz =>
    (dphi_deriv (hxn.trans_le hz.1)).continuousAt.continuousWithinAt
  obtain ⟨x, hx, h⟩ := intermediate_value_Icc (by linarith) hc (show (0 : ℝ) ∈ _ from ⟨by linarith, by linarith⟩)
  exact ⟨x, hx.1, h⟩

end scalar

/-! ## Norton–Bailey -/

/-- `p = (1 − m)/m`. -/
noncomputable def nbP (m : ℝ) : ℝ := (1 - m) / m

/-- `k = Δt m A^(1/m) σ^(n/m)`. -/
noncomputable def nbK (A m n σ dt : ℝ) : ℝ := dt * (m * A ^ (1 / m) * σ ^ (n / m))

section nb

variable {A m n : ℝ → ℝ} {t T dt σ x xn : ℝ}

theorem nb_step (hm : m T ≠ 0) (hσ : eps ≤ σ) (h0 : 0 ≤ x) (hx : eps ≤ x) :
    step (nortonBailey eps A m n) σ xn t T dt x = phi (nbK (A T) (m T) (n T) σ dt) (nbP (m T)) xn x := by
  have e : (m T - 1) / m T = -nbP (m T) := by rw [nbP]; ring
  simp only [step, nortonBailey, phi, nbK, abs_of_nonneg h0, if_neg (not_lt.mpr hσ), if_neg (not_lt.mpr hx), e]
  ring

theorem nb_slope (hm : m T ≠ 0) (hσ : eps ≤ σ) (h0 : 0 < x) (hx : eps ≤ x) :
    slope eps (nortonBailey eps A m n) σ t T dt x = dphi (nbK (A T) (m T) (n T) σ dt) (nbP (m T)) x := by
  have e : -1 / m T = -nbP (m T) - 1 := by rw [nbP]; field_simp; ring
  simp only [slope, nortonBailey, dphi, nbK, abs_of_pos h0, if_neg (not_lt.mpr hσ), if_neg (not_lt.mpr hx), e,
    div_self h0.ne']
  rw [nbP]
  field_simp
  ring

theorem nbK_nonneg {A m n σ dt : ℝ} (hA : 0 ≤ A) (hm : 0 ≤ m) (hσ : 0 ≤ σ) (hdt : 0 ≤ dt) : 0 ≤ nbK A m n σ dt :=
  mul_nonneg hdt (mul_nonneg (mul_nonneg hm (Real.rpow_nonneg hA _)) (Real.rpow_nonneg hσ _))

theorem nbK_pos {A m n σ dt : ℝ} (hA : 0 < A) (hm : 0 < m) (hσ : 0 < σ) (hdt : 0 < dt) : 0 < nbK A m n σ dt :=
  mul_pos hdt (mul_pos (mul_pos hm (Real.rpow_pos_of_pos hA _)) (Real.rpow_pos_of_pos hσ _))

theorem nbP_nonneg {m : ℝ} (hm : 0 < m) (h1 : m ≤ 1) : 0 ≤ nbP m := div_nonneg (by linarith) hm.le

theorem nb_g_nonneg (he : 0 ≤ eps) (hA : 0 ≤ A T) (hm : 0 ≤ m T) (σ x t : ℝ) :
    0 ≤ (nortonBailey eps A m n).g σ x t T := by
  have h : ∀ y : ℝ, 0 ≤ if y < eps then eps else y := fun y => by split_ifs <;> linarith
  exact mul_nonneg (mul_nonneg (mul_nonneg hm (Real.rpow_nonneg hA _)) (Real.rpow_nonneg (h _) _))
    (Real.rpow_nonneg (h _) _)

/-- **C192** the rate is that of the law `A σⁿ tᵐ`, as long as stress and strain are above the guard. -/
theorem C192_law (hA : 0 < A T) (hm : 0 < m T) (he : 0 < eps) (hσ : eps ≤ σ) {τ : ℝ} (hτ : 0 < τ)
    (h : eps ≤ A T * σ ^ n T * τ ^ m T) :
    HasDerivAt (fun τ => A T * σ ^ n T * τ ^ m T)
      ((nortonBailey eps A m n).g σ (A T * σ ^ n T * τ ^ m T) t T) τ := by
  have hσ0 := he.trans_le hσ
  refine ((Real.hasDerivAt_rpow_const (p := m T) (Or.inl hτ.ne')).const_mul (A T * σ ^ n T)).congr_deriv ?_
  simp only [nortonBailey, if_neg (not_lt.mpr hσ), if_neg (not_lt.mpr h)]
  generalize m T = m at *
  generalize A T = A at *
  generalize n T = n at *
  rw [Real.mul_rpow (by positivity) (by positivity), Real.mul_rpow hA.le (by positivity), ← Real.rpow_mul hσ0.le,
    ← Real.rpow_mul hτ.le]
  have e1 : A ^ (1 / m) * A ^ ((m - 1) / m) = A := by
    rw [← Real.rpow_add hA, show 1 / m + (m - 1) / m = 1 by field_simp; ring, Real.rpow_one]
  have e2 : σ ^ (n / m) * σ ^ (n * ((m - 1) / m)) = σ ^ n := by
    rw [← Real.rpow_add hσ0]; congr 1; field_simp; ring
  have e3 : m * ((m - 1) / m) = m - 1 := by field_simp
  rw [e3, ← e2]
  linear_combination (-(m * τ ^ (m - 1) * σ ^ (n / m) * σ ^ (n * ((m - 1) / m)))) * e1

/-- **C192** forward creep (strain at least `eps` in the direction of the stress, `0 < m ≤ 1`): the implicit step
has exactly one solution, among all strains, and the strain along the stress has not become smaller. -/
theorem C192_unique (he : 0 < eps) (hs : eps ≤ seq s) (hA : 0 ≤ A T) (hm : 0 < m T) (hm1 : m T ≤ 1)
    (hdt : 0 ≤ dt) (hx : eps ≤ xn) :
    ∃ x, xn ≤ x ∧ ∀ e, (creepRJ (j2 eps (nortonBailey eps A m n)) s (along s xn) t T dt e).1 = 0 ↔
      e = along s x := by
  have hs0 := he.trans_le hs
  have hk := nbK_nonneg (n := n T) hA hm.le hs0.le hdt
  have hp := nbP_nonneg hm hm1
  have hxn := he.trans_le hx
  obtain ⟨x, h1, h2⟩ := phi_root hk hp hxn
  have hr : ∀ y, xn ≤ y → ((creepRJ (j2 eps (nortonBailey eps A m n)) s (along s xn) t T dt (along s y)).1 = 0 ↔
      phi (nbK (A T) (m T) (n T) (seq s) dt) (nbP (m T)) xn y = 0) := by
    intro y hy
    rw [residual_along he hs, nb_step hm.ne' hs (hxn.le.trans hy) (hx.trans hy)]
    constructor
    · intro h
      refine along_inj hs0 (h.trans ?_)
      ext i; simp [along]
    · intro h
      rw [h]; ext i; simp [along]
  refine ⟨x, h1, fun e => ⟨fun h => ?_, ?_⟩⟩
  · have h3 := solution_along hs _ _ _ _ _ e h
    have h4 := mul_nonneg hdt (nb_g_nonneg (n := n) he.le hA hm.le (seq s) (eeq e) t)
    obtain ⟨y, hy⟩ : ∃ y, y = xn + dt * (nortonBailey eps A m n).g (seq s) (eeq e) t T := ⟨_, rfl⟩
    rw [← hy] at h3
    have hy1 : xn ≤ y := by linarith
    rw [h3] at h
    have h5 := (hr y hy1).mp h
    rw [h3]
    congr 1
    rcases le_total x y with h6 | h6
    · have := phi_grows (xn := xn) hk hp (hxn.trans_le h1) h6
      linarith
    · have := phi_grows (xn := xn) hk hp (hxn.trans_le hy1) h6
      linarith
  · rintro rfl
    exact (hr x h1).mpr h2

/-- How far Newton's method shrinks the residual at least in one iteration: by `1 − 1/L`. -/
noncomputable def shrink (A m n σ dt xn : ℝ) : ℝ := 1 - 1 / dphi (nbK A m n σ dt) (nbP m) xn

/-- **C192** forward creep: the solver finds the solution if it may take enough iterations, from below and to its
tolerances. -/
theorem C192_converges {lin : Matrix (Fin 6) (Fin 6) ℝ → (Fin 6 → ℝ) → Option (Fin 6 → ℝ)}
    {inv : Matrix (Fin 6) (Fin 6) ℝ → Option (Matrix (Fin 6) (Fin 6) ℝ)} {q : Newton.Params} {fuel : ℕ}
    {t1 t0 : ℝ} (he : 0 < eps) (hs : eps ≤ seq s) (hl : ExactSolve lin) (hv : ExactInv inv) (ha : 0 < q.atol)
    (hA : 0 < A T) (hm : 0 < m T) (hm1 : m T ≤ 1) (hdt : t0 < t1) (hx : eps ≤ xn) {K : ℕ}
    (hK : shrink (A T) (m T) (n T) (seq s) (t1 - t0) xn ^ K < q.rtol) (hmi : (K : ℤ) < q.miter) (hf : K < fuel) :
    ∃ x y B, update (j2 eps (nortonBailey eps A m n)) lin inv q fuel T t1 t0 s (along s xn) = some (along s x, B) ∧
      (∀ e, (creepRJ (j2 eps (nortonBailey eps A m n)) s (along s xn) t1 T (t1 - t0) e).1 = 0 ↔ e = along s y) ∧
      xn ≤ x ∧ x ≤ y ∧
      y - x ≤ max q.atol (q.rtol * ((t1 - t0) * (nortonBailey eps A m n).g (seq s) xn t1 T)) := by
  have hs0 := he.trans_le hs
  have hxn := he.trans_le hx
  have hdt0 : 0 < t1 - t0 := sub_pos.mpr hdt
  have hk := nbK_pos (n := n T) hA hm hs0 hdt0
  have hp := nbP_nonneg hm hm1
  obtain ⟨y, hy1, hy2⟩ := C192_unique (n := n) (t := t1) he hs hA.le hm hm1 hdt0.le hx
  have hφy : phi (nbK (A T) (m T) (n T) (seq s) (t1 - t0)) (nbP (m T)) xn y = 0 := by
    have h := (hy2 (along s y)).mpr rfl
    rw [residual_along he hs, nb_step hm.ne' hs (hxn.le.trans hy1) (hx.trans hy1)] at h
    refine along_inj hs0 (h.trans ?_)
    ext i; simp [along]
  have hg : (t1 - t0) * (nortonBailey eps A m n).g (seq s) xn t1 T =
      - phi (nbK (A T) (m T) (n T) (seq s) (t1 - t0)) (nbP (m T)) xn xn := by
    rw [← nb_step (t := t1) (A := A) hm.ne' hs hxn.le hx, step, abs_of_pos hxn]
    ring
  rw [hg]
  unfold shrink at hK
  generalize hkk : nbK (A T) (m T) (n T) (seq s) (t1 - t0) = k at *
  generalize hpp : nbP (m T) = P at *
  have hd1 := one_le_dphi hk.le hp hxn
  have hsp := fun j => iter_spec hk.le hp hxn j
  have hrt := fun j => iter_rate hk.le hp hxn j
  have hφ0 : phi k P xn xn < 0 := by
    have := mul_pos hk (Real.rpow_pos_of_pos hxn (-P))
    simp only [phi]; linarith
  have hq : 1 ≤ √(3 / 2 : ℝ) := by rw [Real.one_le_sqrt]; norm_num
  have hN : ∀ x, Newton.norm2 (along s x) = |x| * √(3 / 2) := fun x => norm2_along hs0 x
  obtain ⟨cv, hcv⟩ : ∃ cv : ℕ → Prop, cv = fun j => Newton.norm2 (along s (phi k P xn (iter k P xn j))) < q.atol ∨
      (Newton.norm2 (along s (phi k P xn (iter k P xn 0))) ≠ 0 ∧
        Newton.norm2 (along s (phi k P xn (iter k P xn j))) /
          Newton.norm2 (along s (phi k P xn (iter k P xn 0))) < q.rtol) := ⟨_, rfl⟩
  have h00 : Newton.norm2 (along s (phi k P xn (iter k P xn 0))) = - phi k P xn xn * √(3 / 2) := by
    rw [hN]; simp only [iter]; rw [abs_of_neg hφ0]
  have h00p : 0 < - phi k P xn xn * √(3 / 2) := by
    have : 0 < - phi k P xn xn := by linarith
    positivity
  have hcK : cv K := by
    rw [hcv]
    refine Or.inr ⟨by rw [h00]; exact h00p.ne', ?_⟩
    rw [h00, hN, abs_of_nonpos (hsp K).2.1, mul_div_mul_right _ _ (by positivity)]
    refine lt_of_le_of_lt ?_ hK
    rw [div_le_iff₀ (by linarith)]
    have := hrt K
    linarith
  classical
  have hex : ∃ j, cv j := ⟨K, hcK⟩
  obtain ⟨M, hM1, hM2, hM3⟩ : ∃ M, cv M ∧ M ≤ K ∧ ∀ j < M, ¬ cv j :=
    ⟨Nat.find hex, Nat.find_spec hex, Nat.find_min' hex hcK, fun j hj => Nat.find_min hex hj⟩
  have hRJ : ∀ j, (creepSystem (j2 eps (nortonBailey eps A m n)) s (along s xn) t1 T (t1 - t0)).RJ
      (along s (iter k P xn j)) = some (along s (phi k P xn (iter k P xn j)),
        (creepRJ (j2 eps (nortonBailey eps A m n)) s (along s xn) t1 T (t1 - t0) (along s (iter k P xn j))).2) := by
    intro j
    have h1 := (hsp j).1
    have h := residual_along he hs (nortonBailey eps A m n) xn t1 T (t1 - t0) (iter k P xn j)
    rw [nb_step hm.ne' hs (hxn.le.trans h1) (hx.trans h1), hkk, hpp] at h
    simp only [creepSystem]
    rw [← h]
  have hsl : ∀ j, slope eps (nortonBailey eps A m n) (seq s) t1 T (t1 - t0) (iter k P xn j) =
      dphi k P (iter k P xn j) := by
    intro j
    have h1 := (hsp j).1
    rw [nb_slope hm.ne' hs (hxn.trans_le h1) (hx.trans h1), hkk, hpp]
  have hds : ∀ j, 0 < dphi k P (iter k P xn j) := fun j => by
    have := one_le_dphi hk.le hp (hxn.trans_le (hsp j).1)
    linarith
  have hdet : ∀ j, (creepRJ (j2 eps (nortonBailey eps A m n)) s (along s xn) t1 T (t1 - t0)
      (along s (iter k P xn j))).2.det ≠ 0 := fun j =>
    jacobian_det he hs _ (by rw [hsl]; exact (hds j).ne')
  obtain ⟨j, hj, hcj, hnw⟩ := newton_chain
    (creepSystem (j2 eps (nortonBailey eps A m n)) s (along s xn) t1 T (t1 - t0)) lin q fuel
    (fun j => along s (iter k P xn j)) (fun j => along s (phi k P xn (iter k P xn j)))
    (fun j => (creepRJ (j2 eps (nortonBailey eps A m n)) s (along s xn) t1 T (t1 - t0) (along s (iter k P xn j))).2)
    M rfl (fun j _ => hRJ j)
    (fun j _ => by
      have h := hl _ (along s (iter k P xn j) - along s (iter k P xn (j + 1))) (hdet j)
      rw [← h]
      congr 1
      have e : along s (iter k P xn j) - along s (iter k P xn (j + 1)) =
          along s (phi k P xn (iter k P xn j) / dphi k P (iter k P xn j)) := by
        ext i; simp only [along, Pi.sub_apply, iter]; ring
      rw [e, jacobian_along he hs, hsl, mul_div_cancel₀ _ (hds j).ne'])
    (fun j hj => by
      have h1 : ¬ cv j := hM3 j hj
      rw [hcv] at h1
      have h2 : ¬ Newton.norm2 (along s (phi k P xn (iter k P xn j))) < q.atol := fun h => h1 (Or.inl h)
      rw [hN, hN, abs_of_nonpos (hsp j).2.1, abs_of_nonpos (hsp (j + 1)).2.1]
      rw [hN, abs_of_nonpos (hsp j).2.1] at h2
      have h3 : phi k P xn (iter k P xn j) < 0 := by
        by_contra h
        have := (hsp j).2.1
        have e : phi k P xn (iter k P xn j) = 0 := by linarith
        rw [e] at h2
        simp only [neg_zero, zero_mul] at h2
        exact h2 ha
      have h4 := (hsp j).2.2.2
      have h5 : 0 < 1 / dphi k P xn := by positivity
      have h6 := mul_neg_of_pos_of_neg h5 h3
      refine mul_lt_mul_of_pos_right ?_ (by positivity)
      linarith)
    (by rw [hcv] at hM1; exact hM1) (by omega) (by omega)
  have hinv := hv _ (hdet j)
  obtain ⟨B, hB⟩ : ∃ B, update (j2 eps (nortonBailey eps A m n)) lin inv q fuel T t1 t0 s (along s xn) =
      some (along s (iter k P xn j), B) := by
    unfold update
    rw [hnw]
    simp only [creepTangent, hinv]
    exact ⟨_, rfl⟩
  refine ⟨iter k P xn j, y, B, hB, hy2, (hsp j).1, ?_, ?_⟩
  · by_contra h
    have h1 := phi_grows (xn := xn) hk.le hp (hxn.trans_le hy1) (not_le.mp h).le
    have := (hsp j).2.1
    push Not at h
    linarith
  · have hle : iter k P xn j ≤ y := by
      by_contra h
      have h1 := phi_grows (xn := xn) hk.le hp (hxn.trans_le hy1) (not_le.mp h).le
      have := (hsp j).2.1
      push Not at h
      linarith
    have h1 := phi_grows (xn := xn) hk.le hp (hxn.trans_le (hsp j).1) hle
    rw [hφy] at h1
    have h2 := (hsp j).2.1
    rcases hcj with h | ⟨-, h⟩
    · refine le_max_of_le_left ?_
      rw [hN, abs_of_nonpos h2] at h
      have h3 : 0 ≤ - phi k P xn (iter k P xn j) := by linarith
      nlinarith
    · refine le_max_of_le_right ?_
      rw [h00, hN, abs_of_nonpos h2, mul_div_mul_right _ _ (by positivity), div_lt_iff₀ (by linarith)] at h
      linarith

/-- **C192** with a limit of iterations that is large enough forward creep always gets an answer. -/
theorem C192_succeeds {lin : Matrix (Fin 6) (Fin 6) ℝ → (Fin 6 → ℝ) → Option (Fin 6 → ℝ)}
    {inv : Matrix (Fin 6) (Fin 6) ℝ → Option (Matrix (Fin 6) (Fin 6) ℝ)} {t1 t0 rtol atol : ℝ}
    (he : 0 < eps) (hs : eps ≤ seq s) (hl : ExactSolve lin) (hv : ExactInv inv) (hr : 0 < rtol) (ha : 0 < atol)
    (hA : 0 < A T) (hm : 0 < m T) (hm1 : m T ≤ 1) (hdt : t0 < t1) (hx : eps ≤ xn) :
    ∃ M : ℕ, ∀ miter fuel : ℕ, M ≤ miter → M ≤ fuel → ∀ ls,
      (update (j2 eps (nortonBailey eps A m n)) lin inv ⟨rtol, atol, miter, ls⟩ fuel T t1 t0 s (along s xn)).isSome := by
  have hs0 := he.trans_le hs
  have hxn := he.trans_le hx
  have hk := nbK_pos (n := n T) hA hm hs0 (sub_pos.mpr hdt)
  have hd := one_le_dphi hk.le (nbP_nonneg hm hm1) hxn
  have hlt : shrink (A T) (m T) (n T) (seq s) (t1 - t0) xn < 1 := by
    have : 0 < 1 / dphi (nbK (A T) (m T) (n T) (seq s) (t1 - t0)) (nbP (m T)) xn := by positivity
    unfold shrink; linarith
  obtain ⟨K, hK⟩ := exists_pow_lt_of_lt_one hr hlt
  refine ⟨K + 1, fun miter fuel h1 h2 ls => ?_⟩
  obtain ⟨x, y, B, h, -⟩ := C192_converges (n := n) (q := ⟨rtol, atol, miter, ls⟩) (fuel := fuel) he hs hl hv ha hA hm
    hm1 hdt hx hK (by show (K : ℤ) < (miter : ℤ); omega) (by omega)
  rw [h]; rfl

theorem along_zero (s : Fin 6 → ℝ) : along s 0 = 0 := by ext i; simp [along]

/-- **C192** the first step from zero creep strain: any solution above the guard has the equivalent strain
`mᵐ` times that of the law, however short the step. -/
theorem C192_first_step (he : 0 < eps) (hs : eps ≤ seq s) (hA : 0 < A T) (hm : 0 < m T) (hdt : 0 < dt)
    (e : Fin 6 → ℝ) (hee : eps ≤ eeq e) :
    (creepRJ (j2 eps (nortonBailey eps A m n)) s 0 t T dt e).1 = 0 ↔
      e = along s (m T ^ m T * (A T * seq s ^ n T * dt ^ m T)) := by
  have hs0 := he.trans_le hs
  have hk := nbK_pos (n := n T) hA hm hs0 hdt
  have hroot : nbK (A T) (m T) (n T) (seq s) dt ^ m T = m T ^ m T * (A T * seq s ^ n T * dt ^ m T) := by
    unfold nbK
    rw [Real.mul_rpow hdt.le (by positivity), Real.mul_rpow (by positivity) (by positivity),
      Real.mul_rpow hm.le (by positivity), ← Real.rpow_mul hA.le, ← Real.rpow_mul hs0.le, one_div_mul_cancel hm.ne',
      div_mul_cancel₀ _ hm.ne', Real.rpow_one]
    ring
  have hsolve : ∀ x, 0 < x → (phi (nbK (A T) (m T) (n T) (seq s) dt) (nbP (m T)) 0 x = 0 ↔
      x = m T ^ m T * (A T * seq s ^ n T * dt ^ m T)) := by
    intro x hx
    rw [← hroot]
    have hxp := Real.rpow_pos_of_pos hx (nbP (m T))
    have e1 : phi (nbK (A T) (m T) (n T) (seq s) dt) (nbP (m T)) 0 x = 0 ↔
        x ^ (1 / m T) = nbK (A T) (m T) (n T) (seq s) dt := by
      have e2 : x ^ (1 / m T) = x * x ^ nbP (m T) := by
        rw [show 1 / m T = 1 + nbP (m T) by rw [nbP]; field_simp; ring, Real.rpow_add hx, Real.rpow_one]
      rw [e2, phi, Real.rpow_neg hx.le, sub_zero, sub_eq_zero, ← div_eq_mul_inv, eq_div_iff hxp.ne']
    rw [e1]
    constructor
    · intro h
      rw [← h, ← Real.rpow_mul hx.le, one_div_mul_cancel hm.ne', Real.rpow_one]
    · rintro rfl
      rw [← Real.rpow_mul hk.le, mul_one_div_cancel hm.ne', Real.rpow_one]
  constructor
  · intro h
    rw [← along_zero s] at h
    have h1 := solution_along hs _ _ _ _ _ e (h.trans (along_zero s))
    rw [zero_add] at h1
    obtain ⟨x, hx⟩ : ∃ x, x = dt * (nortonBailey eps A m n).g (seq s) (eeq e) t T := ⟨_, rfl⟩
    have hx0 : 0 ≤ x := by
      rw [hx]; exact mul_nonneg hdt.le (nb_g_nonneg he.le hA.le hm.le _ _ _)
    rw [← hx] at h1
    subst h1
    rw [eeq_along hs0, abs_of_nonneg hx0] at hee
    rw [residual_along he hs, nb_step hm.ne' hs hx0 hee] at h
    rw [(hsolve x (he.trans_le hee)).mp (along_inj hs0 h)]
  · rintro rfl
    have hpos : 0 < m T ^ m T * (A T * seq s ^ n T * dt ^ m T) := by positivity
    rw [eeq_along hs0, abs_of_pos hpos] at hee
    rw [← along_zero s, residual_along he hs, nb_step hm.ne' hs hpos.le hee, (hsolve _ hpos).mpr rfl]

/-- A set of iterates that the solver neither leaves nor accepts uses up the limit of iterations. -/
theorem loop_cycles {d : ℕ} {sys : Newton.System d} {lin} {q : Newton.Params} {nR0 : ℝ} (S : Newton.It d → Prop)
    (hS : ∀ it, S it → ¬ Newton.Conv q nR0 it ∧ ∃ it', Newton.body sys lin q it = .ok it' ∧ S it') :
    ∀ (fuel : ℕ) (i : ℤ) (it), S it → i < q.miter → q.miter - i ≤ fuel →
      ∃ it', Newton.loop sys lin q nR0 fuel i it = some (.ok (q.miter, it')) := by
  intro fuel
  induction fuel with
  | zero => intro i it _ h1 h2; exact absurd h2 (by push_cast; omega)
  | succ fuel ih =>
    intro i it h h1 h2
    obtain ⟨hc, it', hb, h'⟩ := hS it h
    rw [Newton.loop_of_step hc hb]
    split_ifs with h3
    · have : i + 1 = q.miter := by omega
      exact ⟨it', by rw [this]⟩
    · exact ih (i + 1) it' h' (by omega) (by push_cast at h2; omega)

/-- **C192** from zero creep strain, without line search (the default): if the strain `X = k eps^(−p)` that the
step makes at the guard's rate is so large that Newton's method from there falls below the guard again, the
iteration goes back and forth between the two until the limit is reached, and the step fails. -/
theorem C192_virgin_disagreement {lin : Matrix (Fin 6) (Fin 6) ℝ → (Fin 6 → ℝ) → Option (Fin 6 → ℝ)}
    {inv : Matrix (Fin 6) (Fin 6) ℝ → Option (Matrix (Fin 6) (Fin 6) ℝ)} {q : Newton.Params} {fuel : ℕ}
    {t1 t0 X k P : ℝ} (he : 0 < eps) (hs : eps ≤ seq s) (hl : ExactSolve lin) (hls : q.linesearch = false)
    (hA : 0 < A T) (hm : 0 < m T) (hm1 : m T ≤ 1) (hdt : t0 < t1)
    (hk : k = nbK (A T) (m T) (n T) (seq s) (t1 - t0)) (hP : P = nbP (m T)) (hX : X = k * eps ^ (-P))
    (hX2 : 2 * eps ≤ X) (hc : (1 + P) * (k * X ^ (-P)) < eps) (hr : q.rtol ≤ 1 / 2) (ha : q.atol ≤ X / 2)
    (hmi : 1 ≤ q.miter) (hf : q.miter ≤ fuel) :
    Newton.newton (creepSystem (j2 eps (nortonBailey eps A m n)) s 0 t1 T (t1 - t0)) lin q fuel =
        some (.error .maxIter) ∧
      update (j2 eps (nortonBailey eps A m n)) lin inv q fuel T t1 t0 s 0 = none := by
  have hs0 := he.trans_le hs
  have hkp : 0 < k := by rw [hk]; exact nbK_pos hA hm hs0 (sub_pos.mpr hdt)
  have hp : 0 ≤ P := by rw [hP]; exact nbP_nonneg hm hm1
  have hXp : 0 < X := by linarith
  have hXe : eps ≤ X := by linarith
  have hw : 0 ≤ k * X ^ (-P) := by positivity
  have hw2 : k * X ^ (-P) < eps := by nlinarith
  have hq : 1 ≤ √(3 / 2 : ℝ) := by rw [Real.one_le_sqrt]; norm_num
  have hN : ∀ x, Newton.norm2 (along s x) = |x| * √(3 / 2) := fun x => norm2_along hs0 x
  have hsmall : ∀ x, 0 ≤ x → x < eps → step (nortonBailey eps A m n) (seq s) 0 t1 T (t1 - t0) x = x - X := by
    intro x h0 h1
    have e : (m T - 1) / m T = -P := by rw [hP, nbP]; ring
    simp only [step, nortonBailey, abs_of_nonneg h0, if_neg (not_lt.mpr hs), if_pos h1, e, hX, hk, nbK]
    ring
  have hbig : step (nortonBailey eps A m n) (seq s) 0 t1 T (t1 - t0) X = X - k * X ^ (-P) := by
    rw [nb_step hm.ne' hs hXp.le hXe, ← hk, ← hP, phi, sub_zero]
  obtain ⟨sys, hsys⟩ : ∃ sys, sys = creepSystem (j2 eps (nortonBailey eps A m n)) s 0 t1 T (t1 - t0) := ⟨_, rfl⟩
  obtain ⟨J, hJ⟩ : ∃ J : ℝ → Matrix (Fin 6) (Fin 6) ℝ, J = fun x =>
    (creepRJ (j2 eps (nortonBailey eps A m n)) s (along s 0) t1 T (t1 - t0) (along s x)).2 := ⟨_, rfl⟩
  have hRJ : ∀ x, sys.RJ (along s x) =
      some (along s (step (nortonBailey eps A m n) (seq s) 0 t1 T (t1 - t0) x), J x) := by
    intro x
    rw [hsys, hJ, ← residual_along he hs, along_zero]
    rfl
  obtain ⟨S, hSd⟩ : ∃ S : Newton.It 6 → Prop, S = fun it => ∃ x, (0 ≤ x ∧ x < eps ∨ x = X) ∧
      it.x = along s x ∧ it.R = along s (step (nortonBailey eps A m n) (seq s) 0 t1 T (t1 - t0) x) ∧ it.J = J x ∧
      it.nR = Newton.norm2 it.R := ⟨_, rfl⟩
  have hstep : ∀ it x y c, it.x = along s x → it.R = along s (step (nortonBailey eps A m n) (seq s) 0 t1 T (t1 - t0) x) →
      it.J = J x → slope eps (nortonBailey eps A m n) (seq s) t1 T (t1 - t0) x = c → c ≠ 0 →
      c * (x - y) = step (nortonBailey eps A m n) (seq s) 0 t1 T (t1 - t0) x →
      Newton.body sys lin q it = .ok ⟨along s y,
        along s (step (nortonBailey eps A m n) (seq s) 0 t1 T (t1 - t0) y), J y,
        Newton.norm2 (along s (step (nortonBailey eps A m n) (seq s) 0 t1 T (t1 - t0) y)), it.calls + 1⟩ := by
    intro it x y c h1 h2 h3 h4 h5 h6
    have hd : lin it.J it.R = some (along s (x - y)) := by
      have h := hl (J x) (along s (x - y)) (by rw [hJ]; exact jacobian_det he hs _ (by rw [h4]; exact h5))
      rw [h3, h2, ← h, ← h6, ← h4, hJ]
      congr 1
      exact (jacobian_along he hs _ _ _ _ _ _ _).symm
    have hxy : (fun j => it.x j - along s (x - y) j) = along s y := by
      ext i; rw [h1]; simp only [along]; ring
    unfold Newton.body
    simp only [hd, hls, Bool.false_eq_true, if_false, hxy, hRJ y]
  have hR0 : Newton.norm2 (along s (step (nortonBailey eps A m n) (seq s) 0 t1 T (t1 - t0) 0)) = X * √(3 / 2) := by
    rw [hsmall 0 le_rfl he, hN, zero_sub, abs_neg, abs_of_pos hXp]
  have hS : ∀ it, S it → ¬ Newton.Conv q (X * √(3 / 2)) it ∧ ∃ it', Newton.body sys lin q it = .ok it' ∧ S it' := by
    intro it hit
    rw [hSd] at hit
    obtain ⟨x, hx, h1, h2, h3, h4⟩ := hit
    have hbound : X / 2 * √(3 / 2) ≤ it.nR := by
      rw [h4, h2, hN]
      refine mul_le_mul_of_nonneg_right ?_ (by positivity)
      rcases hx with ⟨h5, h6⟩ | rfl
      · rw [hsmall x h5 h6, abs_sub_comm]
        exact le_trans (by linarith) (le_abs_self _)
      · rw [hbig]
        exact le_trans (by linarith) (le_abs_self _)
    refine ⟨?_, ?_⟩
    · rintro (h | ⟨-, h⟩)
      · nlinarith
      · rw [div_lt_iff₀ (by positivity)] at h
        have : q.rtol * (X * √(3 / 2)) ≤ 1 / 2 * (X * √(3 / 2)) :=
          mul_le_mul_of_nonneg_right hr (by positivity)
        linarith
    · rcases hx with ⟨h5, h6⟩ | rfl
      · have hsl : slope eps (nortonBailey eps A m n) (seq s) t1 T (t1 - t0) x = 1 := by
          rw [slope, if_pos (by rw [abs_of_nonneg h5]; exact h6)]
        refine ⟨_, hstep it x X 1 h1 h2 h3 hsl one_ne_zero (by rw [hsmall x h5 h6, one_mul]), ?_⟩
        rw [hSd]
        exact ⟨X, Or.inr rfl, rfl, rfl, rfl, rfl⟩
      · have hsl := nb_slope (A := A) (n := n) (t := t1) (dt := t1 - t0) hm.ne' hs hXp hXe
        rw [← hk, ← hP] at hsl
        have hd1 := one_le_dphi hkp.le hp hXp
        have hd0 : 0 < dphi k P x := by linarith
        have e1 : x ^ (-P - 1) = x ^ (-P) / x := by rw [Real.rpow_sub hXp, Real.rpow_one]
        refine ⟨_, hstep it x ((1 + P) * (k * x ^ (-P)) / dphi k P x) (dphi k P x) h1 h2 h3 hsl hd0.ne' ?_, ?_⟩
        · rw [hbig, mul_sub, mul_div_cancel₀ _ hd0.ne']
          simp only [dphi, e1]
          field_simp
          ring
        · rw [hSd]
          refine ⟨_, Or.inl ⟨by positivity, ?_⟩, rfl, rfl, rfl, rfl⟩
          refine lt_of_le_of_lt (div_le_self (by positivity) hd1) hc
  have hnewton : Newton.newton sys lin q fuel = some (.error .maxIter) := by
    have hi : sys.init = along s 0 := by rw [hsys, along_zero]; rfl
    obtain ⟨it', h⟩ := loop_cycles S hS fuel 0 ⟨along s 0,
      along s (step (nortonBailey eps A m n) (seq s) 0 t1 T (t1 - t0) 0), J 0, X * √(3 / 2), 1⟩
      (by rw [hSd]; exact ⟨0, Or.inl ⟨le_rfl, he⟩, rfl, rfl, rfl, hR0.symm⟩) (by omega) (by omega)
    unfold Newton.newton
    rw [hi, hRJ 0]
    simp only [hR0, h, if_true]
  rw [hsys] at hnewton
  refine ⟨hnewton, ?_⟩
  unfold update
  rw [hnewton]

/-- The condition of `C192_virgin_disagreement` in terms of `k`: for `m < 1/2` (`p > 1`) it holds for all steps
and loads but the tiniest, as `eps` is raised to the power `p² − 1` on the left. -/
theorem C192_virgin_condition {k P X : ℝ} (he : 0 < eps) (hk : 0 < k) (hX : X = k * eps ^ (-P))
    (h : (1 + P) * eps ^ (P * P - 1) < k ^ (P - 1)) : (1 + P) * (k * X ^ (-P)) < eps := by
  have e1 : X ^ (-P) = k ^ (-P) * eps ^ (P * P) := by
    rw [hX, Real.mul_rpow hk.le (by positivity), ← Real.rpow_mul he.le]
    congr 2; ring
  have e2 : k * k ^ (-P) * k ^ (P - 1) = 1 := by
    rw [mul_assoc, ← Real.rpow_add hk, show -P + (P - 1) = -1 by ring, Real.rpow_neg_one, mul_inv_cancel₀ hk.ne']
  have e3 : eps ^ (P * P) = eps ^ (P * P - 1) * eps := by
    rw [← Real.rpow_add_one he.ne']; congr 1; ring
  have hpos : 0 < k * k ^ (-P) * eps := by positivity
  have := mul_lt_mul_of_pos_right h hpos
  rw [e1, e3]
  nlinarith

/-- The stress of a bar under unit tension. -/
theorem seq_bar : seq ![1, 0, 0, 0, 0, 0] = 1 := by
  have h1 := devVec_dot ![1, 0, 0, 0, 0, 0]
  have h2 : devVec ![1, 0, 0, 0, 0, 0] ⬝ᵥ devVec ![1, 0, 0, 0, 0, 0] = (2 / 3 : ℝ) := by
    simp [devVec, dotProduct, Fin.sum_univ_succ]; norm_num
  rw [h2] at h1
  exact ((mul_self_inj (by norm_num) (seq_nonneg _)).mp (by linarith)).symm

/-- **C192** reversed creep: one step with three solutions. Creep strain one against the stress, `m = 1/3`, `A = 1`,
`n = 1`, a time step of 3/8 under unit tension: the strain may stay on the old side (two ways) or be thrown over
to the other side. -/
theorem C192_reversal_disagreement (he : 0 < eps) (he1 : eps ≤ 3 / 10) :
    ∀ x ∈ [(-1 - √5) / 4, -1 / 2, (√5 - 1) / 4],
      (creepRJ (j2 eps (nortonBailey eps (fun _ => 1) (fun _ => 1 / 3) fun _ => 1)) ![1, 0, 0, 0, 0, 0]
        (along ![1, 0, 0, 0, 0, 0] (-1)) t T (3 / 8) (along ![1, 0, 0, 0, 0, 0] x)).1 = 0 := by
  have h5 : √(5 : ℝ) * √5 = 5 := Real.mul_self_sqrt (by norm_num)
  have h5a : 2.2 < √(5 : ℝ) := by rw [Real.lt_sqrt (by norm_num)]; norm_num
  intro x hx
  have hax : eps ≤ |x| ∧ x * x * (x + 1) = 1 / 8 := by
    simp only [List.mem_cons, List.not_mem_nil, or_false] at hx
    rcases hx with rfl | rfl | rfl
    · refine ⟨?_, by nlinarith⟩
      rw [abs_of_neg (by linarith)]; linarith
    · refine ⟨?_, by norm_num⟩
      rw [abs_of_neg (by norm_num)]; linarith
    · refine ⟨?_, by nlinarith⟩
      rw [abs_of_pos (by linarith)]; linarith
  have hx0 : 0 < |x| := he.trans_le hax.1
  rw [residual_along he (by rw [seq_bar]; linarith), seq_bar, step]
  simp only [nortonBailey, if_neg (not_lt.mpr hax.1), if_neg (not_lt.mpr (show eps ≤ 1 by linarith)), Real.one_rpow]
  have e : |x| ^ (((1 : ℝ) / 3 - 1) / (1 / 3)) = (x * x)⁻¹ := by
    rw [show ((1 : ℝ) / 3 - 1) / (1 / 3) = -2 by norm_num, Real.rpow_neg hx0.le, Real.rpow_two, sq_abs, pow_two]
  rw [e]
  have hxx : x * x ≠ 0 := by
    have := abs_pos.mp hx0
    exact mul_ne_zero this this
  have : x - -1 - 3 / 8 * (1 / 3 * 1 * 1 * (x * x)⁻¹) = 0 := by
    have h8 : x + 1 = 1 / 8 * (x * x)⁻¹ := by rw [eq_mul_inv_iff_mul_eq₀ hxx]; linarith [hax.2]
    linarith
  rw [this, along_zero]

/-- Concrete case of `C192_virgin_disagreement`: the code's guard and default tolerances and limit, `m = 1/3`, unit
tension, a step of 3 units of time: no answer from zero creep strain. -/
example : update (j2 (2 ^ (-52 : ℤ)) (nortonBailey (2 ^ (-52 : ℤ)) (fun _ => 1) (fun _ => 1 / 3) fun _ => 1)) exactLin
    exactInv ⟨1e-8, 1e-10, 25, false⟩ 25 0 3 0 ![1, 0, 0, 0, 0, 0] 0 = none := by
  have hk : (1 : ℝ) = nbK 1 (1 / 3) 1 (seq ![1, 0, 0, 0, 0, 0]) (3 - 0) := by
    rw [seq_bar, nbK]; norm_num
  have hP : (2 : ℝ) = nbP (1 / 3) := by rw [nbP]; norm_num
  have hX : (2 : ℝ) ^ (104 : ℕ) = 1 * (2 ^ (-52 : ℤ) : ℝ) ^ (-2 : ℝ) := by
    rw [Real.rpow_neg (by positivity), Real.rpow_two]; norm_num
  have hX' : ((2 : ℝ) ^ (104 : ℕ)) ^ (-2 : ℝ) = 1 / 2 ^ (208 : ℕ) := by
    rw [Real.rpow_neg (by positivity), Real.rpow_two]; norm_num
  exact (C192_virgin_disagreement (A := fun _ => 1) (m := fun _ => 1 / 3) (n := fun _ => 1) (T := 0) (t1 := 3) (t0 := 0)
    (X := 2 ^ (104 : ℕ)) (k := 1) (P := 2) (q := ⟨1e-8, 1e-10, 25, false⟩) (fuel := 25) (inv := exactInv)
    (s := ![1, 0, 0, 0, 0, 0]) (eps := 2 ^ (-52 : ℤ)) (by positivity) (by rw [seq_bar]; norm_num) exactLin_exact rfl
    one_pos (by norm_num) (by norm_num) (by norm_num) hk hP hX (by norm_num) (by rw [hX']; norm_num) (by norm_num)
    (by norm_num) (by norm_num) (by norm_num)).2

/-- Concrete case of `C192_converges`: `m = 1/2`, unit strain, a step of 2 units of time: the answer is the golden ratio
to the tolerances. -/
example : ∃ x B, update (j2 (2 ^ (-52 : ℤ)) (nortonBailey (2 ^ (-52 : ℤ)) (fun _ => 1) (fun _ => 1 / 2) fun _ => 1))
    exactLin exactInv ⟨1e-8, 1e-10, 50, false⟩ 50 0 2 0 ![1, 0, 0, 0, 0, 0] (along ![1, 0, 0, 0, 0, 0] 1) =
      some (along ![1, 0, 0, 0, 0, 0] x, B) ∧ 1 ≤ x := by
  have hk : nbK 1 (1 / 2) 1 (seq ![1, 0, 0, 0, 0, 0]) (2 - 0) = 1 := by
    rw [seq_bar, nbK]; norm_num
  have hP : nbP (1 / 2) = 1 := by rw [nbP]; norm_num
  obtain ⟨x, y, B, h, -, h1, -⟩ := C192_converges (A := fun _ => 1) (m := fun _ => 1 / 2) (n := fun _ => 1) (T := 0)
    (t1 := 2) (t0 := 0) (xn := 1) (q := ⟨1e-8, 1e-10, 50, false⟩) (fuel := 50) (inv := exactInv) (lin := exactLin)
    (s := ![1, 0, 0, 0, 0, 0]) (eps := 2 ^ (-52 : ℤ)) (K := 40) (by positivity) (by rw [seq_bar]; norm_num)
    exactLin_exact exactInv_exact (by norm_num) one_pos (by norm_num) (by norm_num) (by norm_num) (by norm_num)
    (by show shrink 1 (1 / 2) 1 _ _ _ ^ 40 < _
        rw [shrink, hk, hP, dphi, Real.one_rpow]; norm_num) (by norm_num) (by norm_num)
  exact ⟨x, B, h, h1⟩

/-- Concrete case of `C192_law`: the law `tᵐ` with `m = 1/3` under unit stress at time 1. -/
example : HasDerivAt (fun τ : ℝ => (1 : ℝ) * 1 ^ (1 : ℝ) * τ ^ (1 / 3 : ℝ))
    ((nortonBailey (1 / 1000) (fun _ => 1) (fun _ => 1 / 3) fun _ => 1).g 1 (1 * 1 ^ (1 : ℝ) * 1 ^ (1 / 3 : ℝ)) 0 0) 1 :=
  C192_law (A := fun _ => 1) (m := fun _ => 1 / 3) (n := fun _ => 1) (T := 0) one_pos (by norm_num) (by norm_num)
    (by norm_num) one_pos (by norm_num)

end nb

end Neml.Creep
