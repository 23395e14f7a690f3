import Verif.Props.YaguchiPar
import Mathlib.Topology.Order.IntermediateValue

/-!
# The Yaguchi flow rule: bounds on the history over any loading (C142)
-/

namespace Neml.Yaguchi

open Matrix Neml.Flow Neml.Mandel Neml.SmallStrain Neml.Walker

/-- Spec: a loading history solved by the general integrator with the rule, from the initial history, through states
where there are numbers. -/
structure Run (P : Par) (el : Elastic ℝ (Fin 6)) (p : Load) (t : ℕ → ℝ) (s : ℕ → Fin 6 → ℝ) (h : ℕ → Var → ℝ) : Prop where
  solves : SolvesPath (tvp el P.flow) p t s h
  time : StrictMono t
  start : h 0 = init
  num : ∀ k, defined (s (k + 1)) (h (k + 1))

variable {P : Par} {el : Elastic ℝ (Fin 6)} {p : Load} {t : ℕ → ℝ} {s : ℕ → Fin 6 → ℝ} {h : ℕ → Var → ℝ}

/-- The length of a step and its equivalent plastic strain. -/
def stepDt (t : ℕ → ℝ) (k : ℕ) : ℝ := t (k + 1) - t k

noncomputable def stepDp (P : Par) (p : Load) (t : ℕ → ℝ) (s : ℕ → Fin 6 → ℝ) (h : ℕ → Var → ℝ) (k : ℕ) : ℝ :=
  P.y (s (k + 1)) (h (k + 1)) (p.T (k + 1)) * stepDt t k

theorem Run.dt_pos (H : Run P el p t s h) (k : ℕ) : 0 < stepDt t k := sub_pos.mpr (H.time (Nat.lt_succ_self k))

theorem Run.dp_nonneg (H : Run P el p t s h) (k : ℕ) : 0 ≤ stepDp P p t s h k :=
  mul_nonneg (y_nonneg _ _ _ _) (H.dt_pos k).le

theorem Run.step (H : Run P el p t s h) (k : ℕ) (v : Var) :
    h (k + 1) v = h k v + P.hv (s (k + 1)) (h (k + 1)) (p.T (k + 1)) v * stepDp P p t s h k +
      P.htv (h (k + 1)) (p.T (k + 1)) v * stepDt t k := by
  have hd := H.dt_pos k
  have hs := H.solves k
  rw [stepDt] at hd
  simp only [giTrial, if_pos hd] at hs
  have h1 := congrFun hs (.inr v)
  simp only [giR, Sum.elim_inl, Sum.elim_inr, tvp, Pi.zero_apply] at h1
  have h2 : P.flow.h_temp.v (s (k + 1)) (h (k + 1)) (p.T (k + 1)) v = 0 := rfl
  rw [h2] at h1
  have h3 : P.flow.h.v (s (k + 1)) (h (k + 1)) (p.T (k + 1)) v = P.hv (s (k + 1)) (h (k + 1)) (p.T (k + 1)) v := rfl
  have h4 : P.flow.h_time.v (s (k + 1)) (h (k + 1)) (p.T (k + 1)) v = P.htv (h (k + 1)) (p.T (k + 1)) v := rfl
  have h5 : P.flow.y (s (k + 1)) (h (k + 1)) (p.T (k + 1)) = P.y (s (k + 1)) (h (k + 1)) (p.T (k + 1)) := rfl
  rw [h3, h4, h5] at h1
  simp only [stepDp, stepDt]
  linear_combination h1

/-! ## Plastic strain -/

/-- **C142** in every step the stress increment is the elastic one of the strain increment less a plastic strain that
keeps the volume and whose equivalent value is the rate times the length of the step. -/
theorem C142_plastic_strain (H : Run P el p t s h) (k : ℕ) :
    ∃ ep : Fin 6 → ℝ, s (k + 1) = s k + el.C (p.T (k + 1)) *ᵥ (p.e (k + 1) - p.e k - ep) ∧ tr3 ep = 0 ∧
      √(2 / 3 * (ep ⬝ᵥ ep)) = P.y (s (k + 1)) (h (k + 1)) (p.T (k + 1)) * (t (k + 1) - t k) := by
  have hd : 0 < t (k + 1) - t k := H.dt_pos k
  set g := dirOf (devVec (dS (s (k + 1)) (h (k + 1)))) with hg
  refine ⟨stepDp P p t s h k • g, ?_, ?_, ?_⟩
  · have hs := H.solves k
    simp only [giTrial, if_pos hd] at hs
    ext i
    have h1 := congrFun hs (.inl i)
    simp only [giR, Sum.elim_inl, Sum.elim_inr, tvp, Pi.zero_apply] at h1
    have e : (p.e (k + 1) - p.e k - stepDp P p t s h k • g) =
        (t (k + 1) - t k) • fun i => (p.e (k + 1) i - p.e k i) / (t (k + 1) - t k) -
          P.flow.y (s (k + 1)) (h (k + 1)) (p.T (k + 1)) * P.flow.g.v (s (k + 1)) (h (k + 1)) (p.T (k + 1)) i -
          (p.T (k + 1) - p.T k) / (t (k + 1) - t k) * P.flow.g_temp.v (s (k + 1)) (h (k + 1)) (p.T (k + 1)) i -
          P.flow.g_time.v (s (k + 1)) (h (k + 1)) (p.T (k + 1)) i := by
      ext i
      have e1 : P.flow.y (s (k + 1)) (h (k + 1)) (p.T (k + 1)) = P.y (s (k + 1)) (h (k + 1)) (p.T (k + 1)) := rfl
      have e2 : P.flow.g.v (s (k + 1)) (h (k + 1)) (p.T (k + 1)) = g := g_eq _ _ _
      have e3 : P.flow.g_temp.v (s (k + 1)) (h (k + 1)) (p.T (k + 1)) i = 0 := rfl
      have e4 : P.flow.g_time.v (s (k + 1)) (h (k + 1)) (p.T (k + 1)) i = 0 := rfl
      simp only [Pi.sub_apply, Pi.smul_apply, smul_eq_mul, e1, e2, e3, e4, stepDp, stepDt]
      field_simp
      ring
    rw [e, mulVec_smul, Pi.add_apply, Pi.smul_apply, smul_eq_mul]
    linear_combination h1
  · rw [tr3_smul', tr3_dirOf (tr3_devVec _), mul_zero]
  · rw [smul_dotProduct, dotProduct_smul, smul_eq_mul, smul_eq_mul]
    have h0 : devVec (dS (s (k + 1)) (h (k + 1))) ≠ 0 := fun h0 => H.num k (J2_eq_zero.mpr h0)
    have h1 := dirOf_dot _ h0
    rw [← hg] at h1
    have e : 2 / 3 * (stepDp P p t s h k * (stepDp P p t s h k * (g ⬝ᵥ g))) = stepDp P p t s h k ^ 2 := by
      linear_combination stepDp P p t s h k ^ 2 * h1
    rw [e, Real.sqrt_sq (H.dp_nonneg k)]
    rfl

/-- **C142** it flows only with the effective stress above the threshold. -/
theorem C142_flow_iff (P : Par) (s : Fin 6 → ℝ) (a : Var → ℝ) (T : ℝ) (hD : 0 < P.D T) :
    0 < P.y s a T ↔ a .sa < J2 (s - (X1 a + X2 a)) := by
  rw [y_pos_iff, Par.over, div_pos_iff_of_pos_right hD, sub_pos]
  rfl

/-! ## Backstresses -/

/-- One step of a backstress. -/
theorem X_step (x u g : Fin 6 → ℝ) (C a γ m dp dt : ℝ) (j : Fin 6)
    (e : x j = u j + C * (2 / 3 * a * g j - x j) * dp + -γ * J2 x ^ (m - 1) * x j * dt) :
    (1 + C * dp + γ * J2 x ^ (m - 1) * dt) * x j = u j + dp * (C * a) * (2 / 3) * g j := by
  linear_combination e

theorem Run.X1 (H : Run P el p t s h) (k : ℕ) :
    (1 + P.C1 (p.T (k + 1)) * stepDp P p t s h k +
      P.g1 (p.T (k + 1)) * J2 (X1 (h (k + 1))) ^ (P.m (p.T (k + 1)) - 1) * stepDt t k) • X1 (h (k + 1)) = X1 (h k) +
      (stepDp P p t s h k * (P.C1 (p.T (k + 1)) * (P.a10 (p.T (k + 1)) - h (k + 1) .Q)) * (2 / 3)) •
        dirOf (devVec (dS (s (k + 1)) (h (k + 1)))) := by
  ext j
  have e := H.step k (.X1 j)
  simp only [Par.hv, Par.htv, dir_eq] at e
  exact X_step _ _ _ _ _ _ _ _ _ j e

theorem Run.X2 (H : Run P el p t s h) (k : ℕ) :
    (1 + P.C2 (p.T (k + 1)) * stepDp P p t s h k +
      P.g2 (p.T (k + 1)) * J2 (X2 (h (k + 1))) ^ (P.m (p.T (k + 1)) - 1) * stepDt t k) • X2 (h (k + 1)) = X2 (h k) +
      (stepDp P p t s h k * (P.C2 (p.T (k + 1)) * P.a2 (p.T (k + 1))) * (2 / 3)) •
        dirOf (devVec (dS (s (k + 1)) (h (k + 1)))) := by
  ext j
  have e := H.step k (.X2 j)
  simp only [Par.hv, Par.htv, dir_eq] at e
  exact X_step _ _ _ _ _ _ _ _ _ j e

/-- **C142** the backstresses stay deviatoric. -/
theorem C142_deviatoric (H : Run P el p t s h) (hp : ∀ k, P.Sound (p.T k)) (k : ℕ) :
    tr3 (X1 (h k)) = 0 ∧ tr3 (X2 (h k)) = 0 := by
  induction k with
  | zero =>
    rw [H.start]
    simp [tr3, Yaguchi.X1, Yaguchi.X2, init]
  | succ k ih =>
    have hs := hp (k + 1)
    have hdp := H.dp_nonneg k
    have hdt := (H.dt_pos k).le
    constructor
    · have e := congrArg tr3 (H.X1 k)
      rw [tr3_smul', tr3_add', tr3_smul', tr3_dirOf (tr3_devVec _), ih.1, mul_zero, add_zero] at e
      have h1 := mul_nonneg hs.C1.le hdp
      have h2 := mul_nonneg (mul_nonneg hs.g1.le (Real.rpow_nonneg (J2_nonneg (Yaguchi.X1 (h (k + 1)))) (P.m (p.T (k + 1)) - 1))) hdt
      exact (mul_eq_zero.mp e).resolve_left (by linarith)
    · have e := congrArg tr3 (H.X2 k)
      rw [tr3_smul', tr3_add', tr3_smul', tr3_dirOf (tr3_devVec _), ih.2, mul_zero, add_zero] at e
      have h1 := mul_nonneg hs.C2.le hdp
      have h2 := mul_nonneg (mul_nonneg hs.g2.le (Real.rpow_nonneg (J2_nonneg (Yaguchi.X2 (h (k + 1)))) (P.m (p.T (k + 1)) - 1))) hdt
      exact (mul_eq_zero.mp e).resolve_left (by linarith)

/-- A step never takes a backstress beyond a bound on its limit. -/
theorem back_bound {x u g : Fin 6 → ℝ} {C a dp r B : ℝ} (hB : 0 ≤ B) (hdp : 0 ≤ dp) (hC : 0 ≤ C) (ha : 0 ≤ a) (hr : 0 ≤ r)
    (haB : a ≤ B) (hu : eqBack u ≤ B) (e : (1 + C * dp + r) • x = u + (dp * (C * a) * (2 / 3)) • dirOf g) : eqBack x ≤ B := by
  refine back_step (g := dirOf g) (c := C * a) (w := C) hB hdp (mul_nonneg hC ha) hC (mul_le_mul_of_nonneg_left haB hC)
    (norm2_dirOf _) hu ?_
  have e2 := congrArg (fun v => v ⬝ᵥ x) e
  simp only [add_dotProduct, smul_dotProduct, smul_eq_mul] at e2
  have hx : 0 ≤ x ⬝ᵥ x := by
    rw [← norm2_sq]
    exact mul_self_nonneg _
  have := mul_nonneg hr hx
  linarith

/-- **C142** the fall of the limit of the first backstress stays between zero and any bound on its own limit. -/
theorem C142_Q (H : Run P el p t s h) (hp : ∀ k, P.Sound (p.T k)) {M : ℝ} (hM : ∀ k, P.q (p.T k) ≤ M) (k : ℕ) :
    0 ≤ h k .Q ∧ h k .Q ≤ M := by
  induction k with
  | zero =>
    rw [H.start]
    exact ⟨le_rfl, (hp 0).q.le.trans (hM 0)⟩
  | succ k ih =>
    have hs := hp (k + 1)
    have e := H.step k .Q
    simp only [Par.hv, Par.htv, zero_mul, add_zero] at e
    have hd := mul_nonneg hs.d.le (H.dp_nonneg k)
    have e1 : (1 + P.d (p.T (k + 1)) * stepDp P p t s h k) * h (k + 1) .Q =
        h k .Q + P.d (p.T (k + 1)) * stepDp P p t s h k * P.q (p.T (k + 1)) := by linear_combination e
    constructor
    · by_contra hc
      push Not at hc
      have h1 := mul_nonneg hd hs.q.le
      have h2 := mul_neg_of_pos_of_neg (by linarith : 0 < 1 + P.d (p.T (k + 1)) * stepDp P p t s h k) hc
      linarith [ih.1]
    · by_contra hc
      push Not at hc
      have h1 := mul_le_mul_of_nonneg_left (hM (k + 1)) hd
      have h2 := mul_lt_mul_of_pos_left hc (by linarith : 0 < 1 + P.d (p.T (k + 1)) * stepDp P p t s h k)
      linarith [ih.2]

/-- **C142** the first backstress never exceeds a bound on its initial limit, the second never a bound on its limit. -/
theorem C142_backstress (H : Run P el p t s h) (hp : ∀ k, P.Sound (p.T k)) {M B1 B2 : ℝ} (hM : ∀ k, P.q (p.T k) ≤ M)
    (hM1 : ∀ k, M ≤ P.a10 (p.T k)) (h1 : ∀ k, P.a10 (p.T k) ≤ B1) (h2 : ∀ k, P.a2 (p.T k) ≤ B2) (k : ℕ) :
    J2 (X1 (h k)) ≤ B1 ∧ J2 (X2 (h k)) ≤ B2 := by
  have hB1 : 0 ≤ B1 := ((hp 0).q.le.trans (hM 0)).trans ((hM1 0).trans (h1 0))
  have hB2 : 0 ≤ B2 := (hp 0).a2.le.trans (h2 0)
  have hJ : ∀ v : Fin 6 → ℝ, tr3 v = 0 → J2 v = eqBack v := fun v hv => by
    rw [J2_eq, eqBack_eq, devVec_eq, devProj_of_tr3 hv]
  have hd := C142_deviatoric H hp k
  rw [hJ _ hd.1, hJ _ hd.2]
  clear hd
  induction k with
  | zero =>
    have e1 : Yaguchi.X1 (h 0) = 0 := by rw [H.start]; rfl
    have e2 : Yaguchi.X2 (h 0) = 0 := by rw [H.start]; rfl
    rw [e1, e2]
    simpa [eqBack] using ⟨hB1, hB2⟩
  | succ k ih =>
    have hs := hp (k + 1)
    have hdp := H.dp_nonneg k
    have hdt := (H.dt_pos k).le
    have hQ := C142_Q H hp hM (k + 1)
    exact ⟨back_bound hB1 hdp hs.C1.le (by linarith [hM1 (k + 1)])
        (mul_nonneg (mul_nonneg hs.g1.le (Real.rpow_nonneg (J2_nonneg _) _)) hdt) (by linarith [h1 (k + 1)]) ih.1 (H.X1 k),
      back_bound hB2 hdp hs.C2.le hs.a2.le
        (mul_nonneg (mul_nonneg hs.g2.le (Real.rpow_nonneg (J2_nonneg _) _)) hdt) (h2 (k + 1)) ih.2 (H.X2 k)⟩

/-! ## Threshold -/

theorem log10_tol {y : ℝ} (h : logTol < y) : -15 ≤ log10 y := by
  have hl : 0 < Real.log 10 := Real.log_pos (by norm_num)
  rw [log10, le_div_iff₀ hl]
  have h1 : Real.log logTol ≤ Real.log y := Real.log_le_log logTol_pos h.le
  have h2 : Real.log logTol = -15 * Real.log 10 := by
    rw [logTol, one_div, Real.log_inv, Real.log_pow]
    push_cast
    ring
  linarith

/-- **C142** the threshold never gets negative and never exceeds a bound on its target at the slowest rate at which it
moves. -/
theorem C142_threshold (H : Run P el p t s h) (hp : ∀ k, P.Sound (p.T k)) {M : ℝ} (hM0 : 0 ≤ M)
    (hM : ∀ k, P.A (p.T k) - 15 * P.B (p.T k) ≤ M) (k : ℕ) : 0 ≤ h k .sa ∧ h k .sa ≤ M := by
  induction k with
  | zero =>
    rw [H.start]
    exact ⟨le_rfl, hM0⟩
  | succ k ih =>
    have hs := hp (k + 1)
    have e := H.step k .sa
    have hdp := H.dp_nonneg k
    simp only [Par.hv, Par.htv, zero_mul, add_zero, abs_of_nonneg (y_nonneg _ _ _ _)] at e
    set T := p.T (k + 1)
    by_cases hy : P.y (s (k + 1)) (h (k + 1)) T > logTol
    · rw [if_pos hy] at e
      set x := if P.sas (s (k + 1)) (h (k + 1)) T < 0 then 0 else P.sas (s (k + 1)) (h (k + 1)) T with hx
      have hx0 : 0 ≤ x := by
        rw [hx]
        split_ifs with h0
        · exact le_rfl
        · exact not_lt.mp h0
      have hxM : x ≤ M := by
        rw [hx]
        split_ifs with h0
        · exact hM0
        · have h1 := mul_le_mul_of_nonpos_left (log10_tol hy) hs.B.le
          have := hM (k + 1)
          rw [Par.sas]
          linarith
      have hb : 0 ≤ P.bi x (h (k + 1)) T := by
        rw [Par.bi]
        split_ifs
        · exact hs.bh.le
        · exact hs.br.le
      have hbd := mul_nonneg hb hdp
      have e1 : (1 + P.bi x (h (k + 1)) T * stepDp P p t s h k) * h (k + 1) .sa =
          h k .sa + P.bi x (h (k + 1)) T * stepDp P p t s h k * x := by linear_combination e
      constructor
      · by_contra hc
        push Not at hc
        have h2 := mul_neg_of_pos_of_neg (by linarith : 0 < 1 + P.bi x (h (k + 1)) T * stepDp P p t s h k) hc
        have h3 := mul_nonneg hbd hx0
        linarith [ih.1]
      · by_contra hc
        push Not at hc
        have h1 := mul_le_mul_of_nonneg_left hxM hbd
        have h2 := mul_lt_mul_of_pos_left hc (by linarith : 0 < 1 + P.bi x (h (k + 1)) T * stepDp P p t s h k)
        linarith [ih.2]
    · rw [if_neg hy, zero_mul, add_zero] at e
      rw [e]
      exact ih

/-- **C142** the steel of the code: over any loading between 473 K and 873 K the first backstress stays within 432, the
second within 111, the fall of the first within 0 and 130, the threshold within 0 and 380, and the backstresses
deviatoric. -/
theorem C142_gr91 (H : Run gr91 el p t s h) (hT : ∀ k, 473 ≤ p.T k ∧ p.T k ≤ 873) (k : ℕ) :
    J2 (X1 (h k)) ≤ 432 ∧ J2 (X2 (h k)) ≤ 111 ∧ (0 ≤ h k .Q ∧ h k .Q ≤ 130) ∧ (0 ≤ h k .sa ∧ h k .sa ≤ 380) ∧
      tr3 (X1 (h k)) = 0 ∧ tr3 (X2 (h k)) = 0 := by
  have hp : ∀ k, gr91.Sound (p.T k) := fun k => (C141_sound (hT k).1 (hT k).2).2
  have hl := fun k => C141_limits (hT k).1 (hT k).2
  have hq : ∀ k, gr91.q (p.T k) ≤ 130 := fun k => (hl k).2.2.2
  have hb := C142_backstress H hp hq (fun k => by linarith [(hl k).1.1]) (fun k => (hl k).1.2) (fun k => (hl k).2.1.2) k
  exact ⟨hb.1, hb.2, C142_Q H hp hq k, C142_threshold H hp (by norm_num) (fun k => C141_threshold (hT k).1 (hT k).2) k,
    C142_deviatoric H hp k⟩

/-! ## Any rate can be met -/

/-- A uniaxial history. -/
structure Uni where
  x1 : ℝ
  x2 : ℝ
  Q : ℝ
  sa : ℝ

/-- The full history of a uniaxial one. -/
noncomputable def Uni.full (u : Uni) : Var → ℝ
  | .X1 j => devVec (uni u.x1) j
  | .X2 j => devVec (uni u.x2) j
  | .Q => u.Q
  | .sa => u.sa

/-- The stress at which it flows at the rate `r`. -/
noncomputable def Uni.stress (P : Par) (T r : ℝ) (u : Uni) : Fin 6 → ℝ :=
  uni (u.x1 + u.x2 + (u.sa + P.D T * r ^ (1 / P.n T)))

theorem devVec_uni_eq (x : ℝ) : devVec (uni x) = x • devVec (uni 1) := by
  ext i
  fin_cases i <;> simp [devVec, tr3, uni] <;> ring

theorem devVec_dev (v : Fin 6 → ℝ) : devVec (devVec v) = devVec v := by
  rw [devVec_eq (devVec v), devProj_of_tr3 (tr3_devVec v)]

theorem J2_dev (v : Fin 6 → ℝ) : J2 (devVec v) = J2 v := by rw [J2, J2, devVec_dev]

theorem Uni.eff (P : Par) (T r : ℝ) (u : Uni) :
    devVec (dS (u.stress P T r) u.full) = devVec (uni (u.sa + P.D T * r ^ (1 / P.n T))) := by
  have e : ∀ x y : Fin 6 → ℝ, devVec (x - y) = devVec x - devVec y := fun x y => by
    rw [devVec_eq, devVec_eq, devVec_eq, mulVec_sub]
  have e' : ∀ x y : Fin 6 → ℝ, devVec (x + y) = devVec x + devVec y := fun x y => by
    rw [devVec_eq, devVec_eq, devVec_eq, mulVec_add]
  have h1 : Yaguchi.X1 u.full = devVec (uni u.x1) := rfl
  have h2 : Yaguchi.X2 u.full = devVec (uni u.x2) := rfl
  rw [dS, e, e', h1, h2, devVec_dev, devVec_dev, Uni.stress, devVec_uni_eq u.x1, devVec_uni_eq u.x2, devVec_uni_eq,
    devVec_uni_eq (u.sa + _)]
  ext i
  simp only [Pi.sub_apply, Pi.add_apply, Pi.smul_apply, smul_eq_mul]
  ring

theorem Uni.J (P : Par) {T r : ℝ} (hr : 0 < r) (hD : 0 < P.D T) {u : Uni} (hu : 0 ≤ u.sa) :
    J2 (dS (u.stress P T r) u.full) = u.sa + P.D T * r ^ (1 / P.n T) := by
  rw [J2, u.eff, ← J2, J2_uni, abs_of_pos]
  exact add_pos_of_nonneg_of_pos hu (mul_pos hD (Real.rpow_pos_of_pos hr _))

theorem Uni.y (P : Par) {T r : ℝ} (hr : 0 < r) (hD : 0 < P.D T) (hn : 1 < P.n T) {u : Uni} (hu : 0 ≤ u.sa) :
    P.y (u.stress P T r) u.full T = r := by
  have ho : P.over (u.stress P T r) u.full T = r ^ (1 / P.n T) := by
    rw [Par.over, u.J P hr hD hu]
    change (u.sa + _ - u.sa) / _ = _
    field_simp
    ring
  have hp := Real.rpow_pos_of_pos hr (1 / P.n T)
  rw [Par.y, ho, if_pos hp, abs_of_pos hp, ← Real.rpow_mul hr.le, one_div_mul_cancel (by linarith), Real.rpow_one]

theorem Uni.dir (P : Par) {T r : ℝ} (hr : 0 < r) (hD : 0 < P.D T) {u : Uni} (hu : 0 ≤ u.sa) :
    dir (u.stress P T r) u.full = (3 / 2 : ℝ) • devVec (uni 1) := by
  have hp : 0 < u.sa + P.D T * r ^ (1 / P.n T) := add_pos_of_nonneg_of_pos hu (mul_pos hD (Real.rpow_pos_of_pos hr _))
  ext i
  rw [Yaguchi.dir, u.J P hr hD hu, u.eff, devVec_uni_eq]
  simp only [Pi.smul_apply, smul_eq_mul]
  field_simp

/-- A solution of the equation of one backstress. -/
theorem exists_x (C a γ m dp dt x0 : ℝ) (hC : 0 ≤ C) (ha : 0 ≤ a) (hγ : 0 ≤ γ) (hm : 1 ≤ m) (hdp : 0 ≤ dp) (hdt : 0 ≤ dt)
    (hx : 0 ≤ x0) : ∃ x, 0 ≤ x ∧ x = x0 + C * (a - x) * dp - γ * x ^ (m - 1) * x * dt := by
  let f : ℝ → ℝ := fun x => x - (x0 + C * (a - x) * dp - γ * x ^ (m - 1) * x * dt)
  have hf : Continuous f := by
    have : Continuous fun x : ℝ => x ^ (m - 1) := Real.continuous_rpow_const (by linarith)
    fun_prop
  have h0 : f 0 ≤ 0 := by
    have := mul_nonneg (mul_nonneg hC ha) hdp
    simp only [f]
    linarith
  have h1 : 0 ≤ f (x0 + a) := by
    have e1 := mul_nonneg (mul_nonneg hC hx) hdp
    have e2 := mul_nonneg (mul_nonneg (mul_nonneg hγ (Real.rpow_nonneg (add_nonneg hx ha) (m - 1))) (add_nonneg hx ha)) hdt
    simp only [f]
    linarith
  obtain ⟨x, hxI, hx0⟩ := intermediate_value_Icc (add_nonneg hx ha) hf.continuousOn ⟨h0, h1⟩
  exact ⟨x, hxI.1, sub_eq_zero.mp hx0⟩

theorem relax (u c x : ℝ) (hc : 1 + c ≠ 0) : (u + c * x) / (1 + c) = u + c * (x - (u + c * x) / (1 + c)) := by
  field_simp
  ring

/-- Spec: the invariants of the uniaxial history. -/
structure Uni.Ok (M : ℝ) (u : Uni) : Prop where
  x1 : 0 ≤ u.x1
  x2 : 0 ≤ u.x2
  Q : u.Q ≤ M
  sa : 0 ≤ u.sa

theorem exists_step (P : Par) {T r dt M : ℝ} (hP : P.Sound T) (hr : 0 < r) (hdt : 0 < dt) (hq : P.q T ≤ M) (hM : M ≤ P.a10 T)
    (u : Uni) (hu : u.Ok M) : ∃ u' : Uni, u'.Ok M ∧ ∀ v, u'.full v =
      u.full v + P.hv (u'.stress P T r) u'.full T v * (r * dt) + P.htv u'.full T v * dt := by
  have hdp : 0 < r * dt := mul_pos hr hdt
  have hd : 0 < 1 + P.d T * (r * dt) := by linarith [mul_pos hP.d hdp]
  -- the fall
  obtain ⟨Q, hQM, hQ⟩ : ∃ Q, Q ≤ M ∧ Q = u.Q + P.d T * (P.q T - Q) * (r * dt) := by
    refine ⟨(u.Q + P.d T * (r * dt) * P.q T) / (1 + P.d T * (r * dt)), ?_, ?_⟩
    · rw [div_le_iff₀ hd]
      have := mul_le_mul_of_nonneg_left hq (mul_pos hP.d hdp).le
      linarith [hu.Q]
    · linear_combination relax u.Q (P.d T * (r * dt)) (P.q T) hd.ne'
  obtain ⟨x1, hx1, e1⟩ := exists_x (P.C1 T) (P.a10 T - Q) (P.g1 T) (P.m T) (r * dt) dt u.x1 hP.C1.le (by linarith)
    hP.g1.le (by linarith [hP.m]) hdp.le hdt.le hu.x1
  obtain ⟨x2, hx2, e2⟩ := exists_x (P.C2 T) (P.a2 T) (P.g2 T) (P.m T) (r * dt) dt u.x2 hP.C2.le hP.a2.le
    hP.g2.le (by linarith [hP.m]) hdp.le hdt.le hu.x2
  -- the threshold
  obtain ⟨sa, hsa, e3⟩ : ∃ sa, 0 ≤ sa ∧ sa = u.sa + (if r > logTol then
      (if (if P.A T + P.B T * log10 r < 0 then 0 else P.A T + P.B T * log10 r) - sa ≥ 0 then P.bh T else P.br T) *
        ((if P.A T + P.B T * log10 r < 0 then 0 else P.A T + P.B T * log10 r) - sa) else 0) * (r * dt) := by
    by_cases hy : r > logTol
    · simp only [if_pos hy]
      set x := if P.A T + P.B T * log10 r < 0 then 0 else P.A T + P.B T * log10 r with hx
      have hx0 : 0 ≤ x := by
        rw [hx]
        split_ifs with h0
        · exact le_rfl
        · exact not_lt.mp h0
      rcases le_or_gt u.sa x with hle | hgt
      · have hb := mul_pos hP.bh hdp
        refine ⟨(u.sa + P.bh T * (r * dt) * x) / (1 + P.bh T * (r * dt)), ?_, ?_⟩
        · exact div_nonneg (add_nonneg hu.sa (mul_nonneg hb.le hx0)) (by linarith)
        · have : x - (u.sa + P.bh T * (r * dt) * x) / (1 + P.bh T * (r * dt)) ≥ 0 := by
            rw [ge_iff_le, sub_nonneg, div_le_iff₀ (by linarith)]
            linarith
          rw [if_pos this]
          linear_combination relax u.sa (P.bh T * (r * dt)) x (by linarith)
      · have hb := mul_pos hP.br hdp
        refine ⟨(u.sa + P.br T * (r * dt) * x) / (1 + P.br T * (r * dt)), ?_, ?_⟩
        · exact div_nonneg (add_nonneg hu.sa (mul_nonneg hb.le hx0)) (by linarith)
        · have : ¬ x - (u.sa + P.br T * (r * dt) * x) / (1 + P.br T * (r * dt)) ≥ 0 := by
            rw [ge_iff_le, sub_nonneg, not_le, lt_div_iff₀ (by linarith)]
            linarith
          rw [if_neg this]
          linear_combination relax u.sa (P.br T * (r * dt)) x (by linarith)
    · simp only [if_neg hy]
      exact ⟨u.sa, hu.sa, by ring⟩
  refine ⟨⟨x1, x2, Q, sa⟩, ⟨hx1, hx2, hQM, hsa⟩, fun v => ?_⟩
  set w : Uni := ⟨x1, x2, Q, sa⟩ with hw
  have hy : P.y (w.stress P T r) w.full T = r := Uni.y P hr hP.D hP.n hsa
  have hdir := Uni.dir P hr hP.D (T := T) (u := w) hsa
  have hJ1 : J2 (Yaguchi.X1 w.full) = x1 := by
    change J2 (devVec (uni x1)) = x1
    rw [J2_dev, J2_uni, abs_of_nonneg hx1]
  have hJ2 : J2 (Yaguchi.X2 w.full) = x2 := by
    change J2 (devVec (uni x2)) = x2
    rw [J2_dev, J2_uni, abs_of_nonneg hx2]
  cases v with
  | X1 j =>
    simp only [Par.hv, Par.htv, hJ1, hdir]
    change devVec (uni x1) j = devVec (uni u.x1) j + P.C1 T * (2 / 3 * (P.a10 T - Q) * ((3 / 2 : ℝ) • devVec (uni 1)) j -
      devVec (uni x1) j) * (r * dt) + -P.g1 T * x1 ^ (P.m T - 1) * devVec (uni x1) j * dt
    rw [devVec_uni_eq x1, devVec_uni_eq u.x1]
    simp only [Pi.smul_apply, smul_eq_mul]
    linear_combination devVec (uni 1) j * e1
  | X2 j =>
    simp only [Par.hv, Par.htv, hJ2, hdir]
    change devVec (uni x2) j = devVec (uni u.x2) j + P.C2 T * (2 / 3 * P.a2 T * ((3 / 2 : ℝ) • devVec (uni 1)) j -
      devVec (uni x2) j) * (r * dt) + -P.g2 T * x2 ^ (P.m T - 1) * devVec (uni x2) j * dt
    rw [devVec_uni_eq x2, devVec_uni_eq u.x2]
    simp only [Pi.smul_apply, smul_eq_mul]
    linear_combination devVec (uni 1) j * e2
  | Q =>
    simp only [Par.hv, Par.htv]
    change Q = u.Q + P.d T * (P.q T - Q) * (r * dt) + 0 * dt
    linear_combination hQ
  | sa =>
    simp only [Par.hv, Par.htv, hy, abs_of_pos hr, Par.sas, Par.bi]
    change sa = u.sa + (if r > logTol then
      (if (if P.A T + P.B T * log10 r < 0 then 0 else P.A T + P.B T * log10 r) - sa ≥ 0 then P.bh T else P.br T) *
        ((if P.A T + P.B T * log10 r < 0 then 0 else P.A T + P.B T * log10 r) - sa) else 0) * (r * dt) + 0 * dt
    linear_combination e3

/-- **C142** any positive rates, times and temperatures can be met: there is a loading history that flows at these rates
and solves every step, with any elasticity that can be inverted. -/
theorem C142_exists (P : Par) (el : Elastic ℝ (Fin 6)) (t T r : ℕ → ℝ) (ht : StrictMono t) (hr : ∀ k, 0 < r k)
    (hP : ∀ k, P.Sound (T k)) {M : ℝ} (hM0 : 0 ≤ M) (hq : ∀ k, P.q (T k) ≤ M) (hM : ∀ k, M ≤ P.a10 (T k))
    (hC : ∀ k, el.C (T k) * el.S (T k) = 1) :
    ∃ (p : Load) (s : ℕ → Fin 6 → ℝ) (h : ℕ → Var → ℝ), p.T = T ∧ Run P el p t s h ∧
      ∀ k, P.y (s (k + 1)) (h (k + 1)) (T (k + 1)) = r (k + 1) := by
  have hdt : ∀ k, 0 < t (k + 1) - t k := fun k => sub_pos.mpr (ht (Nat.lt_succ_self k))
  -- the history
  obtain ⟨U, hU0, hU⟩ : ∃ U : ℕ → {u : Uni // u.Ok M}, (U 0).1 = ⟨0, 0, 0, 0⟩ ∧ ∀ k v, (U (k + 1)).1.full v =
      (U k).1.full v + P.hv ((U (k + 1)).1.stress P (T (k + 1)) (r (k + 1))) (U (k + 1)).1.full (T (k + 1)) v *
        (r (k + 1) * (t (k + 1) - t k)) + P.htv (U (k + 1)).1.full (T (k + 1)) v * (t (k + 1) - t k) := by
    choose f hf hf' using fun (k : ℕ) (u : {u : Uni // u.Ok M}) =>
      exists_step P (hP (k + 1)) (hr (k + 1)) (hdt k) (hq (k + 1)) (hM (k + 1)) u.1 u.2
    refine ⟨fun k => Nat.rec ⟨⟨0, 0, 0, 0⟩, ⟨le_rfl, le_rfl, hM0, le_rfl⟩⟩ (fun k u => ⟨f k u, hf k u⟩) k, rfl, fun k v => ?_⟩
    exact hf' k _ v
  let h : ℕ → Var → ℝ := fun k => (U k).1.full
  let s : ℕ → Fin 6 → ℝ := fun k => if k = 0 then 0 else (U k).1.stress P (T k) (r k)
  have hs : ∀ k, s (k + 1) = (U (k + 1)).1.stress P (T (k + 1)) (r (k + 1)) := fun k => if_neg (Nat.succ_ne_zero k)
  let e : ℕ → Fin 6 → ℝ := fun k => Nat.rec 0 (fun k e => e + el.S (T (k + 1)) *ᵥ (s (k + 1) - s k) +
    (r (k + 1) * (t (k + 1) - t k)) • dir (s (k + 1)) (h (k + 1))) k
  have he : ∀ k, e (k + 1) = e k + el.S (T (k + 1)) *ᵥ (s (k + 1) - s k) +
    (r (k + 1) * (t (k + 1) - t k)) • dir (s (k + 1)) (h (k + 1)) := fun k => rfl
  have hy : ∀ k, P.y (s (k + 1)) (h (k + 1)) (T (k + 1)) = r (k + 1) := fun k => by
    rw [hs k]
    exact Uni.y P (hr _) (hP _).D (hP _).n (U (k + 1)).2.sa
  refine ⟨⟨e, T⟩, s, h, rfl, ⟨fun k => ?_, ht, ?_, fun k => ?_⟩, hy⟩
  · simp only [giTrial, if_pos (hdt k)]
    have hdt0 := (hdt k).ne'
    funext v
    rcases v with i | v
    · have e1 : (fun i => (e (k + 1) i - e k i) / (t (k + 1) - t k) -
          P.flow.y (s (k + 1)) (h (k + 1)) (T (k + 1)) * P.flow.g.v (s (k + 1)) (h (k + 1)) (T (k + 1)) i -
          (T (k + 1) - T k) / (t (k + 1) - t k) * P.flow.g_temp.v (s (k + 1)) (h (k + 1)) (T (k + 1)) i -
          P.flow.g_time.v (s (k + 1)) (h (k + 1)) (T (k + 1)) i) =
          (1 / (t (k + 1) - t k)) • (el.S (T (k + 1)) *ᵥ (s (k + 1) - s k)) := by
        ext i
        have h1 : P.flow.y (s (k + 1)) (h (k + 1)) (T (k + 1)) = r (k + 1) := hy k
        have h2 : P.flow.g.v (s (k + 1)) (h (k + 1)) (T (k + 1)) = dir (s (k + 1)) (h (k + 1)) := by
          rw [dir_eq]
          exact g_eq _ _ _
        have h3 : P.flow.g_temp.v (s (k + 1)) (h (k + 1)) (T (k + 1)) i = 0 := rfl
        have h4 : P.flow.g_time.v (s (k + 1)) (h (k + 1)) (T (k + 1)) i = 0 := rfl
        rw [h1, h2, h3, h4, he k]
        simp only [Pi.add_apply, Pi.smul_apply, smul_eq_mul]
        field_simp
        ring
      simp only [giR, Sum.elim_inl, Sum.elim_inr, tvp, Pi.zero_apply]
      rw [e1, mulVec_smul, mulVec_mulVec, hC, one_mulVec]
      simp only [Pi.smul_apply, Pi.sub_apply, smul_eq_mul]
      field_simp
      ring
    · have h1 := hU k v
      simp only [giR, Sum.elim_inl, Sum.elim_inr, tvp, Pi.zero_apply]
      have h2 : P.flow.h_temp.v (s (k + 1)) (h (k + 1)) (T (k + 1)) v = 0 := rfl
      have h3 : P.flow.h.v (s (k + 1)) (h (k + 1)) (T (k + 1)) v = P.hv (s (k + 1)) (h (k + 1)) (T (k + 1)) v := rfl
      have h4 : P.flow.h_time.v (s (k + 1)) (h (k + 1)) (T (k + 1)) v = P.htv (h (k + 1)) (T (k + 1)) v := rfl
      have h5 : P.flow.y (s (k + 1)) (h (k + 1)) (T (k + 1)) = r (k + 1) := hy k
      rw [h2, h3, h4, h5, hs k]
      linear_combination h1
  · funext v
    change (U 0).1.full v = 0
    rw [hU0]
    have h0 : devVec (uni 0) = 0 := by rw [devVec_uni_eq, zero_smul]
    cases v <;> simp [Uni.full, h0]
  · rw [defined, hs k]
    change J2 (dS _ (U (k + 1)).1.full) ≠ 0
    rw [Uni.J P (hr _) (hP _).D (U (k + 1)).2.sa]
    exact (add_pos_of_nonneg_of_pos (U (k + 1)).2.sa (mul_pos (hP _).D (Real.rpow_pos_of_pos (hr _) _))).ne'

/-- Concrete case: the steel of the code, heated and cooled between 500 K and 800 K while it flows at a rate of 1e-3. -/
example : ∃ (p : Load) (s : ℕ → Fin 6 → ℝ) (h : ℕ → Var → ℝ), (∀ k, 473 ≤ p.T k ∧ p.T k ≤ 873) ∧
    Run gr91 ⟨fun _ => 1, fun _ => 1⟩ p (fun k => k) s h ∧
      ∀ k, gr91.y (s (k + 1)) (h (k + 1)) (p.T (k + 1)) = 1 / 1000 := by
  let T : ℕ → ℝ := fun k => if k % 2 = 0 then 500 else 800
  have hT : ∀ k, 473 ≤ T k ∧ T k ≤ 873 := fun k => by
    simp only [T]
    split_ifs <;> norm_num
  have hl := fun k => C141_limits (hT k).1 (hT k).2
  obtain ⟨p, s, h, hp, H, hy⟩ := C142_exists gr91 ⟨fun _ => 1, fun _ => 1⟩ (fun k => k) T (fun _ => 1 / 1000)
    Nat.strictMono_cast (fun _ => by norm_num) (fun k => (C141_sound (hT k).1 (hT k).2).2) (M := 130) (by norm_num)
    (fun k => (hl k).2.2.2) (fun k => by linarith [(hl k).1.1]) (fun _ => Matrix.one_mul 1)
  exact ⟨p, s, h, hp ▸ hT, H, hp ▸ hy⟩

end Neml.Yaguchi
