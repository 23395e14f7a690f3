import Verif.Props.WalkerFlow

/-!
# The Walker flow rule: bounds on the internal variables over any loading history (C120)
-/

namespace Neml.Walker

open Matrix Neml.Flow Neml.Mandel Neml.SmallStrain

variable {n : Nat}

/-- Spec: a loading history solved with the Walker rule behind the rate switch, from the initial state. -/
structure Run (P : Parts n) (el : Elastic ℝ (Fin 6)) (lam : ℝ → ℝ) (eps0 : ℝ) (p : Load) (t : ℕ → ℝ)
    (s : ℕ → Fin 6 → ℝ) (h : ℕ → Var n → ℝ) : Prop where
  solves : SolvesPath (switchRule el (walkerFlow P) lam eps0) p t s h
  time : StrictMono t
  start : h 0 = P.init
  lam : ∀ k, 0 ≤ lam (p.T k) ∧ lam (p.T k) ≤ 1
  eps0 : 0 < eps0
  rate : ∀ T, 0 ≤ P.eps0 T ∧ 0 ≤ P.chi T ∧ ∀ a, 0 ≤ P.soft.phi a T

/-- What a step does to the history: some amount of plastic strain and some amount of switched time. -/
structure Stepped (P : Parts n) (s : Fin 6 → ℝ) (T : ℝ) (a a' : Var n → ℝ) (dp dt : ℝ) : Prop where
  dp_nonneg : 0 ≤ dp
  dt_nonneg : 0 ≤ dt
  alpha : a' .alpha = a .alpha + dp
  R : a' .R = a .R + P.R.p.v (P.state s a' T (Parts.valR a')) () * dp + P.R.t.v (P.state s a' T (Parts.valR a')) () * dt
  D : a' .D = a .D + P.D.p.v (P.state s a' T (Parts.valD a')) () * dp + P.D.t.v (P.state s a' T (Parts.valD a')) () * dt
  X : ∀ i, Parts.valX a' i = Parts.valX a i + dp • (P.X i).p.v (P.state s a' T (Parts.valX a' i)) +
    dt • (P.X i).t.v (P.state s a' T (Parts.valX a' i))

theorem y_nonneg {P : Parts n} {T : ℝ} (h : 0 ≤ P.eps0 T ∧ 0 ≤ P.chi T ∧ ∀ a, 0 ≤ P.soft.phi a T) (s : Fin 6 → ℝ)
    (a : Var n → ℝ) : 0 ≤ P.y s a T := by
  refine mul_nonneg (mul_nonneg (mul_nonneg h.1 (h.2.2 _)) h.2.1) ?_
  rw [Parts.flow]
  split_ifs
  · exact le_rfl
  · exact Real.rpow_nonneg (abs_nonneg _) _

variable {P : Parts n} {el : Elastic ℝ (Fin 6)} {lam : ℝ → ℝ} {eps0 : ℝ} {p : Load} {t : ℕ → ℝ} {s : ℕ → Fin 6 → ℝ}
  {h : ℕ → Var n → ℝ}

/-- The strain rate of a step. -/
noncomputable def stepRate (p : Load) (t : ℕ → ℝ) (k : ℕ) : Fin 6 → ℝ :=
  fun i => (p.e (k + 1) i - p.e k i) / (t (k + 1) - t k)

/-- The plastic strain and the switched time of a step. -/
noncomputable def stepDt (lam : ℝ → ℝ) (eps0 : ℝ) (p : Load) (t : ℕ → ℝ) (k : ℕ) : ℝ :=
  kappa lam eps0 (stepRate p t k) (p.T (k + 1)) * (t (k + 1) - t k)

theorem Run.step (H : Run P el lam eps0 p t s h) (k : ℕ) :
    Stepped P (s (k + 1)) (p.T (k + 1)) (h k) (h (k + 1))
      (P.y (s (k + 1)) (h (k + 1)) (p.T (k + 1)) * stepDt lam eps0 p t k) (stepDt lam eps0 p t k) := by
  have hd : 0 < t (k + 1) - t k := sub_pos.mpr (H.time (Nat.lt_succ_self k))
  have hk := ((C115_kappa lam eps0 (stepRate p t k) (p.T (k + 1)) H.eps0).2.2.2 (H.lam (k + 1)).1 (H.lam (k + 1)).2).2
  have hdt : 0 ≤ stepDt lam eps0 p t k := mul_nonneg hk hd.le
  have hy := y_nonneg (H.rate (p.T (k + 1))) (s (k + 1)) (h (k + 1))
  have hs := H.solves k
  simp only [giTrial, if_pos hd] at hs
  have hv : ∀ v, h (k + 1) v = h k v + ((walkerFlow P).h.v (s (k + 1)) (h (k + 1)) (p.T (k + 1)) v *
      (P.y (s (k + 1)) (h (k + 1)) (p.T (k + 1)) * stepDt lam eps0 p t k) +
      (walkerFlow P).h_time.v (s (k + 1)) (h (k + 1)) (p.T (k + 1)) v * stepDt lam eps0 p t k) := by
    intro v
    have h1 := congrFun hs (.inr v)
    simp only [giR, Sum.elim_inl, Sum.elim_inr, switchRule, Pi.zero_apply] at h1
    have h2 : (walkerFlow P).h_temp.v (s (k + 1)) (h (k + 1)) (p.T (k + 1)) v = 0 := rfl
    have h3 : (walkerFlow P).y (s (k + 1)) (h (k + 1)) (p.T (k + 1)) = P.y (s (k + 1)) (h (k + 1)) (p.T (k + 1)) := rfl
    rw [h2, h3] at h1
    simp only [stepDt]
    unfold stepRate
    linear_combination h1
  refine ⟨mul_nonneg hy hdt, hdt, ?_, ?_, ?_, fun i => ?_⟩
  · have := hv .alpha
    simp only [walkerFlow, Parts.hist] at this
    linear_combination this
  · have := hv .R
    simp only [walkerFlow, Parts.hist] at this
    linear_combination this
  · have := hv .D
    simp only [walkerFlow, Parts.hist] at this
    linear_combination this
  · ext j
    have := hv (.X i j)
    simp only [walkerFlow, Parts.hist] at this
    simp only [Pi.add_apply, Pi.smul_apply, smul_eq_mul]
    change h (k + 1) (.X i j) = h k (.X i j) + _ + _
    linear_combination this

/-! ## Plastic strain -/

/-- **C120** the accumulated plastic strain starts at zero and never decreases. -/
theorem C120_alpha (H : Run P el lam eps0 p t s h) : h 0 .alpha = 0 ∧ Monotone fun k => h k .alpha := by
  refine ⟨by rw [H.start]; rfl, monotone_nat_of_le_succ fun k => ?_⟩
  have := H.step k
  rw [this.alpha]
  linarith [this.dp_nonneg]

theorem alpha_nonneg (H : Run P el lam eps0 p t s h) (k : ℕ) : 0 ≤ h k .alpha := by
  rw [← (C120_alpha H).1]
  exact (C120_alpha H).2 (Nat.zero_le k)

theorem dirOf_dot (d : Fin 6 → ℝ) (hd : d ≠ 0) : 2 / 3 * (dirOf d ⬝ᵥ dirOf d) = 1 := by
  have hp := norm2_pos hd
  have e : dirOf d = (√(3 / 2) / norm2 d) • d := by
    rw [dirOf_of_ne hd]
    ext i
    simp only [Pi.smul_apply, smul_eq_mul]
    ring
  rw [e, smul_dotProduct, dotProduct_smul, ← norm2_sq, smul_eq_mul, smul_eq_mul]
  have := sqrt32_sq
  field_simp
  linear_combination 2 * this

theorem norm2_dirOf (d : Fin 6 → ℝ) : √(3 / 2) * norm2 (dirOf d) ≤ 3 / 2 := by
  by_cases hd : d = 0
  · have : dirOf d = 0 := by rw [dirOf, if_pos (norm2_eq_zero.mpr hd)]
    rw [this, norm2_eq_zero.mpr rfl]
    norm_num
  · have h1 := dirOf_dot d hd
    rw [← norm2_sq] at h1
    have h2 := norm2_nonneg (dirOf d)
    have h3 : norm2 (dirOf d) = √(3 / 2) := by
      rw [eq_comm, Real.sqrt_eq_iff_mul_self_eq (by norm_num) h2]
      linarith
    rw [h3, sqrt32_sq]

/-- **C120** the accumulated plastic strain is the sum of the equivalent plastic strains of the steps: the stress
increment of each step is the elastic one of the strain increment less a plastic strain whose equivalent value is the
increment of the accumulated plastic strain. The threshold is not negative and the drag stress positive. -/
theorem C120_equivalent_strain (H : Run P el lam eps0 p t s h) (k : ℕ) (hD : 0 < h (k + 1) .D)
    (hY : 0 ≤ P.Y (h (k + 1)) (p.T (k + 1))) :
    ∃ ep : Fin 6 → ℝ, s (k + 1) = s k + el.C (p.T (k + 1)) *ᵥ (p.e (k + 1) - p.e k - ep) ∧
      h (k + 1) .alpha = h k .alpha + √(2 / 3 * (ep ⬝ᵥ ep)) := by
  have hd : 0 < t (k + 1) - t k := sub_pos.mpr (H.time (Nat.lt_succ_self k))
  have st := H.step k
  set y := P.y (s (k + 1)) (h (k + 1)) (p.T (k + 1)) with hy
  set g := dirOf (Parts.eff (s (k + 1)) (h (k + 1))) with hg
  refine ⟨(y * stepDt lam eps0 p t k) • g, ?_, ?_⟩
  · have hs := H.solves k
    simp only [giTrial, if_pos hd] at hs
    ext i
    have h1 := congrFun hs (.inl i)
    simp only [giR, Sum.elim_inl, Sum.elim_inr, switchRule, Pi.zero_apply] at h1
    have e : (p.e (k + 1) - p.e k - (y * stepDt lam eps0 p t k) • g) =
        (t (k + 1) - t k) • fun i => (p.e (k + 1) i - p.e k i) / (t (k + 1) - t k) -
          (walkerFlow P).y (s (k + 1)) (h (k + 1)) (p.T (k + 1)) * kappa lam eps0
            (fun i => (p.e (k + 1) i - p.e k i) / (t (k + 1) - t k)) (p.T (k + 1)) *
              (walkerFlow P).g.v (s (k + 1)) (h (k + 1)) (p.T (k + 1)) i := by
      ext i
      have e1 : (walkerFlow P).y (s (k + 1)) (h (k + 1)) (p.T (k + 1)) = y := rfl
      have e2 : (walkerFlow P).g.v (s (k + 1)) (h (k + 1)) (p.T (k + 1)) = g := rfl
      simp only [Pi.sub_apply, Pi.smul_apply, smul_eq_mul, e1, e2, stepDt]
      unfold stepRate
      field_simp
    rw [e, mulVec_smul, Pi.add_apply, Pi.smul_apply, smul_eq_mul]
    linear_combination h1
  · rw [st.alpha, smul_dotProduct, dotProduct_smul, smul_eq_mul, smul_eq_mul]
    by_cases h0 : Parts.eff (s (k + 1)) (h (k + 1)) = 0
    · have hy0 : y = 0 := by
        have ho : P.over (s (k + 1)) (h (k + 1)) (p.T (k + 1)) ≤ 0 := by
          rw [Parts.over, norm2_eq_zero.mpr h0, mul_zero, zero_sub]
          exact div_nonpos_of_nonpos_of_nonneg (neg_nonpos.mpr hY) hD.le
        simp [hy, Parts.y, Parts.flow, ho]
      simp [hy0]
    · have h1 := dirOf_dot _ h0
      rw [← hg] at h1
      have e : 2 / 3 * (y * stepDt lam eps0 p t k * (y * stepDt lam eps0 p t k * (g ⬝ᵥ g))) =
          (y * stepDt lam eps0 p t k) ^ 2 := by
        linear_combination (y * stepDt lam eps0 p t k) ^ 2 * h1
      rw [e, Real.sqrt_sq st.dp_nonneg]

/-! ## Isotropic hardening -/

/-- **C120** the isotropic hardening stays between any two bounds on zero, on its saturation value and on its recovery
target. -/
theorem C120_iso (H : Run P el lam eps0 p t s h) {r0 Rinf R0 r1 r2 : ℝ → ℝ} (hR : P.R = walkerIso r0 Rinf R0 r1 r2)
    (lo hi : ℝ) (h0 : lo ≤ 0 ∧ 0 ≤ hi) (hr : ∀ T, 0 ≤ r0 T ∧ 0 ≤ r1 T) (hs : ∀ T, lo ≤ Rinf T ∧ Rinf T ≤ hi)
    (ht : ∀ T, lo ≤ R0 T ∧ R0 T ≤ hi) (k : ℕ) : lo ≤ h k .R ∧ h k .R ≤ hi := by
  induction k with
  | zero =>
    have : h 0 .R = 0 := by rw [H.start]; simp [Parts.init, hR, walkerIso]
    rw [this]
    exact h0
  | succ k ih =>
    have st := H.step k
    set T := p.T (k + 1)
    set dp := P.y (s (k + 1)) (h (k + 1)) T * stepDt lam eps0 p t k
    set dt := stepDt lam eps0 p t k
    have e := st.R
    rw [hR] at e
    simp only [walkerIso, Parts.state, Parts.valR] at e
    set x := h (k + 1) .R
    have hp : 0 ≤ r0 T * dp := mul_nonneg (hr T).1 st.dp_nonneg
    have hq : 0 ≤ r1 T * |R0 T - x| ^ (r2 T - 1) * dt :=
      mul_nonneg (mul_nonneg (hr T).2 (Real.rpow_nonneg (abs_nonneg _) _)) st.dt_nonneg
    constructor
    · by_contra hc
      push Not at hc
      have h1 : 0 ≤ r0 T * dp * (Rinf T - x) := mul_nonneg hp (by linarith [(hs T).1])
      have h2 : 0 ≤ r1 T * |R0 T - x| ^ (r2 T - 1) * dt * (R0 T - x) := mul_nonneg hq (by linarith [(ht T).1])
      have : x = h k .R + r0 T * dp * (Rinf T - x) + r1 T * |R0 T - x| ^ (r2 T - 1) * dt * (R0 T - x) := by
        linear_combination e
      linarith [ih.1]
    · by_contra hc
      push Not at hc
      have h1 : r0 T * dp * (Rinf T - x) ≤ 0 := mul_nonpos_of_nonneg_of_nonpos hp (by linarith [(hs T).2])
      have h2 : r1 T * |R0 T - x| ^ (r2 T - 1) * dt * (R0 T - x) ≤ 0 :=
        mul_nonpos_of_nonneg_of_nonpos hq (by linarith [(ht T).2])
      have : x = h k .R + r0 T * dp * (Rinf T - x) + r1 T * |R0 T - x| ^ (r2 T - 1) * dt * (R0 T - x) := by
        linear_combination e
      linarith [ih.2]

/-! ## Drag stress -/

/-- **C120** the drag stress never falls below its initial value nor rises more than its range above it. -/
theorem C120_drag (H : Run P el lam eps0 p t s h) {d0 d1 d2 Dxi : ℝ → ℝ} {D0 : ℝ} {soft : Soft} {chi : ℝ → ℝ}
    (hD : P.D = walkerDrag d0 d1 d2 Dxi D0 soft chi) (top : ℝ) (hx : ∀ T, 0 < Dxi T ∧ Dxi T ≤ top)
    (hd : ∀ T, 0 ≤ d0 T ∧ 0 ≤ d1 T ∧ 0 ≤ chi T ∧ ∀ a, 0 ≤ soft.phi a T) (k : ℕ) :
    D0 ≤ h k .D ∧ h k .D ≤ D0 + top := by
  induction k with
  | zero =>
    have : h 0 .D = D0 := by rw [H.start]; simp [Parts.init, hD, walkerDrag]
    rw [this]
    exact ⟨le_rfl, by linarith [hx 0]⟩
  | succ k ih =>
    have st := H.step k
    set T := p.T (k + 1)
    set dp := P.y (s (k + 1)) (h (k + 1)) T * stepDt lam eps0 p t k
    set dt := stepDt lam eps0 p t k
    have e := st.D
    rw [hD] at e
    set x := h (k + 1) .D
    replace e : x = h k .D + d0 T * (1 - (x - D0) / Dxi T) * dp + (if x - D0 ≤ 0 then 0
        else -chi T * soft.phi (h (k + 1) .alpha) T * d1 T * (x - D0) ^ d2 T) * dt := e
    have hp : 0 ≤ d0 T * dp := mul_nonneg (hd T).1 st.dp_nonneg
    have hxT := hx T
    constructor
    · by_contra hc
      push Not at hc
      rw [if_pos (by linarith)] at e
      have h1 : 0 ≤ 1 - (x - D0) / Dxi T := by
        have : (x - D0) / Dxi T ≤ 0 := div_nonpos_of_nonpos_of_nonneg (by linarith) hxT.1.le
        linarith
      have h2 := mul_nonneg hp h1
      have : x = h k .D + d0 T * dp * (1 - (x - D0) / Dxi T) := by linear_combination e
      linarith [ih.1]
    · by_contra hc
      push Not at hc
      have hpos : ¬ x - D0 ≤ 0 := by linarith
      rw [if_neg hpos] at e
      have h1 : 1 - (x - D0) / Dxi T ≤ 0 := by
        have : 1 ≤ (x - D0) / Dxi T := (one_le_div hxT.1).mpr (by linarith)
        linarith
      have h2 := mul_nonpos_of_nonneg_of_nonpos hp h1
      have h3 : 0 ≤ chi T * soft.phi (h (k + 1) .alpha) T * d1 T * (x - D0) ^ d2 T * dt :=
        mul_nonneg (mul_nonneg (mul_nonneg (mul_nonneg (hd T).2.2.1 ((hd T).2.2.2 _)) (hd T).2.1)
          (Real.rpow_nonneg (by linarith) _)) st.dt_nonneg
      have : x = h k .D + d0 T * dp * (1 - (x - D0) / Dxi T) -
          chi T * soft.phi (h (k + 1) .alpha) T * d1 T * (x - D0) ^ d2 T * dt := by
        linear_combination e
      linarith [ih.2]

/-! ## Backstresses -/

theorem norm2_bound {x u : Fin 6 → ℝ} {A : ℝ} (hA : 0 ≤ A) {r : ℝ} (hx : x ⬝ᵥ x + A * (x ⬝ᵥ x) ≤ u ⬝ᵥ x + r * norm2 x) :
    norm2 x * (1 + A) ≤ norm2 u + r ∨ norm2 x = 0 := by
  by_cases h0 : norm2 x = 0
  · exact Or.inr h0
  · left
    have hp : 0 < norm2 x := lt_of_le_of_ne (norm2_nonneg _) (Ne.symm h0)
    have h1 := dot_le_norm2 u x
    have h2 := norm2_sq x
    rw [← h2] at hx
    have h3 : norm2 x * (norm2 x * (1 + A)) ≤ norm2 x * (norm2 u + r) := by nlinarith
    exact le_of_mul_le_mul_left h3 hp

/-- Spec: the equivalent value of a backstress. -/
noncomputable def eqBack (x : Fin 6 → ℝ) : ℝ := √(3 / 2 * (x ⬝ᵥ x))

theorem eqBack_eq (x : Fin 6 → ℝ) : eqBack x = √(3 / 2) * norm2 x := by
  rw [eqBack, Real.sqrt_mul (by norm_num)]
  rfl

/-- A backstress pulled along a flow direction and back by at least a share `w` of itself keeps any bound `B` with
`c ≤ w * B`. -/
theorem back_step {x u g : Fin 6 → ℝ} {dp c w B : ℝ} (hB : 0 ≤ B) (hdp : 0 ≤ dp) (hc : 0 ≤ c) (hw : 0 ≤ w)
    (hcw : c ≤ w * B) (hg : √(3 / 2) * norm2 g ≤ 3 / 2) (hu : eqBack u ≤ B)
    (hx : x ⬝ᵥ x + dp * w * (x ⬝ᵥ x) ≤ u ⬝ᵥ x + dp * c * (2 / 3) * (g ⬝ᵥ x)) : eqBack x ≤ B := by
  rw [eqBack_eq] at *
  have hs := sqrt32_pos
  have hA : 0 ≤ dp * w := mul_nonneg hdp hw
  have h1 : x ⬝ᵥ x + dp * w * (x ⬝ᵥ x) ≤ u ⬝ᵥ x + dp * c * (2 / 3) * norm2 g * norm2 x := by
    have h2 := mul_le_mul_of_nonneg_left (dot_le_norm2 g x)
      (mul_nonneg (mul_nonneg hdp hc) (by norm_num : (0 : ℝ) ≤ 2 / 3))
    linarith
  rcases norm2_bound hA h1 with h3 | h3
  · have h4 : √(3 / 2) * norm2 x * (1 + dp * w) ≤ B * (1 + dp * w) := by
      have h5 := mul_le_mul_of_nonneg_left h3 hs.le
      have h6 := mul_le_mul_of_nonneg_left hg (mul_nonneg (mul_nonneg hdp hc) (by norm_num : (0 : ℝ) ≤ 2 / 3))
      have h7 := mul_le_mul_of_nonneg_left hcw hdp
      nlinarith
    exact le_of_mul_le_mul_right h4 (by linarith)
  · rw [h3, mul_zero]
    exact hB

/-- **C120** a Frederick-Armstrong backstress never exceeds the ratio of its parameters. -/
theorem C120_fa (H : Run P el lam eps0 p t s h) (i : Fin n) {c γ : ℝ → ℝ} (hX : P.X i = faKin c γ) (B : ℝ)
    (hc : ∀ T, 0 ≤ c T ∧ 0 < γ T) (hB : ∀ T, c T / γ T ≤ B) (k : ℕ) : eqBack (Parts.valX (h k) i) ≤ B := by
  have hB0 : 0 ≤ B := le_trans (div_nonneg (hc 0).1 (hc 0).2.le) (hB 0)
  induction k with
  | zero =>
    have : Parts.valX (h 0) i = 0 := by
      rw [H.start]
      funext j
      simp [Parts.valX, Parts.init, hX, faKin]
    simpa [this, eqBack] using hB0
  | succ k ih =>
    have st := H.step k
    set T := p.T (k + 1)
    set dp := P.y (s (k + 1)) (h (k + 1)) T * stepDt lam eps0 p t k
    have e := st.X i
    rw [hX] at e
    simp only [faKin, Rate.zero, Parts.state, Pi.zero_apply, smul_zero, add_zero] at e
    refine back_step (g := Parts.g.v (s (k + 1)) (h (k + 1)) T) hB0 st.dp_nonneg (hc T).1 (hc T).2.le
      (by rw [mul_comm]; exact (div_le_iff₀ (hc T).2).mp (hB T)) (norm2_dirOf _) ih (le_of_eq ?_)
    have e2 := congrArg (fun v => v ⬝ᵥ Parts.valX (h (k + 1)) i) e
    simp only [add_dotProduct, smul_dotProduct, sub_dotProduct, smul_eq_mul] at e2
    linear_combination e2

/-- **C120** a Walker backstress never exceeds the saturation value over one less the share that recovers only along the
flow direction, for a share below one. -/
theorem C120_kin (H : Run P el lam eps0 p t s h) (i : Fin n) {K : KinPar} {soft : Soft} {chi : ℝ → ℝ}
    (hX : P.X i = walkerKin K soft chi) (B : ℝ) (hc : ∀ T, 0 ≤ K.c0 T ∧ 0 ≤ K.c1 T)
    (hb : ∀ T, 0 ≤ K.b0 T ∧ K.b0 T < 1) (hL : ∀ a T, 0 ≤ a → 0 < K.L a T ∧ K.L a T ≤ (1 - K.b0 T) * B)
    (hr : ∀ T, 0 ≤ K.x0 T ∧ 0 ≤ chi T ∧ ∀ a, 0 ≤ soft.phi a T) (k : ℕ) : eqBack (Parts.valX (h k) i) ≤ B := by
  have hB0 : 0 ≤ B := by
    have h1 := hL 0 0 le_rfl
    have h2 := hb 0
    by_contra hneg
    push Not at hneg
    have := mul_nonneg_of_nonpos_of_nonpos (by linarith : -(1 - K.b0 0) ≤ 0) hneg.le
    linarith
  induction k with
  | zero =>
    have : Parts.valX (h 0) i = 0 := by
      rw [H.start]
      funext j
      simp [Parts.valX, Parts.init, hX, walkerKin]
    simpa [this, eqBack] using hB0
  | succ k ih =>
    have st := H.step k
    set T := p.T (k + 1)
    set dp := P.y (s (k + 1)) (h (k + 1)) T * stepDt lam eps0 p t k
    set dt := stepDt lam eps0 p t k
    have e := st.X i
    rw [hX] at e
    set x := Parts.valX (h (k + 1)) i with hx
    set vs := P.state (s (k + 1)) (h (k + 1)) T x with hvs
    have hLa := hL (h (k + 1) .alpha) T (alpha_nonneg H (k + 1))
    have hbT := hb T
    have hcT : 0 ≤ K.c vs.adot T := by
      rw [KinPar.c]
      split_ifs with ha
      · exact (hc T).1
      · exact add_nonneg (hc T).1 (mul_nonneg (hc T).2 (Real.rpow_nonneg (by linarith) _))
    -- dynamic recovery takes at least its isotropic share
    have hbx : (1 - K.b0 T) * (x ⬝ᵥ x) ≤ K.b vs ⬝ᵥ x := by
      have e1 : K.b vs ⬝ᵥ x = (1 - K.b0 T) * (x ⬝ᵥ x) + 2 / 3 * K.b0 T * (dirOf (effOne vs) ⬝ᵥ x) ^ 2 := by
        simp only [KinPar.b, add_dotProduct, smul_dotProduct, smul_eq_mul, vecMulVec_mulVec]
        rw [op_smul_eq_smul, smul_eq_mul]
        change (1 - K.b0 T) * (x ⬝ᵥ x) + 2 / 3 * K.b0 T * (dirOf (effOne vs) ⬝ᵥ x * (dirOf (effOne vs) ⬝ᵥ x)) = _
        ring
      rw [e1]
      have := mul_nonneg (mul_nonneg (by norm_num : (0 : ℝ) ≤ 2 / 3) hbT.1) (sq_nonneg (dirOf (effOne vs) ⬝ᵥ x))
      linarith
    -- static recovery never lengthens the backstress
    have hrec : (walkerKin K soft chi).t.v vs ⬝ᵥ x ≤ 0 := by
      simp only [walkerKin]
      split_ifs with h0
      · simp
      · push Not at h0
        have hn : 0 < norm2 x := lt_of_le_of_ne (norm2_nonneg _) (Ne.symm h0.1)
        have e1 : (fun i => vs.h i / (norm2 vs.h * √(3 / 2))) = (1 / (norm2 x * √(3 / 2))) • x := by
          ext i
          simp only [Pi.smul_apply, smul_eq_mul]
          change x i / (norm2 x * √(3 / 2)) = _
          ring
        rw [e1, smul_dotProduct, smul_dotProduct, smul_eq_mul, smul_eq_mul, ← norm2_sq]
        have h1 : 0 ≤ chi T * K.x0 T * soft.phi (h (k + 1) .alpha) T * (√(3 / 2) * norm2 x / h (k + 1) .D) ^ K.x1 T :=
          mul_nonneg (mul_nonneg (mul_nonneg (hr T).2.1 (hr T).1) ((hr T).2.2 _))
            (Real.rpow_nonneg (div_nonneg (mul_nonneg sqrt32_pos.le hn.le) h0.2.le) _)
        have h2 : 0 ≤ 1 / (norm2 x * √(3 / 2)) * (norm2 x * norm2 x) := by
          have := sqrt32_pos
          positivity
        have := mul_nonneg h1 h2
        change -chi T * K.x0 T * soft.phi (h (k + 1) .alpha) T * (√(3 / 2) * norm2 x / h (k + 1) .D) ^ K.x1 T *
          (1 / (norm2 x * √(3 / 2)) * (norm2 x * norm2 x)) ≤ 0
        linarith
    refine back_step (g := Parts.g.v (s (k + 1)) (h (k + 1)) T) (w := K.c vs.adot T * ((1 - K.b0 T) / K.L (h (k + 1) .alpha) T))
      hB0 st.dp_nonneg hcT (mul_nonneg hcT (div_nonneg (by linarith) hLa.1.le)) ?_ (norm2_dirOf _) ih ?_
    · have h1 : 1 ≤ (1 - K.b0 T) / K.L (h (k + 1) .alpha) T * B := by
        rw [div_mul_eq_mul_div, one_le_div hLa.1]
        exact hLa.2
      have := mul_le_mul_of_nonneg_left h1 hcT
      linarith
    · have e2 := congrArg (fun v => v ⬝ᵥ x) e
      simp only [add_dotProduct, smul_dotProduct, smul_eq_mul] at e2
      have e3 : (walkerKin K soft chi).p.v vs ⬝ᵥ x = K.c vs.adot T *
          (2 / 3 * (Parts.g.v (s (k + 1)) (h (k + 1)) T ⬝ᵥ x) - 1 / K.L (h (k + 1) .alpha) T * (K.b vs ⬝ᵥ x)) := by
        simp only [walkerKin, smul_dotProduct, sub_dotProduct, smul_eq_mul]
        rfl
      rw [e3] at e2
      have h4 : dp * (K.c vs.adot T * (1 / K.L (h (k + 1) .alpha) T * ((1 - K.b0 T) * (x ⬝ᵥ x)))) ≤
          dp * (K.c vs.adot T * (1 / K.L (h (k + 1) .alpha) T * (K.b vs ⬝ᵥ x))) :=
        mul_le_mul_of_nonneg_left (mul_le_mul_of_nonneg_left
          (mul_le_mul_of_nonneg_left hbx (one_div_pos.mpr hLa.1).le) hcT) st.dp_nonneg
      have h5 := mul_nonpos_of_nonneg_of_nonpos st.dt_nonneg hrec
      have e4 : dp * (K.c vs.adot T * ((1 - K.b0 T) / K.L (h (k + 1) .alpha) T)) * (x ⬝ᵥ x) =
          dp * (K.c vs.adot T * (1 / K.L (h (k + 1) .alpha) T * ((1 - K.b0 T) * (x ⬝ᵥ x)))) := by ring
      rw [e4]
      linarith

theorem tr3_add' (u v : Fin 6 → ℝ) : tr3 (u + v) = tr3 u + tr3 v := by simp only [tr3, Pi.add_apply]; ring

theorem tr3_sub' (u v : Fin 6 → ℝ) : tr3 (u - v) = tr3 u - tr3 v := by simp only [tr3, Pi.sub_apply]; ring

theorem tr3_smul' (c : ℝ) (v : Fin 6 → ℝ) : tr3 (c • v) = c * tr3 v := by
  simp only [tr3, Pi.smul_apply, smul_eq_mul]; ring

theorem tr3_dirOf {d : Fin 6 → ℝ} (hd : tr3 d = 0) : tr3 (dirOf d) = 0 := by
  by_cases h0 : norm2 d = 0
  · simp [dirOf, if_pos h0, tr3]
  · have e : dirOf d = (3 / 2 / (√(3 / 2) * norm2 d)) • d := by
      rw [dirOf, if_neg h0]
      ext i
      simp only [Pi.smul_apply, smul_eq_mul]
      ring
    rw [e, tr3_smul', hd, mul_zero]

/-- **C120** while all backstresses are deviatoric so are the flow and all rates of the backstresses. -/
theorem C120_deviatoric (P : Parts n) (s : Fin 6 → ℝ) (a : Var n → ℝ) (T : ℝ) (h : ∀ i, tr3 (Parts.valX a i) = 0) :
    tr3 ((walkerFlow P).g.v s a T) = 0 ∧
    ∀ i, ((∃ c γ, P.X i = faKin c γ) ∨ ∃ K soft chi, P.X i = walkerKin K soft chi) →
      tr3 (fun j => (walkerFlow P).h.v s a T (.X i j)) = 0 ∧ tr3 (fun j => (walkerFlow P).h_time.v s a T (.X i j)) = 0 := by
  have hg : tr3 ((walkerFlow P).g.v s a T) = 0 := tr3_dirOf (tr3_eff h)
  refine ⟨hg, fun i hX => ?_⟩
  change tr3 ((P.X i).p.v (P.state s a T (Parts.valX a i))) = 0 ∧ tr3 ((P.X i).t.v (P.state s a T (Parts.valX a i))) = 0
  have hx := h i
  rcases hX with ⟨c, γ, hX⟩ | ⟨K, soft, chi, hX⟩
  · rw [hX]
    refine ⟨?_, by simp [faKin, Rate.zero, tr3]⟩
    change tr3 ((2 / 3 * c T) • Parts.g.v s a T - γ T • Parts.valX a i) = 0
    rw [tr3_sub', tr3_smul', tr3_smul', hx]
    change 2 / 3 * c T * tr3 ((walkerFlow P).g.v s a T) - _ = 0
    rw [hg]
    ring
  · rw [hX]
    constructor
    · set st := P.state s a T (Parts.valX a i)
      have hn : tr3 (dirOf (effOne st)) = 0 := tr3_dirOf (by
        rw [effOne, tr3_sub', tr3_devVec]
        change 0 - tr3 (Parts.valX a i) = 0
        rw [hx, sub_zero])
      have hb : tr3 (K.b st) = 0 := by
        simp only [KinPar.b, vecMulVec_mulVec, op_smul_eq_smul, tr3_add', tr3_smul', hn]
        change _ * tr3 (Parts.valX a i) + _ = 0
        rw [hx]
        ring
      change tr3 (K.c st.adot T • ((2 / 3 : ℝ) • Parts.g.v s a T - (1 / K.L st.a T) • K.b st)) = 0
      rw [tr3_smul', tr3_sub', tr3_smul', tr3_smul', hb]
      change _ * (2 / 3 * tr3 ((walkerFlow P).g.v s a T) - _) = 0
      rw [hg]
      ring
    · simp only [walkerKin]
      split_ifs
      · simp [tr3]
      · rw [tr3_smul']
        have e : (fun j => (P.state s a T (Parts.valX a i)).h j /
            (norm2 (P.state s a T (Parts.valX a i)).h * √(3 / 2))) =
            (1 / (norm2 (P.state s a T (Parts.valX a i)).h * √(3 / 2))) • Parts.valX a i := by
          ext j
          simp only [Pi.smul_apply, smul_eq_mul, Parts.state]
          ring
        rw [e, tr3_smul', hx]
        ring

/-! ## Concrete cases -/

/-- Concrete case: a material at rest whose isotropic hardening recovers to one, half of the way in every step. -/
example : ∃ (el : Elastic ℝ (Fin 6)) (lam : ℝ → ℝ) (eps0 : ℝ) (p : Load) (t : ℕ → ℝ) (s : ℕ → Fin 6 → ℝ)
    (h : ℕ → Var 1 → ℝ), Run sampleW.parts el lam eps0 p t s h ∧ h 1 .R = 1 / 2 := by
  let hist : ℕ → Var 1 → ℝ := fun k v => match v with
    | .alpha => 0
    | .R => 1 - (1 / 2) ^ k
    | .D => 1
    | .X _ _ => 0
  refine ⟨⟨0, 0⟩, fun _ => 0, 1, ⟨fun _ => 0, fun _ => 0⟩, fun k => k, fun _ => 0, hist, ⟨fun k => ?_, ?_, ?_, ?_, ?_, ?_⟩, ?_⟩
  · have hd : (0 : ℝ) < ((k + 1 : ℕ) : ℝ) - (k : ℝ) := by push_cast; linarith
    have hd1 : ((k + 1 : ℕ) : ℝ) - (k : ℝ) = 1 := by push_cast; ring
    have heff : Parts.eff 0 (hist (k + 1)) = 0 := by
      rw [Parts.eff, Parts.TX_eq]
      ext i
      fin_cases i <;> simp [hist, devVec, tr3]
    have hy : ∀ T, sampleW.parts.y 0 (hist (k + 1)) T = 0 := by
      intro T
      have hY : sampleW.parts.Y (hist (k + 1)) T = 0 := by simp [Parts.Y, sampleW, Full.parts, hist, walkerDrag]
      have ho : sampleW.parts.over 0 (hist (k + 1)) T = 0 := by
        rw [Parts.over, hY, heff, norm2_eq_zero.mpr rfl]
        simp
      simp [Parts.y, Parts.flow, ho]
    simp only [giTrial, if_pos hd]
    funext v
    rcases v with i | v
    · simp [giR, switchRule, mulVec, dotProduct]
    · have hy' : (walkerFlow sampleW.parts).y 0 (hist (k + 1)) 0 = 0 := hy 0
      have ht : (walkerFlow sampleW.parts).h_temp.v 0 (hist (k + 1)) 0 v = 0 := rfl
      have hk : ∀ ed, kappa (fun _ => 0) 1 ed 0 = 1 := fun ed => by simp [kappa]
      change hist (k + 1) v - hist k v - ((walkerFlow sampleW.parts).h.v 0 (hist (k + 1)) 0 v *
        ((walkerFlow sampleW.parts).y 0 (hist (k + 1)) 0 * kappa (fun _ => 0) 1 _ 0) +
        (walkerFlow sampleW.parts).h_temp.v 0 (hist (k + 1)) 0 v * _ +
        (walkerFlow sampleW.parts).h_time.v 0 (hist (k + 1)) 0 v * kappa (fun _ => 0) 1 _ 0) *
          (((k + 1 : ℕ) : ℝ) - (k : ℝ)) = 0
      rw [hy', ht, hk, hd1, zero_mul, mul_zero, zero_mul, zero_add, zero_add, mul_one, mul_one]
      cases v with
      | alpha => simp [hist, walkerFlow, Parts.hist]
      | R =>
        simp [hist, walkerFlow, Parts.hist, Parts.state, Parts.valR, sampleW, Full.parts, walkerIso]
        ring
      | D => simp [hist, walkerFlow, Parts.hist, Parts.state, Parts.valD, sampleW, Full.parts, walkerDrag]
      | X i j =>
        have h0 : norm2 (Parts.valX (hist (k + 1)) i) = 0 := norm2_eq_zero.mpr rfl
        have h1 : (sampleW.parts.X i).t.v (sampleW.parts.state 0 (hist (k + 1)) 0 (Parts.valX (hist (k + 1)) i)) = 0 :=
          if_pos (Or.inl h0)
        change (0 : ℝ) - 0 -
          (sampleW.parts.X i).t.v (sampleW.parts.state 0 (hist (k + 1)) 0 (Parts.valX (hist (k + 1)) i)) j = 0
        rw [h1]
        simp
  · intro a b hab
    simpa using hab
  · funext v
    cases v <;> simp [hist, Parts.init, sampleW, Full.parts, walkerIso, walkerDrag, walkerKin]
  · intro k
    simp
  · exact one_pos
  · intro T
    simp [sampleW, Full.parts, noSoft]
  · norm_num [hist]

end Neml.Walker
