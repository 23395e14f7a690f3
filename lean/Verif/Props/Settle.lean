import Verif.Props.KinContract
import Mathlib.Topology.MetricSpace.Contracting

/-!
# C206: cyclic straining and stressing settle

Linear isotropic and kinematic hardening. Specification: an exact path (`ExactStep`, one exact update after the other) whose
strains, or whose stresses, repeat themselves approaches an exact path whose stresses and strains repeat themselves.
-/

namespace Neml.Settle

open Filter Topology

/-! ## Firm relations on Euclidean spaces -/

section abstract

variable {E : Type*} [NormedAddCommGroup E] [InnerProductSpace ℝ E]

/-- Two steps of a firm relation bring two points closer by the difference of the steps. -/
theorem firm_closer {x x' y y' : E} (h : 0 ≤ inner ℝ (x' - y') ((x - x') - (y - y'))) :
    ‖x' - y'‖ ^ 2 + ‖(x - x') - (y - y')‖ ^ 2 ≤ ‖x - y‖ ^ 2 := by
  have e : x - y = (x' - y') + ((x - x') - (y - y')) := by abel
  rw [e, norm_add_sq_real]
  linarith

/-- A path of a firm relation that repeats itself in time, if it has a path that repeats itself, approaches one. -/
theorem settles [ProperSpace E] (R : ℕ → E → E → Prop) (N : ℕ) (hN : 0 < N) (hR : ∀ k x y, R (k + N) x y → R k x y)
    (firm : ∀ k x x' y y', R k x x' → R k y y' → 0 ≤ inner ℝ (x' - y') ((x - x') - (y - y')))
    (closed : ∀ k (u v : ℕ → E) a b, (∀ n, R k (u n) (v n)) → Tendsto u atTop (𝓝 a) → Tendsto v atTop (𝓝 b) → R k a b)
    (p w : ℕ → E) (hp : ∀ k, R k (p k) (p (k + 1))) (hpN : ∀ k, p (k + N) = p k) (hw : ∀ k, R k (w k) (w (k + 1))) :
    ∃ y : ℕ → E, (∀ k, R k (y k) (y (k + 1))) ∧ (∀ k, y (k + N) = y k) ∧ Tendsto (fun k => w k - y k) atTop (𝓝 0) := by
  have step (q : ℕ → E) (hq : ∀ k, R k (q k) (q (k + 1))) (k : ℕ) := firm_closer (firm k _ _ _ _ (hw k) (hq k))
  have anti (q : ℕ → E) (hq : ∀ k, R k (q k) (q (k + 1))) : Antitone fun k => ‖w k - q k‖ ^ 2 :=
    antitone_nat_of_succ_le fun k => by
      have := step q hq k
      have := sq_nonneg ‖(w k - w (k + 1)) - (q k - q (k + 1))‖
      linarith
  -- the differences of the steps vanish
  have hd : Tendsto (fun k => (w k - w (k + 1)) - (p k - p (k + 1))) atTop (𝓝 0) := by
    have h1 := tendsto_atTop_ciInf (anti p hp) ⟨0, by rintro _ ⟨k, rfl⟩; positivity⟩
    have h2 := h1.sub (h1.comp (tendsto_add_atTop_nat 1))
    rw [sub_self] at h2
    have h3 : Tendsto (fun k => ‖(w k - w (k + 1)) - (p k - p (k + 1))‖ ^ 2) atTop (𝓝 0) :=
      squeeze_zero (fun k => by positivity) (fun k => by
        have := step p hp k
        simp only [Function.comp]
        linarith) h2
    have h4 := h3.sqrt
    simp only [Real.sqrt_zero] at h4
    rw [tendsto_zero_iff_norm_tendsto_zero]
    exact h4.congr fun k => Real.sqrt_sq (norm_nonneg _)
  have hp0 (n : ℕ) : p (n * N) = p 0 := by
    induction n with
    | zero => simp
    | succ n ih => rw [Nat.succ_mul, hpN, ih]
  have hpj (n j : ℕ) : p (n * N + j) = p j := by
    induction n with
    | zero => simp
    | succ n ih => rw [show (n + 1) * N + j = n * N + j + N by ring, hpN, ih]
  have hRj (n j : ℕ) (x y : E) (h : R (n * N + j) x y) : R j x y := by
    induction n with
    | zero => simpa using h
    | succ n ih =>
      rw [show (n + 1) * N + j = n * N + j + N by ring] at h
      exact ih (hR _ _ _ h)
  -- a limit point of the starts of the cycles
  have hb : ∀ n, w (n * N) ∈ Metric.closedBall (p 0) ‖w 0 - p 0‖ := fun n => by
    rw [Metric.mem_closedBall, dist_eq_norm]
    have := anti p hp (Nat.zero_le (n * N))
    simp only [hp0] at this
    exact le_of_sq_le_sq this (norm_nonneg _)
  obtain ⟨y0, -, φ, hφ, hl⟩ := (isCompact_closedBall (p 0) ‖w 0 - p 0‖).tendsto_subseq hb
  have hφt : Tendsto (fun n => φ n * N) atTop atTop := by
    refine tendsto_atTop_mono (fun n => ?_) hφ.tendsto_atTop
    exact Nat.le_mul_of_pos_right _ hN
  have hlim (j : ℕ) : Tendsto (fun n => w (φ n * N + j)) atTop (𝓝 (y0 - p 0 + p j)) := by
    induction j with
    | zero => simpa [Function.comp_def] using hl
    | succ j ih =>
      have h1 := hd.comp (tendsto_atTop_mono (fun n => Nat.le_add_right (φ n * N) j) hφt)
      have h2 := (ih.sub h1).sub (tendsto_const_nhds (x := p j - p (j + 1)))
      have e : y0 - p 0 + p j - 0 - (p j - p (j + 1)) = y0 - p 0 + p (j + 1) := by abel
      rw [e] at h2
      refine h2.congr fun n => ?_
      have e1 := hpj (φ n) j
      have e2 := hpj (φ n) (j + 1)
      simp only [Function.comp]
      rw [e1, show φ n * N + j + 1 = φ n * N + (j + 1) by ring, e2]
      abel
  have hy (k : ℕ) : R k (y0 - p 0 + p k) (y0 - p 0 + p (k + 1)) :=
    closed k (fun n => w (φ n * N + k)) (fun n => w (φ n * N + (k + 1))) _ _
      (fun n => hRj (φ n) k _ _ (hw (φ n * N + k))) (hlim k) (hlim (k + 1))
  refine ⟨fun k => y0 - p 0 + p k, hy, fun k => congrArg (y0 - p 0 + ·) (hpN k), ?_⟩
  have ha := anti (fun k => y0 - p 0 + p k) hy
  have h1 := tendsto_atTop_ciInf ha ⟨0, by rintro _ ⟨k, rfl⟩; positivity⟩
  have h2 := h1.comp hφt
  have h3 : Tendsto ((fun k => ‖w k - (y0 - p 0 + p k)‖ ^ 2) ∘ fun n => φ n * N) atTop (𝓝 0) := by
    have := ((hlim 0).sub (tendsto_const_nhds (x := y0 - p 0 + p 0))).norm.pow 2
    rw [sub_self, norm_zero, zero_pow two_ne_zero] at this
    refine this.congr fun n => ?_
    simp only [Function.comp, add_zero, hp0]
  rw [tendsto_nhds_unique h2 h3] at h1
  have h4 := h1.sqrt
  simp only [Real.sqrt_zero] at h4
  rw [tendsto_zero_iff_norm_tendsto_zero]
  exact h4.congr fun k => Real.sqrt_sq (norm_nonneg _)

/-- A map that brings no two points further apart and whose values are bounded has a fixed point. -/
theorem fixed_point [ProperSpace E] (f : E → E) (hf : ∀ x y, ‖f x - f y‖ ≤ ‖x - y‖) (B : ℝ) (hB : ∀ x, ‖f x‖ ≤ B) :
    ∃ x, f x = x := by
  have hB0 : 0 ≤ B := (norm_nonneg _).trans (hB 0)
  have hfix (n : ℕ) : ∃ x, (1 - 1 / ((n : ℝ) + 2)) • f x = x := by
    have hn : (0 : ℝ) < 1 / ((n : ℝ) + 2) := by positivity
    have hn1 : 1 / ((n : ℝ) + 2) < 1 := by
      rw [div_lt_one (by positivity)]
      have : (0 : ℝ) ≤ n := Nat.cast_nonneg n
      linarith
    have hc : ContractingWith (Real.toNNReal (1 - 1 / ((n : ℝ) + 2))) fun x => (1 - 1 / ((n : ℝ) + 2)) • f x := by
      constructor
      · rw [← NNReal.coe_lt_coe, Real.coe_toNNReal _ (by linarith)]
        simpa using hn
      · refine LipschitzWith.of_dist_le_mul fun x y => ?_
        rw [Real.coe_toNNReal _ (by linarith), dist_eq_norm, dist_eq_norm, ← smul_sub, norm_smul, Real.norm_eq_abs,
          abs_of_pos (by linarith)]
        exact mul_le_mul_of_nonneg_left (hf x y) (by linarith)
    exact ⟨hc.fixedPoint, hc.fixedPoint_isFixedPt⟩
  choose x hx using hfix
  have hle (n : ℕ) : x n ∈ Metric.closedBall (0 : E) B := by
    rw [mem_closedBall_zero_iff, ← hx n, norm_smul]
    have hn : (0 : ℝ) < 1 / ((n : ℝ) + 2) := by positivity
    have hn1 : 1 / ((n : ℝ) + 2) < 1 := by
      rw [div_lt_one (by positivity)]
      have : (0 : ℝ) ≤ n := Nat.cast_nonneg n
      linarith
    rw [Real.norm_eq_abs, abs_of_pos (by linarith)]
    have := hB (x n)
    nlinarith [norm_nonneg (f (x n))]
  obtain ⟨a, -, φ, hφ, hl⟩ := (isCompact_closedBall (0 : E) B).tendsto_subseq hle
  refine ⟨a, ?_⟩
  have hcont : Continuous f := by
    refine (LipschitzWith.of_dist_le_mul (K := 1) fun x y => ?_).continuous
    rw [dist_eq_norm, dist_eq_norm, NNReal.coe_one, one_mul]
    exact hf x y
  have h1 : Tendsto (fun n => f (x (φ n))) atTop (𝓝 (f a)) := (hcont.tendsto a).comp hl
  have h0 : Tendsto (fun n : ℕ => 1 / ((φ n : ℝ) + 2)) atTop (𝓝 0) := by
    have h : Tendsto (fun n : ℕ => ((φ n : ℕ) : ℝ) + 2) atTop atTop :=
      tendsto_atTop_add_const_right _ _ (tendsto_natCast_atTop_atTop.comp hφ.tendsto_atTop)
    exact h.inv_tendsto_atTop.congr fun n => by simp
  have h2 : Tendsto (fun n => (1 - 1 / ((φ n : ℝ) + 2)) • f (x (φ n))) atTop (𝓝 ((1 - (0 : ℝ)) • f a)) :=
    (tendsto_const_nhds.sub h0).smul h1
  rw [sub_zero, one_smul] at h2
  exact tendsto_nhds_unique h2 (hl.congr fun n => (hx (φ n)).symm)

/-- The nearest point of a set, as an angle. -/
def Nearest (S : Set E) (x x' : E) : Prop := x' ∈ S ∧ ∀ v ∈ S, inner ℝ (x - x') (v - x') ≤ 0

theorem nearest_firm {S : Set E} {x x' y y' : E} (h : Nearest S x x') (h' : Nearest S y y') :
    0 ≤ inner ℝ (x' - y') ((x - x') - (y - y')) := by
  have h1 := h.2 y' h'.1
  have h2 := h'.2 x' h.1
  have e1 : inner ℝ (x - x') (y' - x') = -inner ℝ (x' - y') (x - x') := by
    rw [← neg_sub x' y', inner_neg_right, real_inner_comm]
  have e2 : inner ℝ (y - y') (x' - y') = inner ℝ (x' - y') (y - y') := real_inner_comm _ _
  rw [inner_sub_right]
  linarith

theorem nearest_unique {S : Set E} {x x' y' : E} (h : Nearest S x x') (h' : Nearest S x y') : x' = y' := by
  have h1 := firm_closer (nearest_firm h h')
  rw [sub_self, norm_zero] at h1
  have h2 : ‖x' - y'‖ ^ 2 ≤ 0 := by nlinarith [sq_nonneg ‖(x - x') - (x - y')‖]
  exact sub_eq_zero.1 (norm_eq_zero.1 (pow_eq_zero_iff two_ne_zero |>.1 (le_antisymm h2 (by positivity))))

/-- A point that is dragged along by closed sets that come back, if it can come back itself, approaches such a path. -/
theorem dragged [ProperSpace E] (S : ℕ → Set E) (N : ℕ) (hN : 0 < N) (hS : ∀ k, S (k + N) = S k) (hc : ∀ k, IsClosed (S k))
    (p w : ℕ → E) (hp : ∀ k, Nearest (S k) (p k) (p (k + 1))) (hpN : ∀ k, p (k + N) = p k)
    (hw : ∀ k, Nearest (S k) (w k) (w (k + 1))) :
    ∃ y : ℕ → E, (∀ k, Nearest (S k) (y k) (y (k + 1))) ∧ (∀ k, y (k + N) = y k) ∧
      Tendsto (fun k => w k - y k) atTop (𝓝 0) := by
  refine settles (fun k => Nearest (S k)) N hN (fun k x y h => by rwa [hS] at h) (fun k x x' y y' => nearest_firm) ?_ p w hp
    hpN hw
  intro k u v a b huv hu hv
  refine ⟨(hc k).mem_of_tendsto hv (Eventually.of_forall fun n => (huv n).1), fun c hcS => ?_⟩
  exact le_of_tendsto ((hu.sub hv).inner (tendsto_const_nhds.sub hv)) (Eventually.of_forall fun n => (huv n).2 c hcS)

/-- Convex sets, the last of them bounded, have a path that comes back. -/
theorem comes_back [ProperSpace E] (S : ℕ → Set E) (N : ℕ) (hN : 0 < N) (hS : ∀ k, S (k + N) = S k)
    (hc : ∀ k, IsClosed (S k)) (hv : ∀ k, Convex ℝ (S k)) (hn : ∀ k, (S k).Nonempty) (B : ℝ)
    (hB : ∀ k, ∀ v ∈ S k, ‖v‖ ≤ B) :
    ∃ p : ℕ → E, (∀ k, Nearest (S k) (p k) (p (k + 1))) ∧ ∀ k, p (k + N) = p k := by
  have hex (k : ℕ) (x : E) : ∃ x', Nearest (S k) x x' := by
    obtain ⟨v, hv1, hv2⟩ := exists_norm_eq_iInf_of_complete_convex (hn k) (hc k).isComplete (hv k) x
    exact ⟨v, hv1, (norm_eq_iInf_iff_real_inner_le_zero (hv k) hv1).1 hv2⟩
  choose P hP using hex
  have hPN (k : ℕ) (x : E) : P (k + N) x = P k x := by
    have h1 := hP (k + N) x
    rw [hS] at h1
    exact nearest_unique h1 (hP k x)
  let orbit (x : E) (k : ℕ) : E := Nat.rec x (fun k y => P k y) k
  have hn1 (k : ℕ) (x y : E) : ‖P k x - P k y‖ ≤ ‖x - y‖ := by
    have := firm_closer (nearest_firm (hP k x) (hP k y))
    refine le_of_sq_le_sq ?_ (norm_nonneg _)
    nlinarith [sq_nonneg ‖(x - P k x) - (y - P k y)‖]
  have hon (k : ℕ) (x y : E) : ‖orbit x k - orbit y k‖ ≤ ‖x - y‖ := by
    induction k with
    | zero => exact le_rfl
    | succ k ih => exact (hn1 k _ _).trans ih
  obtain ⟨x, hx⟩ := fixed_point (fun x => orbit x N) (hon N) B fun x => by
    obtain ⟨M, rfl⟩ : ∃ M, N = M + 1 := ⟨N - 1, by omega⟩
    exact hB M _ (hP M (orbit x M)).1
  refine ⟨orbit x, fun k => hP k _, fun k => ?_⟩
  induction k with
  | zero => rw [Nat.zero_add]; exact hx
  | succ k ih =>
    show orbit x (k + 1 + N) = P k (orbit x k)
    rw [show k + 1 + N = k + N + 1 by ring]
    show P (k + N) (orbit x (k + N)) = _
    rw [ih, hPN]

end abstract

end Neml.Settle

namespace Neml.SolveStep

open Matrix Filter Topology Neml.SmallStrain Neml.Flow Neml.Mandel Neml.Elastic Neml.Settle

/-! ## Yield surfaces that drag a point along -/

/-- Where a surface drags a point, and hardening. -/
abbrev Plane := EuclideanSpace ℝ (Fin 6 ⊕ Unit)

/-- The tensor. -/
def partZ (v : Plane) : Fin 6 → ℝ := fun i => v (.inl i)

/-- The hardening, scaled. -/
def partA (v : Plane) : ℝ := v (.inr ())

/-- A tensor and a hardening. -/
noncomputable def place (mu K : ℝ) (Z : Fin 6 → ℝ) (a : ℝ) : Plane := WithLp.toLp 2 (Sum.elim Z fun _ => √(mu * K) * a)

/-- What a surface about `c` leaves in peace. -/
def region (mu y K : ℝ) (c : Fin 6 → ℝ) : Set Plane :=
  {v | norm2 (c - partZ v) ≤ √(2 / 3) * (y + √(mu * K) / mu * partA v) ∧ tr3 (partZ v) = 0 ∧ (K = 0 → partA v = 0)}

/-- One surface drags the tensor `Z` along its normal. -/
def Drag (mu y K : ℝ) (c Z : Fin 6 → ℝ) (a : ℝ) (Z' : Fin 6 → ℝ) (a' g : ℝ) (m : Fin 6 → ℝ) : Prop :=
  0 ≤ g ∧ tr3 m = 0 ∧ m ⬝ᵥ m = 1 ∧ Z' = Z + (mu * g) • m ∧ a' = a + √(2 / 3) * g ∧
    norm2 (c - Z') ≤ √(2 / 3) * (y + K * a') ∧
    (0 < g → norm2 (c - Z') = √(2 / 3) * (y + K * a') ∧ c - Z' = norm2 (c - Z') • m)

theorem norm2_lp (u : Fin 6 → ℝ) : norm2 u = ‖(WithLp.toLp 2 u : EuclideanSpace ℝ (Fin 6))‖ := by
  rw [norm2, EuclideanSpace.norm_eq, dotProduct]
  congr 1
  refine Finset.sum_congr rfl fun i _ => ?_
  rw [Real.norm_eq_abs, sq_abs]
  show u i * u i = u i ^ 2
  ring

theorem inner_plane (u v : Plane) : inner ℝ u v = partZ u ⬝ᵥ partZ v + partA u * partA v := by
  rw [PiLp.inner_apply, Fintype.sum_sum_type]
  simp only [partZ, partA, dotProduct, Finset.univ_unique, Finset.sum_singleton, RCLike.inner_apply, conj_trivial]
  congr 1
  · exact Finset.sum_congr rfl fun i _ => mul_comm _ _
  · exact mul_comm _ _

theorem continuous_partZ : Continuous partZ := by
  refine continuous_pi fun i => ?_
  unfold partZ
  fun_prop

theorem continuous_partA : Continuous partA := by
  unfold partA
  fun_prop

theorem continuous_norm2 : Continuous norm2 := by
  unfold norm2 dotProduct
  fun_prop

theorem continuous_tr3 : Continuous tr3 := by
  unfold tr3
  fun_prop

theorem region_closed (mu y K : ℝ) (c : Fin 6 → ℝ) : IsClosed (region mu y K c) := by
  have h1 : IsClosed {v : Plane | norm2 (c - partZ v) ≤ √(2 / 3) * (y + √(mu * K) / mu * partA v)} :=
    isClosed_le (continuous_norm2.comp (continuous_const.sub continuous_partZ))
      (continuous_const.mul (continuous_const.add (continuous_const.mul continuous_partA)))
  have h2 : IsClosed {v : Plane | tr3 (partZ v) = 0} := isClosed_eq (continuous_tr3.comp continuous_partZ) continuous_const
  have h3 : IsClosed {v : Plane | K = 0 → partA v = 0} := by
    by_cases hK : K = 0
    · simp only [hK, true_imp_iff]
      exact isClosed_eq continuous_partA continuous_const
    · simp [hK]
  exact h1.inter (h2.inter h3)

theorem region_convex (mu y K : ℝ) (c : Fin 6 → ℝ) : Convex ℝ (region mu y K c) := by
  intro u hu v hv a b ha hb hab
  obtain ⟨u1, u2, u3⟩ := hu
  obtain ⟨v1, v2, v3⟩ := hv
  have hZ : partZ (a • u + b • v) = a • partZ u + b • partZ v := rfl
  have hA : partA (a • u + b • v) = a * partA u + b * partA v := rfl
  refine ⟨?_, ?_, ?_⟩
  · have e : c - partZ (a • u + b • v) = a • (c - partZ u) + b • (c - partZ v) := by
      rw [hZ, smul_sub, smul_sub]
      have : c = a • c + b • c := by rw [← add_smul, hab, one_smul]
      nth_rewrite 1 [this]
      abel
    rw [e, norm2_lp, hA]
    rw [norm2_lp] at u1 v1
    have h1 : ‖(WithLp.toLp 2 (a • (c - partZ u) + b • (c - partZ v)) : EuclideanSpace ℝ (Fin 6))‖ ≤
        a * ‖(WithLp.toLp 2 (c - partZ u) : EuclideanSpace ℝ (Fin 6))‖ +
          b * ‖(WithLp.toLp 2 (c - partZ v) : EuclideanSpace ℝ (Fin 6))‖ := by
      rw [WithLp.toLp_add, WithLp.toLp_smul, WithLp.toLp_smul]
      refine (norm_add_le _ _).trans_eq ?_
      rw [norm_smul, norm_smul, Real.norm_of_nonneg ha, Real.norm_of_nonneg hb]
    refine h1.trans ((add_le_add (mul_le_mul_of_nonneg_left u1 ha) (mul_le_mul_of_nonneg_left v1 hb)).trans_eq ?_)
    linear_combination √(2 / 3) * y * hab
  · rw [hZ, tr3_add, tr3_smul, tr3_smul, u2, v2]
    ring
  · intro hK
    rw [hA, u3 hK, v3 hK]
    ring

theorem norm_plane (v : Plane) : ‖v‖ ^ 2 = norm2 (partZ v) ^ 2 + partA v ^ 2 := by
  rw [← real_inner_self_eq_norm_sq, inner_plane, norm2, Real.sq_sqrt (by
    simp only [dotProduct]
    exact Finset.sum_nonneg fun i _ => mul_self_nonneg _)]
  ring

/-- A drag goes to the nearest point of the region. -/
theorem Drag.nearest {mu y K : ℝ} (hmu : 0 < mu) (hK : 0 ≤ K) {c Z : Fin 6 → ℝ} {a : ℝ} {Z' : Fin 6 → ℝ} {a' g : ℝ}
    {m : Fin 6 → ℝ} (h : Drag mu y K c Z a Z' a' g m) (hZ : tr3 Z = 0) :
    Nearest (region mu y K c) (place mu K Z a) (place mu K Z' a') := by
  obtain ⟨hg, mt, mm, hZ', ha', hin, hon⟩ := h
  have hth : √(mu * K) * √(mu * K) = mu * K := Real.mul_self_sqrt (by positivity)
  have hA : partA (place mu K Z' a') = √(mu * K) * a' := rfl
  have hZp : partZ (place mu K Z' a') = Z' := rfl
  have hco : √(mu * K) / mu * (√(mu * K) * a') = K * a' := by
    field_simp
    linear_combination a' * hth
  refine ⟨⟨?_, ?_, ?_⟩, fun v hv => ?_⟩
  · rw [hZp, hA, hco]
    exact hin
  · rw [hZp, hZ', tr3_add, tr3_smul, hZ, mt]
    ring
  · intro h0
    rw [hA, h0]
    simp
  · rw [inner_plane]
    have e1 : partZ (place mu K Z a - place mu K Z' a') = -((mu * g) • m) := by
      show Z - Z' = _
      rw [hZ']
      abel
    have e2 : partA (place mu K Z a - place mu K Z' a') = -(√(mu * K) * (√(2 / 3) * g)) := by
      show √(mu * K) * a - √(mu * K) * a' = _
      rw [ha']
      ring
    have e3 : partZ (v - place mu K Z' a') = (c - Z') - (c - partZ v) := by
      show partZ v - Z' = _
      abel
    have e4 : partA (v - place mu K Z' a') = partA v - √(mu * K) * a' := rfl
    rw [e1, e2, e3, e4, neg_dotProduct, smul_dotProduct, smul_eq_mul]
    have hw := work_kin hg mm (fun h => (hon h).2) (c - partZ v)
    have hv1 := hv.1
    have h1 : g * (√(2 / 3) * (y + K * a') - √(2 / 3) * (y + √(mu * K) / mu * partA v)) ≤
        g * (m ⬝ᵥ ((c - Z') - (c - partZ v))) := by
      rcases hg.eq_or_lt with h0 | h0
      · rw [← h0]; simp
      · rw [(hon h0).1] at hw
        refine le_trans ?_ hw
        exact mul_le_mul_of_nonneg_left (by linarith) hg
    have h2 : mu * (g * (√(2 / 3) * (y + K * a') - √(2 / 3) * (y + √(mu * K) / mu * partA v))) =
        √(2 / 3) * g * (mu * K * a' - √(mu * K) * partA v) := by
      field_simp
      ring
    have h3 := mul_le_mul_of_nonneg_left h1 hmu.le
    rw [h2] at h3
    have h4 : √(mu * K) * (√(2 / 3) * g) * (√(mu * K) * a') = √(2 / 3) * g * (mu * K * a') := by
      linear_combination √(2 / 3) * g * a' * hth
    have h5 : -(mu * g * (m ⬝ᵥ ((c - Z') - (c - partZ v)))) +
        -(√(mu * K) * (√(2 / 3) * g)) * (partA v - √(mu * K) * a') =
        √(2 / 3) * g * (mu * K * a' - √(mu * K) * partA v) - mu * (g * (m ⬝ᵥ ((c - Z') - (c - partZ v)))) := by
      linear_combination h4
    rw [h5]
    linarith

/-- There is a drag from every deviator. -/
theorem drag_exists {mu y K : ℝ} (hmu : 0 < mu) (hK : 0 ≤ K) {c Z : Fin 6 → ℝ} {a : ℝ} (hc : tr3 c = 0) (hZ : tr3 Z = 0)
    (hr : 0 ≤ √(2 / 3) * (y + K * a)) : ∃ Z' a' g m, Drag mu y K c Z a Z' a' g m := by
  have hd : ∀ u : Fin 6 → ℝ, tr3 u = 0 → devVec u = u := fun u hu => devVec_of_tr3 hu
  obtain ⟨g, m, g0, mt, mm, es, ea, eb, ef, en⟩ := C189_closed (G := mu / 2) (y := y) (K := K) (H := 0) (t := c - Z)
    (al := a) (b := 0) (by positivity) hK le_rfl (by simp [tr3]) hr rfl
  refine ⟨Z + (mu * g) • m, a + √(2 / 3) * g, g, m, g0, mt, mm, rfl, rfl, ?_⟩
  rw [es] at ef en
  have e : devVec (c - Z - (2 * (mu / 2) * g) • m) = c - (Z + (mu * g) • m) := by
    rw [hd _ (by rw [tr3_sub, tr3_sub, tr3_smul, hc, hZ, mt]; ring), show 2 * (mu / 2) * g = mu * g by ring]
    abel
  have e0 : ∀ u : Fin 6 → ℝ, (u - fun _ => (0 : ℝ)) = u := fun u => sub_zero u
  simp only [zero_mul, e, e0, ea, Sum.elim_inl] at ef en
  exact ⟨ef, en⟩

/-- The nearest point is reached by a drag. -/
theorem nearest_drag {mu y K : ℝ} (hmu : 0 < mu) (hK : 0 ≤ K) {c Z : Fin 6 → ℝ} {a : ℝ} (hc : tr3 c = 0) (hZ : tr3 Z = 0)
    (hr : 0 ≤ √(2 / 3) * (y + K * a)) {v : Plane} (h : Nearest (region mu y K c) (place mu K Z a) v) :
    ∃ Z' a' g m, Drag mu y K c Z a Z' a' g m ∧ place mu K Z' a' = v := by
  obtain ⟨Z', a', g, m, hD⟩ := drag_exists hmu hK hc hZ hr
  exact ⟨Z', a', g, m, hD, nearest_unique (hD.nearest hmu hK hZ) h⟩

theorem periodic_bound {N : ℕ} (hN : 0 < N) {f : ℕ → ℝ} (hf : ∀ k, f (k + N) = f k) : ∃ B, 0 ≤ B ∧ ∀ k, f k ≤ B := by
  have hm (k : ℕ) : f k = f (k % N) := by
    conv_lhs => rw [← Nat.mod_add_div k N]
    generalize k / N = q
    induction q with
    | zero => simp
    | succ q ih => rw [Nat.mul_succ, ← add_assoc, hf, ih]
  refine ⟨∑ i ∈ Finset.range N, |f i|, Finset.sum_nonneg fun _ _ => abs_nonneg _, fun k => ?_⟩
  rw [hm]
  exact (le_abs_self _).trans (Finset.single_le_sum (f := fun i => |f i|) (fun _ _ => abs_nonneg _)
    (Finset.mem_range.2 (Nat.mod_lt _ hN)))

/-- Surfaces that come back leave some path that comes back. -/
theorem region_cycle {mu y K : ℝ} (hmu : 0 < mu) (hy : 0 ≤ y) (hK : 0 ≤ K) {N : ℕ} (hN : 0 < N) {c : ℕ → Fin 6 → ℝ}
    (hc : ∀ k, tr3 (c k) = 0) (hcN : ∀ k, c (k + N) = c k) :
    ∃ p : ℕ → Plane, (∀ k, Nearest (region mu y K (c k)) (p k) (p (k + 1))) ∧ ∀ k, p (k + N) = p k := by
  obtain ⟨B, hB0, hB⟩ := periodic_bound hN (f := fun k => norm2 (c k)) fun k => by rw [hcN]
  have hsq : (0 : ℝ) < √(2 / 3) := by positivity
  rcases hK.eq_or_lt with h0 | h0
  · refine comes_back (fun k => region mu y K (c k)) N hN (fun k => by rw [hcN]) (fun k => region_closed _ _ _ _)
      (fun k => region_convex _ _ _ _) (fun k => ?_) (√(2 / 3) * y + B) fun k v hv => ?_
    · refine ⟨place mu K (c k) 0, ?_, hc k, fun _ => by simp [partA, place]⟩
      have : c k - partZ (place mu K (c k) 0) = 0 := sub_self _
      rw [this, ← h0]
      simp [norm2]
      positivity
    · obtain ⟨v1, v2, v3⟩ := hv
      have hA := v3 h0.symm
      rw [hA, mul_zero, add_zero] at v1
      have hn : ‖v‖ = norm2 (partZ v) := by
        have := norm_plane v
        rw [hA] at this
        have h2 : (0 : ℝ) ≤ norm2 (partZ v) := Real.sqrt_nonneg _
        nlinarith [norm_nonneg v, sq_nonneg (‖v‖ - norm2 (partZ v)), sq_nonneg (‖v‖ + norm2 (partZ v)),
          (sq_eq_sq₀ (norm_nonneg v) h2).1 (by linarith)]
      rw [hn]
      have h3 : norm2 (partZ v) ≤ norm2 (c k) + norm2 (c k - partZ v) := by
        rw [norm2_lp, norm2_lp, norm2_lp, WithLp.toLp_sub]
        have := norm_sub_norm_le (WithLp.toLp 2 (partZ v) : EuclideanSpace ℝ (Fin 6)) (WithLp.toLp 2 (c k))
        rw [norm_sub_rev] at this
        linarith
      linarith [hB k]
  · have hth : 0 < √(mu * K) / mu := by positivity
    set A := B / √(2 / 3) / (√(mu * K) / mu) with hA
    have hmem (k : ℕ) : (WithLp.toLp 2 (Sum.elim 0 fun _ => A) : Plane) ∈ region mu y K (c k) := by
      refine ⟨?_, by simp [tr3, partZ], fun h => absurd h h0.ne'⟩
      have e1 : partZ (WithLp.toLp 2 (Sum.elim 0 fun _ => A) : Plane) = 0 := rfl
      have e2 : partA (WithLp.toLp 2 (Sum.elim 0 fun _ => A) : Plane) = A := rfl
      rw [e1, e2, sub_zero]
      have e3 : √(2 / 3) * (√(mu * K) / mu * A) = B := by
        rw [hA]
        field_simp
      have := hB k
      have := mul_nonneg hsq.le hy
      linarith [mul_add (√(2 / 3)) y (√(mu * K) / mu * A)]
    exact ⟨fun _ => WithLp.toLp 2 (Sum.elim 0 fun _ => A), fun k => ⟨hmem k, fun v _ => by simp⟩, fun _ => rfl⟩

theorem partZ_sub (u v : Plane) : partZ (u - v) = partZ u - partZ v := rfl

/-- A point dragged by surfaces that come back approaches one that comes back. -/
theorem dragged_path {mu y K : ℝ} (hmu : 0 < mu) (hy : 0 ≤ y) (hK : 0 ≤ K) {N : ℕ} (hN : 0 < N) {c : ℕ → Fin 6 → ℝ}
    (hc : ∀ k, tr3 (c k) = 0) (hcN : ∀ k, c (k + N) = c k) {Z : ℕ → Fin 6 → ℝ} {a : ℕ → ℝ}
    (hD : ∀ k, ∃ g m, Drag mu y K (c k) (Z k) (a k) (Z (k + 1)) (a (k + 1)) g m) (hZ0 : tr3 (Z 0) = 0) (ha0 : 0 ≤ a 0) :
    ∃ (Zl : ℕ → Fin 6 → ℝ) (al : ℕ → ℝ), (∀ k, ∃ g m, Drag mu y K (c k) (Zl k) (al k) (Zl (k + 1)) (al (k + 1)) g m) ∧
      (∀ k, Zl (k + N) = Zl k) ∧ (∀ k, tr3 (Zl k) = 0) ∧ 0 ≤ al 0 ∧ Tendsto (fun k => Z k - Zl k) atTop (𝓝 0) ∧
      (0 < K → (∀ k, al k = al 0 ∧ Zl k = Zl 0) ∧ Tendsto a atTop (𝓝 (al 0))) := by
  have hsq : (0 : ℝ) < √(2 / 3) := by positivity
  have hZt (k : ℕ) : tr3 (Z k) = 0 := by
    induction k with
    | zero => exact hZ0
    | succ k ih =>
      obtain ⟨g, m, h⟩ := hD k
      rw [h.2.2.2.1, tr3_add, tr3_smul, ih, h.2.1]
      ring
  have hap (k : ℕ) : 0 ≤ a k := by
    induction k with
    | zero => exact ha0
    | succ k ih =>
      obtain ⟨g, m, h⟩ := hD k
      rw [h.2.2.2.2.1]
      have := mul_nonneg hsq.le h.1
      linarith
  obtain ⟨p, hp, hpN⟩ := region_cycle (mu := mu) hmu hy hK hN hc hcN
  obtain ⟨v, hv, hvN, hlim⟩ := dragged (fun k => region mu y K (c k)) N hN (fun k => by rw [hcN])
    (fun k => region_closed _ _ _ _) p (fun k => place mu K (Z k) (a k)) hp hpN fun k => by
      obtain ⟨g, m, h⟩ := hD k
      exact h.nearest hmu hK (hZt k)
  have hin (k : ℕ) : ∃ j, v k ∈ region mu y K (c j) := by
    obtain ⟨M, rfl⟩ : ∃ M, N = M + 1 := ⟨N - 1, by omega⟩
    refine ⟨k + M, ?_⟩
    rw [← hvN k]
    exact (hv (k + M)).1
  have hvt (k : ℕ) : tr3 (partZ (v k)) = 0 := by
    obtain ⟨j, h⟩ := hin k
    exact h.2.1
  have hZl : Tendsto (fun k => Z k - partZ (v k)) atTop (𝓝 0) :=
    (continuous_partZ.tendsto 0).comp hlim
  rcases hK.eq_or_lt with h0 | h0
  · have hA (k : ℕ) : partA (v k) = 0 := by
      obtain ⟨j, h⟩ := hin k
      exact h.2.2 h0.symm
    have hpl (k : ℕ) : place mu K (partZ (v k)) 0 = v k := by
      ext i
      rcases i with i | i
      · rfl
      · show √(mu * K) * 0 = partA (v k)
        rw [hA, mul_zero]
    have hex (k : ℕ) : ∃ g m, 0 ≤ g ∧ ∀ α : ℝ, Drag mu y K (c k) (partZ (v k)) α (partZ (v (k + 1))) (α + √(2 / 3) * g) g m := by
      have h1 := hv k
      rw [← hpl k] at h1
      obtain ⟨Z', a', g, m, hd, he⟩ := nearest_drag hmu hK (hc k) (hvt k) (by rw [← h0]; simp; positivity) h1
      have hZ' : partZ (v (k + 1)) = Z' := by rw [← he]; rfl
      obtain ⟨d1, d2, d3, d4, d5, d6, d7⟩ := hd
      refine ⟨g, m, d1, fun α => ⟨d1, d2, d3, by rw [hZ']; exact d4, rfl, ?_⟩⟩
      rw [hZ']
      rw [← h0] at d6 d7 ⊢
      simp only [zero_mul, add_zero] at d6 d7 ⊢
      exact ⟨d6, d7⟩
    choose g m hg hd using hex
    refine ⟨fun k => partZ (v k), fun k => a 0 + √(2 / 3) * ∑ i ∈ Finset.range k, g i, fun k => ⟨g k, m k, ?_⟩,
      fun k => congrArg partZ (hvN k), hvt, by simpa using ha0, hZl, fun h => absurd h (by rw [← h0]; exact lt_irrefl 0)⟩
    have := hd k (a 0 + √(2 / 3) * ∑ i ∈ Finset.range k, g i)
    rwa [show a 0 + √(2 / 3) * ∑ i ∈ Finset.range k, g i + √(2 / 3) * g k =
      a 0 + √(2 / 3) * ∑ i ∈ Finset.range (k + 1), g i by rw [Finset.sum_range_succ]; ring] at this
  · have hth : 0 < √(mu * K) := by positivity
    have hpl (k : ℕ) : place mu K (partZ (v k)) (partA (v k) / √(mu * K)) = v k := by
      ext i
      rcases i with i | i
      · rfl
      · show √(mu * K) * (partA (v k) / √(mu * K)) = partA (v k)
        field_simp
    have hr (k : ℕ) : 0 ≤ √(2 / 3) * (y + K * (partA (v k) / √(mu * K))) := by
      obtain ⟨j, h⟩ := hin k
      have e : √(mu * K) / mu * partA (v k) = K * (partA (v k) / √(mu * K)) := by
        have := Real.mul_self_sqrt (mul_pos hmu h0).le
        field_simp
        linear_combination partA (v k) * this
      rw [← e]
      exact le_trans (Real.sqrt_nonneg _) h.1
    have hd (k : ℕ) : ∃ g m, Drag mu y K (c k) (partZ (v k)) (partA (v k) / √(mu * K)) (partZ (v (k + 1)))
        (partA (v (k + 1)) / √(mu * K)) g m := by
      have h1 := hv k
      rw [← hpl k] at h1
      obtain ⟨Z', a', g, m, hd, he⟩ := nearest_drag hmu hK (hc k) (hvt k) (hr k) h1
      have hZ' : partZ (v (k + 1)) = Z' := by rw [← he]; rfl
      have ha' : partA (v (k + 1)) / √(mu * K) = a' := by
        rw [← he]
        show √(mu * K) * a' / √(mu * K) = a'
        field_simp
      rw [hZ', ha']
      exact ⟨g, m, hd⟩
    choose g m hd using hd
    have hmono : Monotone fun k => partA (v k) / √(mu * K) := monotone_nat_of_le_succ fun k => by
      have h1 := (hd k).2.2.2.2.1
      have := mul_nonneg hsq.le (hd k).1
      linarith
    have hper (j n : ℕ) : v (j + n * N) = v j := by
      induction n with
      | zero => simp
      | succ n ih => rw [Nat.succ_mul, ← add_assoc, hvN, ih]
    have hconst (k : ℕ) : partA (v k) / √(mu * K) = partA (v 0) / √(mu * K) := by
      refine le_antisymm ?_ (hmono (Nat.zero_le k))
      have h1 := hmono (show k ≤ 0 + k * N by rw [Nat.zero_add]; exact Nat.le_mul_of_pos_right k hN)
      simp only at h1
      rwa [hper 0 k] at h1
    have hg (k : ℕ) : g k = 0 := by
      have h1 := (hd k).2.2.2.2.1
      rw [hconst (k + 1), hconst k] at h1
      have : √(2 / 3) * g k = 0 := by linarith
      exact (mul_eq_zero.1 this).resolve_left hsq.ne'
    have hZc (k : ℕ) : partZ (v k) = partZ (v 0) := by
      induction k with
      | zero => rfl
      | succ k ih => rw [(hd k).2.2.2.1, hg k, mul_zero, zero_smul, add_zero, ih]
    have hal : Tendsto a atTop (𝓝 (partA (v 0) / √(mu * K))) := by
      have h1 : Tendsto (fun k => partA (place mu K (Z k) (a k) - v k) / √(mu * K)) atTop (𝓝 (partA 0 / √(mu * K))) :=
        ((continuous_partA.tendsto 0).comp hlim).div_const _
      have e0 : partA (0 : Plane) / √(mu * K) = 0 := by simp [partA]
      rw [e0] at h1
      have h2 := h1.add_const (partA (v 0) / √(mu * K))
      rw [zero_add] at h2
      refine h2.congr fun k => ?_
      rw [← hconst k]
      show (√(mu * K) * a k - partA (v k)) / √(mu * K) + partA (v k) / √(mu * K) = a k
      field_simp
      ring
    exact ⟨fun k => partZ (v k), fun k => partA (v k) / √(mu * K), fun k => ⟨g k, m k, hd k⟩, fun k => congrArg partZ (hvN k), hvt,
      ge_of_tendsto' hal hap, hZl, fun _ => ⟨fun k => ⟨hconst k, hZc k⟩, hal⟩⟩

/-! ## Exact steps -/

/-- Backstrain. -/
def bk (x : State7) : Fin 6 → ℝ := fun i => x.h (.inr i)

/-- Accumulated plastic strain. -/
def ac (x : State7) : ℝ := x.h (.inl ())

/-- What a step flows. -/
def Flows (y K H : ℝ) (x z : State7) (g : ℝ) (m : Fin 6 → ℝ) : Prop :=
  0 ≤ g ∧ tr3 m = 0 ∧ m ⬝ᵥ m = 1 ∧ bk z = bk x + g • m ∧ ac z = ac x + √(2 / 3) * g ∧
    norm2 (devVec z.s - H • bk z) ≤ √(2 / 3) * (y + K * ac z) ∧
    (0 < g → norm2 (devVec z.s - H • bk z) = √(2 / 3) * (y + K * ac z) ∧
      devVec z.s - H • bk z = norm2 (devVec z.s - H • bk z) • m)

/-- The stress that no strain and no flow explains. -/
noncomputable def residual (G Kb : ℝ) (x : State7) : Fin 6 → ℝ := x.s + (2 * G) • bk x - isoC G Kb *ᵥ x.e

variable {G Kb K H y T : ℝ} {el : Elastic ℝ (Fin 6)}

theorem exactStep_iff (hG : 0 < G) (hB : 0 < Kb) (hC : el.C T = isoC G Kb) (hS : el.S T = isoS G Kb) {x z : State7}
    (hT : x.T = T) (e : Fin 6 → ℝ) (t : ℝ) : ExactStep el G y K H T x (e, t) z ↔
      residual G Kb z = residual G Kb x ∧ (∃ g m, Flows y K H x z g m) ∧ z.e = e ∧ z.T = T ∧ z.t = t := by
  have htr : trial' el x e T = x.s + isoC G Kb *ᵥ e - isoC G Kb *ᵥ x.e := by
    unfold trial'
    rw [hT, hC, hS, mulVec_sub, mulVec_sub, mulVec_mulVec, (C36_iso_inverse G Kb hG hB).2, one_mulVec]
    abel
  have hH (u : State7) : (fun i => H * u.h (.inr i)) = H • bk u := rfl
  constructor
  · rintro ⟨⟨g, m, g0, mt, mm, es, ea, eb, ef, en⟩, he, hT', ht⟩
    have hb : bk z = bk x + g • m := funext fun i => eb i
    refine ⟨?_, ⟨g, m, g0, mt, mm, hb, ea, ef, en⟩, he, hT', ht⟩
    rw [residual, residual, es, hb, htr, he]
    simp only at *
    rw [smul_add, smul_smul]
    abel
  · rintro ⟨hr, ⟨g, m, g0, mt, mm, hb, ea, ef, en⟩, he, hT', ht⟩
    refine ⟨⟨g, m, g0, mt, mm, ?_, ea, fun i => congrFun hb i, ef, en⟩, he, hT', ht⟩
    rw [residual, residual, hb, he, smul_add, smul_smul] at hr
    rw [htr]
    have : z.s = x.s + (2 * G) • bk x - isoC G Kb *ᵥ x.e - ((2 * G) • bk x + (2 * G * g) • m) + isoC G Kb *ᵥ e := by
      rw [← hr]
      abel
    rw [this]
    abel

theorem tr3_devVec (v : Fin 6 → ℝ) : tr3 (devVec v) = 0 := by
  simp [tr3, devVec]
  ring

theorem devVec_isoC (G Kb : ℝ) (v : Fin 6 → ℝ) : devVec (isoC G Kb *ᵥ v) = (2 * G) • devVec v := by
  ext i
  fin_cases i <;> simp [devVec, isoC, mulVec, dotProduct, Fin.sum_univ_succ] <;> ring

/-- An exact path: one exact step after the other. -/
def ExactPath (el : Elastic ℝ (Fin 6)) (G y K H T : ℝ) (x : ℕ → State7) (e : ℕ → Fin 6 → ℝ) (t : ℕ → ℝ) : Prop :=
  (x 0).T = T ∧ ∀ k, ExactStep el G y K H T (x k) (e k, t k) (x (k + 1))

theorem ExactPath.temp {x : ℕ → State7} {e : ℕ → Fin 6 → ℝ} {t : ℕ → ℝ} (h : ExactPath el G y K H T x e t) (k : ℕ) :
    (x k).T = T := by
  cases k with
  | zero => exact h.1
  | succ k => exact (h.2 k).2.2.1

theorem ExactPath.residual (hG : 0 < G) (hB : 0 < Kb) (hC : el.C T = isoC G Kb) (hS : el.S T = isoS G Kb) {x : ℕ → State7}
    {e : ℕ → Fin 6 → ℝ} {t : ℕ → ℝ} (h : ExactPath el G y K H T x e t) (k : ℕ) :
    residual G Kb (x k) = residual G Kb (x 0) := by
  induction k with
  | zero => rfl
  | succ k ih => rw [((exactStep_iff hG hB hC hS (h.temp k) _ _).1 (h.2 k)).1, ih]

theorem effective (G Kb H : ℝ) (x : State7) : devVec x.s - H • bk x =
    devVec (residual G Kb x) + (2 * G) • devVec x.e - (devVec ((2 * G) • bk x) + H • bk x) := by
  have : x.s = residual G Kb x - (2 * G) • bk x + isoC G Kb *ᵥ x.e := by
    rw [residual]
    abel
  nth_rewrite 1 [this]
  rw [devVec_add, devVec_sub, devVec_isoC]
  abel

theorem tendsto_smul_zero {f : ℕ → Fin 6 → ℝ} (r : ℝ) (h : Tendsto f atTop (𝓝 0)) : Tendsto (fun k => r • f k) atTop (𝓝 0) := by
  have := h.const_smul r
  rwa [smul_zero] at this

theorem state_h (x : State7) : x.h = Sum.elim (fun _ => ac x) (bk x) := by
  ext i
  rcases i with i | i <;> rfl

/-- C206: if the strains repeat themselves the stresses approach stresses that repeat themselves. With isotropic hardening
all flow dies out. -/
theorem C206_strain (hG : 0 < G) (hB : 0 < Kb) (hC : el.C T = isoC G Kb) (hS : el.S T = isoS G Kb) (hy : 0 ≤ y) (hK : 0 ≤ K)
    (hH : 0 ≤ H) {N : ℕ} (hN : 0 < N) {e : ℕ → Fin 6 → ℝ} (he : ∀ k, e (k + N) = e k) {t : ℕ → ℝ} {x : ℕ → State7}
    (hx : ExactPath el G y K H T x e t) (h0 : Sound (x 0)) :
    ∃ z : ℕ → State7, ExactPath el G y K H T z e t ∧ Sound (z 0) ∧
      (∀ k, (z (k + N)).s = (z k).s ∧ bk (z (k + N)) = bk (z k) ∧ (z (k + N)).e = (z k).e) ∧
      Tendsto (fun k => (x k).s - (z k).s) atTop (𝓝 0) ∧ Tendsto (fun k => bk (x k) - bk (z k)) atTop (𝓝 0) ∧
      (0 < K → (∀ k, (z k).h = (z 0).h) ∧ Tendsto (fun k => (x k).h) atTop (𝓝 (z 0).h)) := by
  have hmu : 0 < 2 * G + H := by positivity
  set I := residual G Kb (x 0) with hI
  have hres := fun k => (hx.residual hG hB hC hS k).trans hI.symm
  have hstep := fun k => (exactStep_iff hG hB hC hS (hx.temp k) _ _).1 (hx.2 k)
  have hbt (k : ℕ) : tr3 (bk (x k)) = 0 := by
    induction k with
    | zero => exact h0.2
    | succ k ih =>
      obtain ⟨g, m, h⟩ := (hstep k).2.1
      rw [h.2.2.2.1, tr3_add, tr3_smul, ih, h.2.1]
      ring
  have heff (w : State7) (hw : residual G Kb w = I) (hb : tr3 (bk w) = 0) :
      devVec w.s - H • bk w = (2 * G) • devVec w.e - ((2 * G + H) • bk w - devVec I) := by
    have h1 : devVec ((2 * G) • bk w) = (2 * G) • bk w := devVec_of_tr3 (by rw [tr3_smul, hb, mul_zero])
    rw [effective G Kb, hw, h1, add_smul]
    abel
  have hD (k : ℕ) : ∃ g m, Drag (2 * G + H) y K ((2 * G) • devVec (e k)) ((2 * G + H) • bk (x k) - devVec I) (ac (x k))
      ((2 * G + H) • bk (x (k + 1)) - devVec I) (ac (x (k + 1))) g m := by
    obtain ⟨g, m, g0, mt, mm, hb, ha, hf, hn⟩ := (hstep k).2.1
    rw [heff _ (hres _) (hbt _), (hstep k).2.2.1] at hf hn
    refine ⟨g, m, g0, mt, mm, ?_, ha, hf, hn⟩
    rw [hb, smul_add, smul_smul]
    abel
  obtain ⟨Zl, al, hl, hlN, hlt, hl0, hlim, hKl⟩ := dragged_path hmu hy hK hN
    (c := fun k => (2 * G) • devVec (e k)) (fun k => by rw [tr3_smul, tr3_devVec, mul_zero]) (fun k => by simp only [he]) hD
    (by rw [tr3_sub, tr3_smul, hbt, tr3_devVec]; ring) h0.1
  let b : ℕ → Fin 6 → ℝ := fun k => (2 * G + H)⁻¹ • (Zl k + devVec I)
  have hbZ (k : ℕ) : (2 * G + H) • b k - devVec I = Zl k := by
    show (2 * G + H) • (2 * G + H)⁻¹ • (Zl k + devVec I) - devVec I = Zl k
    rw [smul_smul, mul_inv_cancel₀ hmu.ne', one_smul]
    abel
  have hblt (k : ℕ) : tr3 (b k) = 0 := by
    show tr3 ((2 * G + H)⁻¹ • (Zl k + devVec I)) = 0
    rw [tr3_smul, tr3_add, hlt, tr3_devVec]
    ring
  let z : ℕ → State7 := fun k => ⟨e (k + (N - 1)), T, if k = 0 then (x 0).t else t (k - 1),
    I - (2 * G) • b k + isoC G Kb *ᵥ e (k + (N - 1)), Sum.elim (fun _ => al k) (b k), 0, 0⟩
  have hzr (k : ℕ) : residual G Kb (z k) = I := by
    show I - (2 * G) • b k + isoC G Kb *ᵥ e (k + (N - 1)) + (2 * G) • b k - isoC G Kb *ᵥ e (k + (N - 1)) = I
    abel
  have hze (k : ℕ) : (z (k + 1)).e = e k := by
    show e (k + 1 + (N - 1)) = e k
    rw [show k + 1 + (N - 1) = k + N by omega, he]
  have hbd : Tendsto (fun k => bk (x k) - bk (z k)) atTop (𝓝 0) := by
    refine (tendsto_smul_zero (2 * G + H)⁻¹ hlim).congr fun k => ?_
    rw [← hbZ k, sub_sub_sub_cancel_right, ← smul_sub, smul_smul, inv_mul_cancel₀ hmu.ne', one_smul]
    rfl
  refine ⟨z, ⟨rfl, fun k => ?_⟩, ⟨hl0, hblt 0⟩, fun k => ?_, ?_, hbd, fun hK0 => ?_⟩
  · refine (exactStep_iff hG hB hC hS rfl _ _).2 ⟨(hzr _).trans (hzr _).symm, ?_, hze k, rfl, by simp [z]⟩
    obtain ⟨g, m, g0, mt, mm, hZ, ha, hf, hn⟩ := hl k
    refine ⟨g, m, g0, mt, mm, ?_, ha, ?_⟩
    · show (2 * G + H)⁻¹ • (Zl (k + 1) + devVec I) = (2 * G + H)⁻¹ • (Zl k + devVec I) + g • m
      rw [hZ, add_right_comm, smul_add _ (Zl k + devVec I), smul_smul, inv_mul_cancel_left₀ hmu.ne']
    · have : (2 * G + H) • bk (z (k + 1)) - devVec I = Zl (k + 1) := hbZ (k + 1)
      rw [heff (z (k + 1)) (hzr _) (hblt _), hze, this]
      exact ⟨hf, hn⟩
  · have hbN : b (k + N) = b k := by
      show (2 * G + H)⁻¹ • (Zl (k + N) + devVec I) = _
      rw [hlN]
    have heN : e (k + N + (N - 1)) = e (k + (N - 1)) := by rw [add_right_comm, he]
    refine ⟨?_, hbN, heN⟩
    show I - (2 * G) • b (k + N) + isoC G Kb *ᵥ e (k + N + (N - 1)) = _
    rw [hbN, heN]
  · rw [← tendsto_add_atTop_iff_nat 1]
    refine (tendsto_smul_zero (-(2 * G)) ((tendsto_add_atTop_iff_nat 1).2 hbd)).congr fun k => ?_
    have h1 : ∀ w : State7, residual G Kb w = I → w.s = I - (2 * G) • bk w + isoC G Kb *ᵥ w.e := fun w hw => by
      rw [← hw, residual]
      abel
    rw [h1 _ (hres (k + 1)), h1 _ (hzr (k + 1)), hze, (hstep k).2.2.1, neg_smul, smul_sub]
    abel
  · obtain ⟨hc1, hc2⟩ := hKl hK0
    have hbc (k : ℕ) : b k = b 0 := by
      show (2 * G + H)⁻¹ • (Zl k + devVec I) = (2 * G + H)⁻¹ • (Zl 0 + devVec I)
      rw [(hc1 k).2]
    refine ⟨fun k => ?_, ?_⟩
    · show Sum.elim (fun _ => al k) (b k) = Sum.elim (fun _ => al 0) (b 0)
      rw [(hc1 k).1, hbc]
    · rw [tendsto_pi_nhds]
      rintro (i | i)
      · exact hc2
      · have h1 : Tendsto (fun k => bk (x k) - bk (z k) + b 0) atTop (𝓝 (0 + b 0)) := hbd.add_const _
        rw [zero_add] at h1
        have h2 : Tendsto (fun k => bk (x k)) atTop (𝓝 (b 0)) := h1.congr fun k => by
          show bk (x k) - b k + b 0 = bk (x k)
          rw [hbc]
          abel
        exact (tendsto_pi_nhds.1 h2) i

/-- C206: with kinematic hardening, if the stresses repeat themselves the strains approach strains that repeat themselves: no
ratchetting goes on. -/
theorem C206_stress (hG : 0 < G) (hB : 0 < Kb) (hC : el.C T = isoC G Kb) (hS : el.S T = isoS G Kb) (hy : 0 ≤ y) (hK : 0 ≤ K)
    (hH : 0 < H) {N : ℕ} (hN : 0 < N) {σ : ℕ → Fin 6 → ℝ} (hσ : ∀ k, σ (k + N) = σ k) {e : ℕ → Fin 6 → ℝ} {t : ℕ → ℝ}
    {x : ℕ → State7} (hx : ExactPath el G y K H T x e t) (hs : ∀ k, (x (k + 1)).s = σ k) (h0 : Sound (x 0)) :
    ∃ (z : ℕ → State7) (e' : ℕ → Fin 6 → ℝ), ExactPath el G y K H T z e' t ∧ Sound (z 0) ∧ (∀ k, (z (k + 1)).s = σ k) ∧
      (∀ k, e' (k + N) = e' k) ∧ Tendsto (fun k => e k - e' k) atTop (𝓝 0) ∧
      Tendsto (fun k => e (k + N) - e k) atTop (𝓝 0) ∧
      Tendsto (fun k => bk (x k) - bk (z k)) atTop (𝓝 0) ∧
      (0 < K → (∀ k, (z k).h = (z 0).h) ∧ Tendsto (fun k => (x k).h) atTop (𝓝 (z 0).h)) := by
  set I := residual G Kb (x 0) with hI
  have hres := fun k => (hx.residual hG hB hC hS k).trans hI.symm
  have hstep := fun k => (exactStep_iff hG hB hC hS (hx.temp k) _ _).1 (hx.2 k)
  have hbt (k : ℕ) : tr3 (bk (x k)) = 0 := by
    induction k with
    | zero => exact h0.2
    | succ k ih =>
      obtain ⟨g, m, h⟩ := (hstep k).2.1
      rw [h.2.2.2.1, tr3_add, tr3_smul, ih, h.2.1]
      ring
  have hD (k : ℕ) : ∃ g m, Drag H y K (devVec (σ k)) (H • bk (x k)) (ac (x k)) (H • bk (x (k + 1))) (ac (x (k + 1))) g m := by
    obtain ⟨g, m, g0, mt, mm, hb, ha, hf, hn⟩ := (hstep k).2.1
    rw [hs] at hf hn
    refine ⟨g, m, g0, mt, mm, ?_, ha, hf, hn⟩
    rw [hb, smul_add, smul_smul]
  obtain ⟨Zl, al, hl, hlN, hlt, hl0, hlim, hKl⟩ := dragged_path hH hy hK hN
    (c := fun k => devVec (σ k)) (fun k => tr3_devVec _) (fun k => by simp only [hσ]) hD
    (by rw [tr3_smul, hbt, mul_zero]) h0.1
  let b : ℕ → Fin 6 → ℝ := fun k => H⁻¹ • Zl k
  have hbZ (k : ℕ) : H • b k = Zl k := by
    show H • H⁻¹ • Zl k = Zl k
    rw [smul_smul, mul_inv_cancel₀ hH.ne', one_smul]
  have hblt (k : ℕ) : tr3 (b k) = 0 := by
    show tr3 (H⁻¹ • Zl k) = 0
    rw [tr3_smul, hlt, mul_zero]
  have hbN (k : ℕ) : b (k + N) = b k := by
    show H⁻¹ • Zl (k + N) = _
    rw [hlN]
  let ε : ℕ → Fin 6 → ℝ := fun k => isoS G Kb *ᵥ (σ (k + (N - 1)) + (2 * G) • b k - I)
  have hσ1 (k : ℕ) : σ (k + 1 + (N - 1)) = σ k := by rw [show k + 1 + (N - 1) = k + N by omega, hσ]
  let z : ℕ → State7 := fun k => ⟨ε k, T, if k = 0 then (x 0).t else t (k - 1), σ (k + (N - 1)),
    Sum.elim (fun _ => al k) (b k), 0, 0⟩
  have hzs (k : ℕ) : (z (k + 1)).s = σ k := hσ1 k
  have hzr (k : ℕ) : residual G Kb (z k) = I := by
    show σ (k + (N - 1)) + (2 * G) • b k - isoC G Kb *ᵥ (isoS G Kb *ᵥ (σ (k + (N - 1)) + (2 * G) • b k - I)) = I
    rw [mulVec_mulVec, (C36_iso_inverse G Kb hG hB).2, one_mulVec]
    abel
  have hbd : Tendsto (fun k => bk (x k) - bk (z k)) atTop (𝓝 0) := by
    refine (tendsto_smul_zero H⁻¹ hlim).congr fun k => ?_
    rw [← hbZ k, ← smul_sub, smul_smul, inv_mul_cancel₀ hH.ne', one_smul]
    rfl
  have hεN (k : ℕ) : ε (k + 1 + N) = ε (k + 1) := by
    show isoS G Kb *ᵥ (σ (k + 1 + N + (N - 1)) + (2 * G) • b (k + 1 + N) - I) = _
    rw [hbN, add_right_comm (k + 1) N, hσ]
  have hlim' : Tendsto (fun k => e k - ε (k + 1)) atTop (𝓝 0) := by
    have h1 := (tendsto_smul_zero (2 * G) ((tendsto_add_atTop_iff_nat 1).2 hbd))
    have h2 : Tendsto (fun k => isoS G Kb *ᵥ ((2 * G) • (bk (x (k + 1)) - bk (z (k + 1))))) atTop (𝓝 (isoS G Kb *ᵥ 0)) :=
      ((continuous_const.matrix_mulVec continuous_id).tendsto 0).comp h1
    rw [mulVec_zero] at h2
    refine h2.congr fun k => ?_
    have h3 : isoS G Kb *ᵥ (σ k + (2 * G) • bk (x (k + 1)) - I) = e k := by
      rw [← hres (k + 1), residual, hs, (hstep k).2.2.1, sub_sub_cancel, mulVec_mulVec, (C36_iso_inverse G Kb hG hB).1,
        one_mulVec]
    show _ = e k - isoS G Kb *ᵥ (σ (k + 1 + (N - 1)) + (2 * G) • b (k + 1) - I)
    rw [hσ1, ← h3, ← mulVec_sub]
    congr 1
    show (2 * G) • (bk (x (k + 1)) - b (k + 1)) = _
    rw [smul_sub]
    abel
  refine ⟨z, fun k => ε (k + 1), ⟨rfl, fun k => ?_⟩, ⟨hl0, hblt 0⟩, hzs, fun k => ?_, hlim', ?_, hbd, fun hK0 => ?_⟩
  · refine (exactStep_iff hG hB hC hS rfl _ _).2 ⟨(hzr _).trans (hzr _).symm, ?_, rfl, rfl, by simp [z]⟩
    obtain ⟨g, m, g0, mt, mm, hZ, ha, hf, hn⟩ := hl k
    refine ⟨g, m, g0, mt, mm, ?_, ha, ?_⟩
    · show H⁻¹ • Zl (k + 1) = H⁻¹ • Zl k + g • m
      rw [hZ, smul_add, smul_smul, inv_mul_cancel_left₀ hH.ne']
    · have : H • bk (z (k + 1)) = Zl (k + 1) := hbZ (k + 1)
      rw [hzs, this]
      exact ⟨hf, hn⟩
  · show ε (k + N + 1) = ε (k + 1)
    rw [add_right_comm, hεN]
  · have h1 := ((tendsto_add_atTop_iff_nat N).2 hlim').sub hlim'
    rw [sub_zero] at h1
    refine h1.congr fun k => ?_
    rw [show k + N + 1 = k + 1 + N by ring, hεN]
    abel
  · obtain ⟨hc1, hc2⟩ := hKl hK0
    have hbc (k : ℕ) : b k = b 0 := by
      show H⁻¹ • Zl k = H⁻¹ • Zl 0
      rw [(hc1 k).2]
    refine ⟨fun k => ?_, ?_⟩
    · show Sum.elim (fun _ => al k) (b k) = Sum.elim (fun _ => al 0) (b 0)
      rw [(hc1 k).1, hbc]
    · rw [tendsto_pi_nhds]
      rintro (i | i)
      · exact hc2
      · have h1 : Tendsto (fun k => bk (x k) - bk (z k) + b 0) atTop (𝓝 (0 + b 0)) := hbd.add_const _
        rw [zero_add] at h1
        have h2 : Tendsto (fun k => bk (x k)) atTop (𝓝 (b 0)) := h1.congr fun k => by
          show bk (x k) - b k + b 0 = bk (x k)
          rw [hbc]
          abel
        exact (tendsto_pi_nhds.1 h2) i

/-- C206: with isotropic hardening alone, if the stresses repeat themselves all flow dies out as well. -/
theorem C206_stress_isotropic (hG : 0 < G) (hB : 0 < Kb) (hC : el.C T = isoC G Kb) (hS : el.S T = isoS G Kb) (hK : 0 < K)
    {N : ℕ} (hN : 0 < N) {σ : ℕ → Fin 6 → ℝ} (hσ : ∀ k, σ (k + N) = σ k) {e : ℕ → Fin 6 → ℝ} {t : ℕ → ℝ}
    {x : ℕ → State7} (hx : ExactPath el G y K 0 T x e t) (hs : ∀ k, (x (k + 1)).s = σ k) (h0 : Sound (x 0)) :
    ∃ (z : ℕ → State7) (e' : ℕ → Fin 6 → ℝ), ExactPath el G y K 0 T z e' t ∧ Sound (z 0) ∧ (∀ k, (z (k + 1)).s = σ k) ∧
      (∀ k, e' (k + N) = e' k) ∧ Tendsto (fun k => e k - e' k) atTop (𝓝 0) ∧ (∀ k, (z k).h = (z 0).h) ∧
      Tendsto (fun k => (x k).h) atTop (𝓝 (z 0).h) := by
  have hsq : (0 : ℝ) < √(2 / 3) := by positivity
  set I := residual G Kb (x 0) with hI
  have hres := fun k => (hx.residual hG hB hC hS k).trans hI.symm
  have hstep := fun k => (exactStep_iff hG hB hC hS (hx.temp k) _ _).1 (hx.2 k)
  choose g m hf using fun k => (hstep k).2.1
  simp only [Flows, zero_smul, sub_zero, hs] at hf
  obtain ⟨B, hB0, hBk⟩ := periodic_bound hN (f := fun k => norm2 (devVec (σ k))) fun k => by simp only [hσ]
  have hmono : Monotone fun k => ac (x k) := monotone_nat_of_le_succ fun k => by
    have h1 := (hf k).2.2.2.2.1
    have := mul_nonneg hsq.le (hf k).1
    linarith
  have hbd (k : ℕ) : ac (x k) ≤ max (ac (x 0)) ((B / √(2 / 3) - y) / K) := by
    induction k with
    | zero => exact le_max_left _ _
    | succ k ih =>
      rcases (hf k).1.eq_or_lt with h | h
      · rw [(hf k).2.2.2.2.1, ← h, mul_zero, add_zero]
        exact ih
      · refine le_max_of_le_right ?_
        have h1 := ((hf k).2.2.2.2.2.2 h).1
        rw [le_div_iff₀ hK, le_sub_iff_add_le, le_div_iff₀ hsq]
        have := hBk k
        rw [h1] at this
        linarith
  obtain ⟨al, hal⟩ : ∃ al, Tendsto (fun k => ac (x k)) atTop (𝓝 al) :=
    ⟨_, tendsto_atTop_ciSup hmono ⟨_, by rintro _ ⟨k, rfl⟩; exact hbd k⟩⟩
  have hle (k : ℕ) : ac (x k) ≤ al := hmono.ge_of_tendsto hal k
  have hm1 (k : ℕ) (i : Fin 6) : |m k i| ≤ 1 := by
    rw [← sq_le_one_iff_abs_le_one, ← (hf k).2.2.1, dotProduct, pow_two]
    exact Finset.single_le_sum (f := fun i => m k i * m k i) (fun i _ => mul_self_nonneg _) (Finset.mem_univ i)
  have hg1 (k : ℕ) : g k = (ac (x (k + 1)) - ac (x k)) / √(2 / 3) := by
    rw [(hf k).2.2.2.2.1]
    field_simp
    ring
  have hsum : Summable g := by
    refine summable_of_sum_range_le (c := (al - ac (x 0)) / √(2 / 3)) (fun k => (hf k).1) fun n => ?_
    rw [Finset.sum_congr rfl fun k _ => hg1 k, ← Finset.sum_div, Finset.sum_range_sub fun k => ac (x k)]
    exact div_le_div_of_nonneg_right (by linarith [hle n]) hsq.le
  have hcs : CauchySeq fun k => bk (x k) := cauchySeq_of_dist_le_of_summable g (fun k => by
    rw [(hf k).2.2.2.1, dist_eq_norm, sub_add_cancel_left, norm_neg, norm_smul, Real.norm_of_nonneg (hf k).1]
    refine mul_le_of_le_one_right (hf k).1 ?_
    exact (pi_norm_le_iff_of_nonneg zero_le_one).2 (hm1 k)) hsum
  obtain ⟨b, hb⟩ := cauchySeq_tendsto_of_complete hcs
  have hbt (k : ℕ) : tr3 (bk (x k)) = 0 := by
    induction k with
    | zero => exact h0.2
    | succ k ih =>
      rw [(hf k).2.2.2.1, tr3_add, tr3_smul, ih, (hf k).2.1]
      ring
  have hbt' : tr3 b = 0 := tendsto_nhds_unique ((continuous_tr3.tendsto b).comp hb)
    (tendsto_const_nhds.congr fun k => (hbt k).symm)
  have hal0 : 0 ≤ al := le_trans h0.1 (hle 0)
  have hin (k : ℕ) : norm2 (devVec (σ k)) ≤ √(2 / 3) * (y + K * al) :=
    (hf k).2.2.2.2.2.1.trans (mul_le_mul_of_nonneg_left
      (add_le_add_right (mul_le_mul_of_nonneg_left (hle (k + 1)) hK.le) y) hsq.le)
  let ε : ℕ → Fin 6 → ℝ := fun k => isoS G Kb *ᵥ (σ k + (2 * G) • b - I)
  let z : ℕ → State7 := fun k => ⟨ε (k + (N - 1)), T, if k = 0 then (x 0).t else t (k - 1), σ (k + (N - 1)),
    Sum.elim (fun _ => al) b, 0, 0⟩
  have hN1 (k : ℕ) : k + 1 + (N - 1) = k + N := by omega
  have hεN (k : ℕ) : ε (k + N) = ε k := by
    show isoS G Kb *ᵥ (σ (k + N) + (2 * G) • b - I) = _
    rw [hσ]
  have hzs (k : ℕ) : (z (k + 1)).s = σ k := by
    show σ (k + 1 + (N - 1)) = σ k
    rw [hN1, hσ]
  have hzr (k : ℕ) : residual G Kb (z k) = I := by
    show σ (k + (N - 1)) + (2 * G) • b - isoC G Kb *ᵥ (isoS G Kb *ᵥ (σ (k + (N - 1)) + (2 * G) • b - I)) = I
    rw [mulVec_mulVec, (C36_iso_inverse G Kb hG hB).2, one_mulVec]
    abel
  obtain ⟨m0, hm01, hm02⟩ := shear_unit'
  refine ⟨z, ε, ⟨rfl, fun k => (exactStep_iff hG hB hC hS rfl _ _).2 ⟨(hzr _).trans (hzr _).symm,
    ⟨0, m0, le_rfl, hm01, hm02, ?_, ?_, ?_, fun h => absurd h (lt_irrefl 0)⟩, ?_, rfl, by simp [z]⟩⟩, ⟨hal0, hbt'⟩, hzs, hεN, ?_,
    fun _ => rfl, ?_⟩
  · rw [zero_smul, add_zero]
    rfl
  · rw [mul_zero, add_zero]
    rfl
  · rw [hzs, zero_smul, sub_zero]
    exact hin k
  · show ε (k + 1 + (N - 1)) = ε k
    rw [hN1, hεN]
  · have h1 := ((tendsto_add_atTop_iff_nat 1).2 hb).sub_const b
    rw [sub_self] at h1
    have h2 : Tendsto (fun k => isoS G Kb *ᵥ ((2 * G) • (bk (x (k + 1)) - b))) atTop (𝓝 (isoS G Kb *ᵥ 0)) :=
      ((continuous_const.matrix_mulVec continuous_id).tendsto 0).comp (tendsto_smul_zero (2 * G) h1)
    rw [mulVec_zero] at h2
    refine h2.congr fun k => ?_
    have h3 : isoS G Kb *ᵥ (σ k + (2 * G) • bk (x (k + 1)) - I) = e k := by
      rw [← hres (k + 1), residual, hs, (hstep k).2.2.1, sub_sub_cancel, mulVec_mulVec, (C36_iso_inverse G Kb hG hB).1,
        one_mulVec]
    show _ = e k - isoS G Kb *ᵥ (σ k + (2 * G) • b - I)
    rw [← h3, ← mulVec_sub]
    congr 1
    rw [smul_sub]
    abel
  · rw [tendsto_pi_nhds]
    rintro (i | i)
    · exact hal
    · exact (tendsto_pi_nhds.1 hb) i

/-- C206: without hardening strains need not come to rest under a steady stress. -/
theorem C206_ratchet_disagreement (hG : 0 < G) (hB : 0 < Kb) (hC : el.C T = isoC G Kb) (hS : el.S T = isoS G Kb) (hy : 0 ≤ y)
    (t : ℕ → ℝ) : ∃ (σ : Fin 6 → ℝ) (x : ℕ → State7) (e : ℕ → Fin 6 → ℝ), ExactPath el G y 0 0 T x e t ∧ Sound (x 0) ∧
      (∀ k, (x k).s = σ) ∧ ¬ Tendsto (fun k => e (k + 1) - e k) atTop (𝓝 0) := by
  obtain ⟨m, mt, mm⟩ := shear_unit'
  have hsq : (0 : ℝ) ≤ √(2 / 3) * y := by positivity
  have hd : devVec ((√(2 / 3) * y) • m) = (√(2 / 3) * y) • m := devVec_of_tr3 (by rw [tr3_smul, mt, mul_zero])
  have hn : norm2 ((√(2 / 3) * y) • m) = √(2 / 3) * y := by
    rw [norm2, smul_dotProduct, dotProduct_smul, mm]
    simp only [smul_eq_mul, mul_one]
    exact Real.sqrt_mul_self hsq
  let ε : ℕ → Fin 6 → ℝ := fun k => isoS G Kb *ᵥ ((√(2 / 3) * y) • m + (2 * G) • (k : ℝ) • m)
  let x : ℕ → State7 := fun k => ⟨ε k, T, if k = 0 then 0 else t (k - 1), (√(2 / 3) * y) • m,
    Sum.elim (fun _ => √(2 / 3) * k) ((k : ℝ) • m), 0, 0⟩
  have hr (k : ℕ) : residual G Kb (x k) = 0 := by
    show (√(2 / 3) * y) • m + (2 * G) • (k : ℝ) • m - isoC G Kb *ᵥ (isoS G Kb *ᵥ ((√(2 / 3) * y) • m + (2 * G) • (k : ℝ) • m)) = 0
    rw [mulVec_mulVec, (C36_iso_inverse G Kb hG hB).2, one_mulVec, sub_self]
  refine ⟨(√(2 / 3) * y) • m, x, fun k => ε (k + 1), ⟨rfl, fun k => (exactStep_iff hG hB hC hS rfl _ _).2
    ⟨(hr _).trans (hr _).symm, ⟨1, m, zero_le_one, mt, mm, ?_, ?_, ?_⟩, rfl, rfl, by simp [x]⟩⟩, ⟨?_, ?_⟩, fun _ => rfl, fun h => ?_⟩
  · show ((k + 1 : ℕ) : ℝ) • m = (k : ℝ) • m + (1 : ℝ) • m
    rw [← add_smul]
    norm_num
  · show √(2 / 3) * ((k + 1 : ℕ) : ℝ) = √(2 / 3) * k + √(2 / 3) * 1
    push_cast
    ring
  · have e1 : devVec (x (k + 1)).s - (0 : ℝ) • bk (x (k + 1)) = (√(2 / 3) * y) • m := by
      rw [zero_smul, sub_zero]
      exact hd
    rw [e1, hn, zero_mul, add_zero]
    exact ⟨le_rfl, fun _ => ⟨rfl, rfl⟩⟩
  · show 0 ≤ √(2 / 3) * ((0 : ℕ) : ℝ)
    simp
  · show tr3 (((0 : ℕ) : ℝ) • m) = 0
    rw [tr3_smul, mt, mul_zero]
  · have h1 : (fun k => ε (k + 1 + 1) - ε (k + 1)) = fun _ => isoS G Kb *ᵥ ((2 * G) • m) := by
      funext k
      show isoS G Kb *ᵥ _ - isoS G Kb *ᵥ _ = _
      rw [← mulVec_sub]
      congr 1
      rw [add_sub_add_left_eq_sub, ← smul_sub, ← sub_smul]
      congr 1
      push_cast
      rw [show ((k : ℝ) + 1 + 1 - (k + 1)) = 1 by ring, one_smul]
    rw [h1] at h
    have h2 := tendsto_nhds_unique h tendsto_const_nhds
    have h3 : isoC G Kb *ᵥ (isoS G Kb *ᵥ ((2 * G) • m)) = (2 * G) • m := by
      rw [mulVec_mulVec, (C36_iso_inverse G Kb hG hB).2, one_mulVec]
    rw [← h2, mulVec_zero] at h3
    have h4 : m = 0 := (smul_eq_zero.1 h3.symm).resolve_left (by positivity)
    rw [h4, dotProduct_zero] at mm
    exact zero_ne_one mm

/-! ## There are such paths -/

theorem path_of_steps {P : State7 → Prop} {R : ℕ → State7 → State7 → Prop} (h : ∀ k x, P x → ∃ z, R k x z ∧ P z) {x0 : State7}
    (h0 : P x0) : ∃ x : ℕ → State7, x 0 = x0 ∧ ∀ k, R k (x k) (x (k + 1)) := by
  have h' : ∀ k (x : {x // P x}), ∃ z : {x // P x}, R k x.1 z.1 := fun k x => by
    obtain ⟨z, h1, h2⟩ := h k x.1 x.2
    exact ⟨⟨z, h2⟩, h1⟩
  choose f hf using h'
  let w : ℕ → {x // P x} := fun k => Nat.rec ⟨x0, h0⟩ (fun k x => f k x) k
  exact ⟨fun k => (w k).1, rfl, fun k => hf k (w k)⟩

/-- C206: every history of strains has an exact path. -/
theorem C206_strain_path (hG : 0 < G) (hy : 0 ≤ y) (hK : 0 ≤ K) (hH : 0 ≤ H) (e : ℕ → Fin 6 → ℝ) (t : ℕ → ℝ) {x0 : State7}
    (h0 : Sound x0) (hT : x0.T = T) : ∃ x, x 0 = x0 ∧ ExactPath el G y K H T x e t := by
  obtain ⟨x, hx0, hx⟩ := path_of_steps (P := fun x => Sound x) (R := fun k x z => ExactStep el G y K H T x (e k, t k) z)
    (fun k x hx => by
      have h1 := C189_closed (y := y) hG hK hH (t := trial' el x (e k) T) (al := ac x) (b := bk x) hx.2
        (by unfold radius; have := hx.1; unfold ac; positivity) rfl
      rw [← state_h] at h1
      exact ⟨⟨e k, T, t k, _, _, 0, 0⟩, ⟨h1, rfl, rfl, rfl⟩, h1.sound hx⟩) h0
  exact ⟨x, hx0, by rw [hx0, hT], hx⟩

/-- C206: with kinematic hardening every history of stresses has one as well. -/
theorem C206_stress_path (hG : 0 < G) (hB : 0 < Kb) (hC : el.C T = isoC G Kb) (hS : el.S T = isoS G Kb) (hy : 0 ≤ y)
    (hK : 0 ≤ K) (hH : 0 < H) (σ : ℕ → Fin 6 → ℝ) (t : ℕ → ℝ) {x0 : State7} (h0 : Sound x0) (hT : x0.T = T) :
    ∃ x e, x 0 = x0 ∧ ExactPath el G y K H T x e t ∧ ∀ k, (x (k + 1)).s = σ k := by
  obtain ⟨x, hx0, hx⟩ := path_of_steps (P := fun x => Sound x ∧ x.T = T)
    (R := fun k x z => ExactStep el G y K H T x (z.e, t k) z ∧ z.s = σ k) (fun k x ⟨hx, hxT⟩ => by
      obtain ⟨Z, a, g, m, g0, mt, mm, hZ, ha, hf, hn⟩ := drag_exists hH hK (c := devVec (σ k)) (Z := H • bk x) (a := ac x)
        (y := y) (tr3_devVec _) (by rw [tr3_smul]; exact mul_eq_zero_of_right _ hx.2)
        (by have := hx.1; unfold ac; positivity)
      let z : State7 := ⟨isoS G Kb *ᵥ (σ k + (2 * G) • (bk x + g • m) - residual G Kb x), T, t k, σ k,
        Sum.elim (fun _ => a) (bk x + g • m), 0, 0⟩
      have hb : H • bk z = Z := by
        show H • (bk x + g • m) = Z
        rw [hZ, smul_add, smul_smul]
      refine ⟨z, ⟨(exactStep_iff hG hB hC hS hxT _ _).2 ⟨?_, ⟨g, m, g0, mt, mm, rfl, ha, ?_⟩, rfl, rfl, rfl⟩, rfl⟩, ⟨?_, ?_⟩, rfl⟩
      · show σ k + (2 * G) • (bk x + g • m) - isoC G Kb *ᵥ (isoS G Kb *ᵥ
          (σ k + (2 * G) • (bk x + g • m) - residual G Kb x)) = residual G Kb x
        rw [mulVec_mulVec, (C36_iso_inverse G Kb hG hB).2, one_mulVec]
        abel
      · rw [hb]
        exact ⟨hf, hn⟩
      · show 0 ≤ a
        have := hx.1
        have h2 : 0 ≤ √(2 / 3) * g := by positivity
        rw [ha]
        exact add_nonneg this h2
      · show tr3 (bk x + g • m) = 0
        rw [tr3_add, tr3_smul, mt, show tr3 (bk x) = 0 from hx.2]
        ring) ⟨h0, hT⟩
  exact ⟨x, fun k => (x (k + 1)).e, hx0, ⟨by rw [hx0, hT], fun k => (hx k).1⟩, fun k => (hx k).2⟩

/-- C206: and so it has with isotropic hardening alone. -/
theorem C206_isotropic_path (hG : 0 < G) (hB : 0 < Kb) (hC : el.C T = isoC G Kb) (hS : el.S T = isoS G Kb) (hy : 0 ≤ y)
    (hK : 0 < K) (σ : ℕ → Fin 6 → ℝ) (t : ℕ → ℝ) {x0 : State7} (h0 : Sound x0) (hT : x0.T = T) :
    ∃ x e, x 0 = x0 ∧ ExactPath el G y K 0 T x e t ∧ ∀ k, (x (k + 1)).s = σ k := by
  have hsq : (0 : ℝ) < √(2 / 3) := by positivity
  obtain ⟨x, hx0, hx⟩ := path_of_steps (P := fun x => Sound x ∧ x.T = T)
    (R := fun k x z => ExactStep el G y K 0 T x (z.e, t k) z ∧ z.s = σ k) (fun k x ⟨hx, hxT⟩ => by
      have ha0 : 0 ≤ ac x := hx.1
      obtain ⟨g, m, g0, mt, mm, hf, hn⟩ : ∃ g m, 0 ≤ g ∧ tr3 m = 0 ∧ m ⬝ᵥ m = 1 ∧
          norm2 (devVec (σ k)) ≤ √(2 / 3) * (y + K * (ac x + √(2 / 3) * g)) ∧
          (0 < g → norm2 (devVec (σ k)) = √(2 / 3) * (y + K * (ac x + √(2 / 3) * g)) ∧
            devVec (σ k) = norm2 (devVec (σ k)) • m) := by
        rcases le_or_gt (norm2 (devVec (σ k))) (√(2 / 3) * (y + K * ac x)) with h | h
        · obtain ⟨m, mt, mm⟩ := shear_unit'
          exact ⟨0, m, le_rfl, mt, mm, by rw [mul_zero, add_zero]; exact h, fun h => absurd h (lt_irrefl 0)⟩
        · have hn : 0 < norm2 (devVec (σ k)) := lt_of_le_of_lt (by positivity) h
          have h2 : norm2 (devVec (σ k)) * norm2 (devVec (σ k)) = devVec (σ k) ⬝ᵥ devVec (σ k) := by
            rw [norm2]
            exact Real.mul_self_sqrt (Finset.sum_nonneg fun i _ => mul_self_nonneg _)
          have e : √(2 / 3) * (y + K * (ac x + √(2 / 3) * ((norm2 (devVec (σ k)) / √(2 / 3) - y - K * ac x) / (K * √(2 / 3))))) =
              norm2 (devVec (σ k)) := by
            field_simp
            ring
          refine ⟨(norm2 (devVec (σ k)) / √(2 / 3) - y - K * ac x) / (K * √(2 / 3)), (norm2 (devVec (σ k)))⁻¹ • devVec (σ k),
            div_nonneg ?_ (by positivity), by rw [tr3_smul, tr3_devVec, mul_zero], ?_, e.ge, fun _ => ⟨e.symm, ?_⟩⟩
          · have : y + K * ac x ≤ norm2 (devVec (σ k)) / √(2 / 3) := by
              rw [le_div_iff₀ hsq]
              linarith
            linarith
          · rw [smul_dotProduct, dotProduct_smul, ← h2]
            simp only [smul_eq_mul]
            field_simp
          · rw [smul_smul, mul_inv_cancel₀ hn.ne', one_smul]
      let z : State7 := ⟨isoS G Kb *ᵥ (σ k + (2 * G) • (bk x + g • m) - residual G Kb x), T, t k, σ k,
        Sum.elim (fun _ => ac x + √(2 / 3) * g) (bk x + g • m), 0, 0⟩
      refine ⟨z, ⟨(exactStep_iff hG hB hC hS hxT _ _).2 ⟨?_, ⟨g, m, g0, mt, mm, rfl, rfl, ?_⟩, rfl, rfl, rfl⟩, rfl⟩, ⟨?_, ?_⟩, rfl⟩
      · show σ k + (2 * G) • (bk x + g • m) - isoC G Kb *ᵥ (isoS G Kb *ᵥ
          (σ k + (2 * G) • (bk x + g • m) - residual G Kb x)) = residual G Kb x
        rw [mulVec_mulVec, (C36_iso_inverse G Kb hG hB).2, one_mulVec]
        abel
      · rw [zero_smul, sub_zero]
        exact ⟨hf, hn⟩
      · show 0 ≤ ac x + √(2 / 3) * g
        positivity
      · show tr3 (bk x + g • m) = 0
        rw [tr3_add, tr3_smul, mt, show tr3 (bk x) = 0 from hx.2]
        ring) ⟨h0, hT⟩
  exact ⟨x, fun k => (x (k + 1)).e, hx0, ⟨by rw [hx0, hT], fun k => (hx k).1⟩, fun k => (hx k).2⟩

/-- C206: the steps the code computes are exact if no trial stress is outside the surface by less than the tolerance, so what it
computes settles as well. -/
theorem C206_taken {eps : ℝ} {s0 Ki Hk : ℝ → ℝ} {lin} {p : Newton.Params} {fuel : ℕ} {inv} (he : 0 < eps)
    (hs : Standard p fuel) (hl : ExactSolve lin) (hv : ExactInv inv) (hG : 0 < G) (hB : 0 < Kb) (hC : el.C T = isoC G Kb)
    (hS : el.S T = isoS G Kb) (hH : 0 ≤ Hk T) (hK : 0 ≤ Ki T) (hk : eps ≤ √(2 / 3) * s0 T) {x : ℕ → State7}
    {e : ℕ → Fin 6 → ℝ} {t : ℕ → ℝ} (h0 : Sound (x 0)) (hT : (x 0).T = T)
    (hx : ∀ k, Takes (rateIndep q7Index el (linearFlow eps s0 Ki Hk) lin p fuel inv) T (x k) (e k, t k) (x (k + 1)))
    (hb : ∀ k, over (Hk T) (radius (s0 T) (Ki T) (ac (x k))) (trial' el (x k) (e k) T) (bk (x k)) ≤ 0 ∨
      p.atol ≤ over (Hk T) (radius (s0 T) (Ki T) (ac (x k))) (trial' el (x k) (e k) T) (bk (x k))) :
    ExactPath el G (s0 T) (Ki T) (Hk T) T x e t := by
  have h (k : ℕ) : Sound (x k) ∧ (x k).T = T := by
    induction k with
    | zero => exact ⟨h0, hT⟩
    | succ k ih =>
      obtain ⟨inc, h1, h2⟩ := C189_step he hs hl hv hG hB hC hS hH hK hk ih.1 ih.2 (e k) (t k)
      obtain ⟨inc', g1, -, g3, -, g4, -⟩ := hx k
      rw [h1] at g1
      obtain rfl := Option.some.inj g1
      obtain ⟨s, h', -, -, -, h3, h4⟩ := h2
      exact ⟨⟨by rw [g3]; exact h3, by rw [g3]; exact h4⟩, g4⟩
  refine ⟨hT, fun k => ?_⟩
  obtain ⟨inc, h1, s, h', hE, -, hex, -⟩ := C189_step he hs hl hv hG hB hC hS hH hK hk (h k).1 (h k).2 (e k) (t k)
  obtain ⟨inc', g1, g2, g3, g4, g5, g6⟩ := hx k
  rw [h1] at g1
  obtain rfl := Option.some.inj g1
  obtain ⟨q1, q2⟩ := hex (hb k)
  refine ⟨?_, g4, g5, g6⟩
  rw [g2, g3, q1, q2]
  exact hE

/-- A perfectly plastic bar strained to and fro settles. -/
example : ∃ x z : ℕ → State7, ExactPath (isoElastic (1 / 2) 1) (1 / 2) 1 0 0 0 x (fun k => (-1) ^ k • ![3, 0, 0, 0, 0, 0]) (fun k => k) ∧
    x 0 = ⟨0, 0, 0, 0, 0, 0, 0⟩ ∧
    ExactPath (isoElastic (1 / 2) 1) (1 / 2) 1 0 0 0 z (fun k => (-1) ^ k • ![3, 0, 0, 0, 0, 0]) (fun k => k) ∧
    (∀ k, (z (k + 2)).s = (z k).s) ∧ Tendsto (fun k => (x k).s - (z k).s) atTop (𝓝 0) := by
  have h0 : Sound ⟨0, 0, 0, 0, 0, 0, 0⟩ := ⟨le_rfl, by simp [tr3]⟩
  obtain ⟨x, hx0, hx⟩ := C206_strain_path (el := isoElastic (1 / 2) 1) (G := 1 / 2) (y := 1) (K := 0) (H := 0) (T := 0)
    (by norm_num) zero_le_one le_rfl le_rfl (fun k => (-1) ^ k • ![3, 0, 0, 0, 0, 0]) (fun k => (k : ℝ)) h0 rfl
  obtain ⟨z, hz, -, hzN, hlim, -⟩ := C206_strain (Kb := 1) (by norm_num) one_pos rfl rfl zero_le_one le_rfl le_rfl
    (N := 2) two_pos (fun k => by simp only [pow_add]; norm_num) hx (by rw [hx0]; exact h0)
  exact ⟨x, z, hx, hx0, hz, fun k => (hzN k).1, hlim⟩

/-- A bar with kinematic hardening under a steady tension and a shear to and fro stops ratchetting. -/
example : ∃ (x : ℕ → State7) (e : ℕ → Fin 6 → ℝ), ExactPath (isoElastic (1 / 2) 1) (1 / 2) 1 0 1 0 x e (fun k => k) ∧
    (∀ k, (x (k + 1)).s = ![1, 0, 0, 0, 0, 2 * (-1) ^ k]) ∧ Tendsto (fun k => e (k + 2) - e k) atTop (𝓝 0) := by
  have h0 : Sound ⟨0, 0, 0, 0, 0, 0, 0⟩ := ⟨le_rfl, by simp [tr3]⟩
  obtain ⟨x, e, hx0, hx, hs⟩ := C206_stress_path (el := isoElastic (1 / 2) 1) (G := 1 / 2) (Kb := 1) (y := 1) (K := 0) (H := 1)
    (T := 0) (by norm_num) one_pos rfl rfl zero_le_one le_rfl one_pos (fun k => ![1, 0, 0, 0, 0, 2 * (-1) ^ k])
    (fun k => (k : ℝ)) h0 rfl
  obtain ⟨z, e', -, -, -, -, -, h, -⟩ := C206_stress (Kb := 1) (by norm_num) one_pos rfl rfl zero_le_one le_rfl one_pos
    (N := 2) two_pos (σ := fun k => ![1, 0, 0, 0, 0, 2 * (-1) ^ k]) (fun k => by simp only [pow_add]; norm_num) hx hs
    (by rw [hx0]; exact h0)
  exact ⟨x, e, hx, hs, h⟩

/-- A bar with isotropic hardening under the same stresses comes to rest. -/
example : ∃ (x : ℕ → State7) (e : ℕ → Fin 6 → ℝ), ExactPath (isoElastic (1 / 2) 1) (1 / 2) 1 1 0 0 x e (fun k => k) ∧
    (∀ k, (x (k + 1)).s = ![1, 0, 0, 0, 0, 2 * (-1) ^ k]) ∧ ∃ h, Tendsto (fun k => (x k).h) atTop (𝓝 h) := by
  have h0 : Sound ⟨0, 0, 0, 0, 0, 0, 0⟩ := ⟨le_rfl, by simp [tr3]⟩
  obtain ⟨x, e, hx0, hx, hs⟩ := C206_isotropic_path (el := isoElastic (1 / 2) 1) (G := 1 / 2) (Kb := 1) (y := 1) (K := 1) (T := 0)
    (by norm_num) one_pos rfl rfl zero_le_one one_pos (fun k => ![1, 0, 0, 0, 0, 2 * (-1) ^ k]) (fun k => (k : ℝ)) h0 rfl
  obtain ⟨z, e', -, -, -, -, -, -, h⟩ := C206_stress_isotropic (Kb := 1) (by norm_num) one_pos rfl rfl one_pos
    (N := 2) two_pos (σ := fun k => ![1, 0, 0, 0, 0, 2 * (-1) ^ k]) (fun k => by simp only [pow_add]; norm_num) hx hs
    (by rw [hx0]; exact h0)
  exact ⟨x, e, hx, hs, _, h⟩

end Neml.SolveStep
