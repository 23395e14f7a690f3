import Verif.Props.Settle
import Verif.Props.SlowLimit

/-!
# C207: cyclic straining of viscoplastic materials settles

Linear isotropic hardening or none, any flow function that grows without jumps. Specification: a path of exact viscoplastic
steps (`ViscoStep`, each a solution of the equations of its step) whose strains and time steps repeat themselves approaches a
path of exact steps whose stresses repeat themselves.
-/

namespace Neml.SolveStep

open Matrix Filter Topology Neml.SmallStrain Neml.Flow Neml.Mandel Neml.Elastic Neml.Settle

/-! ## Surfaces that drag with a delay -/

/-- Distance from the surface about `c`. -/
noncomputable def off (mu y K : ℝ) (c : Fin 6 → ℝ) (v : Plane) : ℝ :=
  norm2 (c - partZ v) - √(2 / 3) * (y + √(mu * K) / mu * partA v)

/-- A surface drags a point for the time `dt` at a rate that depends on its final distance. -/
def VStep (mu y K eps : ℝ) (φ : ℝ → ℝ) (c : Fin 6 → ℝ) (dt : ℝ) (v v' : Plane) : Prop :=
  eps ≤ √(2 / 3) * (y + √(mu * K) / mu * partA v') ∧
  partZ v' - partZ v = (mu * (dt * φ (off mu y K c v')) / max (norm2 (c - partZ v')) eps) • (c - partZ v') ∧
  partA v' - partA v = √(mu * K) * (√(2 / 3) * (dt * φ (off mu y K c v'))) ∧ (K = 0 → partA v' = 0) ∧
  tr3 (partZ v') = 0

theorem norm2_mul_self (d : Fin 6 → ℝ) : norm2 d * norm2 d = d ⬝ᵥ d := by
  rw [norm2]
  exact Real.mul_self_sqrt (Finset.sum_nonneg fun i _ => mul_self_nonneg _)

theorem dot_le_norms (d w : Fin 6 → ℝ) : d ⬝ᵥ w ≤ norm2 d * norm2 w := by
  have h := real_inner_le_norm (WithLp.toLp 2 d : EuclideanSpace ℝ (Fin 6)) (WithLp.toLp 2 w)
  rw [← norm2_lp, ← norm2_lp, PiLp.inner_apply] at h
  refine le_trans (le_of_eq ?_) h
  exact Finset.sum_congr rfl fun i _ => mul_comm _ _

theorem pull {g eps : ℝ} (hg : 0 ≤ g) (he : 0 < eps) {d : Fin 6 → ℝ} (h : 0 < g → eps ≤ norm2 d) (w : Fin 6 → ℝ) :
    g * (norm2 d - norm2 w) ≤ g / max (norm2 d) eps * (d ⬝ᵥ (d - w)) := by
  rcases hg.eq_or_lt with h0 | h0
  · rw [← h0]
    simp
  · have hd := h h0
    have hd0 : 0 < norm2 d := he.trans_le hd
    rw [max_eq_left hd, dotProduct_sub, ← norm2_mul_self, div_mul_eq_mul_div, le_div_iff₀ hd0]
    nlinarith [dot_le_norms d w]

section

variable {mu y K eps : ℝ} {φ : ℝ → ℝ} {c : Fin 6 → ℝ} {dt : ℝ}

theorem VStep.far (hφ0 : ∀ f, f ≤ 0 → φ f = 0) (hdt : 0 ≤ dt) {v v' : Plane} (h : VStep mu y K eps φ c dt v v')
    (hg : 0 < dt * φ (off mu y K c v')) : eps ≤ norm2 (c - partZ v') := by
  have h1 : 0 < off mu y K c v' := by
    by_contra hn
    rw [hφ0 _ (not_lt.1 hn), mul_zero] at hg
    exact lt_irrefl 0 hg
  have := h.1
  unfold off at h1
  linarith

theorem VStep.firm (hmu : 0 < mu) (he : 0 < eps) (hφ : Monotone φ) (hφ0 : ∀ f, f ≤ 0 → φ f = 0) (hdt : 0 ≤ dt)
    {v1 v1' v2 v2' : Plane} (h1 : VStep mu y K eps φ c dt v1 v1') (h2 : VStep mu y K eps φ c dt v2 v2') :
    0 ≤ inner ℝ (v1' - v2') ((v1 - v1') - (v2 - v2')) := by
  have hn (f : ℝ) : 0 ≤ φ f := by
    rcases le_total f 0 with h | h
    · rw [hφ0 f h]
    · rw [← hφ0 0 le_rfl]
      exact hφ h
  have far1 := h1.far hφ0 hdt
  have far2 := h2.far hφ0 hdt
  obtain ⟨-, b1, c1, -⟩ := h1
  obtain ⟨-, b2, c2, -⟩ := h2
  obtain ⟨g1, hg1⟩ : ∃ g, g = dt * φ (off mu y K c v1') := ⟨_, rfl⟩
  obtain ⟨g2, hg2⟩ : ∃ g, g = dt * φ (off mu y K c v2') := ⟨_, rfl⟩
  have hmon : 0 ≤ (g1 - g2) * (off mu y K c v1' - off mu y K c v2') := by
    rw [hg1, hg2, ← mul_sub, mul_assoc]
    refine mul_nonneg hdt ?_
    rcases le_total (off mu y K c v1') (off mu y K c v2') with h | h
    · exact mul_nonneg_of_nonpos_of_nonpos (sub_nonpos.2 (hφ h)) (sub_nonpos.2 h)
    · exact mul_nonneg (sub_nonneg.2 (hφ h)) (sub_nonneg.2 h)
  rw [← hg1] at far1 b1 c1
  rw [← hg2] at far2 b2 c2
  have hg10 : 0 ≤ g1 := by rw [hg1]; exact mul_nonneg hdt (hn _)
  have hg20 : 0 ≤ g2 := by rw [hg2]; exact mul_nonneg hdt (hn _)
  have p1 := pull hg10 he far1 (c - partZ v2')
  have p2 := pull hg20 he far2 (c - partZ v1')
  rw [inner_plane]
  obtain ⟨d1, hd1⟩ : ∃ d, d = c - partZ v1' := ⟨_, rfl⟩
  obtain ⟨d2, hd2⟩ : ∃ d, d = c - partZ v2' := ⟨_, rfl⟩
  have e1 : partZ (v1' - v2') = d2 - d1 := by
    rw [partZ_sub, hd1, hd2]
    abel
  have e2 : partZ ((v1 - v1') - (v2 - v2')) = (mu * g2 / max (norm2 d2) eps) • d2 - (mu * g1 / max (norm2 d1) eps) • d1 := by
    rw [hd1, hd2, ← b1, ← b2]
    simp only [partZ_sub]
    abel
  have e3 : partA (v1' - v2') = partA v1' - partA v2' := rfl
  have e4 : partA ((v1 - v1') - (v2 - v2')) = √(mu * K) * (√(2 / 3) * g2) - √(mu * K) * (√(2 / 3) * g1) := by
    rw [← c1, ← c2]
    show (partA v1 - partA v1') - (partA v2 - partA v2') = _
    ring
  rw [← hd1, ← hd2] at p1 p2
  have e5 : off mu y K c v1' - off mu y K c v2' =
      (norm2 d1 - norm2 d2) - √(2 / 3) * (√(mu * K) / mu * (partA v1' - partA v2')) := by
    rw [off, off, hd1, hd2]
    ring
  rw [e5] at hmon
  rw [e1, e2, e3, e4, dotProduct_sub, dotProduct_smul, dotProduct_smul, smul_eq_mul, smul_eq_mul]
  have q1 : (d2 - d1) ⬝ᵥ d2 = d2 ⬝ᵥ (d2 - d1) := dotProduct_comm _ _
  have q2 : (d2 - d1) ⬝ᵥ d1 = -(d1 ⬝ᵥ (d1 - d2)) := by
    rw [dotProduct_comm, ← neg_sub d1 d2, dotProduct_neg]
  rw [q1, q2]
  have m1 := mul_le_mul_of_nonneg_left p1 hmu.le
  have m2 := mul_le_mul_of_nonneg_left p2 hmu.le
  have m3 := mul_nonneg hmu.le hmon
  have m4 : mu * ((g1 - g2) * ((norm2 d1 - norm2 d2) - √(2 / 3) * (√(mu * K) / mu * (partA v1' - partA v2')))) =
      mu * (g1 * (norm2 d1 - norm2 d2)) + mu * (g2 * (norm2 d2 - norm2 d1)) +
        (partA v1' - partA v2') * (√(mu * K) * (√(2 / 3) * g2) - √(mu * K) * (√(2 / 3) * g1)) := by
    field_simp
    ring
  have m5 : mu * (g1 / max (norm2 d1) eps * (d1 ⬝ᵥ (d1 - d2))) = mu * g1 / max (norm2 d1) eps * (d1 ⬝ᵥ (d1 - d2)) := by ring
  have m6 : mu * (g2 / max (norm2 d2) eps * (d2 ⬝ᵥ (d2 - d1))) = mu * g2 / max (norm2 d2) eps * (d2 ⬝ᵥ (d2 - d1)) := by ring
  rw [m4] at m3
  rw [m5] at m1
  rw [m6] at m2
  linarith

theorem VStep.unique (hmu : 0 < mu) (he : 0 < eps) (hφ : Monotone φ) (hφ0 : ∀ f, f ≤ 0 → φ f = 0) (hdt : 0 ≤ dt)
    {v v' v'' : Plane} (h1 : VStep mu y K eps φ c dt v v') (h2 : VStep mu y K eps φ c dt v v'') : v' = v'' := by
  have h1 := firm_closer (h1.firm hmu he hφ hφ0 hdt h2)
  rw [sub_self, norm_zero] at h1
  have h2 : ‖v' - v''‖ ^ 2 ≤ 0 := by nlinarith [sq_nonneg ‖(v - v') - (v - v'')‖]
  exact sub_eq_zero.1 (norm_eq_zero.1 (pow_eq_zero_iff two_ne_zero |>.1 (le_antisymm h2 (by positivity))))

theorem VStep.nonexpansive (hmu : 0 < mu) (he : 0 < eps) (hφ : Monotone φ) (hφ0 : ∀ f, f ≤ 0 → φ f = 0) (hdt : 0 ≤ dt)
    {v1 v1' v2 v2' : Plane} (h1 : VStep mu y K eps φ c dt v1 v1') (h2 : VStep mu y K eps φ c dt v2 v2') :
    ‖v1' - v2'‖ ≤ ‖v1 - v2‖ := by
  have := firm_closer (h1.firm hmu he hφ hφ0 hdt h2)
  refine le_of_sq_le_sq ?_ (norm_nonneg _)
  nlinarith [sq_nonneg ‖(v1 - v1') - (v2 - v2')‖]

theorem continuous_off (mu y K : ℝ) (c : Fin 6 → ℝ) : Continuous (off mu y K c) :=
  (continuous_norm2.comp (continuous_const.sub continuous_partZ)).sub
    (continuous_const.mul (continuous_const.add (continuous_const.mul continuous_partA)))

theorem VStep.closed (he : 0 < eps) (hc : Continuous φ) (u v : ℕ → Plane) (a b : Plane)
    (h : ∀ n, VStep mu y K eps φ c dt (u n) (v n)) (hu : Tendsto u atTop (𝓝 a)) (hv : Tendsto v atTop (𝓝 b)) :
    VStep mu y K eps φ c dt a b := by
  have hφ : Continuous fun v => dt * φ (off mu y K c v) := continuous_const.mul (hc.comp (continuous_off _ _ _ _))
  have hd : Continuous fun v : Plane => c - partZ v := continuous_const.sub continuous_partZ
  have hF : Continuous fun v => (mu * (dt * φ (off mu y K c v)) / max (norm2 (c - partZ v)) eps) • (c - partZ v) :=
    ((continuous_const.mul hφ).div ((continuous_norm2.comp hd).max continuous_const)
      fun v => (lt_max_of_lt_right he).ne').smul hd
  refine ⟨?_, ?_, ?_, fun hK => ?_, ?_⟩
  · exact ge_of_tendsto' (((continuous_const.mul (continuous_const.add (continuous_const.mul continuous_partA))).tendsto b).comp hv)
      fun n => (h n).1
  · exact tendsto_nhds_unique (((continuous_partZ.tendsto b).comp hv).sub ((continuous_partZ.tendsto a).comp hu))
      (((hF.tendsto b).comp hv).congr fun n => (h n).2.1.symm)
  · exact tendsto_nhds_unique (((continuous_partA.tendsto b).comp hv).sub ((continuous_partA.tendsto a).comp hu))
      ((((continuous_const.mul (continuous_const.mul hφ)).tendsto b).comp hv).congr fun n => (h n).2.2.1.symm)
  · exact tendsto_nhds_unique ((continuous_partA.tendsto b).comp hv)
      (tendsto_const_nhds.congr fun n => ((h n).2.2.2.1 hK).symm)
  · exact tendsto_nhds_unique (((continuous_tr3.comp continuous_partZ).tendsto b).comp hv)
      (tendsto_const_nhds.congr fun n => (h n).2.2.2.2.symm)

/-- A point within some bound stays within it. -/
theorem VStep.bounded (hmu : 0 < mu) (he : 0 < eps) (hφ : Monotone φ) (hφ0 : ∀ f, f ≤ 0 → φ f = 0) (hdt : 0 ≤ dt)
    {B L r : ℝ} (hB : norm2 c ≤ B) (hL : 2 * B ≤ mu * (dt * φ L)) {v v' : Plane} (h : VStep mu y K eps φ c dt v v')
    (hr : √(2 / 3) * (y + √(mu * K) / mu * partA v') ≤ r) :
    norm2 (partZ v') ≤ max (norm2 (partZ v)) (L + r + B) := by
  have tri (p q : Fin 6 → ℝ) : norm2 (p - q) ≤ norm2 p + norm2 q := by
    rw [norm2_lp, norm2_lp, norm2_lp, WithLp.toLp_sub]
    exact norm_sub_le _ _
  have h1 : norm2 (partZ v') ≤ B + norm2 (c - partZ v') := by
    have := tri c (c - partZ v')
    rw [sub_sub_cancel] at this
    linarith
  rcases le_total (off mu y K c v') L with h2 | h2
  · refine le_max_of_le_right ?_
    unfold off at h2
    linarith
  · refine le_max_of_le_left ?_
    have h3 : mu * (dt * φ L) ≤ mu * (dt * φ (off mu y K c v')) :=
      mul_le_mul_of_nonneg_left (mul_le_mul_of_nonneg_left (hφ h2) hdt) hmu.le
    have hB0 : 0 ≤ B := (Real.sqrt_nonneg _ : 0 ≤ norm2 c).trans hB
    have hg0 : 0 ≤ mu * (dt * φ (off mu y K c v')) := by linarith
    have h4 : norm2 (c - partZ v) = norm2 (c - partZ v') + mu * (dt * φ (off mu y K c v')) := by
      have e : c - partZ v = (1 + mu * (dt * φ (off mu y K c v')) / max (norm2 (c - partZ v')) eps) • (c - partZ v') := by
        rw [add_smul, one_smul, ← h.2.1]
        abel
      have hm : 0 < max (norm2 (c - partZ v')) eps := lt_max_of_lt_right he
      rw [e, norm2_lp, WithLp.toLp_smul, norm_smul, ← norm2_lp, Real.norm_of_nonneg (by positivity)]
      rcases hg0.eq_or_lt with h0 | h0
      · rw [← h0]
        ring
      · have h5 := h.far hφ0 hdt ((mul_pos_iff_of_pos_left hmu).1 h0)
        rw [max_eq_left h5]
        have : norm2 (c - partZ v') ≠ 0 := (he.trans_le h5).ne'
        field_simp
    have h6 := tri c (partZ v)
    linarith

end

/-- Surfaces that come back leave some path that comes back. -/
theorem visco_cycle {mu y K eps : ℝ} (hmu : 0 < mu) (he : 0 < eps) (hK : 0 ≤ K) {φ : ℝ → ℝ} (hφ : Monotone φ)
    (hφ0 : ∀ f, f ≤ 0 → φ f = 0) {N : ℕ} (hN : 0 < N) {c : ℕ → Fin 6 → ℝ} (hcN : ∀ k, c (k + N) = c k) {dt : ℕ → ℝ}
    (hdt : ∀ k, 0 < dt k) (hdN : ∀ k, dt (k + N) = dt k) (hu : K = 0 → ∀ M, ∃ f, 0 ≤ f ∧ M ≤ φ f)
    (hy : K = 0 → 0 ≤ y)
    (hs : K = 0 → ∀ k v, partA v = 0 → tr3 (partZ v) = 0 → ∃ v', VStep mu y K eps φ (c k) (dt k) v v') :
    ∃ p : ℕ → Plane, (∀ k, VStep mu y K eps φ (c k) (dt k) (p k) (p (k + 1))) ∧ ∀ k, p (k + N) = p k := by
  obtain ⟨B, hB0, hB⟩ := periodic_bound hN (f := fun k => norm2 (c k)) fun k => by rw [hcN]
  have hsq : (0 : ℝ) < √(2 / 3) := by positivity
  rcases hK.eq_or_lt with h0 | h0
  · have h0 := h0.symm
    have hy := hy h0
    obtain ⟨M, hM0, hM⟩ := periodic_bound hN (f := fun k => (dt k)⁻¹) fun k => by rw [hdN]
    obtain ⟨L, hL0, hL⟩ := hu h0 (2 * B / mu * M)
    have hth : √(mu * K) / mu = 0 := by rw [h0, mul_zero, Real.sqrt_zero, zero_div]
    have hL' (k : ℕ) : 2 * B ≤ mu * (dt k * φ L) := by
      have h1 : 1 ≤ dt k * M := by
        have := mul_le_mul_of_nonneg_left (hM k) (hdt k).le
        rwa [mul_inv_cancel₀ (hdt k).ne'] at this
      have h2 : mu * (dt k * (2 * B / mu * M)) ≤ mu * (dt k * φ L) :=
        mul_le_mul_of_nonneg_left (mul_le_mul_of_nonneg_left hL (hdt k).le) hmu.le
      have h3 : mu * (dt k * (2 * B / mu * M)) = 2 * B * (dt k * M) := by field_simp
      rw [h3] at h2
      nlinarith
    obtain ⟨R, hR⟩ : ∃ R, R = L + √(2 / 3) * y + B := ⟨_, rfl⟩
    have hR0 : 0 ≤ R := by rw [hR]; positivity
    obtain ⟨S0, hS0⟩ : ∃ S, S = region mu (R / √(2 / 3)) 0 0 := ⟨_, rfl⟩
    have hmem (v : Plane) : v ∈ S0 ↔ norm2 (partZ v) ≤ R ∧ tr3 (partZ v) = 0 ∧ partA v = 0 := by
      have e1 : √(2 / 3) * (R / √(2 / 3) + √(mu * 0) / mu * partA v) = R := by
        rw [mul_zero, Real.sqrt_zero]
        field_simp
        ring
      have e2 : norm2 (0 - partZ v) = norm2 (partZ v) := by
        rw [zero_sub, norm2, norm2, neg_dotProduct, dotProduct_neg, neg_neg]
      rw [hS0]
      show (norm2 (0 - partZ v) ≤ √(2 / 3) * (R / √(2 / 3) + √(mu * 0) / mu * partA v) ∧ tr3 (partZ v) = 0 ∧
        ((0 : ℝ) = 0 → partA v = 0)) ↔ _
      rw [e1, e2]
      simp
    have hex (k : ℕ) (v : Plane) : ∃ v', v ∈ S0 → VStep mu y K eps φ (c k) (dt k) v v' ∧ v' ∈ S0 := by
      by_cases hv : v ∈ S0
      · obtain ⟨v1, v2, v3⟩ := (hmem v).1 hv
        obtain ⟨v', w1⟩ := hs h0 k v v3 v2
        refine ⟨v', fun _ => ⟨w1, (hmem v').2 ⟨?_, w1.2.2.2.2, w1.2.2.2.1 h0⟩⟩⟩
        have := w1.bounded hmu he hφ hφ0 (hdt k).le (hB k) (hL' k) (r := √(2 / 3) * y) (by rw [hth]; simp)
        rw [← hR] at this
        exact this.trans (max_le v1 le_rfl)
      · exact ⟨v, fun h => absurd h hv⟩
    choose P hP using hex
    have hproj (x : Plane) : ∃ x', Nearest S0 x x' := by
      have hc : IsClosed S0 := by rw [hS0]; exact region_closed _ _ _ _
      have hv : Convex ℝ S0 := by rw [hS0]; exact region_convex _ _ _ _
      obtain ⟨v, hv1, hv2⟩ := exists_norm_eq_iInf_of_complete_convex
        ⟨0, (hmem 0).2 ⟨by rw [show partZ (0 : Plane) = 0 from rfl]; simpa [norm2] using hR0, by simp [tr3, partZ], by simp [partA]⟩⟩ hc.isComplete hv x
      exact ⟨v, hv1, (norm_eq_iInf_iff_real_inner_le_zero hv hv1).1 hv2⟩
    choose Q hQ using hproj
    let orbit (x : Plane) (k : ℕ) : Plane := Nat.rec (Q x) (fun k y => P k y) k
    have hin (x : Plane) (k : ℕ) : orbit x k ∈ S0 := by
      induction k with
      | zero => exact (hQ x).1
      | succ k ih => exact (hP k _ ih).2
    have hst (x : Plane) (k : ℕ) : VStep mu y K eps φ (c k) (dt k) (orbit x k) (orbit x (k + 1)) := (hP k _ (hin x k)).1
    have hon (k : ℕ) (x y : Plane) : ‖orbit x k - orbit y k‖ ≤ ‖x - y‖ := by
      induction k with
      | zero =>
        have := firm_closer (nearest_firm (hQ x) (hQ y))
        refine le_of_sq_le_sq ?_ (norm_nonneg _)
        show ‖Q x - Q y‖ ^ 2 ≤ _
        nlinarith [sq_nonneg ‖(x - Q x) - (y - Q y)‖]
      | succ k ih => exact ((hst x k).nonexpansive hmu he hφ hφ0 (hdt k).le (hst y k)).trans ih
    obtain ⟨x, hx⟩ := fixed_point (fun x => orbit x N) (hon N) R fun x => by
      obtain ⟨a1, -, a3⟩ := (hmem _).1 (hin x N)
      have := norm_plane (orbit x N)
      rw [a3] at this
      refine le_of_sq_le_sq ?_ hR0
      have h2 : (0 : ℝ) ≤ norm2 (partZ (orbit x N)) := Real.sqrt_nonneg _
      nlinarith
    have hx0 : orbit x 0 = x := by
      have h1 : x ∈ S0 := by
        have := hin x N
        rwa [show orbit x N = x from hx] at this
      exact nearest_unique (hQ x) ⟨h1, fun v _ => by simp⟩
    refine ⟨orbit x, hst x, fun k => ?_⟩
    induction k with
    | zero => rw [Nat.zero_add, hx0]; exact hx
    | succ k ih =>
      have h1 := hst x (k + N)
      rw [hcN, hdN, ih] at h1
      have := h1.unique hmu he hφ hφ0 (hdt k).le (hst x k)
      rwa [show k + 1 + N = k + N + 1 by ring]
  · have hth : 0 < √(mu * K) / mu := by positivity
    obtain ⟨A, hA⟩ : ∃ A, √(2 / 3) * (√(mu * K) / mu * A) = B + eps + √(2 / 3) * |y| :=
      ⟨(B + eps + √(2 / 3) * |y|) / √(2 / 3) / (√(mu * K) / mu), by field_simp⟩
    have hge : B + eps ≤ √(2 / 3) * (y + √(mu * K) / mu * A) := by
      rw [mul_add, hA]
      have := mul_le_mul_of_nonneg_left (neg_abs_le y) hsq.le
      linarith
    have hoff (k : ℕ) : off mu y K (c k) (WithLp.toLp 2 (Sum.elim 0 fun _ => A) : Plane) ≤ 0 := by
      have e1 : partZ (WithLp.toLp 2 (Sum.elim 0 fun _ => A) : Plane) = 0 := rfl
      have e2 : partA (WithLp.toLp 2 (Sum.elim 0 fun _ => A) : Plane) = A := rfl
      rw [off, e1, e2, sub_zero]
      have := hB k
      linarith
    refine ⟨fun _ => WithLp.toLp 2 (Sum.elim 0 fun _ => A), fun k => ⟨?_, ?_, ?_, fun h => absurd h h0.ne', ?_⟩, fun _ => rfl⟩
    · show eps ≤ √(2 / 3) * (y + √(mu * K) / mu * A)
      linarith
    · rw [hφ0 _ (hoff k)]
      simp
    · rw [hφ0 _ (hoff k)]
      simp
    · simp [tr3, partZ]

/-! ## Exact steps -/

section steps

variable {G Kb eps T : ℝ} {el : Elastic ℝ (Fin 6)} {s0 k : ℝ → ℝ} {gf : GFlow}

theorem rate_eq (hm : Flowing gf T) (f : ℝ) : rate gf T f = gf.g (max f 0) T := by
  rcases le_or_gt f 0 with h | h
  · rw [rate_of_nonpos h, max_eq_right h, hm.zero]
  · rw [rate_of_pos h, max_eq_left h.le]

theorem continuous_rate (hm : Flowing gf T) : Continuous (rate gf T) := by
  rw [show rate gf T = fun f => gf.g (max f 0) T from funext (rate_eq hm)]
  exact hm.cont.comp_continuous (continuous_id.max continuous_const) fun f => le_max_right f 0

/-- Plastic strain as a stress. -/
noncomputable def lagZ (G : ℝ) (x : State) : Fin 6 → ℝ := (2 * G) • devVec x.e - devVec x.s

/-- The stress that neither strain nor flow explains. -/
noncomputable def rest (G Kb : ℝ) (x : State) : Fin 6 → ℝ := x.s - isoC G Kb *ᵥ x.e + lagZ G x

theorem devVec_devVec (v : Fin 6 → ℝ) : devVec (devVec v) = devVec v := devVec_of_tr3 (tr3_devVec v)

theorem devVec_smul' (r : ℝ) (v : Fin 6 → ℝ) : devVec (r • v) = r • devVec v := by
  ext i
  fin_cases i <;> simp [devVec] <;> ring

theorem devVec_rest (x : State) : devVec (rest G Kb x) = 0 := by
  rw [rest, lagZ, devVec_add, devVec_sub, devVec_sub, devVec_isoC, devVec_smul', devVec_devVec, devVec_devVec]
  abel

theorem ViscoStep.vstep (he : 0 < eps) (hG : 0 < G) (hC : el.C T = isoC G Kb) (hm : Flowing gf T) (hk : 0 ≤ k T) {x w : State}
    {e : Fin 6 → ℝ} {t1 : ℝ} (hf : eps ≤ √(2 / 3) * (s0 T + k T * x.h ()))
    (h : ViscoStep el eps (linearIso s0 k) gf T x (e, t1) w) :
    VStep (2 * G) (s0 T) (k T) eps (rate gf T) ((2 * G) • devVec e) (t1 - x.t) (place (2 * G) (k T) (lagZ G x) (x.h ()))
      (place (2 * G) (k T) (lagZ G w) (w.h ())) ∧ rest G Kb w = rest G Kb x ∧
      eps ≤ √(2 / 3) * (s0 T + k T * w.h ()) ∧ w.e = e ∧ w.T = T ∧ w.t = t1 ∧
      w.h () = x.h () + √(2 / 3) * ((t1 - x.t) * rate gf T (excess (linearIso s0 k) T w.s (w.h ()))) := by
  have hmu : 0 < 2 * G := by positivity
  have M := visco_moves he hG hC hm (linear_tame hG hk hf) h
  obtain ⟨hdt, -, h3, h4, h5⟩ := h
  simp only at M hdt h3 h5
  obtain ⟨g, hg⟩ : ∃ g, g = (t1 - x.t) * rate gf T (excess (linearIso s0 k) T w.s (w.h ())) := ⟨_, rfl⟩
  have hth : √(2 * G * k T) * √(2 * G * k T) = 2 * G * k T := Real.mul_self_sqrt (by positivity)
  have hco (a : ℝ) : √(2 * G * k T) / (2 * G) * (√(2 * G * k T) * a) = k T * a := by
    field_simp
    linear_combination a * hth
  have hZp (Z : Fin 6 → ℝ) (a : ℝ) : partZ (place (2 * G) (k T) Z a) = Z := rfl
  have hAp (Z : Fin 6 → ℝ) (a : ℝ) : partA (place (2 * G) (k T) Z a) = √(2 * G * k T) * a := rfl
  have hd : (2 * G) • devVec e - lagZ G w = devVec w.s := by
    rw [lagZ, h3]
    abel
  have hoff : off (2 * G) (s0 T) (k T) ((2 * G) • devVec e) (place (2 * G) (k T) (lagZ G w) (w.h ())) =
      excess (linearIso s0 k) T w.s (w.h ()) := by
    rw [off, hZp, hAp, hco, hd, linear_excess]
    ring
  rw [← hg] at M
  obtain ⟨g0, hh, m, mt, mm, hn, hs⟩ := M
  have hgw := floor_mono hk (show x.h () ≤ w.h () by rw [hh]; exact le_add_of_nonneg_right (by positivity)) hf
  have hZ : lagZ G w = lagZ G x + (2 * G * g) • m := by
    rw [lagZ, lagZ, hs, h3, trial, hC, devVec_sub, devVec_add, devVec_isoC, devVec_sub, devVec_smul', devVec_of_tr3 mt,
      smul_sub]
    abel
  refine ⟨⟨?_, ?_, ?_, fun h0 => ?_, ?_⟩, ?_, hgw, h3, h4, h5, by rw [← hg]; exact hh⟩
  · rw [hAp, hco]
    exact hgw
  · rw [hoff, ← hg, hZp, hZp, hd, hZ, add_sub_cancel_left]
    rcases g0.eq_or_lt with h0 | h0
    · rw [← h0]
      simp
    · have hpos : 0 < excess (linearIso s0 k) T w.s (w.h ()) := by
        by_contra hneg
        rw [hg, rate_of_nonpos (not_lt.1 hneg), mul_zero] at h0
        exact lt_irrefl 0 h0
      have hfar : eps ≤ norm2 (devVec w.s) := by
        rw [linear_excess] at hpos
        linarith
      have h6 := hn h0
      have hne : norm2 (devVec w.s) ≠ 0 := (he.trans_le hfar).ne'
      rw [max_eq_left hfar]
      nth_rewrite 2 [h6]
      rw [smul_smul]
      congr 1
      field_simp
  · rw [hoff, ← hg, hAp, hAp, hh]
    ring
  · rw [hAp, h0]
    simp
  · rw [hZp, lagZ, tr3_sub, tr3_smul, tr3_devVec, tr3_devVec]
    ring
  · rw [rest, rest, hZ, hs, h3, trial, hC, mulVec_sub]
    abel

theorem visco_exists (he : 0 < eps) (hG : 0 < G) (hC : el.C T = isoC G Kb) (hm : Flowing gf T) (hk : 0 ≤ k T) {x : State}
    {e : Fin 6 → ℝ} {t1 : ℝ} (hf : eps ≤ √(2 / 3) * (s0 T + k T * x.h ())) (ht : x.t < t1) :
    ∃ w, ViscoStep el eps (linearIso s0 k) gf T x (e, t1) w := by
  obtain ⟨z, hz, -⟩ := C184_unique (e1 := e) he hG (sub_pos.2 ht) hC hm (linear_tame hG hk hf)
  refine ⟨⟨e, T, t1, fun i => z (.inl i), fun i => z (.inr i), 0, 0⟩, ht, ?_, rfl, rfl, rfl⟩
  rw [← hz]
  congr 1
  ext i
  rcases i with i | i <;> rfl

/-- An exact viscoplastic path: a step to each strain and the next time. -/
def ViscoPath (el : Elastic ℝ (Fin 6)) (eps : ℝ) (r : Iso) (gf : GFlow) (T : ℝ) (x : ℕ → State) (e : ℕ → Fin 6 → ℝ)
    (t : ℕ → ℝ) : Prop :=
  (x 0).t = t 0 ∧ ∀ n, ViscoStep el eps r gf T (x n) (e n, t (n + 1)) (x (n + 1))

theorem ViscoPath.time {r : Iso} {x : ℕ → State} {e : ℕ → Fin 6 → ℝ} {t : ℕ → ℝ} (h : ViscoPath el eps r gf T x e t) (n : ℕ) :
    (x n).t = t n := by
  cases n with
  | zero => exact h.1
  | succ n => exact (h.2 n).2.2.2.2

/-- C207: if the strains and the time steps repeat themselves, the stresses approach stresses that repeat themselves. With
hardening all flow dies out. Without it the flow has to grow beyond all bounds with the overstress. -/
theorem C207_strain (he : 0 < eps) (hG : 0 < G) (hC : el.C T = isoC G Kb) (hm : Flowing gf T) (hk : 0 ≤ k T)
    (hu : k T = 0 → ∀ M, ∃ f, 0 ≤ f ∧ M ≤ gf.g f T) {N : ℕ} (hN : 0 < N) {e : ℕ → Fin 6 → ℝ} (heN : ∀ n, e (n + N) = e n)
    {t : ℕ → ℝ} (ht : ∀ n, t n < t (n + 1)) (htN : ∀ n, t (n + N + 1) - t (n + N) = t (n + 1) - t n) {x : ℕ → State}
    (hx : ViscoPath el eps (linearIso s0 k) gf T x e t) (hf : eps ≤ √(2 / 3) * (s0 T + k T * (x 0).h ())) :
    ∃ z : ℕ → State, ViscoPath el eps (linearIso s0 k) gf T z e t ∧ eps ≤ √(2 / 3) * (s0 T + k T * (z 0).h ()) ∧
      (∀ n, (z (n + N)).s = (z n).s) ∧ Tendsto (fun n => (x n).s - (z n).s) atTop (𝓝 0) ∧
      (0 < k T → (∀ n, (z n).h = (z 0).h) ∧ Tendsto (fun n => (x n).h ()) atTop (𝓝 ((z 0).h ()))) := by
  have hmu : 0 < 2 * G := by positivity
  have hsq : (0 : ℝ) < √(2 / 3) := by positivity
  have hmono : Monotone (rate gf T) := fun _ _ h => hm.rate_le h
  have hzero : ∀ f, f ≤ 0 → rate gf T f = 0 := fun f h => rate_of_nonpos h
  have hdt (n : ℕ) : 0 < t (n + 1) - t n := sub_pos.2 (ht n)
  have hth : √(2 * G * k T) * √(2 * G * k T) = 2 * G * k T := Real.mul_self_sqrt (by positivity)
  have hfl (n : ℕ) : eps ≤ √(2 / 3) * (s0 T + k T * (x n).h ()) := by
    induction n with
    | zero => exact hf
    | succ n ih => exact ((hx.2 n).vstep he hG hC hm hk ih).2.2.1
  have hV (n : ℕ) : VStep (2 * G) (s0 T) (k T) eps (rate gf T) ((2 * G) • devVec (e n)) (t (n + 1) - t n)
      (place (2 * G) (k T) (lagZ G (x n)) ((x n).h ())) (place (2 * G) (k T) (lagZ G (x (n + 1))) ((x (n + 1)).h ())) := by
    have := ((hx.2 n).vstep he hG hC hm hk (hfl n)).1
    rwa [hx.time] at this
  have hxe (n : ℕ) : (x (n + 1)).e = e n := (hx.2 n).2.2.1
  have hQ (n : ℕ) : rest G Kb (x n) = rest G Kb (x 0) := by
    induction n with
    | zero => rfl
    | succ n ih => rw [((hx.2 n).vstep he hG hC hm hk (hfl n)).2.1, ih]
  -- a path that comes back
  obtain ⟨p, hp, hpN⟩ := visco_cycle (mu := 2 * G) (y := s0 T) (K := k T) hmu he hk hmono hzero hN
    (c := fun n => (2 * G) • devVec (e n)) (fun n => by simp only [heN]) (dt := fun n => t (n + 1) - t n) hdt htN
    (fun h M => by
      obtain ⟨f, f0, hf⟩ := hu h M
      exact ⟨f, f0, by rwa [rate_eq hm, max_eq_left f0]⟩)
    (fun h => by
      rw [h, zero_mul, add_zero] at hf
      exact nonneg_of_mul_nonneg_right (he.le.trans hf) hsq)
    (fun h n v hA hZ => by
      let u : State := ⟨0, T, t n, -partZ v, fun _ => 0, 0, 0⟩
      have hfu : eps ≤ √(2 / 3) * (s0 T + k T * u.h ()) := by
        rw [h, zero_mul] at hf ⊢
        exact hf
      obtain ⟨w, hw⟩ := visco_exists (e := e n) (t1 := t (n + 1)) he hG hC hm hk hfu (ht n)
      have h1 := (hw.vstep he hG hC hm hk hfu).1
      have e1 : place (2 * G) (k T) (lagZ G u) (u.h ()) = v := by
        have hz : lagZ G u = partZ v := by
          show (2 * G) • devVec 0 - devVec (-partZ v) = partZ v
          have h2 : devVec (0 : Fin 6 → ℝ) = 0 := devVec_of_tr3 (by simp [tr3])
          have h3 : devVec (-partZ v) = -partZ v := devVec_of_tr3 (by
            have : tr3 (-partZ v) = -tr3 (partZ v) := by simp [tr3]; ring
            rw [this, hZ, neg_zero])
          rw [h2, h3, smul_zero, zero_sub, neg_neg]
        rw [hz]
        ext i
        rcases i with i | i
        · rfl
        · show √(2 * G * k T) * 0 = partA v
          rw [hA, mul_zero]
      rw [e1] at h1
      exact ⟨_, h1⟩)
  obtain ⟨v, hv, hvN, hlim⟩ := settles (fun n => VStep (2 * G) (s0 T) (k T) eps (rate gf T) ((2 * G) • devVec (e n))
    (t (n + 1) - t n)) N hN (fun n a b h => by rwa [heN, htN] at h)
    (fun n a a' b b' h h' => h.firm hmu he hmono hzero (hdt n).le h')
    (fun n u w a b h hu hw => VStep.closed he (continuous_rate hm) u w a b h hu hw) p
    (fun n => place (2 * G) (k T) (lagZ G (x n)) ((x n).h ())) hp hpN hV
  have hback (n : ℕ) : ∃ j u, VStep (2 * G) (s0 T) (k T) eps (rate gf T) ((2 * G) • devVec (e j)) (t (j + 1) - t j) u (v n) := by
    obtain ⟨M, rfl⟩ : ∃ M, N = M + 1 := ⟨N - 1, by omega⟩
    refine ⟨n + M, v (n + M), ?_⟩
    rw [← hvN n]
    exact hv (n + M)
  have hvt (n : ℕ) : tr3 (partZ (v n)) = 0 := by
    obtain ⟨j, u, h⟩ := hback n
    exact h.2.2.2.2
  have hZl : Tendsto (fun n => lagZ G (x n) - partZ (v n)) atTop (𝓝 0) := (continuous_partZ.tendsto 0).comp hlim
  -- the states of the limit
  have build : ∀ al : ℕ → ℝ, (∀ n, place (2 * G) (k T) (partZ (v n)) (al n) = v n) →
      (∀ n, eps ≤ √(2 / 3) * (s0 T + k T * al n)) →
      (∀ n, al (n + 1) = al n + √(2 / 3) * ((t (n + 1) - t n) *
        rate gf T (off (2 * G) (s0 T) (k T) ((2 * G) • devVec (e n)) (v (n + 1))))) →
      (0 < k T → (∀ n, al n = al 0) ∧ Tendsto (fun n => (x n).h ()) atTop (𝓝 (al 0))) →
      ∃ z : ℕ → State, ViscoPath el eps (linearIso s0 k) gf T z e t ∧ eps ≤ √(2 / 3) * (s0 T + k T * (z 0).h ()) ∧
        (∀ n, (z (n + N)).s = (z n).s) ∧ Tendsto (fun n => (x n).s - (z n).s) atTop (𝓝 0) ∧
        (0 < k T → (∀ n, (z n).h = (z 0).h) ∧ Tendsto (fun n => (x n).h ()) atTop (𝓝 ((z 0).h ()))) := by
    intro al hpl half hstep hK
    obtain ⟨Q, hQd⟩ : ∃ Q, Q = rest G Kb (x 0) := ⟨_, rfl⟩
    have hQ0 : devVec Q = 0 := by rw [hQd]; exact devVec_rest _
    let z : ℕ → State := fun n => ⟨e (n + (N - 1)), T, t n, Q - partZ (v n) + isoC G Kb *ᵥ e (n + (N - 1)), fun _ => al n, 0, 0⟩
    have hzl (n : ℕ) : lagZ G (z n) = partZ (v n) := by
      show (2 * G) • devVec (e (n + (N - 1))) - devVec (Q - partZ (v n) + isoC G Kb *ᵥ e (n + (N - 1))) = partZ (v n)
      rw [devVec_add, devVec_sub, devVec_isoC, hQ0, devVec_of_tr3 (hvt n)]
      abel
    have hze (n : ℕ) : (z (n + 1)).e = e n := by
      show e (n + 1 + (N - 1)) = e n
      rw [show n + 1 + (N - 1) = n + N by omega, heN]
    have hzr (n : ℕ) : rest G Kb (z n) = Q := by
      rw [rest, hzl]
      show Q - partZ (v n) + isoC G Kb *ᵥ e (n + (N - 1)) - isoC G Kb *ᵥ e (n + (N - 1)) + partZ (v n) = Q
      abel
    have hs (u : State) : u.s = rest G Kb u - lagZ G u + isoC G Kb *ᵥ u.e := by
      rw [rest]
      abel
    refine ⟨z, ⟨rfl, fun n => ?_⟩, half 0, fun n => ?_, ?_, fun h => ⟨fun n => ?_, (hK h).2⟩⟩
    · obtain ⟨w, hw⟩ := visco_exists (x := z n) (e := e n) (t1 := t (n + 1)) he hG hC hm hk (half n) (ht n)
      obtain ⟨w1, w2, w3, w4, w5, w6, w7⟩ := hw.vstep he hG hC hm hk (half n)
      have w1' : VStep (2 * G) (s0 T) (k T) eps (rate gf T) ((2 * G) • devVec (e n)) (t (n + 1) - t n) (v n)
          (place (2 * G) (k T) (lagZ G w) (w.h ())) := by
        rw [hzl] at w1
        have : place (2 * G) (k T) (partZ (v n)) ((z n).h ()) = v n := hpl n
        rwa [this] at w1
      have hwv := w1'.unique hmu he hmono hzero (hdt n).le (hv n)
      have hwZ : lagZ G w = partZ (v (n + 1)) := by rw [← hwv]; rfl
      have hwo : excess (linearIso s0 k) T w.s (w.h ()) = off (2 * G) (s0 T) (k T) ((2 * G) • devVec (e n)) (v (n + 1)) := by
        rw [← hwv, off, linear_excess]
        have e1 : partZ (place (2 * G) (k T) (lagZ G w) (w.h ())) = lagZ G w := rfl
        have e2 : √(2 * G * k T) / (2 * G) * partA (place (2 * G) (k T) (lagZ G w) (w.h ())) = k T * w.h () := by
          show √(2 * G * k T) / (2 * G) * (√(2 * G * k T) * w.h ()) = k T * w.h ()
          field_simp
          linear_combination w.h () * hth
        have e3 : (2 * G) • devVec (e n) - lagZ G w = devVec w.s := by
          rw [lagZ, w4]
          abel
        rw [e1, e2, e3]
        ring
      have hwh : w.h = (z (n + 1)).h := by
        funext i
        show w.h () = al (n + 1)
        rw [w7, hwo, hstep]
      have hws : w.s = (z (n + 1)).s := by
        rw [hs w, hs (z (n + 1)), w2, hzr, hzr, hwZ, hzl, w4, hze]
      refine ⟨ht n, ?_, hze n, rfl, rfl⟩
      rw [← hws, ← hwh]
      exact hw.2.1
    · show Q - partZ (v (n + N)) + isoC G Kb *ᵥ e (n + N + (N - 1)) = _
      rw [hvN, add_right_comm, heN]
    · rw [← tendsto_add_atTop_iff_nat 1]
      have h1 := (tendsto_add_atTop_iff_nat 1).2 (tendsto_smul_zero (-1) hZl)
      refine h1.congr fun n => ?_
      rw [hs (x (n + 1)), hs (z (n + 1)), hQ, hzr, hzl, hxe, hze, ← hQd, neg_one_smul]
      abel
    · funext i
      exact (hK h).1 n
  rcases hk.eq_or_lt with h0 | h0
  · have h0 := h0.symm
    have hA (n : ℕ) : partA (v n) = 0 := by
      obtain ⟨j, u, h⟩ := hback n
      exact h.2.2.2.1 h0
    let g : ℕ → ℝ := fun n => (t (n + 1) - t n) * rate gf T (off (2 * G) (s0 T) (k T) ((2 * G) • devVec (e n)) (v (n + 1)))
    refine build (fun n => √(2 / 3) * ∑ i ∈ Finset.range n, g i) (fun n => ?_) (fun n => ?_) (fun n => ?_) fun h => absurd h (by
      rw [h0]; exact lt_irrefl 0)
    · ext i
      rcases i with i | i
      · rfl
      · show √(2 * G * k T) * (√(2 / 3) * ∑ i ∈ Finset.range n, g i) = partA (v n)
        rw [hA, h0, mul_zero, Real.sqrt_zero, zero_mul]
    · rw [h0, zero_mul] at hf ⊢
      exact hf
    · rw [Finset.sum_range_succ, mul_add]
  · have hthp : 0 < √(2 * G * k T) := by positivity
    have hmon : Monotone fun n => partA (v n) := monotone_nat_of_le_succ fun n => by
      have h1 := (hv n).2.2.1
      have h2 : 0 ≤ √(2 * G * k T) * (√(2 / 3) * ((t (n + 1) - t n) *
        rate gf T (off (2 * G) (s0 T) (k T) ((2 * G) • devVec (e n)) (v (n + 1))))) :=
        mul_nonneg hthp.le (mul_nonneg hsq.le (mul_nonneg (hdt n).le (rate_nonneg hm _)))
      linarith
    have hper (n : ℕ) : v (n * N) = v 0 := by
      induction n with
      | zero => simp
      | succ n ih => rw [Nat.succ_mul, hvN, ih]
    have hconst (n : ℕ) : partA (v n) = partA (v 0) := by
      refine le_antisymm ?_ (hmon (Nat.zero_le n))
      have h1 := hmon (Nat.le_mul_of_pos_right n hN)
      simp only at h1
      rwa [hper n] at h1
    refine build (fun n => partA (v n) / √(2 * G * k T)) (fun n => ?_) (fun n => ?_) (fun n => ?_) fun _ => ⟨fun n => ?_, ?_⟩
    · ext i
      rcases i with i | i
      · rfl
      · show √(2 * G * k T) * (partA (v n) / √(2 * G * k T)) = partA (v n)
        field_simp
    · obtain ⟨j, u, h⟩ := hback n
      have h1 := h.1
      have e1 : √(2 * G * k T) / (2 * G) * partA (v n) = k T * (partA (v n) / √(2 * G * k T)) := by
        field_simp
        linear_combination partA (v n) * hth
      rwa [e1] at h1
    · have h1 := (hv n).2.2.1
      field_simp
      linarith
    · simp only [hconst n]
    · have h1 : Tendsto (fun n => partA (place (2 * G) (k T) (lagZ G (x n)) ((x n).h ()) - v n) / √(2 * G * k T)) atTop
          (𝓝 (partA 0 / √(2 * G * k T))) := ((continuous_partA.tendsto 0).comp hlim).div_const _
      have e0 : partA (0 : Plane) / √(2 * G * k T) = 0 := by simp [partA]
      rw [e0] at h1
      have h2 := h1.add_const (partA (v 0) / √(2 * G * k T))
      rw [zero_add] at h2
      refine h2.congr fun n => ?_
      rw [← hconst n]
      show (√(2 * G * k T) * (x n).h () - partA (v n)) / √(2 * G * k T) + partA (v n) / √(2 * G * k T) = (x n).h ()
      field_simp
      ring

/-- C207: under a held strain the stress relaxes to a stress that is not outside the surface. -/
theorem C207_hold (he : 0 < eps) (hG : 0 < G) (hC : el.C T = isoC G Kb) (hm : Flowing gf T) (hk : 0 ≤ k T)
    (hu : k T = 0 → ∀ M, ∃ f, 0 ≤ f ∧ M ≤ gf.g f T) (hpos : ∀ f, 0 < f → 0 < gf.g f T) {e : Fin 6 → ℝ} {t0 h : ℝ} (hh : 0 < h)
    {x : ℕ → State} (hx : ViscoPath el eps (linearIso s0 k) gf T x (fun _ => e) fun n => t0 + n * h)
    (hf : eps ≤ √(2 / 3) * (s0 T + k T * (x 0).h ())) :
    ∃ σ a, Tendsto (fun n => (x n).s) atTop (𝓝 σ) ∧ norm2 (devVec σ) ≤ √(2 / 3) * (s0 T + k T * a) ∧
      (0 < k T → Tendsto (fun n => (x n).h ()) atTop (𝓝 a)) := by
  have ht (n : ℕ) : t0 + n * h < t0 + ((n + 1 : ℕ) : ℝ) * h := by
    push_cast
    linarith
  obtain ⟨z, hz, hzf, hzN, hlim, hK⟩ := C207_strain he hG hC hm hk hu one_pos (fun _ => rfl) ht
    (fun n => by push_cast; ring) hx hf
  have hc (n : ℕ) : (z n).s = (z 0).s := by
    induction n with
    | zero => rfl
    | succ n ih => rw [hzN, ih]
  have hfl1 := ((hz.2 0).vstep he hG hC hm hk hzf).2.2.1
  have M := visco_moves he hG hC hm (linear_tame hG hk hfl1) (hz.2 1)
  have hdt : 0 < (t0 + ((1 + 1 : ℕ) : ℝ) * h) - (z 1).t := by
    rw [hz.time 1]
    push_cast
    linarith
  have hg : (t0 + ((1 + 1 : ℕ) : ℝ) * h - (z 1).t) * rate gf T (excess (linearIso s0 k) T (z (1 + 1)).s ((z (1 + 1)).h ())) = 0 := by
    obtain ⟨m, mt, mm, -, hs⟩ := M.normal
    have h1 : trial el (z 1) e T = (z 1).s := by
      rw [trial, (hz.2 0).2.2.1, sub_self, mulVec_zero, add_zero]
    simp only at hs
    rw [h1, hc, hc 1] at hs
    have h2 := sub_eq_self.1 hs.symm
    rcases smul_eq_zero.1 h2 with h3 | h3
    · rcases mul_eq_zero.1 h3 with h4 | h4
      · linarith
      · rw [hc]
        exact h4
    · rw [h3, dotProduct_zero] at mm
      exact absurd mm zero_ne_one
  have hr := (mul_eq_zero.1 hg).resolve_left hdt.ne'
  have hex : excess (linearIso s0 k) T (z (1 + 1)).s ((z (1 + 1)).h ()) ≤ 0 := by
    by_contra hn
    have hn := not_le.1 hn
    rw [rate_of_pos hn] at hr
    exact (hpos _ hn).ne' hr
  refine ⟨(z 0).s, (z (1 + 1)).h (), ?_, ?_, fun h => ?_⟩
  · have := hlim.add_const (z 0).s
    rw [zero_add] at this
    refine this.congr fun n => ?_
    rw [hc]
    abel
  · rw [hc, linear_excess] at hex
    linarith
  · rw [(hK h).1]
    exact (hK h).2

/-- C207: the power law grows beyond all bounds. -/
theorem C207_power (n eta : ℝ → ℝ) (T : ℝ) (hn : 0 < n T) (he : 0 < eta T) (M : ℝ) :
    ∃ f, 0 ≤ f ∧ M ≤ (gPowerLaw n eta).g f T := by
  refine ⟨eta T * |M| ^ (n T)⁻¹, by positivity, ?_⟩
  simp only [gPowerLaw]
  rw [mul_div_cancel_left₀ _ he.ne', ← Real.rpow_mul (abs_nonneg M), inv_mul_cancel₀ hn.ne', Real.rpow_one]
  exact le_abs_self M

/-- C207: every history of strains and times has an exact path. -/
theorem C207_path (he : 0 < eps) (hG : 0 < G) (hC : el.C T = isoC G Kb) (hm : Flowing gf T) (hk : 0 ≤ k T)
    (e : ℕ → Fin 6 → ℝ) {t : ℕ → ℝ} (ht : ∀ n, t n < t (n + 1)) {x0 : State} (h0 : x0.t = t 0)
    (hf : eps ≤ √(2 / 3) * (s0 T + k T * x0.h ())) :
    ∃ x, x 0 = x0 ∧ ViscoPath el eps (linearIso s0 k) gf T x e t := by
  have h (n : ℕ) (x : {x : State // x.t = t n ∧ eps ≤ √(2 / 3) * (s0 T + k T * x.h ())}) :
      ∃ z : {x : State // x.t = t (n + 1) ∧ eps ≤ √(2 / 3) * (s0 T + k T * x.h ())},
        ViscoStep el eps (linearIso s0 k) gf T x.1 (e n, t (n + 1)) z.1 := by
    obtain ⟨w, hw⟩ := visco_exists (e := e n) (t1 := t (n + 1)) he hG hC hm hk x.2.2 (by rw [x.2.1]; exact ht n)
    obtain ⟨-, -, w3, -, -, w6, -⟩ := hw.vstep he hG hC hm hk x.2.2
    exact ⟨⟨w, w6, w3⟩, hw⟩
  choose f hf' using h
  let w : ∀ n, {x : State // x.t = t n ∧ eps ≤ √(2 / 3) * (s0 T + k T * x.h ())} :=
    fun n => Nat.rec ⟨x0, h0, hf⟩ (fun n x => f n x) n
  exact ⟨fun n => (w n).1, rfl, h0, fun n => hf' n (w n)⟩

end steps

/-- A material without hardening and a flow exponent of three, strained to and fro. -/
example : ∃ x z : ℕ → State,
    ViscoPath (isoElastic (1 / 2) 1) 1 (linearIso (fun _ => √(3 / 2)) fun _ => 0) (gPowerLaw (fun _ => 3) fun _ => 100) 0 x
      (fun n => (-1) ^ n • ![3, 0, 0, 0, 0, 0]) (fun n => n) ∧
    ViscoPath (isoElastic (1 / 2) 1) 1 (linearIso (fun _ => √(3 / 2)) fun _ => 0) (gPowerLaw (fun _ => 3) fun _ => 100) 0 z
      (fun n => (-1) ^ n • ![3, 0, 0, 0, 0, 0]) (fun n => n) ∧
    (∀ n, (z (n + 2)).s = (z n).s) ∧ Tendsto (fun n => (x n).s - (z n).s) atTop (𝓝 0) := by
  have hm : Flowing (gPowerLaw (fun _ => 3) fun _ => 100) 0 := C184_power _ _ _ (by norm_num) (by norm_num)
  have hf : (1 : ℝ) ≤ √(2 / 3) * ((fun _ => √(3 / 2)) (0 : ℝ) + (fun _ => (0 : ℝ)) (0 : ℝ) * (0 : ℝ)) := by
    simp only [zero_mul, add_zero]
    exact sqrt_cancel.ge
  have ht (n : ℕ) : (n : ℝ) < ((n + 1 : ℕ) : ℝ) := by
    push_cast
    linarith
  obtain ⟨x, hx0, hx⟩ := C207_path (el := isoElastic (1 / 2) 1) (G := 1 / 2) (Kb := 1) (T := 0) (eps := 1)
    (s0 := fun _ => √(3 / 2)) (k := fun _ => 0) one_pos (by norm_num) rfl hm le_rfl (fun n => (-1) ^ n • ![3, 0, 0, 0, 0, 0])
    (t := fun n => (n : ℝ)) ht (x0 := ⟨0, 0, 0, 0, 0, 0, 0⟩) (by simp) hf
  obtain ⟨z, hz, -, hzN, hlim, -⟩ := C207_strain (Kb := 1) one_pos (by norm_num) rfl hm le_rfl
    (fun _ M => C207_power _ _ _ (by norm_num) (by norm_num) M) (N := 2) two_pos
    (fun n => by simp only [pow_add]; norm_num) ht (fun n => by push_cast; ring) hx (by rw [hx0]; exact hf)
  exact ⟨x, z, hx, hz, hzN, hlim⟩

end Neml.SolveStep
