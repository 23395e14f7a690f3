import Verif.Props.SettleVisco
import Verif.Props.StepRefinement

/-!
# C209: refining the steps of a viscoplastic material converges

Linear isotropic hardening or none. Specification: the rate of flow of the exact implicit update never exceeds the larger of its
starting value and the rate of strain, whatever the steps. Two exact runs along the same strains, of which one leaves out strains
the other takes, differ by no more than a multiple of the root of the sum of squares of the times in between. So the results for
finer and finer steps along a strain path converge.
-/

namespace Neml.Settle

section abstract

variable {E : Type*} [NormedAddCommGroup E] [InnerProductSpace ℝ E]

/-- Many small implicit steps against a single one. -/
theorem implicit_against_many {Y A d : ℕ → E} {h : ℕ → ℝ} (hh : ∀ i, 0 ≤ h i) (hY : ∀ i, Y i - Y (i + 1) = h i • A i) {p q : ℕ}
    (hpq : p ≤ q) {X X' A' : E} (hX : X - X' = (∑ i ∈ Finset.Ico p q, h i) • A') {R : ℝ} (hR : ∀ i, ‖A i‖ ≤ R) (hR' : ‖A'‖ ≤ R)
    (hm : ∀ i, 0 ≤ inner ℝ (Y (i + 1) + (d q - d (i + 1)) - X') (A i - A')) :
    ‖Y q - X'‖ ^ 2 ≤ ‖Y p - X‖ ^ 2 + 4 * (∑ i ∈ Finset.Ico p q, h i) * R *
      (R * ∑ i ∈ Finset.Ico p q, h i + ∑ i ∈ Finset.Ico p q, ‖d (i + 1) - d i‖) := by
  obtain ⟨L, hL⟩ : ∃ L, L = ∑ i ∈ Finset.Ico p q, ‖d (i + 1) - d i‖ := ⟨_, rfl⟩
  obtain ⟨W, hW⟩ : ∃ W, W = ∑ i ∈ Finset.Ico p q, h i := ⟨_, rfl⟩
  have hR0 : 0 ≤ R := (norm_nonneg _).trans hR'
  have hL0 : 0 ≤ L := by rw [hL]; exact Finset.sum_nonneg fun _ _ => norm_nonneg _
  have hW0 : 0 ≤ W := by rw [hW]; exact Finset.sum_nonneg fun _ _ => hh _
  have hYl (i : ℕ) (hi : p ≤ i) (hiq : i ≤ q) : ‖Y q - Y i‖ ≤ R * W := by
    rw [norm_sub_rev, ← dist_eq_norm, hW, Finset.mul_sum]
    refine (dist_le_Ico_sum_of_dist_le (d := fun k => R * h k) hiq fun {k} _ _ => ?_).trans
      (Finset.sum_le_sum_of_subset_of_nonneg (Finset.Ico_subset_Ico_left hi) fun _ _ _ => mul_nonneg hR0 (hh _))
    rw [dist_eq_norm, hY, norm_smul, Real.norm_eq_abs, abs_of_nonneg (hh k), mul_comm]
    exact mul_le_mul_of_nonneg_right (hR k) (hh k)
  have hdl (i : ℕ) (hi : p ≤ i) (hiq : i ≤ q) : ‖d i - d q‖ ≤ L := by
    rw [← dist_eq_norm, hL]
    refine (dist_le_Ico_sum_of_dist_le (d := fun k => ‖d (k + 1) - d k‖) hiq fun {k} _ _ => ?_).trans
      (Finset.sum_le_sum_of_subset_of_nonneg (Finset.Ico_subset_Ico_left hi) fun _ _ _ => norm_nonneg _)
    rw [dist_eq_norm, norm_sub_rev]
  have hterm (i : ℕ) (hi : i ∈ Finset.Ico p q) : -((R * W + L) * (2 * R) * h i) ≤ inner ℝ (Y q - X') (h i • (A i - A')) := by
    obtain ⟨h1, h2⟩ := Finset.mem_Ico.1 hi
    have h4 : inner ℝ (Y q - X') (A i - A') = inner ℝ ((Y q - Y (i + 1)) + (d (i + 1) - d q)) (A i - A') +
        inner ℝ (Y (i + 1) + (d q - d (i + 1)) - X') (A i - A') := by
      rw [← inner_add_left]
      congr 1
      abel
    have h5 : -(‖(Y q - Y (i + 1)) + (d (i + 1) - d q)‖ * ‖A i - A'‖) ≤
        inner ℝ ((Y q - Y (i + 1)) + (d (i + 1) - d q)) (A i - A') := (abs_le.1 (abs_real_inner_le_norm _ _)).1
    have h6 : ‖(Y q - Y (i + 1)) + (d (i + 1) - d q)‖ ≤ R * W + L :=
      (norm_add_le _ _).trans (add_le_add (hYl (i + 1) (by omega) (by omega)) (hdl (i + 1) (by omega) (by omega)))
    have h7 : ‖A i - A'‖ ≤ 2 * R := (norm_sub_le _ _).trans (by linarith [hR i])
    have h8 : ‖(Y q - Y (i + 1)) + (d (i + 1) - d q)‖ * ‖A i - A'‖ ≤ (R * W + L) * (2 * R) :=
      mul_le_mul h6 h7 (norm_nonneg _) (by positivity)
    rw [inner_smul_right]
    have h9 : -((R * W + L) * (2 * R)) ≤ inner ℝ (Y q - X') (A i - A') := by linarith [hm i]
    nlinarith [hh i]
  have hsum : -((R * W + L) * (2 * R) * W) ≤ inner ℝ (Y q - X') (∑ i ∈ Finset.Ico p q, h i • (A i - A')) := by
    rw [inner_sum]
    refine le_trans (le_of_eq ?_) (Finset.sum_le_sum hterm)
    rw [Finset.sum_neg_distrib, ← Finset.mul_sum, ← hW]
  have htel : ∑ i ∈ Finset.Ico p q, h i • A i = Y p - Y q := by
    have := Finset.sum_Ico_sub (fun i => Y i) hpq
    rw [← neg_sub (Y q) (Y p), ← this, ← Finset.sum_neg_distrib]
    exact Finset.sum_congr rfl fun i _ => by rw [← hY, neg_sub]
  have e : Y p - X = (Y q - X') + ∑ i ∈ Finset.Ico p q, h i • (A i - A') := by
    simp only [smul_sub]
    rw [Finset.sum_sub_distrib, htel, ← Finset.sum_smul, ← hX]
    abel
  have h8 : ‖Y q - X'‖ ^ 2 + 2 * inner ℝ (Y q - X') (∑ i ∈ Finset.Ico p q, h i • (A i - A')) ≤ ‖Y p - X‖ ^ 2 := by
    rw [e, norm_add_sq_real]
    have := sq_nonneg ‖∑ i ∈ Finset.Ico p q, h i • (A i - A')‖
    linarith
  rw [← hL, ← hW]
  linarith

end abstract

end Neml.Settle

namespace Neml.SolveStep

open Matrix Filter Topology Neml.SmallStrain Neml.Flow Neml.Mandel Neml.Elastic Neml.Settle

section surface

variable {mu y K eps : ℝ} {φ : ℝ → ℝ} {c c' : Fin 6 → ℝ} {dt dt' : ℝ}

/-- How fast the surface drags a point. -/
noncomputable def drift (mu y K eps : ℝ) (φ : ℝ → ℝ) (c : Fin 6 → ℝ) (v : Plane) : Plane :=
  WithLp.toLp 2 (Sum.elim ((mu * φ (off mu y K c v) / max (norm2 (c - partZ v)) eps) • (c - partZ v))
    fun _ => √(mu * K) * (√(2 / 3) * φ (off mu y K c v)))

theorem plane_ext {u v : Plane} (h : partZ u = partZ v) (h' : partA u = partA v) : u = v := by
  ext i
  rcases i with i | i
  · exact congrFun h i
  · exact h'

theorem VStep.pace {v v' : Plane} (h : VStep mu y K eps φ c dt v v') : v - v' = dt • (-drift mu y K eps φ c v') := by
  obtain ⟨-, h1, h2, -, -⟩ := h
  refine plane_ext ?_ ?_
  · show partZ v - partZ v' = dt • (-((mu * φ (off mu y K c v') / max (norm2 (c - partZ v')) eps) • (c - partZ v')))
    rw [← neg_sub (partZ v') (partZ v), h1, smul_neg, smul_smul]
    congr 2
    ring
  · show partA v - partA v' = dt * (-(√(mu * K) * (√(2 / 3) * φ (off mu y K c v'))))
    linear_combination -h2

/-- The same drag for a unit of time, on the surface moved to `c'`. -/
theorem VStep.moved (hc : tr3 c = 0) (hc' : tr3 c' = 0) {v v' : Plane} (h : VStep mu y K eps φ c dt v v') :
    VStep mu y K eps φ c' 1 (v' + (shift c' - shift c) - drift mu y K eps φ c v') (v' + (shift c' - shift c)) := by
  obtain ⟨h1, -, -, h4, h5⟩ := h
  have e1 : partZ (v' + (shift c' - shift c)) = partZ v' + (c' - c) := rfl
  have e2 : partA (v' + (shift c' - shift c)) = partA v' := by
    show partA v' + (0 - 0) = partA v'
    ring
  have e3 : c' - (partZ v' + (c' - c)) = c - partZ v' := by abel
  have e4 : off mu y K c' (v' + (shift c' - shift c)) = off mu y K c v' := by rw [off, off, e1, e2, e3]
  refine ⟨by rw [e2]; exact h1, ?_, ?_, fun h0 => by rw [e2]; exact h4 h0, ?_⟩
  · rw [e4, e1, e3, one_mul]
    show partZ v' + (c' - c) - (partZ v' + (c' - c) -
      (mu * φ (off mu y K c v') / max (norm2 (c - partZ v')) eps) • (c - partZ v')) = _
    abel
  · rw [e4]
    show partA (v' + (shift c' - shift c)) - (partA (v' + (shift c' - shift c)) -
      √(mu * K) * (√(2 / 3) * φ (off mu y K c v'))) = _
    ring
  · rw [e1, tr3_add, tr3_sub, hc, hc', h5]
    ring

theorem VStep.monotone (hmu : 0 < mu) (he : 0 < eps) (hφ : Monotone φ) (hφ0 : ∀ f, f ≤ 0 → φ f = 0) (hc : tr3 c = 0)
    (hc' : tr3 c' = 0) {v v' u u' : Plane} (h : VStep mu y K eps φ c dt v v') (h' : VStep mu y K eps φ c' dt' u u') :
    0 ≤ inner ℝ (v' + (shift c' - shift c) - u') (-drift mu y K eps φ c v' - -drift mu y K eps φ c' u') := by
  have h2 := (h.moved hc hc').firm hmu he hφ hφ0 zero_le_one (h'.moved hc' hc')
  refine h2.trans (le_of_eq ?_)
  congr 1
  · abel
  · abel

theorem flow_nonneg (hφ : Monotone φ) (hφ0 : ∀ f, f ≤ 0 → φ f = 0) (f : ℝ) : 0 ≤ φ f := by
  rcases le_total f 0 with h | h
  · rw [hφ0 f h]
  · rw [← hφ0 0 le_rfl]
    exact hφ h

theorem drift_le (hmu : 0 < mu) (he : 0 < eps) (hK : 0 ≤ K) (hφ : Monotone φ) (hφ0 : ∀ f, f ≤ 0 → φ f = 0) (v : Plane) :
    ‖drift mu y K eps φ c v‖ ≤ √(mu ^ 2 + 2 / 3 * (mu * K)) * φ (off mu y K c v) := by
  have hf := flow_nonneg hφ hφ0 (off mu y K c v)
  obtain ⟨f, hfe⟩ : ∃ f, f = φ (off mu y K c v) := ⟨_, rfl⟩
  rw [← hfe] at hf
  have hn0 : 0 ≤ norm2 (c - partZ v) := Real.sqrt_nonneg _
  have h1 : norm2 (partZ (drift mu y K eps φ c v)) ≤ mu * f := by
    show norm2 ((mu * φ (off mu y K c v) / max (norm2 (c - partZ v)) eps) • (c - partZ v)) ≤ mu * f
    have hm : 0 < max (norm2 (c - partZ v)) eps := lt_max_of_lt_right he
    rw [← hfe, norm2_smul, abs_of_nonneg (by positivity), div_mul_eq_mul_div, div_le_iff₀ hm]
    exact mul_le_mul_of_nonneg_left (le_max_left _ _) (by positivity)
  have h2 : partA (drift mu y K eps φ c v) ^ 2 = 2 / 3 * (mu * K) * f ^ 2 := by
    show (√(mu * K) * (√(2 / 3) * φ (off mu y K c v))) ^ 2 = _
    rw [← hfe, mul_pow, mul_pow, Real.sq_sqrt (by positivity), Real.sq_sqrt (by norm_num)]
    ring
  rw [← hfe]
  refine le_of_sq_le_sq ?_ (by positivity)
  rw [norm_plane, h2, mul_pow, Real.sq_sqrt (by positivity)]
  have h3 : norm2 (partZ (drift mu y K eps φ c v)) ^ 2 ≤ (mu * f) ^ 2 := pow_le_pow_left₀ (Real.sqrt_nonneg _) h1 2
  nlinarith

/-- The flow does not outrun both its last value and the surface. -/
theorem VStep.rate_le (hmu : 0 < mu) (he : 0 < eps) (hφ : Monotone φ) (hφ0 : ∀ f, f ≤ 0 → φ f = 0) (hdt : 0 < dt)
    {v v' : Plane} (h : VStep mu y K eps φ c' dt v v') {Λ : ℝ} (hc : norm2 (c' - c) ≤ mu * (Λ * dt)) :
    φ (off mu y K c' v') ≤ max (φ (off mu y K c v)) Λ := by
  by_contra hn
  obtain ⟨h1, h2⟩ := max_lt_iff.1 (not_le.1 hn)
  have hf := flow_nonneg hφ hφ0 (off mu y K c v)
  have hfar := h.far hφ0 hdt.le (mul_pos hdt (hf.trans_lt h1))
  obtain ⟨-, h3, h4, -, -⟩ := h
  obtain ⟨f, hfe⟩ : ∃ f, f = φ (off mu y K c' v') := ⟨_, rfl⟩
  rw [← hfe] at h1 h2 h3 h4
  have hf0 : 0 < f := hf.trans_lt h1
  have hw : 0 < norm2 (c' - partZ v') := he.trans_le hfar
  rw [max_eq_left hfar] at h3
  have e : (1 + mu * (dt * f) / norm2 (c' - partZ v')) • (c' - partZ v') = (c - partZ v) + (c' - c) := by
    rw [add_smul, one_smul, ← h3]
    abel
  have h5 := norm2_add_le (c - partZ v) (c' - c)
  rw [← e, norm2_smul, abs_of_pos (by positivity)] at h5
  have h6 : (1 + mu * (dt * f) / norm2 (c' - partZ v')) * norm2 (c' - partZ v') = norm2 (c' - partZ v') + mu * (dt * f) := by
    field_simp
  have h7 : mu * (Λ * dt) ≤ mu * (dt * f) := by
    rw [mul_comm Λ]
    exact mul_le_mul_of_nonneg_left (mul_le_mul_of_nonneg_left h2.le hdt.le) hmu.le
  have h8 : partA v ≤ partA v' := by
    have : 0 ≤ √(mu * K) * (√(2 / 3) * (dt * f)) := by positivity
    linarith
  have h9 : off mu y K c' v' ≤ off mu y K c v := by
    unfold off
    have : √(mu * K) / mu * partA v ≤ √(mu * K) / mu * partA v' := mul_le_mul_of_nonneg_left h8 (by positivity)
    have := mul_le_mul_of_nonneg_left (add_le_add_right this y) (Real.sqrt_nonneg (2 / 3))
    linarith
  have := hφ h9
  rw [← hfe] at this
  linarith

end surface

section steps

variable {G Kb eps T : ℝ} {el : Elastic ℝ (Fin 6)} {s0 k : ℝ → ℝ} {gf : GFlow}

/-- Rate of flow at a state. -/
noncomputable def flowRate (s0 k : ℝ → ℝ) (gf : GFlow) (T : ℝ) (x : State) : ℝ :=
  rate gf T (norm2 (devVec x.s) - √(2 / 3) * (s0 T + k T * x.h ()))

/-- Where a state is. -/
noncomputable def spot (G : ℝ) (k : ℝ → ℝ) (T : ℝ) (x : State) : Plane := place (2 * G) (k T) (lagZ G x) (x.h ())

theorem off_spot (hG : 0 < G) (hk : 0 ≤ k T) (x : State) :
    off (2 * G) (s0 T) (k T) ((2 * G) • devVec x.e) (spot G k T x) = norm2 (devVec x.s) - √(2 / 3) * (s0 T + k T * x.h ()) := by
  have hth : √(2 * G * k T) * √(2 * G * k T) = 2 * G * k T := Real.mul_self_sqrt (by positivity)
  have hco (a : ℝ) : √(2 * G * k T) / (2 * G) * (√(2 * G * k T) * a) = k T * a := by
    field_simp
    linear_combination a * hth
  have hZp : partZ (spot G k T x) = lagZ G x := rfl
  have hAp : partA (spot G k T x) = √(2 * G * k T) * x.h () := rfl
  have hd : (2 * G) • devVec x.e - lagZ G x = devVec x.s := by
    rw [lagZ]
    abel
  rw [off, hZp, hAp, hco, hd]

theorem rate_monotone (hm : Flowing gf T) : Monotone (rate gf T) := fun a b h => by
  rw [rate_eq hm, rate_eq hm]
  exact hm.mono _ _ (le_max_right _ _) (max_le_max_right _ h)

/-- Exact updates at the strains `ε` and times `t`. -/
structure Run (el : Elastic ℝ (Fin 6)) (eps : ℝ) (s0 k : ℝ → ℝ) (gf : GFlow) (T : ℝ) (ε : ℕ → Fin 6 → ℝ) (t : ℕ → ℝ)
    (x : ℕ → State) : Prop where
  strain : (x 0).e = ε 0
  time : (x 0).t = t 0
  floor : eps ≤ √(2 / 3) * (s0 T + k T * (x 0).h ())
  step : ∀ i, ViscoStep el eps (linearIso s0 k) gf T (x i) (ε (i + 1), t (i + 1)) (x (i + 1))

variable {ε : ℕ → Fin 6 → ℝ} {t : ℕ → ℝ} {x : ℕ → State}

theorem Run.all (he : 0 < eps) (hG : 0 < G) (hC : el.C T = isoC G Kb) (hm : Flowing gf T) (hk : 0 ≤ k T)
    (h : Run el eps s0 k gf T ε t x) (i : ℕ) : (x i).e = ε i ∧ (x i).t = t i ∧ eps ≤ √(2 / 3) * (s0 T + k T * (x i).h ()) ∧
      rest G Kb (x i) = rest G Kb (x 0) := by
  induction i with
  | zero => exact ⟨h.strain, h.time, h.floor, rfl⟩
  | succ i ih =>
    obtain ⟨-, h2, h3, h4, -, h5, -⟩ := (h.step i).vstep he hG hC hm hk ih.2.2.1
    exact ⟨h4, h5, h3, h2.trans ih.2.2.2⟩

theorem Run.vstep (he : 0 < eps) (hG : 0 < G) (hC : el.C T = isoC G Kb) (hm : Flowing gf T) (hk : 0 ≤ k T)
    (h : Run el eps s0 k gf T ε t x) (i : ℕ) : t i < t (i + 1) ∧
      VStep (2 * G) (s0 T) (k T) eps (rate gf T) ((2 * G) • devVec (ε (i + 1))) (t (i + 1) - t i) (spot G k T (x i))
        (spot G k T (x (i + 1))) := by
  obtain ⟨-, h1, h2, -⟩ := h.all he hG hC hm hk i
  have h3 := ((h.step i).vstep he hG hC hm hk h2).1
  have h4 := (h.step i).1
  rw [h1] at h3 h4
  exact ⟨h4, h3⟩

/-- C209: if the strain rate is at most `Λ`, the rate of flow never exceeds the larger of `Λ` and its value at the start. -/
theorem C209_rate (he : 0 < eps) (hG : 0 < G) (hC : el.C T = isoC G Kb) (hm : Flowing gf T) (hk : 0 ≤ k T)
    (h : Run el eps s0 k gf T ε t x) {Λ : ℝ} (hΛ : ∀ i, norm2 (devVec (ε (i + 1) - ε i)) ≤ Λ * (t (i + 1) - t i)) (i : ℕ) :
    flowRate s0 k gf T (x i) ≤ max (flowRate s0 k gf T (x 0)) Λ := by
  induction i with
  | zero => exact le_max_left _ _
  | succ i ih =>
    obtain ⟨h1, h2⟩ := h.vstep he hG hC hm hk i
    have h3 := h2.rate_le (c := (2 * G) • devVec (ε i)) (by positivity) he (rate_monotone hm) (fun f hf => rate_of_nonpos hf)
      (sub_pos.2 h1) (Λ := Λ) (by
        rw [← smul_sub, ← devVec_sub, norm2_smul, abs_of_pos (by positivity)]
        exact mul_le_mul_of_nonneg_left (hΛ i) (by positivity))
    rw [← (h.all he hG hC hm hk i).1, ← (h.all he hG hC hm hk (i + 1)).1, off_spot hG hk, off_spot hG hk] at h3
    exact h3.trans (max_le ih (le_max_right _ _))

/-- C209: a run `x` along strains `ε` at times `t`, and a run `z` from the same state that takes only every strain with a number
`κ j`. They differ by no more than the times in between are worth. -/
theorem C209_refine (he : 0 < eps) (hG : 0 < G) (hC : el.C T = isoC G Kb) (hm : Flowing gf T) (hk : 0 ≤ k T)
    {Λ : ℝ} (hΛ : ∀ i, norm2 (devVec (ε (i + 1) - ε i)) ≤ Λ * (t (i + 1) - t i)) {κ : ℕ → ℕ} (hκ0 : κ 0 = 0)
    (hκ : Monotone κ) (h : Run el eps s0 k gf T ε t x) {z : ℕ → State} (hz0 : z 0 = x 0)
    (h' : Run el eps s0 k gf T (fun j => ε (κ j)) (fun j => t (κ j)) z) (j : ℕ) :
    norm2 ((x (κ j)).s - (z j).s) ≤ 3 * (√((2 * G) ^ 2 + 2 / 3 * (2 * G * k T)) * max (flowRate s0 k gf T (x 0)) Λ) *
      √(∑ i ∈ Finset.range j, (t (κ (i + 1)) - t (κ i)) ^ 2) := by
  have hmu : 0 < 2 * G := by positivity
  have hφ := rate_monotone hm
  have hφ0 : ∀ f, f ≤ 0 → rate gf T f = 0 := fun f hf => rate_of_nonpos hf
  obtain ⟨M, hM⟩ : ∃ M, M = max (flowRate s0 k gf T (x 0)) Λ := ⟨_, rfl⟩
  obtain ⟨R, hR⟩ : ∃ R, R = √((2 * G) ^ 2 + 2 / 3 * (2 * G * k T)) * M := ⟨_, rfl⟩
  rw [← hM, ← hR]
  have hM0 : 0 ≤ M := by
    rw [hM]
    exact le_max_of_le_left (flow_nonneg hφ hφ0 _)
  have hR0 : 0 ≤ R := by rw [hR]; positivity
  have hGR : 2 * G * Λ ≤ R := by
    have h1 : 2 * G ≤ √((2 * G) ^ 2 + 2 / 3 * (2 * G * k T)) := Real.le_sqrt_of_sq_le (by
      have : 0 ≤ 2 / 3 * (2 * G * k T) := by positivity
      linarith)
    rw [hR]
    calc 2 * G * Λ ≤ 2 * G * M := by
          rw [hM]
          exact mul_le_mul_of_nonneg_left (le_max_right _ _) hmu.le
      _ ≤ _ := mul_le_mul_of_nonneg_right h1 hM0
  have hmono : Monotone t := monotone_nat_of_le_succ fun i => (h.vstep he hG hC hm hk i).1.le
  have hsumt (p q : ℕ) (hpq : p ≤ q) : ∑ i ∈ Finset.Ico p q, (t (i + 1) - t i) = t q - t p := Finset.sum_Ico_sub t hpq
  have hsume (p q : ℕ) (hpq : p ≤ q) : norm2 (devVec (ε q - ε p)) ≤ Λ * (t q - t p) := by
    induction q, hpq using Nat.le_induction with
    | base =>
      rw [sub_self, sub_self, mul_zero]
      simp [devVec, norm2]
    | succ q _ ih =>
      have e : devVec (ε (q + 1) - ε p) = devVec (ε (q + 1) - ε q) + devVec (ε q - ε p) := by
        rw [← devVec_add]
        congr 1
        abel
      rw [e]
      refine (norm2_add_le _ _).trans ?_
      linarith [hΛ q]
  have hxr (i : ℕ) : flowRate s0 k gf T (x i) ≤ M := by
    rw [hM]
    exact C209_rate he hG hC hm hk h hΛ i
  have hzr (i : ℕ) : flowRate s0 k gf T (z i) ≤ M := by
    rw [hM, ← hz0]
    exact C209_rate he hG hC hm hk h' (fun j => hsume _ _ (hκ (Nat.le_succ j))) i
  have hd (w : State) (e : Fin 6 → ℝ) (hw : w.e = e) (hr : flowRate s0 k gf T w ≤ M) :
      ‖-drift (2 * G) (s0 T) (k T) eps (rate gf T) ((2 * G) • devVec e) (spot G k T w)‖ ≤ R := by
    rw [norm_neg, hR]
    refine (drift_le hmu he hk hφ hφ0 _).trans (mul_le_mul_of_nonneg_left ?_ (Real.sqrt_nonneg _))
    rw [← hw, off_spot hG hk]
    exact hr
  have htr (i : ℕ) : tr3 ((2 * G) • devVec (ε i)) = 0 := by rw [tr3_smul, tr3_devVec, mul_zero]
  have hlen (p q : ℕ) (hpq : p ≤ q) : ∑ i ∈ Finset.Ico p q, ‖shift ((2 * G) • devVec (ε (i + 1))) - shift ((2 * G) • devVec (ε i))‖ ≤
      R * (t q - t p) := by
    rw [← hsumt p q hpq, Finset.mul_sum]
    refine Finset.sum_le_sum fun i _ => ?_
    rw [norm_shift, ← smul_sub, ← devVec_sub, norm2_smul, abs_of_pos hmu]
    have h1 := mul_le_mul_of_nonneg_left (hΛ i) hmu.le
    have h2 := mul_le_mul_of_nonneg_right hGR (sub_nonneg.2 (hmono (Nat.le_succ i)))
    linarith
  have hstep (j : ℕ) : ‖spot G k T (x (κ (j + 1))) - spot G k T (z (j + 1))‖ ^ 2 ≤
      ‖spot G k T (x (κ j)) - spot G k T (z j)‖ ^ 2 + (3 * R) ^ 2 * (t (κ (j + 1)) - t (κ j)) ^ 2 := by
    have hle := hκ (Nat.le_succ j)
    have hzs := (h'.vstep he hG hC hm hk j).2
    have h1 := implicit_against_many (Y := fun i => spot G k T (x i))
      (A := fun i => -drift (2 * G) (s0 T) (k T) eps (rate gf T) ((2 * G) • devVec (ε (i + 1))) (spot G k T (x (i + 1))))
      (d := fun i => shift ((2 * G) • devVec (ε i))) (h := fun i => t (i + 1) - t i)
      (A' := -drift (2 * G) (s0 T) (k T) eps (rate gf T) ((2 * G) • devVec (ε (κ (j + 1)))) (spot G k T (z (j + 1))))
      (X := spot G k T (z j)) (X' := spot G k T (z (j + 1)))
      (fun i => sub_nonneg.2 (hmono (Nat.le_succ i))) (fun i => (h.vstep he hG hC hm hk i).2.pace) hle
      (by rw [hsumt _ _ hle]; exact hzs.pace) (R := R) (fun i => hd _ _ (h.all he hG hC hm hk (i + 1)).1 (hxr _))
      (hd _ _ (h'.all he hG hC hm hk (j + 1)).1 (hzr _))
      (fun i => (h.vstep he hG hC hm hk i).2.monotone hmu he hφ hφ0 (htr _) (htr _) hzs)
    rw [hsumt _ _ hle] at h1
    refine h1.trans (add_le_add_right ?_ _)
    have h2 := hlen _ _ hle
    obtain ⟨W, hW⟩ : ∃ W, W = t (κ (j + 1)) - t (κ j) := ⟨_, rfl⟩
    have hW0 : 0 ≤ W := by rw [hW]; exact sub_nonneg.2 (hmono hle)
    rw [← hW] at h2 ⊢
    have h3 : 4 * W * R * (R * W + ∑ i ∈ Finset.Ico (κ j) (κ (j + 1)), ‖shift ((2 * G) • devVec (ε (i + 1))) - shift ((2 * G) • devVec (ε i))‖) ≤
        4 * W * R * (R * W + R * W) := mul_le_mul_of_nonneg_left (by linarith) (by positivity)
    refine h3.trans ?_
    nlinarith [sq_nonneg (R * W)]
  have hall (j : ℕ) : ‖spot G k T (x (κ j)) - spot G k T (z j)‖ ^ 2 ≤
      (3 * R) ^ 2 * ∑ i ∈ Finset.range j, (t (κ (i + 1)) - t (κ i)) ^ 2 := by
    induction j with
    | zero => simp [hκ0, hz0]
    | succ j ih =>
      rw [Finset.sum_range_succ, mul_add]
      exact (hstep j).trans (add_le_add_left ih _)
  have hn : ‖spot G k T (x (κ j)) - spot G k T (z j)‖ ≤ 3 * R * √(∑ i ∈ Finset.range j, (t (κ (i + 1)) - t (κ i)) ^ 2) := by
    refine le_of_sq_le_sq ?_ (by positivity)
    rw [mul_pow, Real.sq_sqrt (Finset.sum_nonneg fun _ _ => sq_nonneg _)]
    exact hall j
  refine le_trans ?_ hn
  have hp := norm_plane (spot G k T (x (κ j)) - spot G k T (z j))
  have e1 : partZ (spot G k T (x (κ j)) - spot G k T (z j)) = (-1 : ℝ) • ((x (κ j)).s - (z j).s) := by
    have h1 : ∀ w : State, ∀ e, w.e = e → lagZ G w = rest G Kb w + isoC G Kb *ᵥ e - w.s := fun w e hw => by
      rw [rest, hw]
      abel
    show lagZ G (x (κ j)) - lagZ G (z j) = _
    rw [h1 _ _ (h.all he hG hC hm hk (κ j)).1, h1 _ _ (h'.all he hG hC hm hk j).1, (h.all he hG hC hm hk (κ j)).2.2.2,
      (h'.all he hG hC hm hk j).2.2.2, hz0, neg_smul, one_smul]
    abel
  rw [e1, norm2_smul, abs_neg, abs_one, one_mul] at hp
  refine le_of_sq_le_sq ?_ (norm_nonneg _)
  rw [hp]
  exact le_add_of_nonneg_right (sq_nonneg _)

/-- Results that change little if every step is divided into `m` converge. -/
theorem refined_converges {u : ℕ → Fin 6 → ℝ} {c : ℝ} (hc : 0 ≤ c)
    (h : ∀ n m : ℕ, 0 < n → 0 < m → norm2 (u (n * m) - u n) ≤ c / √n) :
    ∃ s : Fin 6 → ℝ, Tendsto u atTop (𝓝 s) ∧ ∀ n : ℕ, 0 < n → norm2 (u n - s) ≤ c / √n := by
  obtain ⟨v, hv⟩ : ∃ v : ℕ → EuclideanSpace ℝ (Fin 6), v = fun n => WithLp.toLp 2 (u n) := ⟨_, rfl⟩
  have hd (n m : ℕ) : dist (v n) (v m) = norm2 (u n - u m) := by
    rw [dist_eq_norm, hv, norm2_lp]
    rfl
  have hpair (n m : ℕ) (hn : 0 < n) (hm : 0 < m) : dist (v n) (v m) ≤ c / √n + c / √m := by
    have h1 := h n m hn hm
    have h2 := h m n hm hn
    rw [← hd] at h1 h2
    rw [Nat.mul_comm m n] at h2
    have := dist_triangle_left (v n) (v m) (v (n * m))
    linarith
  have hlim : Tendsto (fun n : ℕ => c / √(n : ℝ)) atTop (𝓝 0) :=
    tendsto_const_nhds.div_atTop (Real.tendsto_sqrt_atTop.comp tendsto_natCast_atTop_atTop)
  have hcau : CauchySeq fun n => v (n + 1) := by
    refine cauchySeq_of_le_tendsto_0 (fun n : ℕ => c / √((n + 1 : ℕ) : ℝ) + c / √((n + 1 : ℕ) : ℝ))
      (fun n m N hn hm => (hpair _ _ n.succ_pos m.succ_pos).trans ?_) ?_
    · have hle (k : ℕ) (hk : N ≤ k) : c / √((k + 1 : ℕ) : ℝ) ≤ c / √((N + 1 : ℕ) : ℝ) :=
        div_le_div_of_nonneg_left hc (by positivity) (Real.sqrt_le_sqrt (by exact_mod_cast Nat.succ_le_succ hk))
      exact add_le_add (hle n hn) (hle m hm)
    · have := hlim.comp (tendsto_add_atTop_nat 1)
      simpa using this.add this
  obtain ⟨a, ha⟩ := cauchySeq_tendsto_of_complete hcau
  have ha' : Tendsto v atTop (𝓝 a) := (tendsto_add_atTop_iff_nat 1).1 ha
  refine ⟨WithLp.ofLp a, ?_, fun n hn => ?_⟩
  · have := ((PiLp.continuous_ofLp 2 (fun _ : Fin 6 => ℝ)).tendsto a).comp ha'
    rw [hv] at this
    exact this
  · have h1 : Tendsto (fun m => dist (v n) (v m)) atTop (𝓝 (dist (v n) a)) := tendsto_const_nhds.dist ha'
    have h2 : Tendsto (fun m : ℕ => c / √n + c / √(m : ℝ)) atTop (𝓝 (c / √n + 0)) := tendsto_const_nhds.add hlim
    have h3 := le_of_tendsto_of_tendsto h1 h2 (eventually_atTop.2 ⟨1, fun m hm => hpair n m hn hm⟩)
    rw [add_zero, dist_eq_norm, hv] at h3
    rw [norm2_lp]
    exact h3

/-- C209: the stresses at the end of `n` equal steps over a time `τ` along any strain path whose rate is bounded converge as `n`
grows, and the error falls with the root of `n`. -/
theorem C209_converges (he : 0 < eps) (hG : 0 < G) (hC : el.C T = isoC G Kb) (hm : Flowing gf T) (hk : 0 ≤ k T)
    {f : ℝ → Fin 6 → ℝ} {Λ τ t0 : ℝ} (hτ : 0 < τ) (hf : ∀ a b, 0 ≤ a → a ≤ b → norm2 (devVec (f b - f a)) ≤ Λ * (b - a))
    {x0 : State} {x : ℕ → ℕ → State} (hx0 : ∀ n, x n 0 = x0)
    (hx : ∀ n : ℕ, 0 < n → Run el eps s0 k gf T (fun i => f (τ * (i / n))) (fun i => t0 + τ * (i / n)) (x n)) :
    ∃ s : Fin 6 → ℝ, Tendsto (fun n => (x n n).s) atTop (𝓝 s) ∧ ∀ n : ℕ, 0 < n → norm2 ((x n n).s - s) ≤
      3 * (√((2 * G) ^ 2 + 2 / 3 * (2 * G * k T)) * max (flowRate s0 k gf T x0) Λ) * τ / √n := by
  obtain ⟨R, hR⟩ : ∃ R, R = √((2 * G) ^ 2 + 2 / 3 * (2 * G * k T)) * max (flowRate s0 k gf T x0) Λ := ⟨_, rfl⟩
  have hR0 : 0 ≤ R := by
    rw [hR]
    exact mul_nonneg (Real.sqrt_nonneg _)
      (le_max_of_le_left (flow_nonneg (rate_monotone hm) (fun f hf => rate_of_nonpos hf) _))
  rw [← hR]
  refine refined_converges (by positivity) fun n m hn hm' => ?_
  have hn' : (0 : ℝ) < n := by exact_mod_cast hn
  have hm'' : (0 : ℝ) < m := by exact_mod_cast hm'
  have hsame (j : ℕ) : ((j * m : ℕ) : ℝ) / ((n * m : ℕ) : ℝ) = j / n := by
    push_cast
    rw [mul_div_mul_right _ _ hm''.ne']
  have h1 := C209_refine he hG hC hm hk (Λ := Λ) (κ := fun j => j * m) (fun i => by
      have hnm : (0 : ℝ) < ((n * m : ℕ) : ℝ) := by exact_mod_cast Nat.mul_pos hn hm'
      refine (hf _ _ (by positivity) ?_).trans (le_of_eq (by ring))
      have : (i : ℝ) ≤ ((i + 1 : ℕ) : ℝ) := by push_cast; linarith
      gcongr) (by simp) (fun a b h => Nat.mul_le_mul_right m h) (hx (n * m) (Nat.mul_pos hn hm')) (z := x n)
    (by rw [hx0, hx0]) (by simp only [hsame]; exact hx n hn) n
  simp only [hsame] at h1
  rw [hx0, ← hR] at h1
  refine h1.trans (le_of_eq ?_)
  have h2 : ∑ i ∈ Finset.range n, (t0 + τ * (((i + 1 : ℕ) : ℝ) / n) - (t0 + τ * ((i : ℝ) / n))) ^ 2 = (τ / √n) ^ 2 := by
    rw [div_pow, Real.sq_sqrt hn'.le]
    have : ∀ i ∈ Finset.range n, (t0 + τ * (((i + 1 : ℕ) : ℝ) / n) - (t0 + τ * ((i : ℝ) / n))) ^ 2 = (τ / n) ^ 2 := by
      intro i _
      push_cast
      ring
    rw [Finset.sum_congr rfl this, Finset.sum_const, Finset.card_range, nsmul_eq_mul]
    field_simp
  rw [h2, Real.sqrt_sq (by positivity)]
  ring

/-- C209: there are such runs for every number of steps. -/
theorem C209_path (he : 0 < eps) (hG : 0 < G) (hC : el.C T = isoC G Kb) (hm : Flowing gf T) (hk : 0 ≤ k T)
    (f : ℝ → Fin 6 → ℝ) {τ t0 : ℝ} (hτ : 0 < τ) {x0 : State} (h0 : x0.e = f 0) (ht : x0.t = t0)
    (hf : eps ≤ √(2 / 3) * (s0 T + k T * x0.h ())) : ∃ x : ℕ → ℕ → State, (∀ n, x n 0 = x0) ∧
      ∀ n : ℕ, 0 < n → Run el eps s0 k gf T (fun i => f (τ * (i / n))) (fun i => t0 + τ * (i / n)) (x n) := by
  have h (n : ℕ) : ∃ x : ℕ → State, x 0 = x0 ∧ (0 < n →
      Run el eps s0 k gf T (fun i => f (τ * (i / n))) (fun i => t0 + τ * (i / n)) x) := by
    rcases Nat.eq_zero_or_pos n with hn | hn
    · exact ⟨fun _ => x0, rfl, fun h => absurd hn h.ne'⟩
    · have hn' : (0 : ℝ) < n := by exact_mod_cast hn
      obtain ⟨x, hx0, hx⟩ := C207_path (el := el) he hG hC hm hk (fun i => f (τ * (((i + 1 : ℕ) : ℝ) / n)))
        (t := fun i => t0 + τ * ((i : ℝ) / n)) (fun i => by
          have : (i : ℝ) < ((i + 1 : ℕ) : ℝ) := by push_cast; linarith
          gcongr) (x0 := x0) (by simpa using ht) hf
      exact ⟨x, hx0, fun _ => ⟨by rw [hx0, h0]; simp, by rw [hx0, ht]; simp, by rw [hx0]; exact hf, fun i => hx.2 i⟩⟩
  choose x h1 h2 using h
  exact ⟨x, h1, h2⟩

/-- C209: whatever number `n` of steps the code computes, with a tolerance of the solver that is worth the stress `tol`, the
deviatoric stress at the end is within the error of the exact steps and `n` times the tolerance of one and the same stress. -/
theorem C209_computed {χ limit tiny : ℝ}
    {lin : Matrix (Fin (6 + 1)) (Fin (6 + 1)) ℝ → (Fin (6 + 1) → ℝ) → Option (Fin (6 + 1) → ℝ)}
    {p : Newton.Params} {fuel : Nat}
    {inv : Matrix (Fin 6 ⊕ Unit) (Fin 6 ⊕ Unit) ℝ → Option (Matrix (Fin 6 ⊕ Unit) (Fin 6 ⊕ Unit) ℝ)}
    (he : 0 < eps) (ha : 0 < p.atol) (hli : ExactSolve lin) (hv : ExactInv inv) (hG : 0 < G) (hB : 0 < Kb) (hk : 0 ≤ k T)
    (hC : el.C T = isoC G Kb) (hm : Flowing gf T) (hg : Gentle χ gf T) (hχ : 0 < χ) (hle : χ ≤ 1) (htiny : 0 < tiny)
    (hlim0 : 0 ≤ limit) {l : ℕ} (hmi : (l : Int) < p.miter) (hl : l < fuel) (htol : (1 - χ) ^ l < p.rtol)
    {f : ℝ → Fin 6 → ℝ} {Λ τ t0 : ℝ} (hτ : 0 < τ) (hf : ∀ a b, 0 ≤ a → a ≤ b → norm2 (devVec (f b - f a)) ≤ Λ * (b - a))
    {x0 : State} (h0 : x0.e = f 0) (ht : x0.t = t0) (hfl : eps ≤ √(2 / 3) * (s0 T + k T * x0.h ())) :
    ∃ s : Fin 6 → ℝ, ∀ n : ℕ, 0 < n → ∀ tol z, Along (ViscoComputes el eps (linearIso s0 k) gf G limit tiny lin p fuel inv T tol) x0
        ((List.range' 0 n).map fun i => (f (τ * ((i + 1 : ℕ) / n)), t0 + τ * ((i + 1 : ℕ) / n))) z →
      norm2 (devVec (z.s - s)) ≤ 3 * (√((2 * G) ^ 2 + 2 / 3 * (2 * G * k T)) * max (flowRate s0 k gf T x0) Λ) * τ / √n +
        √(2 * G) * (n * (tol * (√(2 * G + 2 / 3 * k T) / (2 * G)))) := by
  obtain ⟨x, hx0, hx⟩ := C209_path (el := el) he hG hC hm hk f hτ h0 ht hfl
  obtain ⟨s, -, hs⟩ := C209_converges he hG hC hm hk hτ hf hx0 hx
  refine ⟨s, fun n hn tol z hz => ?_⟩
  have h4 := along_path (R := ViscoStep el eps (linearIso s0 k) gf T)
    (l := fun i => (f (τ * ((i + 1 : ℕ) / n)), t0 + τ * ((i + 1 : ℕ) / n))) (hx n hn).step n 0
  rw [hx0, zero_add] at h4
  have h5 := C188_visco he ha hli hv hG hB hk hC hm hg hχ hle htiny hlim0 hmi hl htol _ rfl rfl hfl hfl hz h4
  have e1 : apart G Kb (k T) 0 0 = 0 := by simp [apart, energy]
  rw [sub_self, sub_self, e1, zero_add, List.length_map, List.length_range'] at h5
  have h6 : norm2 (devVec (z.s - (x n n).s)) ≤ √(2 * G) * apart G Kb (k T) (z.s - (x n n).s) (z.h () - (x n n).h ()) := by
    have h1 : devVec (z.s - (x n n).s) ⬝ᵥ devVec (z.s - (x n n).s) ≤
        2 * G * energy G Kb (k T) (z.s - (x n n).s) (z.h () - (x n n).h ()) := by
      rw [energy_split hG hB]
      have h3 : 0 ≤ k T * (z.h () - (x n n).h ()) ^ 2 := by positivity
      have h4 : 0 ≤ tr3 (z.s - (x n n).s) ^ 2 / (9 * Kb) := by positivity
      have h5 : 2 * G * (devVec (z.s - (x n n).s) ⬝ᵥ devVec (z.s - (x n n).s) / (2 * G)) =
          devVec (z.s - (x n n).s) ⬝ᵥ devVec (z.s - (x n n).s) := by field_simp
      nlinarith
    rw [apart, ← Real.sqrt_mul (by positivity)]
    exact Real.sqrt_le_sqrt h1
  have h7 := h6.trans (mul_le_mul_of_nonneg_left h5 (Real.sqrt_nonneg _))
  have h8 := (devVec_le_norm2 _).trans (hs n hn)
  have e : devVec (z.s - s) = devVec (z.s - (x n n).s) + devVec ((x n n).s - s) := by
    rw [← devVec_add]
    congr 1
    abel
  rw [e]
  refine (norm2_add_le _ _).trans ?_
  linarith

end steps

/-- A material with a flow exponent of three that is pulled and twisted, and then only pulled. -/
example : ∃ (x : ℕ → ℕ → State) (s : Fin 6 → ℝ), (∀ n, x n 0 = ⟨0, 0, 0, 0, 0, 0, 0⟩) ∧
    (∀ n : ℕ, 0 < n → Run (isoElastic (1 / 2) 1) 1 (fun _ => √(3 / 2)) (fun _ => 1) (gPowerLaw (fun _ => 3) fun _ => 100) 0
      (fun i => bent (2 * (i / n))) (fun i => 0 + 2 * (i / n)) (x n)) ∧
    Tendsto (fun n => (x n n).s) atTop (𝓝 s) := by
  have hm : Flowing (gPowerLaw (fun _ => 3) fun _ => 100) 0 := C184_power _ _ _ (by norm_num) (by norm_num)
  have hf : (1 : ℝ) ≤ √(2 / 3) * ((fun _ => √(3 / 2)) (0 : ℝ) + (fun _ => (1 : ℝ)) (0 : ℝ) * (0 : ℝ)) := by
    simp only [mul_zero, add_zero]
    exact sqrt_cancel.ge
  obtain ⟨x, hx0, hx⟩ := C209_path (el := isoElastic (1 / 2) 1) (G := 1 / 2) (Kb := 1) (T := 0) (eps := 1)
    (s0 := fun _ => √(3 / 2)) (k := fun _ => 1) one_pos (by norm_num) rfl hm zero_le_one bent (τ := 2) (t0 := 0) two_pos
    (x0 := ⟨0, 0, 0, 0, 0, 0, 0⟩) bent_zero rfl hf
  obtain ⟨s, hs, -⟩ := C209_converges (Kb := 1) one_pos (by norm_num) rfl hm zero_le_one two_pos bent_rate hx0 hx
  exact ⟨x, s, hx0, hx, hs⟩

/-- The code along a shear in time, and a single step of it. -/
example : ∃ s : Fin 6 → ℝ, (∀ n : ℕ, 0 < n → ∀ tol z, Along (ViscoComputes (isoElastic (1 / 2) 1) 1
      (linearIso (fun _ => √(3 / 2)) (fun _ => 1)) (gPowerLaw (fun _ => 3) (fun _ => 1)) (1 / 2) 1e10 1e-15
      exactLin ⟨1e-8, 1e-8, 50, false⟩ 50 exactInv 0 tol) ⟨0, 0, 0, 0, 0, 0, 0⟩
      ((List.range' 0 n).map fun i => ((1 * (((i + 1 : ℕ) : ℝ) / n)) • ((4 : ℝ) • shear), 0 + 1 * (((i + 1 : ℕ) : ℝ) / n))) z →
      norm2 (devVec (z.s - s)) ≤ 3 * (√((2 * (1 / 2)) ^ 2 + 2 / 3 * (2 * (1 / 2) * 1)) *
        max (flowRate (fun _ => √(3 / 2)) (fun _ => 1) (gPowerLaw (fun _ => 3) (fun _ => 1)) 0 ⟨0, 0, 0, 0, 0, 0, 0⟩) 4) * 1 / √n +
        √(2 * (1 / 2)) * (n * (tol * (√(2 * (1 / 2) + 2 / 3 * 1) / (2 * (1 / 2)))))) ∧
    ∃ tol z, Along (ViscoComputes (isoElastic (1 / 2) 1) 1
      (linearIso (fun _ => √(3 / 2)) (fun _ => 1)) (gPowerLaw (fun _ => 3) (fun _ => 1)) (1 / 2) 1e10 1e-15
      exactLin ⟨1e-8, 1e-8, 50, false⟩ 50 exactInv 0 tol) ⟨0, 0, 0, 0, 0, 0, 0⟩
      ((List.range' 0 1).map fun i => ((1 * (((i + 1 : ℕ) : ℝ) / (1 : ℕ))) • ((4 : ℝ) • shear), 0 + 1 * (((i + 1 : ℕ) : ℝ) / (1 : ℕ)))) z := by
  have hf0 : (1 : ℝ) ≤ √(2 / 3) * (√(3 / 2) + 1 * 0) := by rw [mul_zero, add_zero, sqrt_cancel]
  obtain ⟨s, hs⟩ := C209_computed (el := isoElastic (1 / 2) 1) (G := 1 / 2) (Kb := 1) (eps := 1) (T := 0)
    (s0 := fun _ => √(3 / 2)) (k := fun _ => 1) (gf := gPowerLaw (fun _ => 3) (fun _ => 1)) (limit := 1e10) (tiny := 1e-15)
    (lin := exactLin) (inv := exactInv) (p := ⟨1e-8, 1e-8, 50, false⟩) (fuel := 50) (l := 41) one_pos (by norm_num)
    exactLin_exact exactInv_exact (by norm_num) one_pos zero_le_one rfl (C184_power _ _ _ (by norm_num) (by norm_num))
    (C185_power _ _ _ (by norm_num) (by norm_num)) (Real.exp_pos _) (Real.exp_le_one_iff.mpr (by norm_num)) (by norm_num)
    (by norm_num) (by norm_num) (by norm_num) (by simpa using shrink41) (f := fun a => a • ((4 : ℝ) • shear)) (Λ := 4) (τ := 1)
    (t0 := 0) one_pos (fun a b _ hab => by
      have e : b • ((4 : ℝ) • shear) - a • ((4 : ℝ) • shear) = ((b - a) * 4) • shear := by
        rw [← sub_smul, smul_smul]
      rw [e, devVec_shear, norm2_unit shear_unit, abs_of_nonneg (by linarith)]
      linarith) (x0 := ⟨0, 0, 0, 0, 0, 0, 0⟩) (by simp) rfl hf0
  refine ⟨s, hs, ?_⟩
  obtain ⟨inc, h⟩ := Option.isSome_iff_exists.mp shear_step
  have e : (List.range' 0 1).map (fun i => ((1 * (((i + 1 : ℕ) : ℝ) / (1 : ℕ))) • ((4 : ℝ) • shear), 0 + 1 * (((i + 1 : ℕ) : ℝ) / (1 : ℕ)))) =
      [((4 : ℝ) • shear, 1)] := by simp
  rw [e]
  refine ⟨_, ⟨(4 : ℝ) • shear, 0, 1, inc.s, inc.h, 0, 0⟩, _, ⟨⟨inc, h, rfl, rfl, rfl, rfl, rfl⟩,
    by norm_num, ?_, ?_, le_rfl⟩, rfl⟩
  · rw [trial_shear, devVec_shear, norm2_unit shear_unit]; norm_num
  · rw [trial_shear]
    show rate _ 0 (excess (linearIso (fun _ => √(3 / 2)) (fun _ => 1)) 0 ((4 : ℝ) • shear) 0) ≤ 1e10
    rw [excess_shear, rate_of_pos (by norm_num)]
    simp only [gPowerLaw]
    norm_num

end Neml.SolveStep
