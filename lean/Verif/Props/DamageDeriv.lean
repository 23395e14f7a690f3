import Verif.Props.DamageTangent
import Mathlib.Analysis.SpecialFunctions.ExpDeriv

/-!
# C79: the damage rules report the derivatives of their damage

Specification: `Rule.Correct` and `Measure.Correct`, the chain rule along every differentiable curve.
-/

namespace Neml.Damage

open Matrix Neml.SmallStrain Neml.Mandel

section Frame

variable {ι : Type} [Fintype ι] [DecidableEq ι] {H : Type}

/-- C79, rates: a rule built from a rate with right derivatives has right derivatives. -/
theorem C79_rate (dt : ℝ) (rate dd de ds) (d1 d0 : ℝ) (e1 e0 s1 s0 : ι → ℝ)
    (h : ∀ (d : ℝ → ℝ) (e s : ℝ → ι → ℝ) (d' : ℝ) (e' s' : ι → ℝ) (t0 : ℝ), HasDerivAt d d' t0 →
      Moves e e' t0 → Moves s s' t0 → d t0 = d1 → e t0 = e1 → s t0 = s1 →
      HasDerivAt (fun t => rate (d t) (e t) (s t))
        (dd d1 e1 s1 * d' + de d1 e1 s1 ⬝ᵥ e' + ds d1 e1 s1 ⬝ᵥ s') t0) :
    (rateRule dt rate dd de ds).Correct d1 d0 e1 e0 s1 s0 := by
  intro d e s d' e' s' t0 hd he hs h1 h2 h3
  have := ((h d e s d' e' s' t0 hd he hs h1 h2 h3).mul_const dt).add_const d0
  refine this.congr_deriv ?_
  simp only [rateRule, dotProduct, add_mul, Finset.sum_mul]
  congr 1
  · congr 1
    · ring
    · exact Finset.sum_congr rfl fun i _ => by ring
  · exact Finset.sum_congr rfl fun i _ => by ring

/-- C79, combination: combined damage has right derivatives where its members do. -/
theorem C79_combined (ms : List (Rule ι)) (d1 d0 : ℝ) (e1 e0 s1 s0 : ι → ℝ)
    (h : ∀ m ∈ ms, m.Correct d1 d0 e1 e0 s1 s0) : (combined ms).Correct d1 d0 e1 e0 s1 s0 := by
  intro d e s d' e' s' t0 hd he hs h1 h2 h3
  have key : ∀ (l : List (Rule ι)), (∀ m ∈ l, m.Correct d1 d0 e1 e0 s1 s0) →
      ∀ (a : ℝ → ℝ) (a' : ℝ) (b : ℝ) (v w : ι → ℝ), HasDerivAt a a' t0 →
      a' = b * d' + v ⬝ᵥ e' + w ⬝ᵥ s' →
      HasDerivAt (fun t => l.foldl (fun acc m => acc + (m.damage (d t) d0 (e t) e0 (s t) s0 - d0)) (a t))
        (l.foldl (fun acc m => acc + m.dd d1 d0 e1 e0 s1 s0) b * d' +
          (l.foldl (fun acc m => fun i => acc i + m.de d1 d0 e1 e0 s1 s0 i) v) ⬝ᵥ e' +
          (l.foldl (fun acc m => fun i => acc i + m.ds d1 d0 e1 e0 s1 s0 i) w) ⬝ᵥ s') t0 := by
    intro l
    induction l with
    | nil => intro _ a a' b v w ha hb; rw [hb] at ha; exact ha
    | cons m l ih =>
      intro hl a a' b v w ha hb
      have hm := hl m (List.mem_cons_self ..) d e s d' e' s' t0 hd he hs h1 h2 h3
      simp only [List.foldl_cons]
      refine ih (fun m' hm' => hl m' (List.mem_cons_of_mem _ hm')) _ _ _ _ _
        (ha.add (hm.sub_const d0)) ?_
      rw [hb]
      have : ∀ (x y z : ι → ℝ), (fun i => x i + y i) ⬝ᵥ z = x ⬝ᵥ z + y ⬝ᵥ z :=
        fun x y z => add_dotProduct x y z
      rw [this, this]
      ring
  exact key ms h (fun _ => d0) 0 0 0 0 (hasDerivAt_const _ _) (by simp)

/-- The derivative of the effective inelastic strain increment where it is not zero. -/
theorem dep_moves (S : Matrix ι ι ℝ) (hS : S.IsSymm) {s e : ℝ → ι → ℝ} {s' e' : ι → ℝ} {t0 : ℝ}
    (hs : Moves s s' t0) (he : Moves e e' t0) (s0 e0 : ι → ℝ)
    (h0 : dep S (s t0) s0 (e t0) e0 ≠ 0) :
    HasDerivAt (fun t => dep S (s t) s0 (e t) e0)
      (2 / (3 * dep S (s t0) s0 (e t0) e0) *
        (((fun i => (e t0 i - e0 i) - (S *ᵥ fun k => s t0 k - s0 k) i) ⬝ᵥ e') +
          ((S *ᵥ fun i => (S *ᵥ fun k => s t0 k - s0 k) i - (e t0 i - e0 i)) ⬝ᵥ s'))) t0 := by
  -- the increment is the root of two thirds of a squared length
  have hval : ∀ a b : ι → ℝ, a ⬝ᵥ a + b ⬝ᵥ b - 2 * (a ⬝ᵥ b) = (a - b) ⬝ᵥ (a - b) := by
    intro a b
    simp only [sub_dotProduct, dotProduct_sub, dotProduct_comm b a]
    ring
  have hform : ∀ x y : ι → ℝ, dep S x s0 y e0 =
      √(2 / 3 * ((fun i => (y i - e0 i) - (S *ᵥ fun k => x k - s0 k) i) ⬝ᵥ
        fun i => (y i - e0 i) - (S *ᵥ fun k => x k - s0 k) i)) := by
    intro x y
    unfold dep
    dsimp only
    rw [hval]
    have hnn : 0 ≤ ((fun i => y i - e0 i) - S *ᵥ fun i => x i - s0 i) ⬝ᵥ
        ((fun i => y i - e0 i) - S *ᵥ fun i => x i - s0 i) :=
      Finset.sum_nonneg fun i _ => mul_self_nonneg _
    rw [if_neg (by linarith)]
    rfl
  have hde : Moves (fun t i => e t i - e0 i) e' t0 := fun i => (he i).sub_const _
  have hds : Moves (fun t i => s t i - s0 i) s' t0 := fun i => (hs i).sub_const _
  have hx : Moves (fun t i => (e t i - e0 i) - (S *ᵥ fun k => s t k - s0 k) i)
      (fun i => e' i - (S *ᵥ s') i) t0 := fun i => (hde i).sub (hds.mulVec S i)
  rw [hform] at h0 ⊢
  have hpos := (Real.sqrt_ne_zero'.mp h0).ne'
  have h1 := ((hx.dot hx).const_mul (2 / 3 : ℝ)).sqrt hpos
  refine (h1.congr_of_eventuallyEq (Filter.Eventually.of_forall fun t => hform _ _)).congr_deriv ?_
  -- symmetric compliance moves to the other factor
  have hsym : ∀ v : ι → ℝ, v ⬝ᵥ (S *ᵥ s') = (S *ᵥ v) ⬝ᵥ s' := fun v => by
    rw [dotProduct_mulVec, ← mulVec_transpose, hS.eq]
  generalize hv : (fun i => (e t0 i - e0 i) - (S *ᵥ fun k => s t0 k - s0 k) i) = v at *
  have hv2 : (fun i => (S *ᵥ fun k => s t0 k - s0 k) i - (e t0 i - e0 i)) = -v := by
    rw [← hv]; funext i; simp
  rw [hv2, mulVec_neg, neg_dotProduct, ← hsym]
  have e1 : (fun i => e' i - (S *ᵥ s') i) ⬝ᵥ v = v ⬝ᵥ e' - v ⬝ᵥ (S *ᵥ s') := by
    rw [dotProduct_comm]; exact dotProduct_sub v e' (S *ᵥ s')
  have e2 : (v ⬝ᵥ fun i => e' i - (S *ᵥ s') i) = v ⬝ᵥ e' - v ⬝ᵥ (S *ᵥ s') :=
    dotProduct_sub v e' (S *ᵥ s')
  rw [e1, e2]
  field_simp
  ring

/-- C79, strain driven rules: with a symmetric compliance, right derivatives of the factor and a
non-zero inelastic increment, the three derivatives are right. -/
theorem C79_standard (S : Matrix ι ι ℝ) (hS : S.IsSymm) (f df_dd df_ds) (d1 d0 : ℝ)
    (e1 e0 s1 s0 : ι → ℝ) (h0 : dep S s1 s0 e1 e0 ≠ 0)
    (h : ∀ (d : ℝ → ℝ) (s : ℝ → ι → ℝ) (d' : ℝ) (s' : ι → ℝ) (t0 : ℝ), HasDerivAt d d' t0 →
      Moves s s' t0 → d t0 = d1 → s t0 = s1 →
      HasDerivAt (fun t => f (s t) (d t)) (df_dd s1 d1 * d' + df_ds s1 d1 ⬝ᵥ s') t0) :
    (standardRule S f df_dd df_ds).Correct d1 d0 e1 e0 s1 s0 := by
  intro d e s d' e' s' t0 hd he hs h1 h2 h3
  have hf := h d s d' s' t0 hd hs h1 h3
  have hdep := dep_moves S hS hs he s0 e0 (by rw [h2, h3]; exact h0)
  have := (hf.fun_mul hdep).const_add d0
  refine this.congr_deriv ?_
  simp only [standardRule, h1, h2, h3, if_neg h0]
  generalize dep S s1 s0 e1 e0 = D at *
  have g1 : (fun i => 2 * f s1 d1 / (3 * D) * (e1 i - e0 i - (S *ᵥ fun k => s1 k - s0 k) i)) ⬝ᵥ e' =
      2 * f s1 d1 / (3 * D) * ((fun i => e1 i - e0 i - (S *ᵥ fun k => s1 k - s0 k) i) ⬝ᵥ e') := by
    simp only [dotProduct, Finset.mul_sum]
    exact Finset.sum_congr rfl fun i _ => by ring
  have g2 : (S *ᵥ fun i => 2 * f s1 d1 / (3 * D) *
      ((S *ᵥ fun k => s1 k - s0 k) i - (e1 i - e0 i))) =
      (2 * f s1 d1 / (3 * D)) • (S *ᵥ fun i => (S *ᵥ fun k => s1 k - s0 k) i - (e1 i - e0 i)) := by
    rw [← mulVec_smul]; rfl
  have g3 : ∀ w : ι → ℝ, (fun i => df_ds s1 d1 i * D + w i) ⬝ᵥ s' =
      D * (df_ds s1 d1 ⬝ᵥ s') + w ⬝ᵥ s' := by
    intro w
    simp only [dotProduct, Finset.mul_sum, ← Finset.sum_add_distrib]
    exact Finset.sum_congr rfl fun i _ => by ring
  rw [g1, g2, g3, smul_dotProduct, smul_eq_mul]
  field_simp
  ring

/-- C79, work damage: for damage strictly between zero and one and positive plastic work of the step,
with a symmetric compliance and a right derivative of the critical work, the three derivatives are
right. -/
theorem C79_work_partial (q : WorkParams ι) (hS : q.S.IsSymm) (hn : q.n ≠ 0) (hsc : 0 < q.scale)
    (hdt : 0 < q.dt) (d1 d0 : ℝ) (e1 e0 s1 s0 : ι → ℝ) (hd0 : 0 < d1) (hd1 : d1 < 1)
    (hpos : 0 < s1 ⬝ᵥ fun i => (e1 i - e0 i) -
      (q.S *ᵥ fun k => s1 k * (1 - d1) - s0 k * (1 - d0)) i)
    (hWc : HasDerivAt q.Wcrit (q.dWcrit (workrate q e1 e0 s1 s0 d1 d0 / q.scale))
      (workrate q e1 e0 s1 s0 d1 d0 / q.scale))
    (hW0 : q.Wcrit (workrate q e1 e0 s1 s0 d1 d0 / q.scale) ≠ 0) :
    (workRule q).Correct d1 d0 e1 e0 s1 s0 := by
  intro d e s d' e' s' t0 hd he hs h1 h2 h3
  have habs : |d1| = d1 := abs_of_pos hd0
  have hne1 : (1 : ℝ) - d1 ≠ 0 := by linarith
  -- plastic work and its derivative
  have hds : Moves (fun t k => s t k * (1 - d t) - s0 k * (1 - d0))
      (fun k => s' k * (1 - d1) - s1 k * d') t0 := fun k => by
    refine (((hs k).fun_mul (hd.const_sub 1)).sub_const _).congr_deriv ?_
    rw [h1, h3]; ring
  have hdp : Moves (fun t i => (e t i - e0 i) -
      (q.S *ᵥ fun k => s t k * (1 - d t) - s0 k * (1 - d0)) i)
      (fun i => e' i - (q.S *ᵥ fun k => s' k * (1 - d1) - s1 k * d') i) t0 := fun i =>
    ((he i).sub_const _).sub (hds.mulVec q.S i)
  have hw := hs.dot hdp
  simp only [h1, h2, h3] at hw
  generalize hdpv : (fun i => (e1 i - e0 i) -
    (q.S *ᵥ fun k => s1 k * (1 - d1) - s0 k * (1 - d0)) i) = dp at *
  -- the work rate near the point
  have hW : HasDerivAt (fun t => workrate q (e t) e0 (s t) s0 |d t| d0)
      (q.scale * (-d' * (s1 ⬝ᵥ dp) + (1 - d1) * (s' ⬝ᵥ dp +
        s1 ⬝ᵥ fun i => e' i - (q.S *ᵥ fun k => s' k * (1 - d1) - s1 k * d') i)) / q.dt) t0 := by
    have hA := ((hw.div_const q.dt).fun_mul (hd.const_sub 1)).mul_const q.scale
    have hcpos : ∀ᶠ t in nhds t0, 0 < s t ⬝ᵥ fun i => (e t i - e0 i) -
        (q.S *ᵥ fun k => s t k * (1 - d t) - s0 k * (1 - d0)) i :=
      hw.continuousAt.eventually_const_lt (by simpa only [h1, h2, h3, hdpv] using hpos)
    have hcd0 : ∀ᶠ t in nhds t0, 0 < d t :=
      hd.continuousAt.eventually_const_lt (by rw [h1]; exact hd0)
    have hcd1 : ∀ᶠ t in nhds t0, d t < 1 :=
      hd.continuousAt.eventually_lt_const (by rw [h1]; exact hd1)
    refine (hA.congr_of_eventuallyEq ?_).congr_deriv ?_
    · filter_upwards [hcpos, hcd0, hcd1] with t a1 a2 a3
      have : 0 ≤ (s t ⬝ᵥ fun i => (e t i - e0 i) -
        (q.S *ᵥ fun k => s t k * (1 - d t) - s0 k * (1 - d0)) i) / q.dt * (1 - d t) :=
        mul_nonneg (div_nonneg a1.le hdt.le) (by linarith)
      simp only [workrate, if_neg (not_le.mpr hdt), abs_of_pos a2]
      rw [abs_of_nonneg this]
    · simp only [h1, h2, h3, hdpv]
      ring
  have hwr : workrate q e1 e0 s1 s0 d1 d0 = s1 ⬝ᵥ dp / q.dt * (1 - d1) * q.scale := by
    simp only [workrate, if_neg (not_le.mpr hdt), hdpv]
    rw [abs_of_nonneg]
    exact mul_nonneg (div_nonneg hpos.le hdt.le) (by linarith)
  have hwrpos : 0 < workrate q e1 e0 s1 s0 d1 d0 := by
    rw [hwr]
    exact mul_pos (mul_pos (div_pos hpos hdt) (by linarith)) hsc
  have hW' : ∀ᶠ t in nhds t0, workrate q (e t) e0 (s t) s0 |d t| d0 ≠ 0 :=
    hW.continuousAt.eventually_ne (by rw [h1, h2, h3, habs]; exact hwrpos.ne')
  have hdne : ∀ᶠ t in nhds t0, 0 < d t :=
    hd.continuousAt.eventually_const_lt (by rw [h1]; exact hd0)
  -- the critical work along the curve
  have hcrit : HasDerivAt (fun t => q.Wcrit (workrate q (e t) e0 (s t) s0 |d t| d0 / q.scale))
      (q.dWcrit (workrate q e1 e0 s1 s0 d1 d0 / q.scale) *
        ((q.scale * (-d' * (s1 ⬝ᵥ dp) + (1 - d1) * (s' ⬝ᵥ dp +
        s1 ⬝ᵥ fun i => e' i - (q.S *ᵥ fun k => s' k * (1 - d1) - s1 k * d') i)) / q.dt) / q.scale)) t0 := by
    refine HasDerivAt.comp (h₂ := q.Wcrit) t0 ?_ (hW.div_const q.scale)
    simpa only [h1, h2, h3, habs] using hWc
  have hrp : HasDerivAt (fun t => |d t| ^ ((q.n - 1) / q.n))
      (d' * ((q.n - 1) / q.n) * d1 ^ ((q.n - 1) / q.n - 1)) t0 := by
    have := hd.rpow_const (p := (q.n - 1) / q.n) (Or.inl (by rw [h1]; exact hd0.ne'))
    rw [h1] at this
    refine this.congr_of_eventuallyEq ?_
    filter_upwards [hdne] with t ht
    rw [abs_of_pos ht]
  have hall := (((((hrp.const_mul q.n).fun_mul hW).mul_const q.dt).fun_div hcrit
    (by simpa only [h1, h2, h3, habs] using hW0)).div_const q.scale).const_add d0
  refine (hall.congr_of_eventuallyEq ?_).congr_deriv ?_
  · filter_upwards [hW', hdne] with t a1 a2
    simp only [workRule, if_neg a1, if_neg a2.ne']
  · have hexp : d1 ^ ((q.n - 1) / q.n - 1) = d1 ^ (-1 / q.n) := by
      congr 1; field_simp; ring
    have hsym : ∀ v : ι → ℝ, s1 ⬝ᵥ (q.S *ᵥ v) = (q.S *ᵥ s1) ⬝ᵥ v := fun v => by
      rw [dotProduct_mulVec, ← mulVec_transpose, hS.eq]
    have hlin : (s1 ⬝ᵥ fun i => e' i - (q.S *ᵥ fun k => s' k * (1 - d1) - s1 k * d') i) =
        s1 ⬝ᵥ e' - ((1 - d1) * ((q.S *ᵥ s1) ⬝ᵥ s') - d' * (s1 ⬝ᵥ (q.S *ᵥ s1))) := by
      have : (s1 ⬝ᵥ fun i => e' i - (q.S *ᵥ fun k => s' k * (1 - d1) - s1 k * d') i) =
          s1 ⬝ᵥ e' - s1 ⬝ᵥ (q.S *ᵥ fun k => s' k * (1 - d1) - s1 k * d') := dotProduct_sub _ _ _
      rw [this]
      have h2 : (fun k => s' k * (1 - d1) - s1 k * d') = (1 - d1) • s' - d' • s1 := by
        funext k; simp [mul_comm]
      rw [h2, mulVec_sub, mulVec_smul, mulVec_smul, dotProduct_sub, dotProduct_smul,
        dotProduct_smul, hsym s']
      simp only [smul_eq_mul]
    have hdsv : (workRule q).ds d1 d0 e1 e0 s1 s0 ⬝ᵥ s' =
        q.n * d1 ^ ((q.n - 1) / q.n) / q.Wcrit (workrate q e1 e0 s1 s0 d1 d0 / q.scale) *
          (1 - workrate q e1 e0 s1 s0 d1 d0 / q.Wcrit (workrate q e1 e0 s1 s0 d1 d0 / q.scale) *
            q.dWcrit (workrate q e1 e0 s1 s0 d1 d0 / q.scale) / q.scale) * (1 - d1) *
          (s' ⬝ᵥ dp - (1 - d1) * ((q.S *ᵥ s1) ⬝ᵥ s')) := by
      simp only [workRule, habs, if_neg (not_or.mpr ⟨not_le.mpr hd0, hwrpos.ne'⟩)]
      have : ∀ c : ℝ, (fun i => c * (e1 i - e0 i - (q.S *ᵥ fun i => s1 i * (1 - d1) -
          s0 i * (1 - d0)) i - (1 - d1) * (q.S *ᵥ s1) i)) ⬝ᵥ s' =
          c * (s' ⬝ᵥ dp - (1 - d1) * ((q.S *ᵥ s1) ⬝ᵥ s')) := by
        intro c
        simp only [← hdpv, dotProduct, Finset.mul_sum, ← Finset.sum_sub_distrib]
        exact Finset.sum_congr rfl fun i _ => by ring
      rw [this]
    have hdev : (workRule q).de d1 d0 e1 e0 s1 s0 ⬝ᵥ e' =
        q.n * d1 ^ ((q.n - 1) / q.n) / q.Wcrit (workrate q e1 e0 s1 s0 d1 d0 / q.scale) *
          (1 - workrate q e1 e0 s1 s0 d1 d0 / q.Wcrit (workrate q e1 e0 s1 s0 d1 d0 / q.scale) *
            q.dWcrit (workrate q e1 e0 s1 s0 d1 d0 / q.scale) / q.scale) * (1 - d1) *
          (s1 ⬝ᵥ e') := by
      simp only [workRule, habs, if_neg (not_or.mpr ⟨not_le.mpr hd0, hwrpos.ne'⟩)]
      simp only [dotProduct, Finset.mul_sum]
      exact Finset.sum_congr rfl fun i _ => by ring
    rw [hdsv, hdev, hlin]
    simp only [workRule, habs, if_neg hwrpos.ne', if_neg hd0.ne', h1, h2, h3, hexp]
    have hwr2 : s1 ⬝ᵥ dp = workrate q e1 e0 s1 s0 d1 d0 * q.dt / (1 - d1) / q.scale := by
      rw [hwr]; field_simp
    rw [hwr2]
    generalize workrate q e1 e0 s1 s0 d1 d0 = W at *
    generalize q.Wcrit (W / q.scale) = V at *
    generalize q.dWcrit (W / q.scale) = V' at *
    generalize d1 ^ ((q.n - 1) / q.n) = P
    generalize d1 ^ (-1 / q.n) = P'
    have := hsc.ne'
    have := hdt.ne'
    field_simp
    ring

/-- Disagreement for C79: where the work rate vanishes the work damage rule reports the old damage as
its derivative, not zero. At zero effective stress the damage is the old damage whatever the new
damage is, so its derivative is zero. -/
theorem C79_work_disagrees (q : WorkParams ι) (d1 d0 : ℝ) (h0 : d0 ≠ 0) (e1 e0 s0 : ι → ℝ) :
    (∀ d, (workRule q).damage d d0 e1 e0 0 s0 = d0) ∧
      (workRule q).dd d1 d0 e1 e0 0 s0 = d0 ∧ ¬ (workRule q).Correct d1 d0 e1 e0 0 s0 := by
  have hwr : ∀ x, workrate q e1 e0 0 s0 x d0 = 0 := by
    intro x
    unfold workrate
    split_ifs
    · rfl
    · simp
  have h1 : ∀ d, (workRule q).damage d d0 e1 e0 0 s0 = d0 := by
    intro d
    simp only [workRule, hwr]
    split_ifs <;> rfl
  have h2 : (workRule q).dd d1 d0 e1 e0 0 s0 = d0 := by
    simp only [workRule, hwr]
    split_ifs <;> rfl
  refine ⟨h1, h2, fun hc => ?_⟩
  have h3 := hc (fun t => t) (fun _ => e1) (fun _ => 0) 1 0 0 d1 (hasDerivAt_id _)
    (fun i => hasDerivAt_const _ _) (fun i => hasDerivAt_const _ _) rfl rfl rfl
  simp only [h1, h2, mul_one, dotProduct_zero, add_zero] at h3
  exact h0 (h3.unique (hasDerivAt_const _ _))

end Frame

/-! ## Stress measures -/

/-- The reported derivative of a stress measure is right at a stress. -/
def Measure.Correct (m : Measure) (s1 : Fin 6 → ℝ) : Prop :=
  ∀ (s : ℝ → Fin 6 → ℝ) (s' : Fin 6 → ℝ) (t0 : ℝ), Moves s s' t0 → s t0 = s1 →
    HasDerivAt (fun t => m.eff (s t)) (m.deff s1 ⬝ᵥ s') t0

/-- C79: the von Mises derivative is right where the von Mises stress is not zero. -/
theorem C79_vonMises (s1 : Fin 6 → ℝ) (h : vonMises.eff s1 ≠ 0) : vonMises.Correct s1 := by
  intro s s' t0 hs h1
  have h : se s1 ≠ 0 := h
  have hq : HasDerivAt (fun t => ((s t 0 - s t 1) ^ 2 + (s t 1 - s t 2) ^ 2 + (s t 2 - s t 0) ^ 2 +
      3 * (s t 3 ^ 2 + s t 4 ^ 2 + s t 5 ^ 2)) / 2)
      (3 * (devVec s1 ⬝ᵥ s')) t0 := by
    have := ((((((hs 0).sub (hs 1)).pow 2).add (((hs 1).sub (hs 2)).pow 2)).add
      (((hs 2).sub (hs 0)).pow 2)).add
      (((((hs 3).pow 2).add ((hs 4).pow 2)).add ((hs 5).pow 2)).const_mul 3)).div_const 2
    refine this.congr_deriv ?_
    simp [h1, devVec, dotProduct, Fin.sum_univ_succ]
    ring
  have hne : ((s t0 0 - s t0 1) ^ 2 + (s t0 1 - s t0 2) ^ 2 + (s t0 2 - s t0 0) ^ 2 +
      3 * (s t0 3 ^ 2 + s t0 4 ^ 2 + s t0 5 ^ 2)) / 2 ≠ 0 := by
    rw [h1]
    exact (Real.sqrt_ne_zero'.mp h).ne'
  refine (hq.sqrt hne).congr_deriv ?_
  rw [h1]
  show 3 * (devVec s1 ⬝ᵥ s') / (2 * se s1) = vonMises.deff s1 ⬝ᵥ s'
  simp only [vonMises, if_neg h]
  have : (fun i => devVec s1 i * (3 / 2 / se s1)) ⬝ᵥ s' = 3 / 2 / se s1 * (devVec s1 ⬝ᵥ s') := by
    simp only [dotProduct, Finset.mul_sum]
    exact Finset.sum_congr rfl fun i _ => by ring
  rw [this]
  field_simp

/-- C79: the mean stress derivative is right everywhere. -/
theorem C79_mean (s1 : Fin 6 → ℝ) : mean.Correct s1 := by
  intro s s' t0 hs h1
  refine ((((hs 0).add (hs 1)).add (hs 2)).div_const 3).congr_deriv ?_
  simp [mean, dotProduct, Fin.sum_univ_succ]
  ring

/-- C79: Huddleston's derivative is right where the von Mises stress is not zero. -/
theorem C79_huddleston (b : ℝ) (s1 : Fin 6 → ℝ) (h : vonMises.eff s1 ≠ 0) :
    (huddleston b).Correct s1 := by
  intro s s' t0 hs h1
  have h : se s1 ≠ 0 := h
  have hs1 : s1 ≠ 0 := by
    rintro rfl
    exact h (by simp [se])
  have hss : √(s1 ⬝ᵥ s1) ≠ 0 := by
    have hnn : 0 ≤ s1 ⬝ᵥ s1 := Finset.sum_nonneg fun i _ => mul_self_nonneg (s1 i)
    rw [Ne, Real.sqrt_eq_zero hnn]
    intro h
    refine hs1 (funext fun i => ?_)
    have := (Finset.sum_eq_zero_iff_of_nonneg fun i _ => mul_self_nonneg (s1 i)).mp h i
      (Finset.mem_univ i)
    exact mul_self_eq_zero.mp this
  have hvm := C79_vonMises s1 h s s' t0 hs h1
  have hl : HasDerivAt (fun t => √(s t ⬝ᵥ s t)) (s1 ⬝ᵥ s' / √(s1 ⬝ᵥ s1)) t0 := by
    refine ((hs.dot hs).sqrt (by rw [h1]; exact (Real.sqrt_ne_zero'.mp hss).ne')).congr_deriv ?_
    rw [h1, dotProduct_comm s' s1]
    field_simp
    ring
  have hI : HasDerivAt (fun t => I1 (s t)) (s' 0 + s' 1 + s' 2) t0 :=
    ((hs 0).add (hs 1)).add (hs 2)
  have hx := (((hI.fun_div hl (by rw [h1]; exact hss)).sub_const 1).const_mul b).exp
  have hall := hvm.fun_mul hx
  have hev : ∀ᶠ t in nhds t0, √(s t ⬝ᵥ s t) ≠ 0 :=
    hl.continuousAt.eventually_ne (by rw [h1]; exact hss)
  refine (hall.congr_of_eventuallyEq ?_).congr_deriv ?_
  · filter_upwards [hev] with t ht
    simp only [huddleston, huddleston_ss, huddleston_se, if_neg ht, vonMises]
  · simp only [huddleston, huddleston_ss, huddleston_se, if_neg hss, vonMises, if_neg h, h1,
      Pi.div_apply]
    have hI2 : I2 (devVec s1) = -(se s1 ^ 2) / 3 := by
      have h2 := Real.sq_sqrt (Real.sqrt_ne_zero'.mp (by rw [huddleston_se]; exact h :
        √(-3 * I2 (devVec s1)) ≠ 0)).le
      rw [huddleston_se] at h2
      linarith
    rw [hI2]
    have hd : ∀ (u : ℝ) (v w : ℝ), (fun i => (![u, u, u, 0, 0, 0] : Fin 6 → ℝ) i - v * s1 i -
        w * devVec s1 i) ⬝ᵥ s' = u * (s' 0 + s' 1 + s' 2) - v * (s1 ⬝ᵥ s') -
          w * (devVec s1 ⬝ᵥ s') := by
      intro u v w
      simp [dotProduct, Fin.sum_univ_succ]
      ring
    have hd2 : (fun i => devVec s1 i * (3 / 2 / se s1)) ⬝ᵥ s' =
        3 / 2 / se s1 * (devVec s1 ⬝ᵥ s') := by
      simp only [dotProduct, Finset.mul_sum]
      exact Finset.sum_congr rfl fun i _ => by ring
    have hdd : devVec s1 ⬝ᵥ s' = s1 ⬝ᵥ s' - I1 s1 / 3 * (s' 0 + s' 1 + s' 2) := by
      simp [devVec, I1, dotProduct, Fin.sum_univ_succ]
      ring
    have hq : se s1 ^ 2 = 3 / 2 * (√(s1 ⬝ᵥ s1) ^ 2 - I1 s1 ^ 2 / 3) := by
      have hnn : 0 ≤ s1 ⬝ᵥ s1 := Finset.sum_nonneg fun i _ => mul_self_nonneg (s1 i)
      have h2 := Real.sq_sqrt hnn
      rw [h2]
      have h3 : se s1 ^ 2 = 3 / 2 * (devVec s1 ⬝ᵥ devVec s1) := by
        have := C34_vonMises_deviator s1
        simp only [vonMises] at this
        rw [this, Real.sq_sqrt]
        exact mul_nonneg (by norm_num) (Finset.sum_nonneg fun i _ => mul_self_nonneg _)
      rw [h3]
      simp [devVec, I1, dotProduct, Fin.sum_univ_succ]
      ring
    rw [hd, hd2]
    generalize Real.exp (b * (I1 s1 / √(s1 ⬝ᵥ s1) - 1)) = E
    generalize √(s1 ⬝ᵥ s1) = L at *
    generalize I1 s1 = J at *
    generalize s' 0 + s' 1 + s' 2 = K at *
    generalize s1 ⬝ᵥ s' = N at *
    generalize se s1 = M at *
    rw [hdd]
    field_simp
    ring

/-- C79: a weighted sum of right measures is right. -/
theorem C79_sum (ms : List Measure) (ws : List ℝ) (m : Measure) (hm : sumSeveral ms ws = some m)
    (s1 : Fin 6 → ℝ) (h : ∀ m' ∈ ms, m'.Correct s1) : m.Correct s1 := by
  have hlen : ms.length = ws.length := by
    by_contra hc
    rw [(C34_sum ms ws).1 hc] at hm
    cases hm
  obtain ⟨m', hm', hspec⟩ := (C34_sum ms ws).2 hlen
  rw [hm] at hm'
  cases hm'
  intro s s' t0 hs h1
  have key : ∀ l : List (Measure × ℝ), (∀ mw ∈ l, mw.1.Correct s1) →
      HasDerivAt (fun t => (l.map fun mw => mw.2 * mw.1.eff (s t)).sum)
        ((l.map fun mw => mw.2 * (mw.1.deff s1 ⬝ᵥ s')).sum) t0 := by
    intro l
    induction l with
    | nil => intro _; simpa using hasDerivAt_const t0 (0 : ℝ)
    | cons x l ih =>
      intro hl
      simp only [List.map_cons, List.sum_cons]
      exact ((hl x (List.mem_cons_self ..) s s' t0 hs h1).const_mul x.2).add
        (ih fun y hy => hl y (List.mem_cons_of_mem _ hy))
  have hk := key (ms.zip ws) fun mw hmw => h mw.1 (List.of_mem_zip hmw).1
  refine (hk.congr_of_eventuallyEq
    (Filter.Eventually.of_forall fun t => (hspec (s t)).1)).congr_deriv ?_
  have : ∀ l : List (Measure × ℝ), (l.map fun mw => mw.2 * (mw.1.deff s1 ⬝ᵥ s')).sum =
      (fun i => (l.map fun mw => mw.2 * mw.1.deff s1 i).sum) ⬝ᵥ s' := by
    intro l
    induction l with
    | nil => simp [dotProduct]
    | cons x l ih =>
      simp only [List.map_cons, List.sum_cons, ih]
      simp only [dotProduct, Finset.mul_sum, ← Finset.sum_add_distrib]
      exact Finset.sum_congr rfl fun i _ => by ring
  rw [this]
  congr 1
  funext i
  exact ((hspec s1).2 i).symm

/-! ## The creep and strain driven rules -/

/-- C79: modular creep damage has right derivatives below damage one, at a positive value of a right
stress measure. -/
theorem C79_modular (m : Measure) (A xi phi dt : ℝ) (hA : 0 < A) (d1 d0 : ℝ) (hd : d1 < 1)
    (e1 e0 s1 s0 : Fin 6 → ℝ) (hm : m.Correct s1) (hpos : 0 < m.eff s1) :
    (modularCreep m A xi phi dt).Correct d1 d0 e1 e0 s1 s0 := by
  refine C79_rate _ _ _ _ _ _ _ _ _ _ _ ?_
  intro d e s d' e' s' t0 hd' he hs h1 h2 h3
  have hr := ((hm s s' t0 hs h3).div_const A).rpow_const (p := xi)
    (Or.inl (by rw [h3]; exact (div_pos hpos hA).ne'))
  have hx := (hd'.const_sub 1).rpow_const (p := xi - phi) (Or.inl (by rw [h1]; linarith))
  refine (hr.fun_mul hx).congr_deriv ?_
  simp only [h1, h3, if_neg hpos.ne', Pi.zero_apply, zero_dotProduct]
  have : ∀ c : ℝ, (fun i => m.deff s1 i * c) ⬝ᵥ s' = c * (m.deff s1 ⬝ᵥ s') := by
    intro c
    simp only [dotProduct, Finset.mul_sum]
    exact Finset.sum_congr rfl fun i _ => by ring
  rw [this]
  ring

/-- C79: classical creep damage has right derivatives below damage one, at a non-zero von Mises
stress. -/
theorem C79_classical (A xi phi dt : ℝ) (hA : 0 < A) (d1 d0 : ℝ) (hd : d1 < 1)
    (e1 e0 s1 s0 : Fin 6 → ℝ) (h : vonMises.eff s1 ≠ 0) :
    (classicalCreep A xi phi dt).Correct d1 d0 e1 e0 s1 s0 := by
  have hpos : 0 < se s1 := lt_of_le_of_ne (C34_vonMises_nonneg s1) (Ne.symm h)
  refine C79_rate _ _ _ _ _ _ _ _ _ _ _ ?_
  intro d e s d' e' s' t0 hd' he hs h1 h2 h3
  have hr := ((C79_vonMises s1 h s s' t0 hs h3).div_const A).rpow_const (p := xi)
    (Or.inl (by rw [h3]; exact (div_pos hpos hA).ne'))
  have hx := (hd'.const_sub 1).rpow_const (p := -phi) (Or.inl (by rw [h1]; linarith))
  refine (hr.fun_mul hx).congr_deriv ?_
  have h : se s1 ≠ 0 := h
  simp only [h1, h3, vonMises, if_neg h, Pi.zero_apply, zero_dotProduct]
  have : ∀ c : ℝ, (fun i => devVec s1 i * c) ⬝ᵥ s' = c * (devVec s1 ⬝ᵥ s') := by
    intro c
    simp only [dotProduct, Finset.mul_sum]
    exact Finset.sum_congr rfl fun i _ => by ring
  rw [this, this, show -phi - 1 = -(phi + 1) by ring]
  field_simp
  ring

/-- C79: Larson-Miller damage has right derivatives where the rupture time does, at a non-zero value
of a right stress measure. -/
theorem C79_larsonMiller (m : Measure) (tR dtR : ℝ → ℝ) (dt : ℝ) (d1 d0 : ℝ)
    (e1 e0 s1 s0 : Fin 6 → ℝ) (hm : m.Correct s1) (h0 : m.eff s1 ≠ 0)
    (ht : HasDerivAt tR (dtR (m.eff s1 * (1 - d1))) (m.eff s1 * (1 - d1)))
    (ht0 : tR (m.eff s1 * (1 - d1)) ≠ 0) :
    (larsonMiller m tR dtR dt).Correct d1 d0 e1 e0 s1 s0 := by
  refine C79_rate _ _ _ _ _ _ _ _ _ _ _ ?_
  intro d e s d' e' s' t0 hd' he hs h1 h2 h3
  have hx := (hm s s' t0 hs h3).fun_mul (hd'.const_sub 1)
  have hT : HasDerivAt (fun t => tR (m.eff (s t) * (1 - d t))) _ t0 :=
    HasDerivAt.comp (h₂ := tR) t0 (by rw [h1, h3]; exact ht) hx
  have hall := hT.fun_inv (by rw [h1, h3]; exact ht0)
  have hev : ∀ᶠ t in nhds t0, m.eff (s t) ≠ 0 :=
    (hm s s' t0 hs h3).continuousAt.eventually_ne (by rw [h3]; exact h0)
  refine (hall.congr_of_eventuallyEq ?_).congr_deriv ?_
  · filter_upwards [hev] with t ht
    rw [if_neg ht, one_div]
  · simp only [h1, h3, if_neg h0, Pi.zero_apply, zero_dotProduct]
    have : ∀ c : ℝ, (fun i => m.deff s1 i * c) ⬝ᵥ s' = c * (m.deff s1 ⬝ᵥ s') := by
      intro c
      simp only [dotProduct, Finset.mul_sum]
      exact Finset.sum_congr rfl fun i _ => by ring
    rw [this]
    field_simp
    ring

/-- C79: power law damage has right derivatives at a non-zero von Mises stress and a non-zero
inelastic increment. -/
theorem C79_powerLaw (S : Matrix (Fin 6) (Fin 6) ℝ) (hS : S.IsSymm) (A a : ℝ) (d1 d0 : ℝ)
    (e1 e0 s1 s0 : Fin 6 → ℝ) (h : vonMises.eff s1 ≠ 0) (h0 : dep S s1 s0 e1 e0 ≠ 0) :
    (powerLaw S A a).Correct d1 d0 e1 e0 s1 s0 := by
  have hpos : 0 < se s1 := lt_of_le_of_ne (C34_vonMises_nonneg s1) (Ne.symm h)
  refine C79_standard S hS _ _ _ _ _ _ _ _ _ h0 ?_
  intro d s d' s' t0 hd' hs h1 h3
  have hr := ((C79_vonMises s1 h s s' t0 hs h3).rpow_const (p := a)
    (Or.inl (by rw [h3]; exact h))).const_mul A
  refine hr.congr_deriv ?_
  have h : se s1 ≠ 0 := h
  simp only [h3, vonMises, if_neg h]
  have : ∀ c : ℝ, (fun i => devVec s1 i * c) ⬝ᵥ s' = c * (devVec s1 ⬝ᵥ s') := by
    intro c
    simp only [dotProduct, Finset.mul_sum]
    exact Finset.sum_congr rfl fun i _ => by ring
  have hp : se s1 ^ (a - 1) = se s1 ^ (a - 2) * se s1 := by
    rw [← Real.rpow_add_one h]
    congr 1
    ring
  rw [this, this, hp]
  field_simp
  ring

/-- C79: exponential work damage has right derivatives at a non-zero von Mises stress, a positive
shifted damage and a non-zero inelastic increment. -/
theorem C79_expWork (S : Matrix (Fin 6) (Fin 6) ℝ) (hS : S.IsSymm) (W0 k0 af : ℝ) (hW : W0 ≠ 0)
    (d1 d0 : ℝ) (hd : 0 < d1 + k0) (e1 e0 s1 s0 : Fin 6 → ℝ) (h : vonMises.eff s1 ≠ 0)
    (h0 : dep S s1 s0 e1 e0 ≠ 0) :
    (expWork S W0 k0 af).Correct d1 d0 e1 e0 s1 s0 := by
  have hpos : 0 < se s1 := lt_of_le_of_ne (C34_vonMises_nonneg s1) (Ne.symm h)
  refine C79_standard S hS _ _ _ _ _ _ _ _ _ h0 ?_
  intro d s d' s' t0 hd' hs h1 h3
  have hp := ((hd'.add_const k0).rpow_const (p := af)
    (Or.inl (by rw [h1]; exact hd.ne'))).div_const W0
  have hr := hp.fun_mul (C79_vonMises s1 h s s' t0 hs h3)
  have hev : ∀ᶠ t in nhds t0, 0 < d t + k0 :=
    (hd'.add_const k0).continuousAt.eventually_const_lt (by simpa only [h1] using hd)
  refine (hr.congr_of_eventuallyEq ?_).congr_deriv ?_
  · filter_upwards [hev] with t ht
    rw [if_neg (not_lt.mpr ht.le)]
    rfl
  · have h : se s1 ≠ 0 := h
    simp only [h1, h3, vonMises, if_neg h, if_neg (not_lt.mpr hd.le)]
    have : ∀ c : ℝ, (fun i => devVec s1 i * c) ⬝ᵥ s' = c * (devVec s1 ⬝ᵥ s') := by
      intro c
      simp only [dotProduct, Finset.mul_sum]
      exact Finset.sum_congr rfl fun i _ => by ring
    rw [this, this]
    field_simp

/-! ## Cases meeting the hypotheses -/

theorem tension_ne : vonMises.eff ![3, 0, 0, 0, 0, 0] ≠ 0 := by
  rw [Ne, C34_vonMises_zero]
  rintro ⟨p, h⟩
  have h0 := congrFun h 0
  have h1 := congrFun h 1
  simp at h0 h1
  linarith

/-- Classical creep damage in tension at damage one third. -/
example : (classicalCreep 2 3 4 (1 / 10)).Correct (1 / 3) (1 / 4) 0 0 ![3, 0, 0, 0, 0, 0] 0 :=
  C79_classical 2 3 4 _ (by norm_num) _ _ (by norm_num) _ _ _ _ tension_ne

/-- Modular damage over Huddleston's measure, and both together. -/
example : (combined [classicalCreep 2 3 4 (1 / 10), modularCreep (huddleston (1 / 4)) 2 3 4 (1 / 10)]).Correct
    (1 / 3) (1 / 4) 0 0 ![3, 0, 0, 0, 0, 0] 0 := by
  refine C79_combined _ _ _ _ _ _ _ fun m hm => ?_
  simp only [List.mem_cons, List.not_mem_nil, or_false] at hm
  rcases hm with rfl | rfl
  · exact C79_classical 2 3 4 _ (by norm_num) _ _ (by norm_num) _ _ _ _ tension_ne
  · refine C79_modular _ 2 3 4 _ (by norm_num) _ _ (by norm_num) _ _ _ _
      (C79_huddleston _ _ tension_ne) ?_
    rw [C34_huddleston_tension _ _ (by norm_num)]
    norm_num

/-- Power law damage with unit compliance, strain growing at constant stress. -/
example : (powerLaw 1 2 3).Correct (1 / 3) (1 / 4) ![1, 0, 0, 0, 0, 0] 0 ![3, 0, 0, 0, 0, 0]
    ![3, 0, 0, 0, 0, 0] := by
  refine C79_powerLaw 1 (Matrix.isSymm_one) 2 3 _ _ _ _ _ _ tension_ne ?_
  simp [dep, dotProduct, Fin.sum_univ_succ]
  norm_num

/-- Work damage with constant critical work. -/
example : (workRule (ι := Fin 1) ⟨1, 1, 2, 0, 1, fun _ => 5, fun _ => 0⟩).Correct (1 / 3) (1 / 4)
    ![3] 0 ![1] ![1] := by
  refine C79_work_partial _ Matrix.isSymm_one (by norm_num) (by norm_num) (by norm_num) _ _ _ _ _ _
    (by norm_num) (by norm_num) ?_ (hasDerivAt_const _ _) (by norm_num)
  simp [dotProduct]
  norm_num

/-- The derivatives of the constant damage rate. -/
theorem quarter_correct (d1 d0 : ℝ) (e1 e0 s1 s0 : Fin 1 → ℝ) :
    quarter.Correct d1 d0 e1 e0 s1 s0 := by
  refine C79_rate _ _ _ _ _ _ _ _ _ _ _ ?_
  intro d e s d' e' s' t0 _ _ _ _ _ _
  refine (hasDerivAt_const t0 (1 / 4 : ℝ)).congr_deriv ?_
  simp

/-- The Jacobian theorem for the damaged spring. -/
example : ∃ (R : (Fin 1 ⊕ Unit → ℝ) → Fin 1 ⊕ Unit → ℝ) (J : (Fin 1 ⊕ Unit → ℝ) → Matrix _ _ ℝ),
    (∀ y, damRJ spring quarter ![1] 0 0 0 () 0 0 y = some (R y, J y)) ∧
    ∀ (y : ℝ → Fin 1 ⊕ Unit → ℝ) (y' : Fin 1 ⊕ Unit → ℝ) (t0 : ℝ), Moves y y' t0 →
      y t0 = Sum.elim ![5] (fun _ => 1 / 3) →
      Moves (fun t => R (y t)) (J (Sum.elim ![5] (fun _ => 1 / 3)) *ᵥ y') t0 :=
  C78_jacobian spring quarter _ _ _ _ _ _ _ _ rfl _ (by simp) (quarter_correct _ _ _ _ _ _)

/-- The tangent theorem for the damaged spring: stretched at unit rate, from damage zero. -/
example (t0 : ℝ) : ∃ r : ℝ → Update ℝ (Fin 1) (ℝ × Unit),
    (∀ t, damUpdate noKill spring quarter quarterSolve
      (fun M => if M = 1 then some 1 else none) ![t] 0 0 (0, ()) 0 0 = some (r t)) ∧
    Moves (fun t => (r t).s) ((r t0).A *ᵥ ![1]) t0 := by
  have hex : ∀ t : ℝ, ∃ r, damUpdate noKill spring quarter quarterSolve
      (fun M => if M = 1 then some 1 else none) ![t] 0 0 (0, ()) 0 0 = some r := by
    intro t
    have h0 : ∀ (a : Fin 1 → ℝ) (c : ℝ), (1 + vecMulVec a fun _ : Fin 1 => (0 : ℝ) * 1 / c) = 1 := by
      intro a c
      ext i j
      simp [vecMulVec]
    simp only [damUpdate, quarterSolve, spring, damTangent, quarter, rateRule, Pi.zero_apply, h0,
      if_true, noKill, Bool.false_eq_true, false_and, if_false]
    exact ⟨_, rfl⟩
  choose r hr using hex
  refine ⟨r, hr, ?_⟩
  have hw : ∀ t, (r t).h.1 = 1 / 4 := by
    intro t
    rcases C31_step _ _ _ _ _ quarter_solves _ _ _ _ _ _ _ (hr t) with ⟨h, -⟩ | ⟨⟨up, -, -, -, -, -, h, -⟩, -⟩
    · cases h
    · rw [h]; simp [quarter, rateRule]
  have hm : Moves (fun t : ℝ => (![t] : Fin 1 → ℝ)) ![1] t0 := fun i => by
    fin_cases i
    exact hasDerivAt_id _
  refine C78_tangent noKill spring quarter quarterSolve _ quarter_solves ?_ (fun t => ![t]) ![1] t0 hm 0 0
    (0, ()) 0 0 r (Filter.Eventually.of_forall hr) rfl
    (fun x => ⟨(2 : ℝ) • x, (), (2 : ℝ) • 1,
      0 + ((2 : ℝ) • x + effective (0, ()).1 0) ⬝ᵥ (x - 0) / 2, 0⟩) (fun _ => rfl) ?_ 0 ?_ ?_
    (quarter_correct _ _ _ _ _ _) ?_
  · intro M N h
    split_ifs at h with hM
    cases h
    rw [hM, mul_one]
  · intro i
    refine ((hm i).const_mul 2).congr_deriv ?_
    simp [smul_mulVec]
  · simp only [hw]
    exact hasDerivAt_const _ _
  · rw [hw]; norm_num
  · simp [quarter, rateRule]

end Neml.Damage
