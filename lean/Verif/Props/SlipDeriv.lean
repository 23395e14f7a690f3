import Verif.Props.Slip
import Verif.Props.DamageTangent
import Mathlib.Analysis.SpecialFunctions.Pow.Deriv
import Mathlib.Analysis.Calculus.Deriv.Abs

/-!
# C99: slip rules and hardening models report the derivatives of their rates

Specifications: `Rule.Right`, `Hard.TauRight`, `Hard.RateRight`: the chain rule along every differentiable curve.
-/

namespace Neml.Slip

open Matrix Filter Topology
open Neml.Damage (Moves)

variable {N : Type} [DecidableEq N] [Fintype N]

/-! ## Calculus -/

theorem squeeze {f g : ℝ → ℝ} {t0 : ℝ} (h : ∀ᶠ t in 𝓝 t0, |f t| ≤ |g t|) (h0 : g t0 = 0) (hg : HasDerivAt g 0 t0) :
    HasDerivAt f 0 t0 := by
  have hf0 : f t0 = 0 := by
    have := h.self_of_nhds
    rw [h0, abs_zero] at this
    exact abs_nonpos_iff.mp this
  rw [hasDerivAt_iff_isLittleO] at hg ⊢
  simp only [h0, hf0, sub_zero, smul_zero] at hg ⊢
  refine Asymptotics.IsBigO.trans_isLittleO (Asymptotics.IsBigO.of_bound 1 ?_) hg
  filter_upwards [h] with t ht
  simpa using ht

theorem abs_deriv {f : ℝ → ℝ} {f' t0 : ℝ} (h : HasDerivAt f f' t0) (h0 : f t0 = 0 → f' = 0) :
    HasDerivAt (fun t => |f t|) (sgn (f t0) * f') t0 := by
  by_cases hz : f t0 = 0
  · have hf := h0 hz
    subst hf
    rw [mul_zero]
    exact squeeze (g := f) (Eventually.of_forall fun t => by rw [abs_abs]) hz h
  · have := HasDerivAt.comp t0 (hasDerivAt_abs hz) h
    refine this.congr_deriv ?_
    congr 1
    rcases lt_or_gt_of_ne hz with hl | hl
    · simp [sgn, hl]
    · simp [sgn, hl, hl.le]

/-- The signed power has derivative `n |q|^(n-1)`, also at zero. -/
theorem signed_pow {n : ℝ} (hn : 1 ≤ n) (q : ℝ) :
    HasDerivAt (fun q => q * |q| ^ (n - 1)) (n * |q| ^ (n - 1)) q := by
  by_cases hq : q = 0
  · subst hq
    have hc : Continuous fun q : ℝ => |q| ^ (n - 1) :=
      continuous_abs.rpow_const fun _ => Or.inr (by linarith)
    have hv : n * |(0 : ℝ)| ^ (n - 1) = |(0 : ℝ)| ^ (n - 1) := by
      rcases hn.eq_or_lt with h | h
      · rw [← h]; simp
      · rw [abs_zero, Real.zero_rpow (by linarith)]; simp
    rw [hv, hasDerivAt_iff_tendsto_slope]
    refine Tendsto.congr' ?_ ((hc.tendsto 0).mono_left nhdsWithin_le_nhds)
    filter_upwards [self_mem_nhdsWithin] with x hx
    rw [slope_def_field]
    have : x ≠ 0 := hx
    field_simp
    simp
  · have ha : |q| ≠ 0 := abs_ne_zero.mpr hq
    have h1 := (hasDerivAt_abs hq).rpow_const (p := n - 1) (Or.inl ha)
    refine ((hasDerivAt_id q).mul h1).congr_deriv ?_
    simp only [id]
    rw [Real.rpow_sub_one ha (n - 1)]
    rcases lt_or_gt_of_ne hq with hl | hl
    · simp only [sign_neg hl, SignType.coe_neg_one, abs_of_neg hl]
      field_simp
      ring
    · simp only [sign_pos hl, SignType.coe_one, abs_of_pos hl]
      field_simp
      ring

theorem list_deriv {α : Type} (l : List α) (f : α → ℝ → ℝ) (f' : α → ℝ) (t0 : ℝ)
    (h : ∀ p ∈ l, HasDerivAt (f p) (f' p) t0) :
    HasDerivAt (fun t => (l.map fun p => f p t).sum) (l.map f').sum t0 := by
  induction l with
  | nil => simpa using hasDerivAt_const t0 (0 : ℝ)
  | cons p l ih =>
    simp only [List.map_cons, List.sum_cons]
    exact (h p List.mem_cons_self).add (ih fun q hq => h q (List.mem_cons_of_mem _ hq))

theorem list_dot {α β : Type} [Fintype β] (l : List α) (f : α → β → ℝ) (v : β → ℝ) :
    (l.map f).sum ⬝ᵥ v = (l.map fun p => f p ⬝ᵥ v).sum := by
  induction l with
  | nil => simp
  | cons p l ih => simp [add_dotProduct, ih]

theorem update_dot (a : N) (x : ℝ) (v : N → ℝ) : (Function.update 0 a x : N → ℝ) ⬝ᵥ v = x * v a :=
  single_dotProduct v x a

theorem dot_deriv {β : Type} [Fintype β] (m : β → ℝ) {v : ℝ → β → ℝ} {v' : β → ℝ} {t0 : ℝ} (h : Moves v v' t0) :
    HasDerivAt (fun t => m ⬝ᵥ v t) (m ⬝ᵥ v') t0 := by
  simp only [dotProduct]
  exact HasDerivAt.fun_sum fun i _ => (h i).const_mul _

/-! ## Scalar rules -/

/-- The two reported derivatives of the scalar slip rule are right at a point. -/
def Rule.Right {m : Nat} (r : Rule N m) (tau : ℝ) (S : Fin m → ℝ) : Prop :=
  ∀ (u : ℝ → ℝ) (u' : ℝ) (v : ℝ → Fin m → ℝ) (v' : Fin m → ℝ) (t0 : ℝ), HasDerivAt u u' t0 → Moves v v' t0 →
    u t0 = tau → v t0 = S →
    HasDerivAt (fun t => r.sslip (u t) (v t)) (r.dTau tau S * u' + r.dStr tau S ⬝ᵥ v') t0

/-- Where there is no slip the derivatives vanish, so that the amount of slip is smooth there. -/
def Rule.Flat {m : Nat} (r : Rule N m) (tau : ℝ) (S : Fin m → ℝ) : Prop :=
  r.sslip tau S = 0 → r.dTau tau S = 0 ∧ r.dStr tau S = 0

/-- C99, power law. -/
theorem C99_power (hard : Hard N) {g0 n : ℝ} (hn : 1 ≤ n) (tau : ℝ) {S : Fin 1 → ℝ} (hS : 0 < S 0) :
    (powerLaw hard g0 n).Right tau S := by
  intro u u' v v' t0 hu hv h1 h2
  have hv0 := hv 0
  have e0 : v t0 0 = S 0 := by rw [h2]
  have hq : HasDerivAt (fun t => u t / v t 0) ((u' * S 0 - tau * v' 0) / S 0 ^ 2) t0 := by
    have := hu.fun_div hv0 (by rw [e0]; exact hS.ne')
    rwa [e0, h1] at this
  have hF := (HasDerivAt.comp t0 (signed_pow hn (u t0 / v t0 0)) hq).const_mul g0
  have hf : (fun t => (powerLaw hard g0 n).sslip (u t) (v t)) =
      fun t => g0 * ((fun q => q * |q| ^ (n - 1)) ∘ fun t => u t / v t 0) t := by
    funext t
    simp only [powerLaw, Function.comp]
    ring
  rw [hf]
  refine hF.congr_deriv ?_
  simp only [powerLaw, dotProduct, Fin.sum_univ_one, Fin.isValue]
  rw [h1, e0, abs_div, abs_of_pos hS]
  by_cases ht : tau = 0
  · subst ht
    field_simp
    ring
  · have ha : 0 < |tau| := abs_pos.mpr ht
    rw [Real.div_rpow ha.le hS.le, Real.rpow_add_one hS.ne', Real.rpow_sub_one hS.ne']
    have : (S 0) ^ n ≠ 0 := (Real.rpow_pos_of_pos hS n).ne'
    have := hS.ne'
    field_simp
    ring

theorem power_flat (hard : Hard N) {g0 n : ℝ} (hn : 1 < n) (tau : ℝ) {S : Fin 1 → ℝ} (hS : 0 < S 0) :
    (powerLaw hard g0 n).Flat tau S := by
  intro h
  simp only [powerLaw] at h ⊢
  rcases mul_eq_zero.mp h with h | h
  · rcases mul_eq_zero.mp ((div_eq_zero_iff.mp h).resolve_right hS.ne') with h | h
    · subst h; exact ⟨by simp, by funext; simp⟩
    · subst h; exact ⟨by simp [Real.zero_rpow (show n - 1 ≠ 0 by linarith)], by funext; simp⟩
  · refine ⟨by simp [h], ?_⟩
    have := (Real.rpow_eq_zero (abs_nonneg _) (show n - 1 ≠ 0 by linarith)).mp h
    have ht : tau = 0 := (div_eq_zero_iff.mp (abs_eq_zero.mp this)).resolve_right hS.ne'
    subst ht
    funext
    simp

theorem pow_sum_le {a b n : ℝ} (ha : 0 ≤ a) (hb : 0 ≤ b) (hn : 0 ≤ n) : (a + b) ^ n ≤ 2 ^ n * (a ^ n + b ^ n) := by
  rcases le_total a b with h | h
  · calc (a + b) ^ n ≤ (2 * b) ^ n := Real.rpow_le_rpow (by linarith) (by linarith) hn
      _ = 2 ^ n * b ^ n := Real.mul_rpow (by norm_num) hb
      _ ≤ _ := by
        have := Real.rpow_nonneg ha n
        have : (0 : ℝ) ≤ 2 ^ n := Real.rpow_nonneg (by norm_num) n
        nlinarith
  · calc (a + b) ^ n ≤ (2 * a) ^ n := Real.rpow_le_rpow (by linarith) (by linarith) hn
      _ = 2 ^ n * a ^ n := Real.mul_rpow (by norm_num) ha
      _ ≤ _ := by
        have := Real.rpow_nonneg hb n
        have : (0 : ℝ) ≤ 2 ^ n := Real.rpow_nonneg (by norm_num) n
        nlinarith

theorem abs_pow_deriv {q : ℝ → ℝ} {q' t0 n : ℝ} (hn : 1 < n) (hq : HasDerivAt q q' t0) (h0 : q t0 = 0) :
    HasDerivAt (fun t => |q t| ^ n) 0 t0 := by
  have h1 := HasDerivAt.comp t0 (signed_pow hn.le (q t0)) hq
  rw [h0, abs_zero, Real.zero_rpow (show n - 1 ≠ 0 by linarith), mul_zero, zero_mul] at h1
  refine squeeze (Eventually.of_forall fun t => ?_) (by simp [h0]) h1
  simp only [Function.comp]
  rw [abs_mul, abs_of_nonneg (Real.rpow_nonneg (abs_nonneg (q t)) (n - 1)),
    abs_of_nonneg (Real.rpow_nonneg (abs_nonneg (q t)) n)]
  by_cases hz : q t = 0
  · simp [hz, Real.zero_rpow (show n ≠ 0 by linarith)]
  · rw [Real.rpow_sub_one (abs_ne_zero.mpr hz), mul_div_cancel₀ _ (abs_ne_zero.mpr hz)]

theorem sgn_sq (x : ℝ) : sgn x * sgn x = 1 := by rw [sgn]; split_ifs <;> norm_num

/-- C99, kinematic power law: also on the boundary of the elastic range. -/
theorem C99_kinematic (back iso flow : Hard N) {g0 n : ℝ} (hg : 0 ≤ g0) (hn : 1 < n) (tau : ℝ) {S : Fin 3 → ℝ}
    (h1 : 0 ≤ S 1) (h2 : 0 < S 2) : (kinematicPowerLaw back iso flow g0 n).Right tau S := by
  intro u u' v v' t0 hu hv e1 e2
  have hv0 := hv 0
  have hv1 := hv 1
  have hv2 := hv 2
  have d0 : v t0 0 = S 0 := by rw [e2]
  have d1 : v t0 1 = S 1 := by rw [e2]
  have d2 : v t0 2 = S 2 := by rw [e2]
  have hw : HasDerivAt (fun t => u t - v t 0) (u' - v' 0) t0 := hu.sub hv0
  have hpos2 : ∀ᶠ t in 𝓝 t0, 0 < v t 2 := continuousAt_const.eventually_lt hv2.continuousAt (by rw [d2]; exact h2)
  have hs : ∀ tau S, (kinematicPowerLaw back iso flow g0 n).sslip tau S =
    if |tau - S 0| - S 1 ≤ 0 then 0 else sgn (tau - S 0) * |g0 * ((|tau - S 0| - S 1) / S 2) ^ n| := fun _ _ => rfl
  have hcz : ContinuousAt (fun t => |u t - v t 0| - v t 1) t0 :=
    (hw.continuousAt.abs).sub hv1.continuousAt
  rcases lt_trichotomy (|tau - S 0| - S 1) 0 with hlt | heq | hgt
  · have hev : ∀ᶠ t in 𝓝 t0, |u t - v t 0| - v t 1 < 0 :=
      hcz.eventually_lt continuousAt_const (by simpa [d0, d1, e1] using hlt)
    have hz : (fun t => (kinematicPowerLaw back iso flow g0 n).sslip (u t) (v t)) =ᶠ[𝓝 t0] fun _ => (0 : ℝ) := by
      filter_upwards [hev] with t ht
      rw [hs, if_pos ht.le]
    refine ((hasDerivAt_const t0 (0 : ℝ)).congr_of_eventuallyEq hz).congr_deriv ?_
    have z1 : (kinematicPowerLaw back iso flow g0 n).dTau tau S = 0 := if_pos hlt.le
    have z2 : (kinematicPowerLaw back iso flow g0 n).dStr tau S = 0 := if_pos hlt.le
    rw [z1, z2]
    simp
  · have hz : (kinematicPowerLaw back iso flow g0 n).dTau tau S * u' +
        (kinematicPowerLaw back iso flow g0 n).dStr tau S ⬝ᵥ v' = 0 := by
      have z1 : (kinematicPowerLaw back iso flow g0 n).dTau tau S = 0 := if_pos heq.le
      have z2 : (kinematicPowerLaw back iso flow g0 n).dStr tau S = 0 := if_pos heq.le
      rw [z1, z2]
      simp
    rw [hz]
    have q1 := abs_pow_deriv hn ((hw.sub_const (tau - S 0)).fun_div hv2 (by rw [d2]; exact h2.ne'))
      (by simp [d0, e1])
    have q2 := abs_pow_deriv hn ((hv1.sub_const (S 1)).fun_div hv2 (by rw [d2]; exact h2.ne')) (by simp [d1])
    have q := ((q1.add q2).const_mul (g0 * 2 ^ n)).congr_deriv (show _ = (0 : ℝ) by simp)
    refine squeeze ?_ ?_ q
    · filter_upwards [hpos2] with t ht
      rw [hs]
      split_ifs with hc
      · rw [abs_zero]; exact abs_nonneg _
      · have hz0 : 0 < |u t - v t 0| - v t 1 := not_le.mp hc
        have hb : |u t - v t 0| - v t 1 ≤ |u t - v t 0 - (tau - S 0)| + |v t 1 - S 1| := by
          have a1 := abs_sub_abs_le_abs_sub (u t - v t 0) (tau - S 0)
          have a2 := neg_abs_le (v t 1 - S 1)
          linarith
        have hb2 : (|u t - v t 0| - v t 1) / v t 2 ≤
            |u t - v t 0 - (tau - S 0)| / v t 2 + |v t 1 - S 1| / v t 2 := by
          rw [← add_div]; exact div_le_div_of_nonneg_right hb ht.le
        rw [abs_mul, sgn_abs, one_mul, abs_abs]
        have hX : 0 ≤ ((|u t - v t 0| - v t 1) / v t 2) ^ n := Real.rpow_nonneg (div_nonneg hz0.le ht.le) n
        rw [abs_of_nonneg (mul_nonneg hg hX)]
        refine le_trans ?_ (le_abs_self _)
        have a3 : ((|u t - v t 0| - v t 1) / v t 2) ^ n ≤
            (|u t - v t 0 - (tau - S 0)| / v t 2 + |v t 1 - S 1| / v t 2) ^ n :=
          Real.rpow_le_rpow (div_nonneg hz0.le ht.le) hb2 (by linarith)
        have a4 := pow_sum_le (n := n) (div_nonneg (abs_nonneg (u t - v t 0 - (tau - S 0))) ht.le)
          (div_nonneg (abs_nonneg (v t 1 - S 1)) ht.le) (by linarith)
        have a5 := mul_le_mul_of_nonneg_left (a3.trans a4) hg
        simp only [Pi.add_apply, abs_div, abs_of_pos ht]
        linarith
    · simp [d0, d1, e1, Real.zero_rpow (show n ≠ 0 by linarith)]
  · have hwne : tau - S 0 ≠ 0 := by
      intro h
      rw [h, abs_zero] at hgt
      linarith
    set ε := sgn (tau - S 0) with hε
    have hεε : ε * ε = 1 := sgn_sq _
    have hεw : ε * (tau - S 0) = |tau - S 0| := by rw [mul_comm]; exact sgn_mul _
    have hev : ∀ᶠ t in 𝓝 t0, 0 < |u t - v t 0| - v t 1 :=
      continuousAt_const.eventually_lt hcz (by simpa [d0, d1, e1] using hgt)
    have hsg : ∀ᶠ t in 𝓝 t0, sgn (u t - v t 0) = ε := by
      rcases lt_or_gt_of_ne hwne with hl | hl
      · have : ∀ᶠ t in 𝓝 t0, u t - v t 0 < 0 :=
          hw.continuousAt.eventually_lt continuousAt_const (by simpa [d0, e1] using hl)
        filter_upwards [this] with t ht
        rw [hε, sgn, sgn, if_pos ht, if_pos hl]
      · have : ∀ᶠ t in 𝓝 t0, 0 < u t - v t 0 :=
          continuousAt_const.eventually_lt hw.continuousAt (by simpa [d0, e1] using hl)
        filter_upwards [this] with t ht
        rw [hε, sgn, sgn, if_neg ht.not_gt, if_neg hl.not_gt]
    have hf : (fun t => (kinematicPowerLaw back iso flow g0 n).sslip (u t) (v t)) =ᶠ[𝓝 t0]
        fun t => ε * (g0 * ((ε * (u t - v t 0) - v t 1) / v t 2) ^ n) := by
      filter_upwards [hev, hsg, hpos2] with t a1 a2 a3
      rw [hs, if_neg (not_le.mpr a1), a2]
      have a4 : ε * (u t - v t 0) = |u t - v t 0| := by rw [← a2, mul_comm]; exact sgn_mul _
      rw [a4, abs_of_nonneg (mul_nonneg hg (Real.rpow_nonneg (div_nonneg a1.le a3.le) n))]
    set X := (|tau - S 0| - S 1) / S 2 with hX
    have hXpos : 0 < X := div_pos hgt h2
    have hXt : (ε * (u t0 - v t0 0) - v t0 1) / v t0 2 = X := by rw [e1, d0, d1, d2, hεw]
    have hd := (((hw.const_mul ε).sub hv1).fun_div hv2 (by rw [d2]; exact h2.ne')).rpow_const (p := n)
      (Or.inl (by simp only [Pi.sub_apply]; rw [hXt]; exact hXpos.ne'))
    refine (((hd.const_mul g0).const_mul ε).congr_of_eventuallyEq hf).congr_deriv ?_
    simp only [Pi.sub_apply]
    rw [hXt, d2, e1, d0, d1, hεw]
    have hY : |g0 * n * X ^ (n - 1) / S 2| = g0 * n * X ^ (n - 1) / S 2 :=
      abs_of_nonneg (div_nonneg (mul_nonneg (mul_nonneg hg (by linarith)) (Real.rpow_nonneg hXpos.le _)) h2.le)
    have hZ : |g0 * n * X ^ n / S 2| = g0 * n * X ^ n / S 2 :=
      abs_of_nonneg (div_nonneg (mul_nonneg (mul_nonneg hg (by linarith)) (Real.rpow_nonneg hXpos.le _)) h2.le)
    simp only [kinematicPowerLaw, if_neg (not_le.mpr hgt), dotProduct, Fin.sum_univ_three, Matrix.cons_val_zero,
      Matrix.cons_val_one, Matrix.cons_val]
    rw [← hX, ← hε, hY, hZ]
    have hpw : X ^ n = X ^ (n - 1) * X := by
      rw [Real.rpow_sub_one hXpos.ne', div_mul_cancel₀ _ hXpos.ne']
    have hA : |tau - S 0| - S 1 = X * S 2 := by rw [hX, div_mul_cancel₀ _ h2.ne']
    have hB : S 1 - |tau - S 0| = -(X * S 2) := by linarith
    rw [hpw, hB, hA]
    generalize X ^ (n - 1) = Y
    have hX0 := hXpos.ne'
    have hS0 := h2.ne'
    field_simp
    linear_combination (g0 * Y * (u' - v' 0)) * hεε

theorem kinematic_flat (back iso flow : Hard N) {g0 n : ℝ} (hn : 0 < n) (tau : ℝ) {S : Fin 3 → ℝ} (h2 : 0 < S 2) :
    (kinematicPowerLaw back iso flow g0 n).Flat tau S := by
  intro h
  simp only [kinematicPowerLaw] at h ⊢
  split_ifs at h ⊢ with hc
  · exact ⟨rfl, rfl⟩
  · have hX : 0 < (|tau - S 0| - S 1) / S 2 := div_pos (not_le.mp hc) h2
    have hg : g0 = 0 := by
      rcases mul_eq_zero.mp h with h | h
      · have := sgn_abs (tau - S 0)
        rw [h] at this
        simp at this
      · rcases mul_eq_zero.mp (abs_eq_zero.mp h) with h | h
        · exact h
        · exact absurd h (Real.rpow_pos_of_pos hX n).ne'
    subst hg
    refine ⟨by simp, ?_⟩
    funext k
    fin_cases k <;> simp

end Neml.Slip
