import Verif.Props.Contract
import Verif.Props.LinearReturn

/-!
# C189: linear isotropic and kinematic hardening along histories and cycles
-/

namespace Neml.SolveStep

open Matrix Neml.SmallStrain Neml.Flow Neml.Mandel Neml.Elastic

/-- Twice the energy stored by stress, isotropic and kinematic hardening. -/
noncomputable def energy7 (G Kb K H : ℝ) (s : Fin 6 → ℝ) (h : Q7 → ℝ) : ℝ :=
  s ⬝ᵥ (isoS G Kb *ᵥ s) + K * h (.inl ()) ^ 2 + H * ∑ i, h (.inr i) ^ 2

/-- Distance of states: the square root of twice the energy of their difference. -/
noncomputable def apart7 (G Kb K H : ℝ) (s : Fin 6 → ℝ) (h : Q7 → ℝ) : ℝ := √(energy7 G Kb K H s h)

/-- The exact result of a step from the trial stress `t` and the history `h`: plastic strain of a length
`g` in a deviatoric direction `m` relaxes the stress and hardens the material, the stress is not outside
the surface, and if there is any plastic strain it is on the surface and the direction is the normal. -/
def Exact (G y K H : ℝ) (t : Fin 6 → ℝ) (h : Q7 → ℝ) (s : Fin 6 → ℝ) (h' : Q7 → ℝ) : Prop :=
  ∃ (g : ℝ) (m : Fin 6 → ℝ), 0 ≤ g ∧ tr3 m = 0 ∧ m ⬝ᵥ m = 1 ∧ s = t - (2 * G * g) • m ∧
    h' (.inl ()) = h (.inl ()) + √(2 / 3) * g ∧ (∀ i, h' (.inr i) = h (.inr i) + g * m i) ∧
    norm2 (devVec s - fun i => H * h' (.inr i)) ≤ √(2 / 3) * (y + K * h' (.inl ())) ∧
    (0 < g → norm2 (devVec s - fun i => H * h' (.inr i)) = √(2 / 3) * (y + K * h' (.inl ())) ∧
      (devVec s - fun i => H * h' (.inr i)) = norm2 (devVec s - fun i => H * h' (.inr i)) • m)

variable {G Kb K H y : ℝ}

theorem energy7_eq (s : Fin 6 → ℝ) (h : Q7 → ℝ) : energy7 G Kb K H s h =
    energy G Kb K s (h (.inl ())) + H * ((fun i => h (.inr i)) ⬝ᵥ fun i => h (.inr i)) := by
  simp only [energy7, energy, dotProduct, pow_two]

theorem devVec_sub (s t : Fin 6 → ℝ) : devVec (s - t) = devVec s - devVec t := by
  have := devVec_add (s - t) t
  rw [sub_add_cancel] at this
  rw [this, add_sub_cancel_right]

theorem work_kin {m e : Fin 6 → ℝ} {g : ℝ} (hg : 0 ≤ g) (hm : m ⬝ᵥ m = 1) (hd : 0 < g → e = norm2 e • m)
    (w : Fin 6 → ℝ) : g * (norm2 e - norm2 w) ≤ g * (m ⬝ᵥ (e - w)) := by
  rcases hg.eq_or_lt with h | h
  · rw [← h]; simp
  · refine mul_le_mul_of_nonneg_left ?_ h.le
    have h2 : m ⬝ᵥ e = norm2 e := by
      conv_lhs => rw [hd h]
      rw [dotProduct_smul, hm, smul_eq_mul, mul_one]
    rw [dotProduct_sub, h2]
    linarith [dot_le_norm2 hm w]

/-- C189: an exact step brings two states no further apart. -/
theorem C189_contract (hG : 0 < G) (hB : 0 < Kb) (hK : 0 ≤ K) (hH : 0 ≤ H) {t t' s s' : Fin 6 → ℝ}
    {h h' k k' : Q7 → ℝ} (E : Exact G y K H t h s k) (E' : Exact G y K H t' h' s' k') :
    energy7 G Kb K H (s - s') (k - k') ≤ energy7 G Kb K H (t - t') (h - h') := by
  obtain ⟨g, m, g0, mt, mm, es, ea, eb, ef, en⟩ := E
  obtain ⟨g', m', g0', mt', mm', es', ea', eb', ef', en'⟩ := E'
  set u := s - s' with hu
  set v := g • m - g' • m' with hv
  set β : Fin 6 → ℝ := fun i => k (.inr i) - k' (.inr i) with hβ
  set e : Fin 6 → ℝ := devVec s - fun i => H * k (.inr i) with he
  set e' : Fin 6 → ℝ := devVec s' - fun i => H * k' (.inr i) with he'
  have w1 := work_kin g0 mm (fun h => (en h).2) e'
  have w2 := work_kin g0' mm' (fun h => (en' h).2) e
  have htv : tr3 v = 0 := by rw [hv, tr3_sub, tr3_smul, tr3_smul, mt, mt']; ring
  have ht : t - t' = u + (2 * G) • v := by
    rw [hu, hv, es, es']
    module
  have htw : tr3 ((2 * G) • v) = 0 := by rw [tr3_smul, htv, mul_zero]
  have hdev : devVec (t - t') = devVec u + (2 * G) • v := by
    rw [ht, devVec_add, devVec_of_tr3 htw]
  have htr : tr3 (t - t') = tr3 u := by rw [ht, tr3_add, htw, add_zero]
  have hee : e - e' = devVec u - H • β := by
    rw [he, he', hu]
    ext i
    simp only [Pi.sub_apply, Pi.smul_apply, smul_eq_mul, hβ, devVec_sub]
    ring
  have huv : (devVec u - H • β) ⬝ᵥ v = g * (m ⬝ᵥ (e - e')) + g' * (m' ⬝ᵥ (e' - e)) := by
    rw [← hee, hv, dotProduct_sub, dotProduct_smul, dotProduct_smul, dotProduct_comm _ m,
      dotProduct_comm _ m', show e' - e = -(e - e') by abel, dotProduct_neg]
    simp only [smul_eq_mul]
    ring
  have hvv : 0 ≤ v ⬝ᵥ v := by
    simp only [dotProduct]
    exact Finset.sum_nonneg fun i _ => mul_self_nonneg _
  have hb : (fun i => (h - h') (.inr i)) = β - v := by
    ext i
    simp only [hβ, hv, Pi.sub_apply, Pi.smul_apply, smul_eq_mul, eb, eb']
    ring
  have hbk : (fun i => (k - k') (.inr i)) = β := rfl
  rw [energy7_eq, energy7_eq, hb, hbk, energy_split hG hB, energy_split hG hB, htr, hdev]
  have hexp : (devVec u + (2 * G) • v) ⬝ᵥ (devVec u + (2 * G) • v) / (2 * G) =
      devVec u ⬝ᵥ devVec u / (2 * G) + 2 * (devVec u ⬝ᵥ v) + 2 * G * (v ⬝ᵥ v) := by
    simp only [add_dotProduct, dotProduct_add, smul_dotProduct, dotProduct_smul, smul_eq_mul]
    rw [dotProduct_comm v (devVec u)]
    field_simp
    ring
  have hexp2 : (β - v) ⬝ᵥ (β - v) = β ⬝ᵥ β - 2 * (β ⬝ᵥ v) + v ⬝ᵥ v := by
    simp only [sub_dotProduct, dotProduct_sub]
    rw [dotProduct_comm v β]
    ring
  rw [hexp, hexp2]
  rw [sub_dotProduct, smul_dotProduct, smul_eq_mul] at huv
  have ha : (h - h') (.inl ()) = (k - k') (.inl ()) - √(2 / 3) * (g - g') := by
    simp only [Pi.sub_apply, ea, ea']; ring
  rw [ha]
  set A := (k - k') (.inl ()) with hA
  have hAe : K * A = K * k (.inl ()) - K * k' (.inl ()) := by rw [hA, Pi.sub_apply]; ring
  have hlow : K * A * (√(2 / 3) * (g - g')) ≤ g * (norm2 e - norm2 e') + g' * (norm2 e' - norm2 e) := by
    have h1 : g * (√(2 / 3) * (y + K * k (.inl ()))) ≤ g * norm2 e := by
      rcases g0.eq_or_lt with h | h
      · rw [← h]; simp
      · rw [(en h).1]
    have h2 : g' * (√(2 / 3) * (y + K * k' (.inl ()))) ≤ g' * norm2 e' := by
      rcases g0'.eq_or_lt with h | h
      · rw [← h]; simp
      · rw [(en' h).1]
    have h3 := mul_le_mul_of_nonneg_left ef' g0
    have h4 := mul_le_mul_of_nonneg_left ef g0'
    rw [hAe]
    linarith
  have hc2 : 0 ≤ K * (√(2 / 3) * (g - g')) ^ 2 := by positivity
  have hGv : 0 ≤ 2 * G * (v ⬝ᵥ v) := by positivity
  have hHv : 0 ≤ H * (v ⬝ᵥ v) := by positivity
  nlinarith [huv, w1, w2, hlow, hc2, hGv, hHv]

theorem energy7_nonneg (hG : 0 < G) (hB : 0 < Kb) (hK : 0 ≤ K) (hH : 0 ≤ H) (s : Fin 6 → ℝ) (h : Q7 → ℝ) :
    0 ≤ energy7 G Kb K H s h := by
  rw [energy7_eq, energy_split hG hB]
  have : ∀ w : Fin 6 → ℝ, 0 ≤ w ⬝ᵥ w := fun w => by
    simp only [dotProduct]
    exact Finset.sum_nonneg fun i _ => mul_self_nonneg _
  have := this (devVec s)
  have := ‹∀ w : Fin 6 → ℝ, 0 ≤ w ⬝ᵥ w› fun i => h (.inr i)
  positivity

/-- C189: a step has only one exact result. -/
theorem C189_unique (hG : 0 < G) (hK : 0 ≤ K) (hH : 0 ≤ H) {t s s' : Fin 6 → ℝ}
    {h k k' : Q7 → ℝ} (E : Exact G y K H t h s k) (E' : Exact G y K H t h s' k') : s = s' ∧ k = k' := by
  have h1 := C189_contract (Kb := 1) hG one_pos hK hH E E'
  rw [sub_self, sub_self] at h1
  have h0 : energy7 G 1 K H 0 0 = 0 := by simp [energy7]
  have hn : ∀ w : Fin 6 → ℝ, 0 ≤ w ⬝ᵥ w := fun w => by
    simp only [dotProduct]
    exact Finset.sum_nonneg fun i _ => mul_self_nonneg _
  obtain ⟨g, m, g0, mt, mm, es, ea, eb, -, -⟩ := E
  obtain ⟨g', m', g0', mt', mm', es', ea', eb', -, -⟩ := E'
  have hd : devVec (s - s') ⬝ᵥ devVec (s - s') ≤ 0 := by
    rw [h0, energy7_eq, energy_split hG one_pos] at h1
    have h2 := hn fun i => (k - k') (.inr i)
    have h3 : 0 ≤ H * ((fun i => (k - k') (.inr i)) ⬝ᵥ fun i => (k - k') (.inr i)) := by positivity
    have h4 : 0 ≤ K * (k - k') (.inl ()) ^ 2 := by positivity
    have h5 : 0 ≤ tr3 (s - s') ^ 2 / (9 * 1) := by positivity
    have h6 : devVec (s - s') ⬝ᵥ devVec (s - s') / (2 * G) ≤ 0 := by linarith
    by_contra hc
    have : 0 < devVec (s - s') ⬝ᵥ devVec (s - s') / (2 * G) := div_pos (not_le.mp hc) (by positivity)
    linarith
  have hss : s - s' = (2 * G) • (g' • m' - g • m) := by rw [es, es']; module
  have hdv : devVec (s - s') = (2 * G) • (g' • m' - g • m) := by
    rw [hss]
    refine devVec_of_tr3 ?_
    rw [tr3_smul, tr3_sub, tr3_smul, tr3_smul, mt, mt']; ring
  have hz : g' • m' - g • m = 0 := by
    rw [hdv, smul_dotProduct, dotProduct_smul, smul_eq_mul, smul_eq_mul] at hd
    have h2 : (g' • m' - g • m) ⬝ᵥ (g' • m' - g • m) = 0 := by
      refine le_antisymm ?_ (hn _)
      by_contra hc
      have : 0 < 2 * G * (2 * G * ((g' • m' - g • m) ⬝ᵥ (g' • m' - g • m))) :=
        mul_pos (by positivity) (mul_pos (by positivity) (not_le.mp hc))
      linarith
    ext i
    have h4 := (Finset.sum_eq_zero_iff_of_nonneg (fun i _ => mul_self_nonneg _)).mp h2 i (Finset.mem_univ i)
    exact mul_self_eq_zero.mp h4
  have hg : g = g' := by
    have h2 : g' • m' = g • m := sub_eq_zero.mp hz
    have h3 : g' ^ 2 = g ^ 2 := by
      have : (g' • m') ⬝ᵥ (g' • m') = (g • m) ⬝ᵥ (g • m) := by rw [h2]
      simp only [smul_dotProduct, dotProduct_smul, smul_eq_mul, mm, mm'] at this
      linarith
    exact ((sq_eq_sq₀ g0' g0).mp h3).symm
  refine ⟨sub_eq_zero.mp (by rw [hss, hz, smul_zero]), ?_⟩
  ext i
  rcases i with i | i
  · show k (.inl ()) = k' (.inl ())
    rw [ea, ea', hg]
  · rw [eb, eb']
    have := congrFun hz i
    simp only [Pi.sub_apply, Pi.smul_apply, smul_eq_mul, Pi.zero_apply] at this
    linarith

/-- C189: and it has one, the return along the trial direction. -/
theorem C189_closed (hG : 0 < G) (hK : 0 ≤ K) (hH : 0 ≤ H) {t : Fin 6 → ℝ} {al : ℝ} {b : Fin 6 → ℝ}
    (hb : tr3 b = 0) (hr : 0 ≤ radius y K al) {o : ℝ} (ho : o = max 0 (over H (radius y K al) t b)) :
    Exact G y K H t (Sum.elim (fun _ => al) b)
      (t - (2 * G * (o / (2 * G + 2 / 3 * K + H))) • edir H t b)
      (Sum.elim (fun _ => al + √(2 / 3) * (o / (2 * G + 2 / 3 * K + H)))
        (b + (o / (2 * G + 2 / 3 * K + H)) • edir H t b)) := by
  have hh : 0 < 2 * G + 2 / 3 * K + H := by positivity
  rcases le_or_gt (over H (radius y K al) t b) 0 with h0 | h0
  · rw [max_eq_left h0] at ho
    obtain ⟨m, hm1, hm2⟩ := shear_unit'
    refine ⟨0, m, le_rfl, hm1, hm2, by rw [ho]; simp, by rw [ho]; simp, fun i => by rw [ho]; simp, ?_,
      fun h => absurd h (lt_irrefl 0)⟩
    rw [ho]
    simp only [zero_div, mul_zero, zero_smul, sub_zero, add_zero, Sum.elim_inl, Sum.elim_inr]
    have h1 : norm2 (devVec t - fun i => H * b i) - √(2 / 3) * (y + K * al) ≤ 0 := h0
    linarith
  · rw [max_eq_right h0.le] at ho
    have ho0 : 0 < o := by rw [ho]; exact h0
    have hN : 0 < norm2 (eff H t b) := by unfold over at h0; linarith
    have hmt : tr3 (edir H t b) = 0 := by rw [edir, tr3_smul, tr3_eff _ _ hb, mul_zero]
    set c := o / (2 * G + 2 / 3 * K + H) with hc
    set m := edir H t b with hm
    have hc0 : 0 < c := div_pos ho0 hh
    have hsq : √(2 / 3) * √(2 / 3) = (2 / 3 : ℝ) := Real.mul_self_sqrt (by norm_num)
    have hrad : √(2 / 3) * (y + K * (al + √(2 / 3) * c)) = radius y K al + 2 / 3 * K * c := by
      unfold radius
      linear_combination K * c * hsq
    have heff : (devVec (t - (2 * G * c) • m) - fun i => H * (b + c • m) i) =
        (radius y K al + 2 / 3 * K * c) • m := by
      have h1 : devVec (t - (2 * G * c) • m) = devVec t - (2 * G * c) • m := by
        rw [devVec_sub, devVec_of_tr3 (v := (2 * G * c) • m) (by rw [tr3_smul, hmt, mul_zero])]
      have h2 : devVec t - H • b = norm2 (eff H t b) • m := eff_edir hN
      have h3 : norm2 (eff H t b) = radius y K al + (2 * G + 2 / 3 * K + H) * c := by
        rw [hc, mul_div_cancel₀ _ hh.ne', ho, over]; ring
      rw [h1]
      have h4 : (devVec t - (2 * G * c) • m - fun i => H * (b + c • m) i) =
          (devVec t - H • b) - ((2 * G + H) * c) • m := by
        ext i
        simp only [Pi.sub_apply, Pi.smul_apply, Pi.add_apply, smul_eq_mul]
        ring
      rw [h4, h2, h3]
      module
    have hnn : norm2 (devVec (t - (2 * G * c) • m) - fun i => H * (b + c • m) i) =
        radius y K al + 2 / 3 * K * c := by
      rw [heff, norm2_unit (edir_unit hN), abs_of_nonneg (by positivity)]
    refine ⟨c, m, hc0.le, hmt, edir_unit hN, rfl, rfl, fun i => ?_, ?_, fun _ => ⟨?_, ?_⟩⟩
    · simp
    · simp only [Sum.elim_inl, Sum.elim_inr]
      rw [hnn, hrad]
    · simp only [Sum.elim_inl, Sum.elim_inr]
      rw [hnn, hrad]
    · simp only [Sum.elim_inr]
      rw [hnn, heff]

/-! ## Distances -/

theorem apart7_eq (hG : 0 < G) (hB : 0 < Kb) (hK : 0 ≤ K) (hH : 0 ≤ H) (s : Fin 6 → ℝ) (h : Q7 → ℝ) :
    apart7 G Kb K H s h = ‖WithLp.toLp 2 (Sum.elim (embed G Kb K s (h (.inl ())))
      fun i => √H * h (.inr i))‖ := by
  rw [apart7, energy7_eq, energy_embed hG hB hK, EuclideanSpace.norm_eq]
  congr 1
  symm
  rw [Fintype.sum_sum_type]
  congr 1
  · refine Finset.sum_congr rfl fun i _ => ?_
    rw [Real.norm_eq_abs, sq_abs]
    rfl
  · rw [dotProduct, Finset.mul_sum]
    refine Finset.sum_congr rfl fun i _ => ?_
    rw [Real.norm_eq_abs, sq_abs]
    show (√H * h (.inr i)) ^ 2 = _
    rw [mul_pow, Real.sq_sqrt hH]
    ring

theorem apart7_add (hG : 0 < G) (hB : 0 < Kb) (hK : 0 ≤ K) (hH : 0 ≤ H) (s s' : Fin 6 → ℝ)
    (h h' : Q7 → ℝ) :
    apart7 G Kb K H (s + s') (h + h') ≤ apart7 G Kb K H s h + apart7 G Kb K H s' h' := by
  rw [apart7_eq hG hB hK hH, apart7_eq hG hB hK hH, apart7_eq hG hB hK hH]
  refine le_trans (le_of_eq ?_) (norm_add_le _ _)
  congr 1
  ext i
  rcases i with i | i
  · show embed G Kb K (s + s') (h (.inl ()) + h' (.inl ())) i =
      embed G Kb K s (h (.inl ())) i + embed G Kb K s' (h' (.inl ())) i
    rcases i with i | i
    · simp only [embed, Sum.elim_inl, devVec_add, Pi.add_apply]
      ring
    · fin_cases i
      · simp only [embed, Sum.elim_inr, tr3_add]
        simp
        ring
      · simp only [embed, Sum.elim_inr]
        simp
        ring
  · show √H * (h (.inr i) + h' (.inr i)) = √H * h (.inr i) + √H * h' (.inr i)
    ring

theorem apart7_chain (hG : 0 < G) (hB : 0 < Kb) (hK : 0 ≤ K) (hH : 0 ≤ H) (s s' s'' : Fin 6 → ℝ)
    (h h' h'' : Q7 → ℝ) : apart7 G Kb K H (s - s'') (h - h'') ≤
      apart7 G Kb K H (s - s') (h - h') + apart7 G Kb K H (s' - s'') (h' - h'') := by
  have := apart7_add hG hB hK hH (s - s') (s' - s'') (h - h') (h' - h'')
  rwa [show s - s' + (s' - s'') = s - s'' by abel, show h - h' + (h' - h'') = h - h'' by abel] at this

theorem apart7_neg (s : Fin 6 → ℝ) (h : Q7 → ℝ) : apart7 G Kb K H (-s) (-h) = apart7 G Kb K H s h := by
  unfold apart7 energy7
  simp [mulVec_neg]

/-- Plastic strain of length `c` that is missing. -/
theorem apart7_missing (hG : 0 < G) (hB : 0 < Kb) (hK : 0 ≤ K) (hH : 0 ≤ H) {m : Fin 6 → ℝ}
    (htr : tr3 m = 0) (hm : m ⬝ᵥ m = 1) {c : ℝ} (hc : 0 ≤ c) {h : Q7 → ℝ} (h0 : h (.inl ()) = -(√(2 / 3) * c))
    (hi : ∀ i, h (.inr i) = -(c * m i)) :
    apart7 G Kb K H ((2 * G * c) • m) h = c * √(2 * G + 2 / 3 * K + H) := by
  have h1 : (fun i => h (.inr i)) = -(c • m) := by ext i; simp [hi]
  have hsq : √(2 / 3) * √(2 / 3) = (2 / 3 : ℝ) := Real.mul_self_sqrt (by norm_num)
  have h2 : energy7 G Kb K H ((2 * G * c) • m) h = c ^ 2 * (2 * G + 2 / 3 * K + H) := by
    rw [energy7_eq, energy_split hG hB, h1, h0, devVec_of_tr3 (by rw [tr3_smul, htr, mul_zero]), tr3_smul, htr]
    simp only [smul_dotProduct, dotProduct_smul, neg_dotProduct, dotProduct_neg, smul_eq_mul, hm]
    field_simp
    linear_combination 27 * Kb * K * c ^ 2 * hsq
  rw [apart7, h2, Real.sqrt_mul (sq_nonneg c), Real.sqrt_sq hc]

/-! ## Steps and histories -/

section steps

variable {el : Elastic ℝ (Fin 6)} {eps T : ℝ} {s0 Ki Hk : ℝ → ℝ}
  {lin : Matrix (Fin (6 + (7 + 1))) (Fin (6 + (7 + 1))) ℝ → (Fin (6 + (7 + 1)) → ℝ) →
    Option (Fin (6 + (7 + 1)) → ℝ)} {p : Newton.Params} {fuel : Nat}
  {inv : Matrix (RIx (Fin 6) Q7) (RIx (Fin 6) Q7) ℝ → Option (Matrix (RIx (Fin 6) Q7) (RIx (Fin 6) Q7) ℝ)}

/-- State of a material point with combined hardening. -/
abbrev State7 := Substep.Point ℝ (Fin 6 → ℝ) (Fin 6 → ℝ) (Q7 → ℝ)

/-- Accumulated plastic strain is not negative and the backstrain is a deviator, as in the initial
state. -/
def Sound (x : State7) : Prop := 0 ≤ x.h (.inl ()) ∧ tr3 (fun i => x.h (.inr i)) = 0

/-- The exact step to a strain and time at a constant temperature. -/
def ExactStep (el : Elastic ℝ (Fin 6)) (G y K H T : ℝ) (x : State7) (i : (Fin 6 → ℝ) × ℝ) (z : State7) :
    Prop :=
  Exact G y K H (trial' el x i.1 T) x.h z.s z.h ∧ z.e = i.1 ∧ z.T = T ∧ z.t = i.2

/-- The step the code computes. -/
def Takes {P τ : Type} [Fintype P] [DecidableEq P] (m : Integrator ℝ (Fin 6) (Q7 → ℝ) P τ) (T : ℝ)
    (x : State7) (i : (Fin 6 → ℝ) × ℝ) (z : State7) : Prop :=
  ∃ inc, updateStep m x i.1 T i.2 = some inc ∧ z.s = inc.s ∧ z.h = inc.h ∧ z.e = i.1 ∧ z.T = T ∧
    z.t = i.2

theorem Exact.sound {t : Fin 6 → ℝ} {x : State7} (hx : Sound x) {s : Fin 6 → ℝ} {h : Q7 → ℝ}
    (E : Exact G y K H t x.h s h) : 0 ≤ h (.inl ()) ∧ tr3 (fun i => h (.inr i)) = 0 := by
  obtain ⟨g, m, g0, mt, mm, es, ea, eb, -, -⟩ := E
  refine ⟨?_, ?_⟩
  · rw [ea]
    exact add_nonneg hx.1 (by positivity)
  · rw [show (fun i => h (.inr i)) = (fun i => x.h (.inr i)) + g • m by ext i; simp [eb], tr3_add, hx.2,
      tr3_smul, mt]
    ring

/-- C189: every step of the code succeeds. Unless the trial stress is outside the surface by less than
the tolerance the result is exact, and then it is off by no more than the tolerance is worth. -/
theorem C189_step (he : 0 < eps) (hs : Standard p fuel) (hl : ExactSolve lin) (hv : ExactInv inv)
    (hG : 0 < G) (hB : 0 < Kb) (hC : el.C T = isoC G Kb) (hS : el.S T = isoS G Kb) (hH : 0 ≤ Hk T)
    (hK : 0 ≤ Ki T) (hk : eps ≤ √(2 / 3) * s0 T) {x : State7} (hx : Sound x) (hT : x.T = T)
    (e1 : Fin 6 → ℝ) (t1 : ℝ) :
    ∃ inc, updateStep (rateIndep q7Index el (linearFlow eps s0 Ki Hk) lin p fuel inv) x e1 T t1 = some inc ∧
      ∃ s h, Exact G (s0 T) (Ki T) (Hk T) (trial' el x e1 T) x.h s h ∧
        apart7 G Kb (Ki T) (Hk T) (inc.s - s) (inc.h - h) ≤ p.atol / √(2 * G + 2 / 3 * Ki T + Hk T) ∧
        (over (Hk T) (radius (s0 T) (Ki T) (x.h (.inl ()))) (trial' el x e1 T) (fun i => x.h (.inr i)) ≤ 0 ∨
          p.atol ≤ over (Hk T) (radius (s0 T) (Ki T) (x.h (.inl ()))) (trial' el x e1 T)
            (fun i => x.h (.inr i)) → inc.s = s ∧ inc.h = h) ∧
        0 ≤ inc.h (.inl ()) ∧ tr3 (fun i => inc.h (.inr i)) = 0 := by
  have ha := hs.atol
  have hsq0 : (0 : ℝ) ≤ √(2 / 3) := Real.sqrt_nonneg _
  have hh0 : 0 < 2 * G + 2 / 3 * Ki T + Hk T := by positivity
  have hap0 : apart7 G Kb (Ki T) (Hk T) 0 0 = 0 := by simp [apart7, energy7]
  obtain ⟨hal, hb⟩ := hx
  set al := x.h (.inl ()) with hald
  set b : Fin 6 → ℝ := fun i => x.h (.inr i) with hbd
  have hxh : x.h = Sum.elim (fun _ => al) b := by
    ext i
    rcases i with i | i <;> rfl
  have hrad : ∀ a, 0 ≤ a → eps ≤ radius (s0 T) (Ki T) a := by
    intro a h
    have : 0 ≤ √(2 / 3) * (Ki T * a) := by positivity
    unfold radius
    linarith [mul_add (√(2 / 3)) (s0 T) (Ki T * a)]
  have hi : el.C T * el.S T = 1 := by rw [hC, hS]; exact (C36_iso_inverse G Kb hG hB).2
  have htr : trial' el x e1 T = x.s + el.C T *ᵥ (e1 - x.e) := by
    unfold trial'
    rw [hT, show e1 - (x.e - el.S T *ᵥ x.s) = (e1 - x.e) + el.S T *ᵥ x.s by abel, mulVec_add,
      mulVec_mulVec, hi, one_mulVec, add_comm]
  have hE := C189_closed (G := G) (y := s0 T) (t := trial' el x e1 T) hG hK hH hb
    (he.le.trans (hrad al hal)) rfl
  rw [← hxh] at hE
  set o := over (Hk T) (radius (s0 T) (Ki T) al) (trial' el x e1 T) b with ho
  rcases le_or_gt o 0 with h0 | h0
  · obtain ⟨inc, g1, g2, g3, -⟩ := updateStep_elastic
      (rateIndep q7Index el (linearFlow eps s0 Ki Hk) lin p fuel inv) x e1 T t1 ((ri_elastic hxh).mpr h0)
    have g2' : inc.s = trial' el x e1 T := by rw [g2, htr, add_comm]; rfl
    rw [max_eq_left h0] at hE
    simp only [zero_div, mul_zero, zero_smul, sub_zero, add_zero] at hE
    rw [← hxh] at hE
    refine ⟨inc, g1, _, _, hE, ?_, fun _ => ⟨g2', g3⟩, ?_, ?_⟩
    · rw [g2', g3, sub_self, sub_self, hap0]
      positivity
    · rw [g3]; exact hal
    · rw [g3]; exact hb
  · rw [max_eq_right h0.le] at hE
    have hN : 0 < norm2 (eff (Hk T) (trial' el x e1 T) b) := by
      have := hrad al hal
      rw [ho, over] at h0
      linarith
    have hd : 0 ≤ o / (2 * G + 2 / 3 * Ki T + Hk T) := div_nonneg h0.le hh0.le
    rcases lt_or_ge o p.atol with h | h
    · obtain ⟨inc, g1, g2, g3⟩ := C180_band (lin := lin) (t1 := t1) he hs hv hG hC hH hxh hb hh0
        (hrad al hal) h0 h
      refine ⟨inc, g1, _, _, hE, ?_, ?_, ?_, ?_⟩
      · have hds : inc.s - (trial' el x e1 T - (2 * G * (o / (2 * G + 2 / 3 * Ki T + Hk T))) •
            edir (Hk T) (trial' el x e1 T) b) =
            (2 * G * (o / (2 * G + 2 / 3 * Ki T + Hk T))) • edir (Hk T) (trial' el x e1 T) b := by
          rw [g2]; abel
        rw [hds, apart7_missing hG hB hK hH (by rw [edir, tr3_smul, tr3_eff _ _ hb, mul_zero])
          (edir_unit hN) hd (by rw [g3, hxh]; simp) (fun i => by rw [g3, hxh]; simp)]
        have h1 : o / (2 * G + 2 / 3 * Ki T + Hk T) * √(2 * G + 2 / 3 * Ki T + Hk T) =
            o / √(2 * G + 2 / 3 * Ki T + Hk T) := by
          have h2 := Real.mul_self_sqrt hh0.le
          have h3 : 0 < √(2 * G + 2 / 3 * Ki T + Hk T) := Real.sqrt_pos.mpr hh0
          rw [div_mul_eq_mul_div, div_eq_div_iff hh0.ne' h3.ne', mul_assoc, h2]
        rw [h1]
        gcongr
      · rintro (h' | h')
        · exact absurd h0 (not_lt.mpr h')
        · exact absurd h (not_lt.mpr h')
      · rw [g3]; exact hal
      · rw [g3]; exact hb
    · obtain ⟨inc, g1, g2, g3, g4, g5, -⟩ := C180_return (t1 := t1) he hs hl hv hG hC hH hxh hb rfl
        hh0 rfl h (hrad _ (add_nonneg hal (mul_nonneg hsq0 hd)))
      refine ⟨inc, g1, _, _, hE, ?_, fun _ => ⟨g2, g3⟩, ?_, g5⟩
      · rw [g2, g3, sub_self, sub_self, hap0]
        positivity
      · rw [g3]
        exact add_nonneg hal (mul_nonneg hsq0 hd)

theorem trial'_sub7 (hG : 0 < G) (hB : 0 < Kb) (hC : el.C T = isoC G Kb) (hS : el.S T = isoS G Kb)
    {x z : State7} {e1 : Fin 6 → ℝ} (hx : x.T = T) (hz : z.T = T) (hxz : x.e = z.e) :
    trial' el x e1 T - trial' el z e1 T = x.s - z.s := by
  have h1 := (C36_iso_inverse G Kb hG hB).2
  have h2 : ∀ v, isoC G Kb *ᵥ (isoS G Kb *ᵥ v) = v := fun v => by
    rw [mulVec_mulVec, h1, one_mulVec]
  unfold trial'
  rw [hx, hz, hC, hS, hxz, ← mulVec_sub]
  have : e1 - (z.e - isoS G Kb *ᵥ x.s) - (e1 - (z.e - isoS G Kb *ᵥ z.s)) =
      isoS G Kb *ᵥ (x.s - z.s) := by
    rw [mulVec_sub]; abel
  rw [this, h2]

/-- C189: every history is computed to its end, has one exact path, and the two differ by no more than the
tolerance, as an energy norm, times the number of steps. -/
theorem C189_history (he : 0 < eps) (hs : Standard p fuel) (hl : ExactSolve lin) (hv : ExactInv inv)
    (hG : 0 < G) (hB : 0 < Kb) (hC : el.C T = isoC G Kb) (hS : el.S T = isoS G Kb) (hH : 0 ≤ Hk T)
    (hK : 0 ≤ Ki T) (hk : eps ≤ √(2 / 3) * s0 T) (l : List ((Fin 6 → ℝ) × ℝ)) {x z : State7} (hx : Sound x)
    (hz : Sound z) (hxT : x.T = T) (hzT : z.T = T) (hxz : x.e = z.e) :
    (∃ x', Along (Takes (rateIndep q7Index el (linearFlow eps s0 Ki Hk) lin p fuel inv) T) x l x') ∧
    (∃ z', Along (ExactStep el G (s0 T) (Ki T) (Hk T) T) z l z') ∧
    ∀ x' z', Along (Takes (rateIndep q7Index el (linearFlow eps s0 Ki Hk) lin p fuel inv) T) x l x' →
      Along (ExactStep el G (s0 T) (Ki T) (Hk T) T) z l z' →
      apart7 G Kb (Ki T) (Hk T) (x'.s - z'.s) (x'.h - z'.h) ≤
        apart7 G Kb (Ki T) (Hk T) (x.s - z.s) (x.h - z.h) +
          l.length * (p.atol / √(2 * G + 2 / 3 * Ki T + Hk T)) := by
  induction l generalizing x z with
  | nil =>
    refine ⟨⟨x, rfl⟩, ⟨z, rfl⟩, fun x' z' h h' => ?_⟩
    rw [show x' = x from h, show z' = z from h']
    simp
  | cons i l ih =>
    obtain ⟨inc, hu, s, h, hE, herr, -, hs1, hs2⟩ := C189_step (lin := lin) (inv := inv) he hs hl hv hG hB hC
      hS hH hK hk hx hxT i.1 i.2
    obtain ⟨-, -, s', h', hE', -⟩ := C189_step (lin := lin) (inv := inv) he hs hl hv hG hB hC
      hS hH hK hk hz hzT i.1 i.2
    have hstep : Takes (rateIndep q7Index el (linearFlow eps s0 Ki Hk) lin p fuel inv) T x i
        ⟨i.1, T, i.2, inc.s, inc.h, 0, 0⟩ := ⟨inc, hu, rfl, rfl, rfl, rfl, rfl⟩
    have hstep' : ExactStep el G (s0 T) (Ki T) (Hk T) T z i ⟨i.1, T, i.2, s', h', 0, 0⟩ :=
      ⟨hE', rfl, rfl, rfl⟩
    have I := ih (x := ⟨i.1, T, i.2, inc.s, inc.h, 0, 0⟩) (z := ⟨i.1, T, i.2, s', h', 0, 0⟩) ⟨hs1, hs2⟩
      (hE'.sound hz) rfl rfl rfl
    refine ⟨⟨_, _, hstep, I.1.choose_spec⟩, ⟨_, _, hstep', I.2.1.choose_spec⟩, ?_⟩
    rintro x' z' ⟨w, ⟨inc', hw, w1, w2, w3, w4, w5⟩, hx'⟩ ⟨w', ⟨hwE, w3', w4', w5'⟩, hz'⟩
    rw [hu] at hw
    obtain rfl : inc = inc' := Option.some.inj hw
    have hws : Sound w := by rw [Sound, w2]; exact ⟨hs1, hs2⟩
    have J := (ih hws (hwE.sound hz) w4 w4' (w3.trans w3'.symm)).2.2 x' z' hx' hz'
    have h1 := apart7_chain hG hB hK hH w.s s w'.s w.h h w'.h
    have h2 : apart7 G Kb (Ki T) (Hk T) (s - w'.s) (h - w'.h) ≤
        apart7 G Kb (Ki T) (Hk T) (x.s - z.s) (x.h - z.h) := by
      have := C189_contract hG hB hK hH hE hwE
      rw [trial'_sub7 hG hB hC hS hxT hzT hxz] at this
      exact Real.sqrt_le_sqrt this
    rw [w1, w2] at h1
    rw [w1, w2] at J
    rw [List.length_cons]
    push_cast
    linarith

/-- C189: two exact paths come no further apart. -/
theorem C189_contract_history (hG : 0 < G) (hB : 0 < Kb) (hC : el.C T = isoC G Kb)
    (hS : el.S T = isoS G Kb) (hH : 0 ≤ H) (hK : 0 ≤ K) (l : List ((Fin 6 → ℝ) × ℝ))
    {x z x' z' : State7} (hxT : x.T = T) (hzT : z.T = T) (hxz : x.e = z.e)
    (h : Along (ExactStep el G y K H T) x l x') (h' : Along (ExactStep el G y K H T) z l z') :
    apart7 G Kb K H (x'.s - z'.s) (x'.h - z'.h) ≤ apart7 G Kb K H (x.s - z.s) (x.h - z.h) := by
  induction l generalizing x z with
  | nil => rw [show x' = x from h, show z' = z from h']
  | cons i l ih =>
    obtain ⟨w, ⟨hE, w1, w2, -⟩, h⟩ := h
    obtain ⟨w', ⟨hE', w1', w2', -⟩, h'⟩ := h'
    refine (ih w2 w2' (w1.trans w1'.symm) h h').trans ?_
    have := C189_contract hG hB hK hH hE hE'
    rw [trial'_sub7 hG hB hC hS hxT hzT hxz] at this
    exact Real.sqrt_le_sqrt this

/-- States stay as the theorems ask. -/
theorem takes_sound (he : 0 < eps) (hs : Standard p fuel) (hl : ExactSolve lin) (hv : ExactInv inv)
    (hG : 0 < G) (hB : 0 < Kb) (hC : el.C T = isoC G Kb) (hS : el.S T = isoS G Kb) (hH : 0 ≤ Hk T)
    (hK : 0 ≤ Ki T) (hk : eps ≤ √(2 / 3) * s0 T) (l : List ((Fin 6 → ℝ) × ℝ)) {x x' : State7}
    (hx : Sound x) (hT : x.T = T)
    (h : Along (Takes (rateIndep q7Index el (linearFlow eps s0 Ki Hk) lin p fuel inv) T) x l x') :
    Sound x' ∧ x'.T = T := by
  induction l generalizing x with
  | nil => rw [show x' = x from h]; exact ⟨hx, hT⟩
  | cons i l ih =>
    obtain ⟨w, ⟨inc', hw, w1, w2, w3, w4, w5⟩, h⟩ := h
    obtain ⟨inc, hu, s, -, -, -, -, hs1, hs2⟩ := C189_step (lin := lin) (inv := inv) he hs hl hv hG hB hC
      hS hH hK hk hx hT i.1 i.2
    rw [hu] at hw
    obtain rfl : inc = inc' := Option.some.inj hw
    exact ih (by rw [Sound, w2]; exact ⟨hs1, hs2⟩) w4 h

/-- C189: in a test that repeats the same strains, a cycle changes the state no more than the cycle
before it did, but for the tolerance of the steps. -/
theorem C189_cycles (he : 0 < eps) (hs : Standard p fuel) (hl : ExactSolve lin) (hv : ExactInv inv)
    (hG : 0 < G) (hB : 0 < Kb) (hC : el.C T = isoC G Kb) (hS : el.S T = isoS G Kb) (hH : 0 ≤ Hk T)
    (hK : 0 ≤ Ki T) (hk : eps ≤ √(2 / 3) * s0 T) (l : List ((Fin 6 → ℝ) × ℝ)) {x x' x'' : State7}
    (hx : Sound x) (hT : x.T = T) (hclosed : x'.e = x.e)
    (h : Along (Takes (rateIndep q7Index el (linearFlow eps s0 Ki Hk) lin p fuel inv) T) x l x')
    (h' : Along (Takes (rateIndep q7Index el (linearFlow eps s0 Ki Hk) lin p fuel inv) T) x' l x'') :
    apart7 G Kb (Ki T) (Hk T) (x''.s - x'.s) (x''.h - x'.h) ≤
      apart7 G Kb (Ki T) (Hk T) (x'.s - x.s) (x'.h - x.h) +
        2 * (l.length * (p.atol / √(2 * G + 2 / 3 * Ki T + Hk T))) := by
  obtain ⟨hx', hT'⟩ := takes_sound he hs hl hv hG hB hC hS hH hK hk l hx hT h
  obtain ⟨-, ⟨z', hz'⟩, h1⟩ := C189_history (lin := lin) (inv := inv) he hs hl hv hG hB hC hS hH hK hk l hx hx
    hT hT rfl
  obtain ⟨-, ⟨z'', hz''⟩, h2⟩ := C189_history (lin := lin) (inv := inv) he hs hl hv hG hB hC hS hH hK hk l hx'
    hx' hT' hT' rfl
  have a1 := h1 x' z' h hz'
  have a2 := h2 x'' z'' h' hz''
  have a3 := C189_contract_history hG hB hC hS hH hK l hT' hT hclosed hz'' hz'
  have h0 : apart7 G Kb (Ki T) (Hk T) 0 0 = 0 := by simp [apart7, energy7]
  rw [sub_self, sub_self, h0, zero_add] at a1 a2
  have c1 := apart7_chain hG hB hK hH x''.s z''.s x'.s x''.h z''.h x'.h
  have c2 := apart7_chain hG hB hK hH z''.s z'.s x'.s z''.h z'.h x'.h
  have c3 : apart7 G Kb (Ki T) (Hk T) (z'.s - x'.s) (z'.h - x'.h) =
      apart7 G Kb (Ki T) (Hk T) (x'.s - z'.s) (x'.h - z'.h) := by
    rw [← apart7_neg, neg_sub, neg_sub]
  linarith

end steps

/-- Any two cycles of a test from the initial state. -/
example (l : List ((Fin 6 → ℝ) × ℝ)) (e : Fin 6 → ℝ) : ∃ x' x'',
    Along (Takes (rateIndep q7Index (isoElastic (1 / 2) 1)
      (linearFlow 1 (fun _ => √(3 / 2)) (fun _ => 3 / 2) (fun _ => 1)) exactLin
      ⟨1e-8, 1e-8, 50, false⟩ 50 exactInv) 0) ⟨0, 0, 0, 0, 0, 0, 0⟩ ((e, 1) :: l ++ [(0, 2)]) x' ∧
    Along (Takes (rateIndep q7Index (isoElastic (1 / 2) 1)
      (linearFlow 1 (fun _ => √(3 / 2)) (fun _ => 3 / 2) (fun _ => 1)) exactLin
      ⟨1e-8, 1e-8, 50, false⟩ 50 exactInv) 0) x' ((e, 1) :: l ++ [(0, 2)]) x'' := by
  have hist : ∀ x : State7, Sound x → x.T = 0 → ∃ x', Along (Takes (rateIndep q7Index (isoElastic (1 / 2) 1)
      (linearFlow 1 (fun _ => √(3 / 2)) (fun _ => 3 / 2) (fun _ => 1)) exactLin
      ⟨1e-8, 1e-8, 50, false⟩ 50 exactInv) 0) x ((e, 1) :: l ++ [(0, 2)]) x' := fun x hx hT =>
    (C189_history (el := isoElastic (1 / 2) 1) (G := 1 / 2) (Kb := 1) (T := 0) (eps := 1)
      (s0 := fun _ => √(3 / 2)) (Ki := fun _ => 3 / 2) (Hk := fun _ => 1) (lin := exactLin)
      (inv := exactInv) (p := ⟨1e-8, 1e-8, 50, false⟩) (fuel := 50) one_pos
      ⟨by norm_num, by norm_num, by norm_num, by norm_num⟩ exactLin_exact exactInv_exact (by norm_num)
      one_pos rfl rfl zero_le_one (by norm_num) sqrt_cancel.ge _ hx hx hT hT rfl).1
  have h0 : Sound ⟨0, 0, 0, 0, 0, 0, 0⟩ := ⟨le_rfl, by simp [tr3]⟩
  obtain ⟨x', h⟩ := hist ⟨0, 0, 0, 0, 0, 0, 0⟩ h0 rfl
  obtain ⟨h1, h2⟩ := takes_sound (el := isoElastic (1 / 2) 1) (G := 1 / 2) (Kb := 1) (T := 0) (eps := 1)
      (s0 := fun _ => √(3 / 2)) (Ki := fun _ => 3 / 2) (Hk := fun _ => 1) (lin := exactLin)
      (inv := exactInv) (p := ⟨1e-8, 1e-8, 50, false⟩) (fuel := 50) one_pos
      ⟨by norm_num, by norm_num, by norm_num, by norm_num⟩ exactLin_exact exactInv_exact (by norm_num)
      one_pos rfl rfl zero_le_one (by norm_num) sqrt_cancel.ge _ h0 rfl h
  obtain ⟨x'', h'⟩ := hist x' h1 h2
  exact ⟨x', x'', h, h'⟩

end Neml.SolveStep
