import Verif.Props.Contract

/-!
# C197: slow and fast loading of viscoplastic materials

A viscoplastic material and the rate independent material with the same yield stress and hardening follow the same
history of strains. Slow means strain rates at which the flow function is served by a small overstress `φ`.
-/

namespace Neml.SolveStep

open Matrix Neml.Mandel Neml.SmallStrain Neml.Flow Neml.Elastic

variable {G Kb K : ℝ}

/-- Two steps bring two states closer, but for twice what the one that flows more lacks in excess. -/
theorem contract_slack (hG : 0 < G) (hB : 0 < Kb) (hK : 0 ≤ K) {t1 t2 s1 s2 : Fin 6 → ℝ}
    {a1 a2 b1 b2 g1 g2 δ : ℝ} (M1 : Moves G t1 a1 s1 b1 g1) (M2 : Moves G t2 a2 s2 b2 g2)
    (hmono : -δ ≤ (g1 - g2) * ((norm2 (devVec s1) - √(2 / 3) * (K * b1)) -
      (norm2 (devVec s2) - √(2 / 3) * (K * b2)))) :
    energy G Kb K (s1 - s2) (b1 - b2) ≤ energy G Kb K (t1 - t2) (a1 - a2) + 2 * δ := by
  obtain ⟨m1, p1, q1, r1, e1⟩ := M1.normal
  obtain ⟨m2, p2, q2, r2, e2⟩ := M2.normal
  have w1 := M1.work p1 q1 r1 s2
  have w2 := M2.work p2 q2 r2 s1
  set u := s1 - s2 with hu
  set v := g1 • m1 - g2 • m2 with hv
  have htv : tr3 v = 0 := by rw [hv, tr3_sub, tr3_smul, tr3_smul, p1, p2]; ring
  have ht : t1 - t2 = u + (2 * G) • v := by
    rw [hu, hv, e1, e2]
    module
  have htw : tr3 ((2 * G) • v) = 0 := by rw [tr3_smul, htv, mul_zero]
  have hdev : devVec (t1 - t2) = devVec u + (2 * G) • v := by
    rw [ht, devVec_add, devVec_of_tr3 htw]
  have htr : tr3 (t1 - t2) = tr3 u := by rw [ht, tr3_add, htw, add_zero]
  have hdv : devVec u ⬝ᵥ v = u ⬝ᵥ v := by
    rw [dotProduct_comm, devVec_eq u, dot_devProj htv, dotProduct_comm]
  have huv : u ⬝ᵥ v = g1 * (m1 ⬝ᵥ (s1 - s2)) + g2 * (m2 ⬝ᵥ (s2 - s1)) := by
    rw [hv, dotProduct_sub, dotProduct_smul, dotProduct_smul, dotProduct_comm u m1,
      dotProduct_comm u m2, ← hu, show s2 - s1 = -u by rw [hu]; abel, dotProduct_neg]
    simp only [smul_eq_mul]
    ring
  have hvv : 0 ≤ v ⬝ᵥ v := by
    simp only [dotProduct]
    exact Finset.sum_nonneg fun i _ => mul_self_nonneg _
  rw [energy_split hG hB, energy_split hG hB, htr, hdev]
  have hexp : (devVec u + (2 * G) • v) ⬝ᵥ (devVec u + (2 * G) • v) / (2 * G) =
      devVec u ⬝ᵥ devVec u / (2 * G) + 2 * (u ⬝ᵥ v) + 2 * G * (v ⬝ᵥ v) := by
    simp only [add_dotProduct, dotProduct_add, smul_dotProduct, dotProduct_smul, smul_eq_mul]
    rw [dotProduct_comm v (devVec u), hdv]
    field_simp
    ring
  rw [hexp]
  have hb : a1 - a2 = (b1 - b2) - √(2 / 3) * (g1 - g2) := by rw [M1.hard, M2.hard]; ring
  have hc2 : 0 ≤ K * (√(2 / 3) * (g1 - g2)) ^ 2 := by positivity
  have hGv : 0 ≤ 2 * G * (v ⬝ᵥ v) := by positivity
  rw [hb]
  nlinarith [huv, w1, w2, hmono, hc2, hGv]

section steps

variable {el : Elastic ℝ (Fin 6)} {eps T : ℝ} {s0 k : ℝ → ℝ} {gf : GFlow} {x y w v : State} {i : (Fin 6 → ℝ) × ℝ}

/-- A viscoplastic step moves along the normal, by the rate at the new overstress. -/
theorem visco_moves (he : 0 < eps) (hG : 0 < G) (hC : el.C T = isoC G Kb) (hm : Flowing gf T)
    (ht : Tame eps G (linearIso s0 k) (x.h ()) T) (h : ViscoStep el eps (linearIso s0 k) gf T x i w) :
    Moves G (trial el x i.1 T) (x.h ()) w.s (w.h ())
      ((i.2 - x.t) * rate gf T (excess (linearIso s0 k) T w.s (w.h ()))) := by
  have hdt : 0 < i.2 - x.t := sub_pos.mpr h.1
  obtain ⟨d, hd, hz, hl, hx⟩ := visco_on_ray he hG hdt hC hm ht h.2.1
  have hx' : excess (linearIso s0 k) T w.s (w.h ()) =
    gap (linearIso s0 k) G (norm2 (devVec (trial el x i.1 T))) (x.h ()) T d := hx
  have hg : (i.2 - x.t) * rate gf T (excess (linearIso s0 k) T w.s (w.h ())) = d := by
    rw [hx']
    unfold lag at hl
    linarith
  have hzs : w.s = back G (trial el x i.1 T) d := by
    ext j; exact congrFun hz (.inl j)
  have hzh : w.h () = x.h () + √(2 / 3) * d := congrFun hz (.inr ())
  rw [hg]
  rcases hd.eq_or_lt with h0 | h0
  · obtain ⟨m, hm1, hm2⟩ := shear_unit'
    refine ⟨hd, hzh, m, hm1, hm2, fun h => absurd h (by rw [← h0]; exact lt_irrefl 0), ?_⟩
    rw [hzs, ← h0, back]
    simp
  · have hgp : 0 < gap (linearIso s0 k) G (norm2 (devVec (trial el x i.1 T))) (x.h ()) T d := by
      by_contra hneg
      unfold lag at hl
      rw [rate_of_nonpos (not_lt.mp hneg)] at hl
      linarith
    have hfar : eps ≤ norm2 (devVec (trial el x i.1 T)) - 2 * G * d := by
      have := ht.floor (x.h () + √(2 / 3) * d) (le_add_of_nonneg_right (by positivity))
      unfold gap at hgp
      linarith
    have hNp : 0 < norm2 (devVec (trial el x i.1 T)) := by nlinarith
    refine ⟨hd, hzh, dir (trial el x i.1 T), ?_, dir_unit hNp, fun _ => ?_, hzs⟩
    · rw [dir, tr3_smul, tr3_devVec, mul_zero]
    · rw [hzs, norm2_back he hNp hfar, devVec_back hNp]

theorem rate_nonneg (hm : Flowing gf T) (f : ℝ) : 0 ≤ rate gf T f := by
  rcases le_or_gt f 0 with h | h
  · rw [rate_of_nonpos h]
  · rw [rate_of_pos h, ← hm.zero]
    exact hm.mono 0 f le_rfl h.le

theorem dev_stiff (e : Fin 6 → ℝ) : devVec (isoC G Kb *ᵥ e) = (2 * G) • devVec e := by
  ext j
  fin_cases j <;> simp [devVec, isoC_apply, delta] <;> ring

/-- **C197** the overstress: strained no faster than the material flows under the overstress `φ`, it stays below `φ`
once it is below. -/
theorem C197_overstress (he : 0 < eps) (hG : 0 < G) (hk : 0 ≤ k T) (hC : el.C T = isoC G Kb) (hm : Flowing gf T)
    (hf : eps ≤ √(2 / 3) * (s0 T + k T * x.h ())) {φ : ℝ} (hφ : 0 ≤ φ)
    (h : ViscoStep el eps (linearIso s0 k) gf T x i w) (h0 : excess (linearIso s0 k) T x.s (x.h ()) ≤ φ)
    (hr : norm2 (devVec (i.1 - x.e)) ≤ gf.g φ T * (i.2 - x.t)) : excess (linearIso s0 k) T w.s (w.h ()) ≤ φ := by
  have hdt : 0 < i.2 - x.t := sub_pos.mpr h.1
  by_contra hn
  have hF := not_le.mp hn
  obtain ⟨d, hd, hz, hl, hx⟩ := visco_on_ray he hG hdt hC hm (linear_tame hG hk hf) h.2.1
  have hx' : excess (linearIso s0 k) T w.s (w.h ()) =
    gap (linearIso s0 k) G (norm2 (devVec (trial el x i.1 T))) (x.h ()) T d := hx
  have hd' : d = (i.2 - x.t) * rate gf T (excess (linearIso s0 k) T w.s (w.h ())) := by
    rw [hx']; unfold lag at hl; linarith
  rw [rate_of_pos (hφ.trans_lt hF)] at hd'
  have h1 : gf.g φ T ≤ gf.g (excess (linearIso s0 k) T w.s (w.h ())) T := hm.mono _ _ hφ hF.le
  have h2 : norm2 (devVec (i.1 - x.e)) ≤ d := by
    rw [hd']
    nlinarith
  have h3 : norm2 (devVec (trial el x i.1 T)) ≤ norm2 (devVec x.s) + 2 * G * norm2 (devVec (i.1 - x.e)) := by
    unfold trial
    rw [devVec_add, hC, dev_stiff]
    refine (norm2_add_le _ _).trans ?_
    rw [norm2_smul, abs_of_nonneg (by positivity)]
  rw [hx'] at hF
  have hs : (0 : ℝ) ≤ √(2 / 3) := Real.sqrt_nonneg _
  have h4 : 0 ≤ √(2 / 3) * (k T * (√(2 / 3) * d)) := by positivity
  have h5 : 2 * G * norm2 (devVec (i.1 - x.e)) ≤ 2 * G * d := mul_le_mul_of_nonneg_left h2 (by positivity)
  rw [linear_excess] at h0
  unfold gap at hF
  simp only [linearIso] at hF
  linarith

end steps

section histories

variable {el : Elastic ℝ (Fin 6)} {eps T : ℝ} {s0 k : ℝ → ℝ} {gf : GFlow}

/-- Viscoplastic steps at strain rates of at most `ρ`. -/
def SlowStep (el : Elastic ℝ (Fin 6)) (eps : ℝ) (r : Iso) (gf : GFlow) (T ρ : ℝ) (x : State) (i : (Fin 6 → ℝ) × ℝ)
    (y : State) : Prop :=
  ViscoStep el eps r gf T x i y ∧ norm2 (devVec (i.1 - x.e)) ≤ ρ * (i.2 - x.t)

/-- **C197** the distance of a slowly strained viscoplastic material from the rate independent one: along every history
of strains the energy of the difference grows by no more than twice the equivalent overstress times the plastic strain
of the rate independent material. Neither the number nor the size of the steps matters. -/
theorem C197_slow (he : 0 < eps) (hG : 0 < G) (hB : 0 < Kb) (hk : 0 ≤ k T) (hC : el.C T = isoC G Kb)
    (hS : el.S T = isoS G Kb) (hm : Flowing gf T) {φ ρ : ℝ} (hφ : 0 ≤ φ) (hρ : ρ ≤ gf.g φ T)
    (l : List ((Fin 6 → ℝ) × ℝ)) {x y x' y' : State} (hy : y.T = T) (hxy : x.e = y.e)
    (hfx : eps ≤ √(2 / 3) * (s0 T + k T * x.h ())) (hfy : eps ≤ √(2 / 3) * (s0 T + k T * y.h ()))
    (h0 : excess (linearIso s0 k) T x.s (x.h ()) ≤ φ)
    (h : Along (SlowStep el eps (linearIso s0 k) gf T ρ) x l x')
    (h' : Along (PlasticStep el eps (linearIso s0 k) T) y l y') :
    excess (linearIso s0 k) T x'.s (x'.h ()) ≤ φ ∧
    energy G Kb (k T) (x'.s - y'.s) (x'.h () - y'.h ()) ≤
      energy G Kb (k T) (x.s - y.s) (x.h () - y.h ()) + 2 * ((√(3 / 2) * φ) * (y'.h () - y.h ())) := by
  induction l generalizing x y with
  | nil =>
    rw [show x' = x from h, show y' = y from h']
    exact ⟨h0, by simp⟩
  | cons i l ih =>
    obtain ⟨w, ⟨hw, hrate⟩, h⟩ := h
    obtain ⟨w', hw', h'⟩ := h'
    have htx := linear_tame (s0 := s0) hG hk hfx
    have hty := linear_tame (s0 := s0) hG hk hfy
    have hgx := floor_mono hk (hw.grows he hG hC hm htx) hfx
    have hgy := floor_mono hk (hw'.grows he hG hC hty) hfy
    have hdt : 0 < i.2 - x.t := sub_pos.mpr hw.1
    have h1 := C197_overstress he hG hk hC hm hfx hφ hw h0
      (hrate.trans (mul_le_mul_of_nonneg_right hρ hdt.le))
    obtain ⟨h2, h3⟩ := ih hw'.2.2.1 (hw.2.2.1.trans hw'.2.1.symm) hgx hgy h1 h h'
    refine ⟨h2, h3.trans ?_⟩
    have M := visco_moves he hG hC hm htx hw
    obtain ⟨g, M', f1, f2⟩ := hw'.1.moves he hG hC hty
    have htr : trial el x i.1 T - trial' el y i.1 T = x.s - y.s := by
      have e1 := (C36_iso_inverse G Kb hG hB).2
      unfold trial trial'
      rw [hy, hC, hS, hxy, show i.1 - (y.e - isoS G Kb *ᵥ y.s) = (i.1 - y.e) + isoS G Kb *ᵥ y.s by abel, mulVec_add,
        mulVec_mulVec, e1, one_mulVec]
      abel
    have hc := contract_slack (δ := φ * g) hG hB hk M M' (by
      obtain ⟨F, hF⟩ : ∃ F, F = excess (linearIso s0 k) T w.s (w.h ()) := ⟨_, rfl⟩
      obtain ⟨F', hF'⟩ : ∃ F', F' = excess (linearIso s0 k) T w'.s (w'.h ()) := ⟨_, rfl⟩
      have e3 : (norm2 (devVec w.s) - √(2 / 3) * (k T * w.h ())) - (norm2 (devVec w'.s) - √(2 / 3) * (k T * w'.h ())) =
          F - F' := by
        rw [hF, hF', linear_excess, linear_excess]; ring
      rw [e3, ← hF]
      rw [← hF] at h1
      rw [← hF'] at f1 f2
      have hr := rate_nonneg hm F
      have p1 : 0 ≤ (i.2 - x.t) * rate gf T F * F := by
        rcases le_or_gt F 0 with hF0 | hF0
        · rw [rate_of_nonpos hF0]; simp
        · positivity
      have p2 : 0 ≤ (i.2 - x.t) * rate gf T F * -F' := mul_nonneg (by positivity) (neg_nonneg.mpr f1)
      have p3 : g * F ≤ g * φ := mul_le_mul_of_nonneg_left h1 M'.nonneg
      linarith)
    rw [htr] at hc
    have hg : √(3 / 2) * φ * (w'.h () - y.h ()) = φ * g := by
      rw [M'.hard]
      have h6 : √(3 / 2 : ℝ) * √(2 / 3) = 1 := by
        rw [← Real.sqrt_mul (by norm_num)]; norm_num
      linear_combination (φ * g) * h6
    have : √(3 / 2) * φ * (y'.h () - y.h ()) = √(3 / 2) * φ * (y'.h () - w'.h ()) + φ * g := by
      rw [← hg]; ring
    rw [this]
    linarith

/-- **C197** the limit of slow loading: whatever distance `δ` and plastic strain `P` are given, there is a strain rate
below which the viscoplastic material stays within `δ` of the rate independent one until that has strained by `P`. -/
theorem C197_limit (he : 0 < eps) (hG : 0 < G) (hB : 0 < Kb) (hk : 0 ≤ k T) (hC : el.C T = isoC G Kb)
    (hS : el.S T = isoS G Kb) (hm : Flowing gf T) (hpos : ∀ f, 0 < f → 0 < gf.g f T) {δ P : ℝ} (hδ : 0 < δ)
    (hP : 0 ≤ P) : ∃ ρ > 0, ∀ (l : List ((Fin 6 → ℝ) × ℝ)) (x x' y' : State), x.T = T →
      eps ≤ √(2 / 3) * (s0 T + k T * x.h ()) → excess (linearIso s0 k) T x.s (x.h ()) ≤ 0 →
      Along (SlowStep el eps (linearIso s0 k) gf T ρ) x l x' → Along (PlasticStep el eps (linearIso s0 k) T) x l y' →
      y'.h () - x.h () ≤ P → apart G Kb (k T) (x'.s - y'.s) (x'.h () - y'.h ()) ≤ δ := by
  have hs : (0 : ℝ) < √(3 / 2) := Real.sqrt_pos.mpr (by norm_num)
  obtain ⟨φ, hφ⟩ : ∃ φ, φ = δ ^ 2 / (2 * √(3 / 2) * (P + 1)) := ⟨_, rfl⟩
  have hφ0 : 0 < φ := by rw [hφ]; positivity
  refine ⟨gf.g φ T, hpos φ hφ0, fun l x x' y' hT hf h0 h h' hp => ?_⟩
  obtain ⟨-, h1⟩ := C197_slow he hG hB hk hC hS hm hφ0.le le_rfl l hT rfl hf hf (h0.trans hφ0.le) h h'
  rw [sub_self, sub_self, show energy G Kb (k T) 0 0 = 0 by simp [energy], zero_add] at h1
  unfold apart
  rw [Real.sqrt_le_left hδ.le]
  refine h1.trans ?_
  have h2 : 2 * (√(3 / 2) * φ * (y'.h () - x.h ())) ≤ 2 * (√(3 / 2) * φ * (P + 1)) := by
    have : √(3 / 2) * φ * (y'.h () - x.h ()) ≤ √(3 / 2) * φ * (P + 1) :=
      mul_le_mul_of_nonneg_left (by linarith) (by positivity)
    linarith
  refine h2.trans (le_of_eq ?_)
  rw [hφ]
  field_simp

/-- Stress, strain, history of an elastic material. -/
def ElasticStep (el : Elastic ℝ (Fin 6)) (T : ℝ) (x : State) (i : (Fin 6 → ℝ) × ℝ) (y : State) : Prop :=
  y.s = x.s + el.C T *ᵥ (i.1 - x.e) ∧ y.h = x.h ∧ y.e = i.1 ∧ y.t = i.2

/-- **C197** fast loading: while the overstress is at most `φ`, the stress of the viscoplastic material differs from
that of the elastic one by no more than `2 G` times what can flow in the time. -/
theorem C197_fast (he : 0 < eps) (hG : 0 < G) (hk : 0 ≤ k T) (hC : el.C T = isoC G Kb)
    (hm : Flowing gf T) {φ : ℝ} (hφ : 0 ≤ φ) (l : List ((Fin 6 → ℝ) × ℝ)) {x y x' y' : State} (hxy : x.e = y.e)
    (hfx : eps ≤ √(2 / 3) * (s0 T + k T * x.h ()))
    (h : Along (fun x i w => ViscoStep el eps (linearIso s0 k) gf T x i w ∧
      excess (linearIso s0 k) T w.s (w.h ()) ≤ φ) x l x')
    (h' : Along (ElasticStep el T) y l y') :
    norm2 (x'.s - y'.s) ≤ norm2 (x.s - y.s) + 2 * G * (gf.g φ T * (x'.t - x.t)) := by
  induction l generalizing x y with
  | nil =>
    rw [show x' = x from h, show y' = y from h']
    simp
  | cons i l ih =>
    obtain ⟨w, ⟨hw, hwφ⟩, h⟩ := h
    obtain ⟨w', hw', h'⟩ := h'
    have htx := linear_tame (s0 := s0) hG hk hfx
    have hgx := floor_mono hk (hw.grows he hG hC hm htx) hfx
    have hdt : 0 < i.2 - x.t := sub_pos.mpr hw.1
    have h1 := ih (hw.2.2.1.trans hw'.2.2.1.symm) hgx h h'
    have M := visco_moves he hG hC hm htx hw
    obtain ⟨m, -, m1, -, m2⟩ := M.normal
    obtain ⟨g, hg⟩ : ∃ g, g = (i.2 - x.t) * rate gf T (excess (linearIso s0 k) T w.s (w.h ())) := ⟨_, rfl⟩
    rw [← hg] at m2 M
    have h2 : w.s - w'.s = (x.s - y.s) + (-(2 * G * g)) • m := by
      rw [m2, hw'.1, trial, hxy]
      module
    have h3 := norm2_add_le (x.s - y.s) ((-(2 * G * g)) • m)
    have hg0 := M.nonneg
    rw [← h2, norm2_smul, abs_neg, abs_of_nonneg (by positivity)] at h3
    have hm1 : norm2 m = 1 := by unfold norm2; rw [m1, Real.sqrt_one]
    have h4 : g ≤ gf.g φ T * (i.2 - x.t) := by
      rw [hg, mul_comm]
      refine mul_le_mul_of_nonneg_right ?_ hdt.le
      rcases le_or_gt (excess (linearIso s0 k) T w.s (w.h ())) 0 with h5 | h5
      · rw [rate_of_nonpos h5, ← hm.zero]; exact hm.mono _ _ le_rfl hφ
      · rw [rate_of_pos h5]; exact hm.mono _ _ h5.le hwφ
    have h5 : 2 * G * g ≤ 2 * G * (gf.g φ T * (i.2 - x.t)) := mul_le_mul_of_nonneg_left h4 (by positivity)
    have h6 : w.t = i.2 := hw.2.2.2.2
    rw [hm1, mul_one] at h3
    rw [h6] at h1
    have : 2 * G * (gf.g φ T * (x'.t - x.t)) = 2 * G * (gf.g φ T * (x'.t - i.2)) + 2 * G * (gf.g φ T * (i.2 - x.t)) := by
      ring
    linarith

/-- Every history with growing times has a viscoplastic path. -/
theorem visco_path (he : 0 < eps) (hG : 0 < G) (hk : 0 ≤ k T) (hC : el.C T = isoC G Kb) (hm : Flowing gf T) {ρ : ℝ}
    (l : List ((Fin 6 → ℝ) × ℝ)) {x : State} (hfx : eps ≤ √(2 / 3) * (s0 T + k T * x.h ()))
    (hl : (((x.e, x.t) :: l).zip l).Forall fun p => p.1.2 < p.2.2 ∧ norm2 (devVec (p.2.1 - p.1.1)) ≤
      ρ * (p.2.2 - p.1.2)) :
    ∃ x', Along (SlowStep el eps (linearIso s0 k) gf T ρ) x l x' := by
  induction l generalizing x with
  | nil => exact ⟨x, rfl⟩
  | cons i l ih =>
    rw [List.zip_cons_cons, List.forall_cons] at hl
    obtain ⟨⟨h1, h2⟩, h3⟩ := hl
    have ht := linear_tame (s0 := s0) hG hk hfx
    obtain ⟨z, hz, -⟩ := C184_unique (x := x) (e1 := i.1) (t1 := i.2) he hG (sub_pos.mpr h1) hC hm ht
    have hw : ViscoStep el eps (linearIso s0 k) gf T x i ⟨i.1, T, i.2, fun j => z (.inl j), fun j => z (.inr j), 0, 0⟩ := by
      refine ⟨h1, ?_, rfl, rfl, rfl⟩
      have : (Sum.elim (fun j => z (.inl j)) fun j => z (.inr j)) = z := by ext a; rcases a with a | a <;> rfl
      show giR _ _ (Sum.elim (fun j => z (.inl j)) fun j => z (.inr j)) = 0
      rw [this]
      exact hz
    obtain ⟨x', h⟩ := ih (x := ⟨i.1, T, i.2, fun j => z (.inl j), fun j => z (.inr j), 0, 0⟩)
      (floor_mono hk (hw.grows he hG hC hm ht) hfx) h3
    exact ⟨x', _, ⟨hw, h2⟩, h⟩

theorem Along.mono {X I : Type} {R S : X → I → X → Prop} (h : ∀ x i w, R x i w → S x i w) {l : List I} {x y : X}
    (ha : Along R x l y) : Along S x l y := by
  induction l generalizing x with
  | nil => exact ha
  | cons i l ih =>
    obtain ⟨w, hw, ha⟩ := ha
    exact ⟨w, h _ _ _ hw, ih ha⟩

/-- **C197** the computed path of the viscoplastic material beside the path of the rate independent one: to what the
viscosity makes comes the tolerance of the solver for each step. -/
theorem C197_computed {χ limit tiny : ℝ}
    {lin : Matrix (Fin (6 + 1)) (Fin (6 + 1)) ℝ → (Fin (6 + 1) → ℝ) → Option (Fin (6 + 1) → ℝ)}
    {p : Newton.Params} {fuel : Nat}
    {inv : Matrix (Fin 6 ⊕ Unit) (Fin 6 ⊕ Unit) ℝ → Option (Matrix (Fin 6 ⊕ Unit) (Fin 6 ⊕ Unit) ℝ)}
    (he : 0 < eps) (ha : 0 < p.atol) (hli : ExactSolve lin) (hv : ExactInv inv)
    (hG : 0 < G) (hB : 0 < Kb) (hk : 0 ≤ k T) (hC : el.C T = isoC G Kb) (hS : el.S T = isoS G Kb) (hfl : Flowing gf T)
    (hg : Gentle χ gf T) (hχ : 0 < χ) (hle : χ ≤ 1) (htiny : 0 < tiny) (hlim0 : 0 ≤ limit)
    {n : ℕ} (hm : (n : Int) < p.miter) (hn : n < fuel) (htol : (1 - χ) ^ n < p.rtol) {τ φ : ℝ} (hφ : 0 ≤ φ)
    (l : List ((Fin 6 → ℝ) × ℝ)) {x x' y' : State} (hT : x.T = T)
    (hfx : eps ≤ √(2 / 3) * (s0 T + k T * x.h ())) (h0 : excess (linearIso s0 k) T x.s (x.h ()) ≤ φ)
    (hl : (((x.e, x.t) :: l).zip l).Forall fun p => p.1.2 < p.2.2 ∧ norm2 (devVec (p.2.1 - p.1.1)) ≤
      gf.g φ T * (p.2.2 - p.1.2))
    (h : Along (ViscoComputes el eps (linearIso s0 k) gf G limit tiny lin p fuel inv T τ) x l x')
    (h' : Along (PlasticStep el eps (linearIso s0 k) T) x l y') :
    apart G Kb (k T) (x'.s - y'.s) (x'.h () - y'.h ()) ≤
      l.length * (τ * (√(2 * G + 2 / 3 * k T) / (2 * G))) + √(2 * ((√(3 / 2) * φ) * (y'.h () - x.h ()))) := by
  obtain ⟨z, hz⟩ := visco_path he hG hk hC hfl l hfx hl
  have hz' : Along (ViscoStep el eps (linearIso s0 k) gf T) x l z := Along.mono (fun _ _ _ h => h.1) hz
  have h1 := C188_visco he ha hli hv hG hB hk hC hfl hg hχ hle htiny hlim0 hm hn htol l rfl rfl hfx hfx h hz'
  obtain ⟨-, h2⟩ := C197_slow he hG hB hk hC hS hfl hφ le_rfl l hT rfl hfx hfx h0 hz h'
  have h3 := apart_chain hG hB hk x'.s z.s y'.s (x'.h ()) (z.h ()) (y'.h ())
  have e0 : energy G Kb (k T) 0 0 = 0 := by simp [energy]
  have e1 : apart G Kb (k T) 0 0 = 0 := by rw [apart, e0, Real.sqrt_zero]
  rw [sub_self, sub_self, e1, zero_add] at h1
  rw [sub_self, sub_self, e0, zero_add] at h2
  have h4 := Real.sqrt_le_sqrt h2
  unfold apart at h1 h3 ⊢
  linarith

end histories

/-! ### The hypotheses can be met -/

/-- A power law flows under every overstress. -/
theorem C197_power (n eta : ℝ → ℝ) (T : ℝ) (he : 0 < eta T) (f : ℝ) (hf : 0 < f) :
    0 < (gPowerLaw n eta).g f T := by
  simp only [gPowerLaw]
  positivity

/-- Shearing to four and back: a viscoplastic path, the rate independent one, and the distance between them. -/
example : ∃ x' y',
    Along (SlowStep (isoElastic (1 / 2) 1) 1 (linearIso (fun _ => √(3 / 2)) (fun _ => 1))
      (gPowerLaw (fun _ => 3) (fun _ => 1)) 0 (1 / 1000)) ⟨0, 0, 0, 0, fun _ => 0, 0, 0⟩
      [((4 : ℝ) • shear, 4000), (0, 8000)] x' ∧
    Along (PlasticStep (isoElastic (1 / 2) 1) 1 (linearIso (fun _ => √(3 / 2)) (fun _ => 1)) 0)
      ⟨0, 0, 0, 0, fun _ => 0, 0, 0⟩ [((4 : ℝ) • shear, 4000), (0, 8000)] y' ∧
    energy (1 / 2) 1 1 (x'.s - y'.s) (x'.h () - y'.h ()) ≤ 2 * ((√(3 / 2) * (1 / 10)) * y'.h ()) := by
  have hf0 : (1 : ℝ) ≤ √(2 / 3) * (√(3 / 2) + 1 * 0) := by rw [mul_zero, add_zero, sqrt_cancel]
  have hfl : Flowing (gPowerLaw (fun _ => 3) (fun _ => 1)) 0 := C184_power _ _ _ (by norm_num) (by norm_num)
  obtain ⟨x', hx⟩ := visco_path (el := isoElastic (1 / 2) 1) (G := 1 / 2) (Kb := 1) (eps := 1)
    (T := 0) (s0 := fun _ => √(3 / 2)) (k := fun _ => 1) (x := ⟨0, 0, 0, 0, fun _ => 0, 0, 0⟩) (ρ := 1 / 1000)
    one_pos (by norm_num) zero_le_one rfl hfl [((4 : ℝ) • shear, 4000), (0, 8000)] hf0 (by
      simp only [List.zip_cons_cons, List.zip_nil_right, List.forall_cons, List.Forall, sub_zero, zero_sub]
      refine ⟨⟨by norm_num, ?_⟩, by norm_num, ?_⟩
      · rw [devVec_shear, norm2_unit shear_unit]; norm_num
      · rw [← neg_smul, devVec_shear, norm2_unit shear_unit]; norm_num)
  obtain ⟨y', hy, -⟩ := C187_plastic_path (el := isoElastic (1 / 2) 1) (G := 1 / 2) (Kb := 1) (eps := 1)
    (T := 0) (s0 := fun _ => √(3 / 2)) (k := fun _ => 1) (x := ⟨0, 0, 0, 0, fun _ => 0, 0, 0⟩)
    one_pos (by norm_num) zero_le_one rfl [((4 : ℝ) • shear, 4000), (0, 8000)] hf0
  refine ⟨x', y', hx, hy, ?_⟩
  obtain ⟨-, h⟩ := C197_slow (φ := 1 / 10) (el := isoElastic (1 / 2) 1) (G := 1 / 2) (Kb := 1) (eps := 1) (T := 0)
    (s0 := fun _ => √(3 / 2)) (k := fun _ => 1) one_pos (by norm_num) one_pos zero_le_one rfl rfl hfl
    (by norm_num) (by simp only [gPowerLaw]; norm_num) _ (x := ⟨0, 0, 0, 0, fun _ => 0, 0, 0⟩)
    (y := ⟨0, 0, 0, 0, fun _ => 0, 0, 0⟩) rfl rfl hf0 hf0
    (by
      rw [linear_excess]
      have : devVec 0 = 0 := devVec_of_tr3 (by simp [tr3])
      have h : norm2 0 = 0 := by simp [norm2]
      show norm2 (devVec 0) - √(2 / 3) * (1 * 0) - √(2 / 3) * √(3 / 2) ≤ 1 / 10
      rw [this, h, sqrt_cancel]
      norm_num) hx hy
  simpa [energy] using h

end Neml.SolveStep
