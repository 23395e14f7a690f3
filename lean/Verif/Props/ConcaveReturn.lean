import Verif.Props.IsoReturn
import Mathlib.Analysis.Convex.SpecificFunctions.Basic

/-!
# C183: the solver converges for concave isotropic hardening
-/

namespace Neml.SolveStep

open Matrix Neml.SmallStrain Neml.Flow Neml.Mandel Neml.Elastic

variable {eps G : ℝ} {r : Iso} {al N T : ℝ}

/-- The yield stress does not decrease and lies below its tangents from the strain `al` on. -/
structure Concave (r : Iso) (al T : ℝ) : Prop where
  rise : ∀ a, al ≤ a → 0 ≤ -r.dq a T
  below : ∀ a b, al ≤ a → al ≤ b → -r.q b T ≤ -r.q a T + -r.dq a T * (b - a)

theorem Concave.mono (h : Concave r al T) {a b : ℝ} (ha : al ≤ a) (hab : a ≤ b) :
    -r.q a T ≤ -r.q b T := by
  have h1 := h.below b a (ha.trans hab) ha
  have h2 := mul_nonneg (h.rise b (ha.trans hab)) (sub_nonneg.mpr hab)
  linarith

theorem Concave.slopes (h : Concave r al T) {a b : ℝ} (ha : al ≤ a) (hab : a ≤ b) :
    -r.dq b T ≤ -r.dq a T := by
  rcases hab.eq_or_lt with rfl | hlt
  · exact le_rfl
  have h1 := h.below b a (ha.trans hab) ha
  have h2 := h.below a b ha (ha.trans hab)
  nlinarith

theorem Concave.continuousOn (h : Concave r al T) : ContinuousOn (fun a => r.q a T) (Set.Ici al) := by
  have key : ∀ a b, al ≤ a → a ≤ b → |r.q a T - r.q b T| ≤ -r.dq al T * (b - a) := by
    intro a b ha hab
    have h1 := h.below a b ha (ha.trans hab)
    have h2 := h.mono ha hab
    have h3 := mul_le_mul_of_nonneg_right (h.slopes le_rfl ha) (sub_nonneg.mpr hab)
    rw [abs_of_nonneg (by linarith)]
    linarith
  have hl : LipschitzOnWith (Real.toNNReal (-r.dq al T)) (fun a => r.q a T) (Set.Ici al) := by
    refine LipschitzOnWith.of_dist_le_mul fun a ha b hb => ?_
    rw [Real.dist_eq, Real.dist_eq, Real.coe_toNNReal _ (h.rise al le_rfl)]
    rcases le_total a b with hab | hab
    · rw [abs_sub_comm a b, abs_of_nonneg (sub_nonneg.mpr hab)]
      exact key a b ha hab
    · rw [abs_sub_comm, abs_of_nonneg (sub_nonneg.mpr hab)]
      exact key b a hb hab
  exact hl.continuousOn

theorem Concave.tame (h : Concave r al T) (hG : 0 < G) (hf : eps ≤ √(2 / 3) * (-r.q al T)) :
    Tame eps G r al T where
  floor a ha := hf.trans (mul_le_mul_of_nonneg_left (h.mono le_rfl ha) (Real.sqrt_nonneg _))
  cont := h.continuousOn
  slow a b ha hab := by
    have h1 := h.mono ha hab.le
    have h2 : 0 < 3 * G * (b - a) := mul_pos (by positivity) (sub_pos.mpr hab)
    linarith

/-- Slope of the gap, with its sign changed. -/
noncomputable def slope (r : Iso) (G al T d : ℝ) : ℝ := 2 * G - 2 / 3 * r.dq (al + √(2 / 3) * d) T

/-- The lengths of the plastic strain the Newton iteration goes through. -/
noncomputable def lengths (r : Iso) (G N al T : ℝ) : ℕ → ℝ
  | 0 => 0
  | k + 1 => lengths r G N al T k + gap r G N al T (lengths r G N al T k) /
      slope r G al T (lengths r G N al T k)

/-- The factor by which the residual shrinks at least: initial hardening slope over itself plus three
shear moduli. -/
noncomputable def shrink (r : Iso) (G al T : ℝ) : ℝ := -r.dq al T / (3 * G + -r.dq al T)

theorem slope_pos (h : Concave r al T) (hG : 0 < G) {d : ℝ} (hd : 0 ≤ d) : 2 * G ≤ slope r G al T d := by
  have := h.rise (al + √(2 / 3) * d) (le_add_of_nonneg_right (by positivity))
  unfold slope
  linarith

theorem shrink_nonneg (h : Concave r al T) (hG : 0 < G) : 0 ≤ shrink r G al T := by
  have := h.rise al le_rfl
  unfold shrink
  positivity

theorem shrink_lt_one (h : Concave r al T) (hG : 0 < G) : shrink r G al T < 1 := by
  have := h.rise al le_rfl
  unfold shrink
  rw [div_lt_one (by positivity)]
  linarith

/-- The gap lies above its tangents. -/
theorem gap_tangent (h : Concave r al T) {d d' : ℝ} (hd : 0 ≤ d) (hd' : 0 ≤ d') :
    gap r G N al T d - slope r G al T d * (d' - d) ≤ gap r G N al T d' := by
  have hsq : √(2 / 3) * √(2 / 3) = (2 / 3 : ℝ) := Real.mul_self_sqrt (by norm_num)
  have h1 := h.below (al + √(2 / 3) * d) (al + √(2 / 3) * d')
    (le_add_of_nonneg_right (by positivity)) (le_add_of_nonneg_right (by positivity))
  have h2 := mul_le_mul_of_nonneg_left h1 (Real.sqrt_nonneg (2 / 3))
  unfold gap slope
  have h3 : √(2 / 3) * (-r.q (al + √(2 / 3) * d) T + -r.dq (al + √(2 / 3) * d) T *
      (al + √(2 / 3) * d' - (al + √(2 / 3) * d))) =
      √(2 / 3) * (-r.q (al + √(2 / 3) * d) T) - 2 / 3 * r.dq (al + √(2 / 3) * d) T * (d' - d) := by
    linear_combination (-r.dq (al + √(2 / 3) * d) T * (d' - d)) * hsq
  rw [h3] at h2
  linarith

theorem gap_step (h : Concave r al T) (hG : 0 < G) {d : ℝ} (hd : 0 ≤ d) (hg : 0 ≤ gap r G N al T d) :
    let d' := d + gap r G N al T d / slope r G al T d
    d ≤ d' ∧ 0 ≤ gap r G N al T d' ∧ gap r G N al T d' ≤ shrink r G al T * gap r G N al T d := by
  intro d'
  have hs : 0 < slope r G al T d := by linarith [slope_pos h hG hd]
  have ht : 0 ≤ gap r G N al T d / slope r G al T d := by positivity
  have hdd : d ≤ d' := le_add_of_nonneg_right ht
  have hd' : 0 ≤ d' := hd.trans hdd
  have he : slope r G al T d * (d' - d) = gap r G N al T d := by
    show slope r G al T d * (d + gap r G N al T d / slope r G al T d - d) = _
    field_simp
    ring
  refine ⟨hdd, ?_, ?_⟩
  · have := gap_tangent (G := G) (N := N) h hd hd'
    linarith
  · have h1 := gap_tangent (G := G) (N := N) h hd' hd
    have h2 := slope_pos h hG hd'
    have h3 : slope r G al T d ≤ 2 * G + 2 / 3 * (-r.dq al T) := by
      have := h.slopes (a := al) (b := al + √(2 / 3) * d) le_rfl (le_add_of_nonneg_right (by positivity))
      unfold slope
      linarith
    have hK := h.rise al le_rfl
    have h4 : gap r G N al T d' ≤ gap r G N al T d - 2 * G * (d' - d) := by
      have := mul_le_mul_of_nonneg_right h2 (sub_nonneg.mpr hdd)
      linarith
    have h5 : gap r G N al T d ≤ (2 * G + 2 / 3 * (-r.dq al T)) * (d' - d) := by
      rw [← he]
      exact mul_le_mul_of_nonneg_right h3 (sub_nonneg.mpr hdd)
    refine h4.trans ?_
    unfold shrink
    rw [div_mul_eq_mul_div, le_div_iff₀ (by positivity)]
    nlinarith

theorem lengths_spec (h : Concave r al T) (hG : 0 < G) (h0 : 0 ≤ gap r G N al T 0) (k : ℕ) :
    0 ≤ lengths r G N al T k ∧ 0 ≤ gap r G N al T (lengths r G N al T k) ∧
      gap r G N al T (lengths r G N al T k) ≤ shrink r G al T ^ k * gap r G N al T 0 := by
  induction k with
  | zero => exact ⟨le_rfl, h0, by simp [lengths]⟩
  | succ k ih =>
    obtain ⟨h1, h2, h3⟩ := ih
    obtain ⟨h4, h5, h6⟩ := gap_step h hG h1 h2
    refine ⟨h1.trans h4, h5, h6.trans ?_⟩
    rw [pow_succ, mul_comm _ (shrink r G al T), mul_assoc]
    exact mul_le_mul_of_nonneg_left h3 (shrink_nonneg h hG)

section steps

variable {el : Elastic ℝ (Fin 6)} {Kb : ℝ}
  {lin : Matrix (Fin (6 + (1 + 1))) (Fin (6 + (1 + 1))) ℝ → (Fin (6 + (1 + 1)) → ℝ) →
    Option (Fin (6 + (1 + 1)) → ℝ)} {p : Newton.Params} {fuel : Nat}
  {inv : Matrix (RIx (Fin 6) Unit) (RIx (Fin 6) Unit) ℝ → Option (Matrix (RIx (Fin 6) Unit) (RIx (Fin 6) Unit) ℝ)}
  {x : Substep.Point ℝ (Fin 6 → ℝ) (Fin 6 → ℝ) (Unit → ℝ)} {e1 : Fin 6 → ℝ} {T1 t1 : ℝ}

/-- Yield function of a stress and a plastic strain: positive outside the surface. -/
noncomputable def excess (r : Iso) (T : ℝ) (s : Fin 6 → ℝ) (a : ℝ) : ℝ :=
  norm2 (devVec s) - √(2 / 3) * (-r.q a T)

theorem iso_update_of {z J A} (h : 0 < excess r T1 (trial' el x e1 T1) (x.h ()))
    (hs : solveWith (riIndex q1Index) (riInit (riTrial el x e1 T1))
      (riR (isoFlow eps r) (riTrial el x e1 T1)) (riJ (isoFlow eps r) (riTrial el x e1 T1)) lin p fuel =
        some (z, J))
    (hA : inv J = some A) :
    ∃ inc, updateStep (rateIndep q1Index el (isoFlow eps r) lin p fuel inv) x e1 T1 t1 = some inc ∧
      inc.s = (fun i => z (.inl i)) ∧ inc.h = (fun i => z (.inr (.inl i))) := by
  unfold updateStep
  simp only
  have hne : ¬ (rateIndep q1Index el (isoFlow eps r) lin p fuel inv).elasticStep
      ((rateIndep q1Index el (isoFlow eps r) lin p fuel inv).setup x e1 T1 t1) x e1 T1 t1 := by
    show ¬ (isoFlow eps r).f (trial' el x e1 T1) (fun _ => x.h ()) T1 ≤ 0
    rw [iso_f]
    exact not_le.mpr h
  rw [if_neg hne]
  have h1 : (rateIndep q1Index el (isoFlow eps r) lin p fuel inv).solve
      ((rateIndep q1Index el (isoFlow eps r) lin p fuel inv).setup x e1 T1 t1) = some (z, J) := hs
  have h2 : (rateIndep q1Index el (isoFlow eps r) lin p fuel inv).inv J = some A := hA
  rw [h1]
  simp only [h2]
  exact ⟨_, rfl, rfl, rfl⟩

/-- C183: for a yield stress that rises and flattens with plastic strain the update of a step whose
trial stress is outside the surface succeeds whenever `K` iterations are allowed and the `K`-th power
of the shrinking factor brings the initial excess below a tolerance. The stress returned is on the
surface or outside it by less than the tolerance, and no further from the solution of the equations
than that; what is missing is plastic strain along the trial deviator. -/
theorem C183_converges (he : 0 < eps) (ha : 0 < p.atol) (hl : ExactSolve lin) (hv : ExactInv inv)
    (hG : 0 < G) (hC : el.C T1 = isoC G Kb) (hc : Concave r (x.h ()) T1)
    (hf : eps ≤ √(2 / 3) * (-r.q (x.h ()) T1))
    (ho : 0 < excess r T1 (trial' el x e1 T1) (x.h ()))
    (K : ℕ) (hm : (K : Int) < p.miter) (hK : K < fuel)
    (htol : shrink r G (x.h ()) T1 ^ K * excess r T1 (trial' el x e1 T1) (x.h ()) < p.atol ∨
      shrink r G (x.h ()) T1 ^ K < p.rtol) :
    ∃ inc, updateStep (rateIndep q1Index el (isoFlow eps r) lin p fuel inv) x e1 T1 t1 = some inc ∧
      0 ≤ excess r T1 inc.s (inc.h ()) ∧
      (excess r T1 inc.s (inc.h ()) < p.atol ∨
        excess r T1 inc.s (inc.h ()) < p.rtol * excess r T1 (trial' el x e1 T1) (x.h ())) ∧
      x.h () ≤ inc.h () ∧
      ∀ z : RIx (Fin 6) Unit → ℝ, 0 ≤ z (.inr (.inr ())) →
        riR (isoFlow eps r) (riTrial el x e1 T1) z = 0 →
        norm2 (inc.s - fun i => z (.inl i)) ≤ excess r T1 inc.s (inc.h ()) ∧
          ∃ d, 0 ≤ d ∧ (inc.s - fun i => z (.inl i)) = (2 * G * d) • dir (trial' el x e1 T1) ∧
            z (.inr (.inl ())) - inc.h () = √(2 / 3) * d := by
  have hsq : √(2 / 3) * √(2 / 3) = (2 / 3 : ℝ) := Real.mul_self_sqrt (by norm_num)
  have hcp : 0 < √(2 / 3 : ℝ) := Real.sqrt_pos.mpr (by norm_num)
  have ht := hc.tame hG hf
  set str := trial' el x e1 T1 with hstr
  set N := norm2 (devVec str) with hN
  set al := x.h () with hal
  have hg0 : gap r G N al T1 0 = excess r T1 str al := by
    unfold gap excess
    simp only [mul_zero, add_zero, sub_zero]
    rfl
  have h0 : 0 < gap r G N al T1 0 := by rw [hg0]; exact ho
  have hNp : 0 < N := by
    unfold excess at ho
    linarith
  set X := lengths r G N al T1 with hX
  have spec := lengths_spec (N := N) hc hG h0.le
  have far : ∀ d, 0 ≤ d → 0 ≤ gap r G N al T1 d → eps ≤ N - 2 * G * d := by
    intro d hd hg
    have := ht.floor (al + √(2 / 3) * d) (le_add_of_nonneg_right (by positivity))
    unfold gap at hg
    linarith
  have hfar : ∀ k, eps ≤ N - 2 * G * X k := fun k => far _ (spec k).1 (spec k).2.1
  have hnorm : ∀ k, √(∑ a, riR (isoFlow eps r) (riTrial el x e1 T1) (ray G str al (X k)) a *
      riR (isoFlow eps r) (riTrial el x e1 T1) (ray G str al (X k)) a) = gap r G N al T1 (X k) := by
    intro k
    rw [norm_ray he hC hNp (hfar k), abs_of_nonneg (spec k).2.1]
  let Done : ℕ → Prop := fun k => gap r G N al T1 (X k) < p.atol ∨
    (gap r G N al T1 (X 0) ≠ 0 ∧ gap r G N al T1 (X k) / gap r G N al T1 (X 0) < p.rtol)
  have hX0 : X 0 = 0 := rfl
  have hDK : Done K := by
    rcases htol with h | h
    · left
      rw [← hg0] at h
      exact (spec K).2.2.trans_lt h
    · right
      rw [hX0]
      refine ⟨h0.ne', ?_⟩
      rw [div_lt_iff₀ h0]
      exact (spec K).2.2.trans_lt (mul_lt_mul_of_pos_right h h0)
  classical
  have hex : ∃ k, Done k := ⟨K, hDK⟩
  set M := Nat.find hex with hM
  have hMK : M ≤ K := Nat.find_min' hex hDK
  have hDM : Done M := Nat.find_spec hex
  have hnot : ∀ k < M, p.atol ≤ gap r G N al T1 (X k) := by
    intro k hk
    have := Nat.find_min hex hk
    by_contra hlt
    exact this (Or.inl (not_le.mp hlt))
  have hCt : (riTrial el x e1 T1).C = isoC G Kb := hC
  have hdet : ∀ k, (riJ (isoFlow eps r) (riTrial el x e1 T1) (ray G str al (X k))).det ≠ 0 := by
    intro k
    refine iso_det he hG _ hCt ?_ ?_ (spec k).1
    · have := slope_pos hc hG (spec k).1
      show 0 < slope r G al T1 (X k)
      linarith
    · rw [norm2_back he hNp (hfar k)]
      exact hfar k
  obtain ⟨k, hkM, hk, hsol⟩ := solveWith_chain (riIndex q1Index) (fun k => ray G str al (X k))
    (riR (isoFlow eps r) (riTrial el x e1 T1)) (riJ (isoFlow eps r) (riTrial el x e1 T1)) hl p fuel M
    (fun k _ => hdet k)
    (fun k _ => by
      have h1 := riJ_ray (r := r) he hC hNp (hfar k) (gap r G N al T1 (X k) / slope r G al T1 (X k))
      rw [riR_ray he hC hNp (hfar k)]
      have hs : 0 < slope r G al T1 (X k) := by linarith [slope_pos hc hG (spec k).1]
      have h2 : (2 * G - 2 / 3 * r.dq (x.h () + √(2 / 3) * X k) T1) *
          (gap r G N al T1 (X k) / slope r G al T1 (X k)) = gap r G N al T1 (X k) := by
        show slope r G al T1 (X k) * _ = _
        field_simp
      rw [h2] at h1
      exact h1)
    (fun k hk => by
      simp only [hnorm]
      have hp : 0 < gap r G N al T1 (X k) := ha.trans_le (hnot k hk)
      have h1 := (gap_step hc hG (spec k).1 (spec k).2.1).2.2
      have h2 := mul_lt_mul_of_pos_right (shrink_lt_one hc hG) hp
      exact h1.trans_lt (by linarith))
    (by simp only [hnorm]; exact hDM) (by omega) (by omega)
  simp only [hnorm] at hk
  have hsol' := hsol
  rw [show ray G str al (X 0) = riInit (riTrial el x e1 T1) from (ray_zero (G := G)).symm] at hsol'
  obtain ⟨inc, hu, hs, hh⟩ := iso_update_of (t1 := t1) ho hsol' (hv _ (hdet k))
  have hs' : inc.s = back G str (X k) := hs
  have hh' : inc.h () = al + √(2 / 3) * X k := by rw [hh]; rfl
  have hex' : excess r T1 inc.s (inc.h ()) = gap r G N al T1 (X k) := by
    unfold excess
    rw [hs', hh', norm2_back he hNp (hfar k)]
    rfl
  refine ⟨inc, hu, ?_, ?_, ?_, ?_⟩
  · rw [hex']; exact (spec k).2.1
  · rw [hex']
    refine hk.imp id fun h => ?_
    rw [hX0, hg0] at h
    exact (div_lt_iff₀ ho).mp h.2
  · rw [hh']
    exact le_add_of_nonneg_right (mul_nonneg hcp.le (spec k).1)
  · intro z hz hz0
    obtain ⟨h1, h2, h3⟩ := on_ray he hG hC ht hz hz0
    set d := z (.inr (.inr ()))
    have hle : X k ≤ d := by
      by_contra hlt
      have := gap_anti (N := N) ht hz (not_le.mp hlt)
      have := (spec k).2.1
      linarith
    have hzs : (fun i => z (.inl i)) = back G str d := by
      conv_lhs => rw [h1]
      rfl
    have hzh : z (.inr (.inl ())) = al + √(2 / 3) * d := by
      conv_lhs => rw [h1]
      rfl
    constructor
    · have hdiff : back G str (X k) - back G str d = (2 * G * (d - X k)) • dir str := by
        unfold back; module
      rw [hex', hs', hzs, hdiff, norm2_unit (dir_unit hNp),
        abs_of_nonneg (mul_nonneg (by positivity) (sub_nonneg.mpr hle))]
      have h4 := gap_tangent (G := G) (N := N) hc hz (spec k).1
      have h5 := mul_le_mul_of_nonneg_right (slope_pos hc hG hz) (sub_nonneg.mpr hle)
      linarith
    · refine ⟨d - X k, sub_nonneg.mpr hle, ?_, ?_⟩
      · rw [hs', hzs]
        unfold back
        module
      · rw [hh', hzh]
        ring

end steps

/-! ## The rules it applies to -/

/-- C183: linear hardening. -/
theorem C183_linear (s0 K : ℝ → ℝ) (al T : ℝ) (hK : 0 ≤ K T) : Concave (linearIso s0 K) al T where
  rise _ _ := by simpa [linearIso] using hK
  below a b _ _ := by simp only [linearIso]; linarith

/-- C183: Voce hardening. -/
theorem C183_voce (s0 R d : ℝ → ℝ) (al T : ℝ) (hR : 0 ≤ R T) (hd : 0 ≤ d T) :
    Concave (voceIso s0 R d) al T where
  rise a _ := by
    have := Real.exp_pos (-d T * a)
    simp only [voceIso, neg_mul, neg_neg]
    positivity
  below a b _ _ := by
    have h1 := Real.add_one_le_exp (-d T * (b - a))
    have h2 : Real.exp (-d T * b) = Real.exp (-d T * a) * Real.exp (-d T * (b - a)) := by
      rw [← Real.exp_add]; congr 1; ring
    have h3 := mul_le_mul_of_nonneg_left h1
      (mul_nonneg hR (Real.exp_pos (-d T * a)).le)
    simp only [voceIso]
    rw [h2]
    linarith

/-- C183: power law hardening with an exponent between zero and one, from a positive strain on. -/
theorem C183_power (s0 A n : ℝ → ℝ) (al T : ℝ) (hal : 0 < al) (hA : 0 ≤ A T) (h0 : 0 ≤ n T)
    (h1 : n T ≤ 1) : Concave (powerLawIso s0 A n) al T where
  rise a ha := by
    have hp : 0 < a := hal.trans_le ha
    simp only [powerLawIso, if_neg hp.ne', neg_mul, neg_neg]
    positivity
  below a b ha hb := by
    have hp : 0 < a := hal.trans_le ha
    have hq : 0 < b := hal.trans_le hb
    simp only [powerLawIso, if_neg hp.ne']
    have h2 := rpow_one_add_le_one_add_mul_self (s := (b - a) / a) (p := n T)
      (by rw [le_div_iff₀ hp]; linarith) h0 h1
    have h3 : b ^ n T = a ^ n T * (1 + (b - a) / a) ^ n T := by
      rw [← Real.mul_rpow hp.le (by have : 1 + (b - a) / a = b / a := by field_simp; ring
                                    rw [this]; positivity)]
      congr 1
      field_simp
      ring
    have h4 : a ^ (n T - 1) = a ^ n T / a := Real.rpow_sub_one hp.ne' _
    have h5 := mul_le_mul_of_nonneg_left h2 (mul_nonneg hA (Real.rpow_nonneg hp.le (n T)))
    rw [h3, h4]
    have h6 : A T * a ^ n T * (1 + n T * ((b - a) / a)) =
        A T * a ^ n T + A T * n T * (a ^ n T / a) * (b - a) := by
      field_simp
    linarith

theorem foldl_iso (f : Iso → ℝ) (l : List Iso) (c : ℝ) :
    l.foldl (fun acc r => acc + f r) c = c + (l.map f).sum := by
  induction l generalizing c with
  | nil => simp
  | cons a l ih => rw [List.foldl_cons, ih, List.map_cons, List.sum_cons, add_assoc]

/-- C183: sums of such rules. -/
theorem C183_sum (l : List Iso) (al T : ℝ) (h : ∀ r ∈ l, Concave r al T) :
    Concave (combinedIso l) al T where
  rise a ha := by
    simp only [combinedIso, foldl_iso (fun r => r.dq a T), zero_add]
    induction l with
    | nil => simp
    | cons r l ih =>
      have h1 := (h r (List.mem_cons_self ..)).rise a ha
      have h2 := ih fun r' hr' => h r' (List.mem_cons_of_mem _ hr')
      rw [List.map_cons, List.sum_cons]
      linarith
  below a b ha hb := by
    simp only [combinedIso, foldl_iso (fun r => r.dq a T), foldl_iso (fun r => r.q a T),
      foldl_iso (fun r => r.q b T), zero_add]
    induction l with
    | nil => simp
    | cons r l ih =>
      have h1 := (h r (List.mem_cons_self ..)).below a b ha hb
      have h2 := ih fun r' hr' => h r' (List.mem_cons_of_mem _ hr')
      simp only [List.map_cons, List.sum_cons]
      linarith

/-- C182: Voce softening is tame when its initial slope is less than three shear moduli and the
saturated surface is large enough. -/
theorem C182_softening (s0 R d : ℝ → ℝ) {eps G al T : ℝ} (hal : 0 ≤ al) (hR : R T ≤ 0) (hd : 0 ≤ d T)
    (hs : d T * -R T < 3 * G) (hf : eps ≤ √(2 / 3) * (s0 T + R T)) :
    Tame eps G (voceIso s0 R d) al T where
  floor a ha := by
    refine hf.trans (mul_le_mul_of_nonneg_left ?_ (Real.sqrt_nonneg _))
    have := mul_nonneg (neg_nonneg.mpr hR) (Real.exp_pos (-d T * a)).le
    simp only [voceIso]
    linarith
  cont := by
    unfold voceIso
    fun_prop
  slow a b ha hab := by
    have h1 := Real.add_one_le_exp (-d T * (b - a))
    have h2 : Real.exp (-d T * b) = Real.exp (-d T * a) * Real.exp (-d T * (b - a)) := by
      rw [← Real.exp_add]; congr 1; ring
    have h3 := mul_le_mul_of_nonneg_left h1
      (mul_nonneg (neg_nonneg.mpr hR) (Real.exp_pos (-d T * a)).le)
    have h4 : Real.exp (-d T * a) ≤ 1 := by
      rw [Real.exp_le_one_iff]
      have := mul_nonneg hd (hal.trans ha)
      linarith
    have h5 := mul_le_mul_of_nonneg_left h4
      (mul_nonneg (mul_nonneg hd (neg_nonneg.mpr hR)) (sub_pos.mpr hab).le)
    have h6 := mul_lt_mul_of_pos_right hs (sub_pos.mpr hab)
    simp only [voceIso]
    rw [h2]
    linarith

/-- A softening rule that meets the conditions of C182: the yield stress falls from two to one. -/
example : Tame (1 / 2) 1 (voceIso (fun _ => 2) (fun _ => -1) (fun _ => 2)) 0 0 :=
  C182_softening _ _ _ le_rfl (by norm_num) (by norm_num) (by norm_num) (by
    have : (1 / 2 : ℝ) ≤ √(2 / 3) := by
      rw [Real.le_sqrt (by norm_num) (by norm_num)]; norm_num
    norm_num at this ⊢
    linarith)

/-! ## A concrete step -/

/-- Voce hardening with initial slope 3/2 over a shear modulus of 1/2: the residual at least halves in
every iteration, so an excess of three is below a tenth after five. -/
example : ∃ inc, updateStep (rateIndep q1Index (isoElastic (1 / 2) 1)
      (isoFlow 1 (voceIso (fun _ => √(3 / 2)) (fun _ => 1) (fun _ => 3 / 2))) exactLin
      ⟨1 / 100, 1 / 10, 10, true⟩ 10 exactInv) ⟨0, 0, 0, 0, 0, 0, 0⟩ ((4 : ℝ) • shear) 0 1 = some inc ∧
    0 ≤ inc.h () ∧
    excess (voceIso (fun _ => √(3 / 2)) (fun _ => 1) (fun _ => 3 / 2)) 0 inc.s (inc.h ()) < 1 / 10 := by
  set r := voceIso (fun _ => √(3 / 2)) (fun _ => 1) (fun _ => 3 / 2) with hr
  have htr : trial' (isoElastic (1 / 2) 1)
      (⟨0, 0, 0, 0, 0, 0, 0⟩ : Substep.Point ℝ (Fin 6 → ℝ) (Fin 6 → ℝ) (Unit → ℝ))
      ((4 : ℝ) • shear) 0 = (4 : ℝ) • shear := by
    have h3 : tr3 ((4 : ℝ) • shear) = 0 := by simp [tr3, shear]
    show isoC (1 / 2) 1 *ᵥ ((4 : ℝ) • shear - (0 - isoS (1 / 2) 1 *ᵥ 0)) = _
    rw [mulVec_zero, sub_zero, sub_zero, isoC_dev _ _ h3]
    simp
  have hq : √(2 / 3) * (-r.q 0 0) = 1 := by
    have : -r.q 0 0 = √(3 / 2) := by simp [hr, voceIso]
    rw [this, sqrt_cancel]
  have hex : excess r 0 ((4 : ℝ) • shear) 0 = 3 := by
    rw [excess, hq, devVec_shear, norm2_unit shear_unit]
    norm_num
  have hsh : shrink r (1 / 2) 0 0 = 1 / 2 := by
    have : -r.dq 0 0 = 3 / 2 := by simp [hr, voceIso]
    rw [shrink, this]
    norm_num
  obtain ⟨inc, h1, -, h2, h3, -⟩ := C183_converges (eps := 1) (G := 1 / 2) (Kb := 1) (r := r)
    (el := isoElastic (1 / 2) 1) (lin := exactLin) (inv := exactInv)
    (p := ⟨1 / 100, 1 / 10, 10, true⟩) (fuel := 10) (x := ⟨0, 0, 0, 0, 0, 0, 0⟩)
    (e1 := (4 : ℝ) • shear) (T1 := 0) (t1 := 1) one_pos (by norm_num) exactLin_exact exactInv_exact
    (by norm_num) rfl (C183_voce _ _ _ _ _ zero_le_one (by norm_num)) hq.ge
    (by rw [htr]; show 0 < excess r 0 _ 0; rw [hex]; norm_num) 5 (by norm_num) (by norm_num)
    (Or.inl (by
      rw [htr]
      show shrink r (1 / 2) 0 0 ^ 5 * excess r 0 _ 0 < 1 / 10
      rw [hex, hsh]; norm_num))
  refine ⟨inc, h1, h3, ?_⟩
  rw [htr] at h2
  have h4 : (⟨0, 0, 0, 0, 0, 0, 0⟩ : Substep.Point ℝ (Fin 6 → ℝ) (Fin 6 → ℝ) (Unit → ℝ)).h () = 0 := rfl
  rw [h4, hex] at h2
  rcases h2 with h2 | h2
  · exact h2
  · norm_num at h2 ⊢
    linarith

end Neml.SolveStep
