import Mathlib.Analysis.InnerProductSpace.PiL2
import Verif.Props.ViscoConverge

/-!
# C187, C188: differences between two states do not grow, errors of the solver do not pile up
-/

namespace Neml.SolveStep

open Matrix Neml.SmallStrain Neml.Flow Neml.Mandel Neml.Elastic

/-- Twice the elastic energy of a difference of stresses plus what hardening stores for a difference of
plastic strains. -/
noncomputable def energy (G Kb K : ℝ) (s : Fin 6 → ℝ) (a : ℝ) : ℝ :=
  s ⬝ᵥ (isoS G Kb *ᵥ s) + K * a ^ 2

variable {G Kb K : ℝ}

theorem energy_split (hG : 0 < G) (hB : 0 < Kb) (s : Fin 6 → ℝ) (a : ℝ) :
    energy G Kb K s a =
      (devVec s ⬝ᵥ devVec s) / (2 * G) + tr3 s ^ 2 / (9 * Kb) + K * a ^ 2 := by
  unfold energy
  congr 1
  simp only [isoS, devVec, tr3, dotProduct, mulVec, Fin.sum_univ_succ]
  simp
  field_simp
  ring_nf
  field_simp
  ring

/-- What a step does to stress and plastic strain: a plastic strain of length `g` along the normal at
the stress it leads to. -/
structure Moves (G : ℝ) (t : Fin 6 → ℝ) (a : ℝ) (s : Fin 6 → ℝ) (b g : ℝ) : Prop where
  nonneg : 0 ≤ g
  hard : b = a + √(2 / 3) * g
  normal : ∃ m, tr3 m = 0 ∧ m ⬝ᵥ m = 1 ∧ (0 < g → devVec s = norm2 (devVec s) • m) ∧
    s = t - (2 * G * g) • m

theorem dot_le_norm2 {m : Fin 6 → ℝ} (hm : m ⬝ᵥ m = 1) (w : Fin 6 → ℝ) : m ⬝ᵥ w ≤ norm2 w := by
  apply Real.le_sqrt_of_sq_le
  have h1 : 0 ≤ (w - (m ⬝ᵥ w) • m) ⬝ᵥ (w - (m ⬝ᵥ w) • m) := by
    simp only [dotProduct]
    exact Finset.sum_nonneg fun i _ => mul_self_nonneg _
  have h2 : (w - (m ⬝ᵥ w) • m) ⬝ᵥ (w - (m ⬝ᵥ w) • m) = w ⬝ᵥ w - (m ⬝ᵥ w) ^ 2 := by
    simp only [sub_dotProduct, dotProduct_sub, smul_dotProduct, dotProduct_smul, smul_eq_mul, hm,
      dotProduct_comm w m]
    ring
  linarith

/-- A plastic strain works on the difference to another stress at least as the lengths of the deviators
differ. -/
theorem Moves.work {t s : Fin 6 → ℝ} {a b g : ℝ} (M : Moves G t a s b g) {m : Fin 6 → ℝ} (htr : tr3 m = 0)
    (hm : m ⬝ᵥ m = 1) (hd : 0 < g → devVec s = norm2 (devVec s) • m) (w : Fin 6 → ℝ) :
    g * (norm2 (devVec s) - norm2 (devVec w)) ≤ g * (m ⬝ᵥ (s - w)) := by
  rcases M.nonneg.eq_or_lt with h | h
  · rw [← h]; simp
  · refine mul_le_mul_of_nonneg_left ?_ h.le
    have h1 : ∀ v : Fin 6 → ℝ, m ⬝ᵥ v = m ⬝ᵥ devVec v := fun v => by
      rw [devVec_eq v, dot_devProj htr]
    have h2 : m ⬝ᵥ devVec s = norm2 (devVec s) := by
      conv_lhs => rw [hd h]
      rw [dotProduct_smul, hm, smul_eq_mul, mul_one]
    rw [dotProduct_sub, h1 s, h1 w, h2]
    linarith [dot_le_norm2 hm (devVec w)]

/-- Two steps of which the one that flows more is the one with more excess bring two states closer. -/
theorem contract (hG : 0 < G) (hB : 0 < Kb) (hK : 0 ≤ K) {t1 t2 s1 s2 : Fin 6 → ℝ}
    {a1 a2 b1 b2 g1 g2 : ℝ} (M1 : Moves G t1 a1 s1 b1 g1) (M2 : Moves G t2 a2 s2 b2 g2)
    (hmono : 0 ≤ (g1 - g2) * ((norm2 (devVec s1) - √(2 / 3) * (K * b1)) -
      (norm2 (devVec s2) - √(2 / 3) * (K * b2)))) :
    energy G Kb K (s1 - s2) (b1 - b2) ≤ energy G Kb K (t1 - t2) (a1 - a2) := by
  obtain ⟨m1, p1, q1, r1, e1⟩ := M1.normal
  obtain ⟨m2, p2, q2, r2, e2⟩ := M2.normal
  have w1 := M1.work p1 q1 r1 s2
  have w2 := M2.work p2 q2 r2 s1
  set u := s1 - s2 with hu
  set v := g1 • m1 - g2 • m2 with hv
  have htv : tr3 v = 0 := by rw [hv, tr3_sub, tr3_smul, tr3_smul, p1, p2]; ring
  have ht : t1 - t2 = u + (2 * G) • v := by
    rw [hu, hv, e1, e2]
    module
  have htw : tr3 ((2 * G) • v) = 0 := by rw [tr3_smul, htv, mul_zero]
  have hdev : devVec (t1 - t2) = devVec u + (2 * G) • v := by
    rw [ht, devVec_add, devVec_of_tr3 htw]
  have htr : tr3 (t1 - t2) = tr3 u := by rw [ht, tr3_add, htw, add_zero]
  have hdv : devVec u ⬝ᵥ v = u ⬝ᵥ v := by
    rw [dotProduct_comm, devVec_eq u, dot_devProj htv, dotProduct_comm]
  have huv : u ⬝ᵥ v = g1 * (m1 ⬝ᵥ (s1 - s2)) + g2 * (m2 ⬝ᵥ (s2 - s1)) := by
    rw [hv, dotProduct_sub, dotProduct_smul, dotProduct_smul, dotProduct_comm u m1,
      dotProduct_comm u m2, ← hu, show s2 - s1 = -u by rw [hu]; abel, dotProduct_neg]
    simp only [smul_eq_mul]
    ring
  have hvv : 0 ≤ v ⬝ᵥ v := by
    simp only [dotProduct]
    exact Finset.sum_nonneg fun i _ => mul_self_nonneg _
  rw [energy_split hG hB, energy_split hG hB, htr, hdev]
  have hexp : (devVec u + (2 * G) • v) ⬝ᵥ (devVec u + (2 * G) • v) / (2 * G) =
      devVec u ⬝ᵥ devVec u / (2 * G) + 2 * (u ⬝ᵥ v) + 2 * G * (v ⬝ᵥ v) := by
    simp only [add_dotProduct, dotProduct_add, smul_dotProduct, dotProduct_smul, smul_eq_mul]
    rw [dotProduct_comm v (devVec u), hdv]
    field_simp
    ring
  rw [hexp]
  have hb : a1 - a2 = (b1 - b2) - √(2 / 3) * (g1 - g2) := by rw [M1.hard, M2.hard]; ring
  have hc2 : 0 ≤ K * (√(2 / 3) * (g1 - g2)) ^ 2 := by positivity
  have hGv : 0 ≤ 2 * G * (v ⬝ᵥ v) := by positivity
  rw [hb]
  nlinarith [huv, w1, w2, hmono, hc2, hGv]

/-! ## The two models -/

section models

variable {el : Elastic ℝ (Fin 6)} {eps : ℝ} {T : ℝ}

/-- The exact result of a step of rate independent plasticity: the trial stress, if it is not outside
the surface, or else a solution of the equations with a multiplier that is not negative. -/
def Returns (el : Elastic ℝ (Fin 6)) (eps : ℝ) (r : Iso)
    (x : Substep.Point ℝ (Fin 6 → ℝ) (Fin 6 → ℝ) (Unit → ℝ)) (e1 : Fin 6 → ℝ) (T1 : ℝ)
    (s : Fin 6 → ℝ) (a : ℝ) : Prop :=
  (excess r T1 (trial' el x e1 T1) (x.h ()) ≤ 0 ∧ s = trial' el x e1 T1 ∧ a = x.h ()) ∨
  (0 < excess r T1 (trial' el x e1 T1) (x.h ()) ∧ ∃ z : RIx (Fin 6) Unit → ℝ,
    0 ≤ z (.inr (.inr ())) ∧ riR (isoFlow eps r) (riTrial el x e1 T1) z = 0 ∧
    s = (fun i => z (.inl i)) ∧ a = z (.inr (.inl ())))

theorem shear_unit' : ∃ m : Fin 6 → ℝ, tr3 m = 0 ∧ m ⬝ᵥ m = 1 :=
  ⟨![0, 0, 0, 1, 0, 0], by simp [tr3], by simp [dotProduct, Fin.sum_univ_succ]⟩

variable {r : Iso} {x y : Substep.Point ℝ (Fin 6 → ℝ) (Fin 6 → ℝ) (Unit → ℝ)} {e1 : Fin 6 → ℝ}
  {s s' : Fin 6 → ℝ} {a a' : ℝ}

theorem Returns.moves (he : 0 < eps) (hG : 0 < G) (hC : el.C T = isoC G Kb)
    (ht : Tame eps G r (x.h ()) T) (h : Returns el eps r x e1 T s a) :
    ∃ g, Moves G (trial' el x e1 T) (x.h ()) s a g ∧ excess r T s a ≤ 0 ∧ g * excess r T s a = 0 := by
  rcases h with ⟨h0, rfl, rfl⟩ | ⟨h0, z, hz, hR, rfl, rfl⟩
  · obtain ⟨m, hm1, hm2⟩ := shear_unit'
    exact ⟨0, ⟨le_rfl, by simp, m, hm1, hm2, fun h => absurd h (lt_irrefl 0), by simp⟩, h0, by simp⟩
  · obtain ⟨h1, h2, h3⟩ := on_ray he hG hC ht hz hR
    have hNp : 0 < norm2 (devVec (trial' el x e1 T)) := by
      have := ht.floor (x.h ()) le_rfl
      unfold excess at h0
      linarith
    set d := z (.inr (.inr ()))
    have hzs : (fun i => z (.inl i)) = back G (trial' el x e1 T) d := by
      conv_lhs => rw [h1]
      rfl
    have hzh : z (.inr (.inl ())) = x.h () + √(2 / 3) * d := by
      conv_lhs => rw [h1]
      rfl
    have hex : excess r T (fun i => z (.inl i)) (z (.inr (.inl ()))) = 0 := by
      rw [hzs, hzh, excess_back he hNp h3, h2]
    refine ⟨d, ⟨hz, hzh, dir (trial' el x e1 T), ?_, dir_unit hNp, fun _ => ?_, hzs⟩, hex.le, by
      rw [hex, mul_zero]⟩
    · rw [dir, tr3_smul, tr3_devVec, mul_zero]
    · rw [hzs, norm2_back he hNp h3, devVec_back hNp]

theorem trial'_sub (hG : 0 < G) (hB : 0 < Kb) (hC : el.C T = isoC G Kb) (hS : el.S T = isoS G Kb)
    (hx : x.T = T) (hy : y.T = T) (hxy : x.e = y.e) :
    trial' el x e1 T - trial' el y e1 T = x.s - y.s := by
  have h1 := (C36_iso_inverse G Kb hG hB).2
  have h2 : ∀ v, isoC G Kb *ᵥ (isoS G Kb *ᵥ v) = v := fun v => by
    rw [mulVec_mulVec, h1, one_mulVec]
  unfold trial'
  rw [hx, hy, hC, hS, hxy, ← mulVec_sub]
  have : e1 - (y.e - isoS G Kb *ᵥ x.s) - (e1 - (y.e - isoS G Kb *ᵥ y.s)) =
      isoS G Kb *ᵥ (x.s - y.s) := by
    rw [mulVec_sub]; abel
  rw [this, h2]

theorem linear_excess (s0 k : ℝ → ℝ) (T : ℝ) (s : Fin 6 → ℝ) (a : ℝ) :
    excess (linearIso s0 k) T s a = norm2 (devVec s) - √(2 / 3) * (k T * a) - √(2 / 3) * s0 T := by
  simp only [excess, linearIso]
  ring

/-- C187: rate independent J2 plasticity with linear hardening or none. -/
theorem C187_plastic {s0 k : ℝ → ℝ} (he : 0 < eps) (hG : 0 < G) (hB : 0 < Kb) (hk : 0 ≤ k T)
    (hC : el.C T = isoC G Kb) (hS : el.S T = isoS G Kb) (hx : x.T = T) (hy : y.T = T) (hxy : x.e = y.e)
    (hfx : eps ≤ √(2 / 3) * (s0 T + k T * x.h ())) (hfy : eps ≤ √(2 / 3) * (s0 T + k T * y.h ()))
    (h : Returns el eps (linearIso s0 k) x e1 T s a) (h' : Returns el eps (linearIso s0 k) y e1 T s' a') :
    energy G Kb (k T) (s - s') (a - a') ≤ energy G Kb (k T) (x.s - y.s) (x.h () - y.h ()) := by
  have htx : Tame eps G (linearIso s0 k) (x.h ()) T :=
    (C183_linear s0 k _ T hk).tame hG (by simp only [linearIso]; ring_nf at hfx ⊢; exact hfx)
  have hty : Tame eps G (linearIso s0 k) (y.h ()) T :=
    (C183_linear s0 k _ T hk).tame hG (by simp only [linearIso]; ring_nf at hfy ⊢; exact hfy)
  obtain ⟨g, M, f1, c1⟩ := h.moves he hG hC htx
  obtain ⟨g', M', f2, c2⟩ := h'.moves he hG hC hty
  rw [← trial'_sub hG hB hC hS hx hy hxy (e1 := e1)]
  refine contract hG hB hk M M' ?_
  have e1 := linear_excess s0 k T s a
  have e2 := linear_excess s0 k T s' a'
  have h3 : (norm2 (devVec s) - √(2 / 3) * (k T * a)) - (norm2 (devVec s') - √(2 / 3) * (k T * a')) =
      excess (linearIso s0 k) T s a - excess (linearIso s0 k) T s' a' := by
    rw [e1, e2]; ring
  rw [h3]
  have h4 := mul_nonneg M.nonneg (neg_nonneg.mpr f2)
  have h5 := mul_nonneg M'.nonneg (neg_nonneg.mpr f1)
  linarith

/-- C187: viscoplasticity with linear hardening or none and any growing flow function. -/
theorem C187_visco {s0 k : ℝ → ℝ} {gf : GFlow} {t1 : ℝ} (he : 0 < eps) (hG : 0 < G) (hB : 0 < Kb)
    (hk : 0 ≤ k T) (hC : el.C T = isoC G Kb) (hxy : x.e = y.e) (hm : Flowing gf T)
    (hdt : 0 < t1 - x.t) (ht : x.t = y.t)
    (hfx : eps ≤ √(2 / 3) * (s0 T + k T * x.h ())) (hfy : eps ≤ √(2 / 3) * (s0 T + k T * y.h ()))
    {z z' : Fin 6 ⊕ Unit → ℝ}
    (h : giR (tvp el (isoPerzyna eps (linearIso s0 k) gf)) (giTrial x e1 T t1) z = 0)
    (h' : giR (tvp el (isoPerzyna eps (linearIso s0 k) gf)) (giTrial y e1 T t1) z' = 0) :
    energy G Kb (k T) ((fun i => z (.inl i)) - fun i => z' (.inl i)) (z (.inr ()) - z' (.inr ())) ≤
      energy G Kb (k T) (x.s - y.s) (x.h () - y.h ()) := by
  have htx : Tame eps G (linearIso s0 k) (x.h ()) T :=
    (C183_linear s0 k _ T hk).tame hG (by simp only [linearIso]; ring_nf at hfx ⊢; exact hfx)
  have hty : Tame eps G (linearIso s0 k) (y.h ()) T :=
    (C183_linear s0 k _ T hk).tame hG (by simp only [linearIso]; ring_nf at hfy ⊢; exact hfy)
  have key : ∀ (w : Substep.Point ℝ (Fin 6 → ℝ) (Fin 6 → ℝ) (Unit → ℝ)) (z : Fin 6 ⊕ Unit → ℝ),
      0 < t1 - w.t → Tame eps G (linearIso s0 k) (w.h ()) T →
      giR (tvp el (isoPerzyna eps (linearIso s0 k) gf)) (giTrial w e1 T t1) z = 0 →
      Moves G (trial el w e1 T) (w.h ()) (fun i => z (.inl i)) (z (.inr ()))
        ((t1 - w.t) * rate gf T (excess (linearIso s0 k) T (fun i => z (.inl i)) (z (.inr ())))) := by
    intro w z hdt htw h
    obtain ⟨d, hd, hz, hl, hx⟩ := visco_on_ray he hG hdt hC hm htw h
    have hg : (t1 - w.t) * rate gf T (excess (linearIso s0 k) T (fun i => z (.inl i)) (z (.inr ()))) = d := by
      rw [hx]
      unfold lag at hl
      linarith
    have hzs : (fun i => z (.inl i)) = back G (trial el w e1 T) d := by rw [hz]; rfl
    have hzh : z (.inr ()) = w.h () + √(2 / 3) * d := by rw [hz]; rfl
    rw [hg]
    rcases hd.eq_or_lt with h0 | h0
    · obtain ⟨m, hm1, hm2⟩ := shear_unit'
      refine ⟨hd, hzh, m, hm1, hm2, fun h => absurd h (by rw [← h0]; exact lt_irrefl 0), ?_⟩
      rw [hzs, ← h0, back]
      simp
    · have hgp : 0 < gap (linearIso s0 k) G (norm2 (devVec (trial el w e1 T))) (w.h ()) T d := by
        by_contra hneg
        unfold lag at hl
        rw [rate_of_nonpos (not_lt.mp hneg)] at hl
        linarith
      have hfar : eps ≤ norm2 (devVec (trial el w e1 T)) - 2 * G * d := by
        have := htw.floor (w.h () + √(2 / 3) * d) (le_add_of_nonneg_right (by positivity))
        unfold gap at hgp
        linarith
      have hNp : 0 < norm2 (devVec (trial el w e1 T)) := by nlinarith
      refine ⟨hd, hzh, dir (trial el w e1 T), ?_, dir_unit hNp, fun _ => ?_, hzs⟩
      · rw [dir, tr3_smul, tr3_devVec, mul_zero]
      · rw [hzs, norm2_back he hNp hfar, devVec_back hNp]
  have M := key x z hdt htx h
  have M' := key y z' (by rw [← ht]; exact hdt) hty h'
  have htr : trial el x e1 T - trial el y e1 T = x.s - y.s := by
    unfold trial
    rw [hxy]
    abel
  rw [← htr]
  refine contract hG hB hk M M' ?_
  set f := excess (linearIso s0 k) T (fun i => z (.inl i)) (z (.inr ())) with hf
  set f' := excess (linearIso s0 k) T (fun i => z' (.inl i)) (z' (.inr ())) with hf'
  have h3 : (norm2 (devVec fun i => z (.inl i)) - √(2 / 3) * (k T * z (.inr ()))) -
      (norm2 (devVec fun i => z' (.inl i)) - √(2 / 3) * (k T * z' (.inr ()))) = f - f' := by
    rw [hf, hf', linear_excess, linear_excess]; ring
  rw [h3, ← ht, ← mul_sub, mul_assoc]
  refine mul_nonneg hdt.le ?_
  rcases le_total f f' with h4 | h4
  · exact mul_nonneg_of_nonpos_of_nonpos (sub_nonpos.mpr (hm.rate_le h4)) (sub_nonpos.mpr h4)
  · exact mul_nonneg (sub_nonneg.mpr (hm.rate_le h4)) (sub_nonneg.mpr h4)

end models

/-! ## Distances -/

section metric

/-- Components whose squares add up to the energy. -/
noncomputable def embed (G Kb K : ℝ) (s : Fin 6 → ℝ) (a : ℝ) : Fin 6 ⊕ Fin 2 → ℝ :=
  Sum.elim (fun i => devVec s i / √(2 * G)) ![tr3 s / (3 * √Kb), √K * a]

theorem energy_embed (hG : 0 < G) (hB : 0 < Kb) (hK : 0 ≤ K) (s : Fin 6 → ℝ) (a : ℝ) :
    energy G Kb K s a = ∑ i, embed G Kb K s a i ^ 2 := by
  rw [energy_split hG hB, Fintype.sum_sum_type]
  simp only [embed, Sum.elim_inl, Sum.elim_inr, Fin.sum_univ_two, Matrix.cons_val_zero,
    Matrix.cons_val_one]
  have h1 : ∑ i, (devVec s i / √(2 * G)) ^ 2 = devVec s ⬝ᵥ devVec s / (2 * G) := by
    rw [dotProduct, Finset.sum_div]
    refine Finset.sum_congr rfl fun i _ => ?_
    rw [div_pow, Real.sq_sqrt (show 0 ≤ 2 * G by positivity), pow_two]
  rw [h1, div_pow, mul_pow, mul_pow, Real.sq_sqrt hB.le, Real.sq_sqrt hK]
  ring

/-- Length of a difference of states. -/
noncomputable def apart (G Kb K : ℝ) (s : Fin 6 → ℝ) (a : ℝ) : ℝ := √(energy G Kb K s a)

theorem apart_eq (hG : 0 < G) (hB : 0 < Kb) (hK : 0 ≤ K) (s : Fin 6 → ℝ) (a : ℝ) :
    apart G Kb K s a = ‖WithLp.toLp 2 (embed G Kb K s a)‖ := by
  rw [apart, energy_embed hG hB hK, EuclideanSpace.norm_eq]
  congr 1
  exact Finset.sum_congr rfl fun i _ => by rw [Real.norm_eq_abs, sq_abs]

theorem apart_add (hG : 0 < G) (hB : 0 < Kb) (hK : 0 ≤ K) (s s' : Fin 6 → ℝ) (a a' : ℝ) :
    apart G Kb K (s + s') (a + a') ≤ apart G Kb K s a + apart G Kb K s' a' := by
  rw [apart_eq hG hB hK, apart_eq hG hB hK, apart_eq hG hB hK]
  refine le_trans (le_of_eq ?_) (norm_add_le _ _)
  congr 1
  ext i
  show embed G Kb K (s + s') (a + a') i = embed G Kb K s a i + embed G Kb K s' a' i
  rcases i with i | i
  · simp only [embed, Sum.elim_inl, devVec_add, Pi.add_apply]
    ring
  · fin_cases i
    · simp only [embed, Sum.elim_inr, tr3_add]
      simp
      ring
    · simp only [embed, Sum.elim_inr]
      simp
      ring

/-- Plastic strain of length `d` that is missing. -/
theorem apart_missing (hG : 0 < G) (hB : 0 < Kb) {m : Fin 6 → ℝ} (htr : tr3 m = 0)
    (hm : m ⬝ᵥ m = 1) {d : ℝ} (hd : 0 ≤ d) :
    apart G Kb K ((2 * G * d) • m) (-(√(2 / 3) * d)) = d * √(2 * G + 2 / 3 * K) := by
  have hsq : √(2 / 3) * √(2 / 3) = (2 / 3 : ℝ) := Real.mul_self_sqrt (by norm_num)
  have h0 : tr3 ((2 * G * d) • m) = 0 := by rw [tr3_smul, htr, mul_zero]
  have h1 : energy G Kb K ((2 * G * d) • m) (-(√(2 / 3) * d)) = d ^ 2 * (2 * G + 2 / 3 * K) := by
    rw [energy_split hG hB, devVec_of_tr3 h0, h0, smul_dotProduct, dotProduct_smul, hm]
    simp only [smul_eq_mul]
    have : (2 * G * d * (2 * G * d * 1)) / (2 * G) = 2 * G * d ^ 2 := by field_simp
    rw [this]
    linear_combination (K * d ^ 2) * hsq
  rw [apart, h1, Real.sqrt_mul (sq_nonneg d), Real.sqrt_sq hd]

end metric

/-! ## Whole histories -/

/-- A relation followed along a list of inputs. -/
def Along {X I : Type} (R : X → I → X → Prop) : X → List I → X → Prop
  | x, [], y => y = x
  | x, i :: l, y => ∃ w, R x i w ∧ Along R w l y

section histories

variable {el : Elastic ℝ (Fin 6)} {eps T : ℝ} {s0 k : ℝ → ℝ} {gf : GFlow}

/-- State of a material point at constant temperature. -/
abbrev State := Substep.Point ℝ (Fin 6 → ℝ) (Fin 6 → ℝ) (Unit → ℝ)

/-- The exact step of rate independent plasticity to a strain and time. -/
def PlasticStep (el : Elastic ℝ (Fin 6)) (eps : ℝ) (r : Iso) (T : ℝ) (x : State) (i : (Fin 6 → ℝ) × ℝ)
    (y : State) : Prop :=
  Returns el eps r x i.1 T y.s (y.h ()) ∧ y.e = i.1 ∧ y.T = T ∧ y.t = i.2

/-- The exact step of viscoplasticity. -/
def ViscoStep (el : Elastic ℝ (Fin 6)) (eps : ℝ) (r : Iso) (gf : GFlow) (T : ℝ) (x : State)
    (i : (Fin 6 → ℝ) × ℝ) (y : State) : Prop :=
  x.t < i.2 ∧ giR (tvp el (isoPerzyna eps r gf)) (giTrial x i.1 T i.2) (Sum.elim y.s y.h) = 0 ∧
    y.e = i.1 ∧ y.T = T ∧ y.t = i.2

theorem PlasticStep.grows {r : Iso} (he : 0 < eps) (hG : 0 < G) (hC : el.C T = isoC G Kb) {x y : State}
    {i : (Fin 6 → ℝ) × ℝ} (ht : Tame eps G r (x.h ()) T) (h : PlasticStep el eps r T x i y) :
    x.h () ≤ y.h () := by
  obtain ⟨g, M, -, -⟩ := h.1.moves he hG hC ht
  rw [M.hard]
  have := M.nonneg
  exact le_add_of_nonneg_right (by positivity)

theorem ViscoStep.grows {r : Iso} (he : 0 < eps) (hG : 0 < G) (hC : el.C T = isoC G Kb)
    (hm : Flowing gf T) {x y : State} {i : (Fin 6 → ℝ) × ℝ} (ht : Tame eps G r (x.h ()) T)
    (h : ViscoStep el eps r gf T x i y) : x.h () ≤ y.h () := by
  obtain ⟨d, hd, hz, -, -⟩ := visco_on_ray he hG (sub_pos.mpr h.1) hC hm ht h.2.1
  have : y.h () = x.h () + √(2 / 3) * d := congrFun hz (.inr ())
  rw [this]
  exact le_add_of_nonneg_right (by positivity)

theorem floor_mono {a b c K : ℝ} (hK : 0 ≤ K) (hab : a ≤ b) (h : eps ≤ √(2 / 3) * (c + K * a)) :
    eps ≤ √(2 / 3) * (c + K * b) := by
  refine h.trans (mul_le_mul_of_nonneg_left ?_ (Real.sqrt_nonneg _))
  have := mul_le_mul_of_nonneg_left hab hK
  linarith

theorem linear_tame (hG : 0 < G) (hk : 0 ≤ k T) {a : ℝ} (h : eps ≤ √(2 / 3) * (s0 T + k T * a)) :
    Tame eps G (linearIso s0 k) a T :=
  (C183_linear s0 k _ T hk).tame hG (by simp only [linearIso]; ring_nf at h ⊢; exact h)

/-- C187: along every strain history two states of a rate independent material come closer, or stay as
far apart as they were. -/
theorem C187_plastic_history (he : 0 < eps) (hG : 0 < G) (hB : 0 < Kb) (hk : 0 ≤ k T)
    (hC : el.C T = isoC G Kb) (hS : el.S T = isoS G Kb) (l : List ((Fin 6 → ℝ) × ℝ)) {x y x' y' : State}
    (hx : x.T = T) (hy : y.T = T) (hxy : x.e = y.e)
    (hfx : eps ≤ √(2 / 3) * (s0 T + k T * x.h ())) (hfy : eps ≤ √(2 / 3) * (s0 T + k T * y.h ()))
    (h : Along (PlasticStep el eps (linearIso s0 k) T) x l x')
    (h' : Along (PlasticStep el eps (linearIso s0 k) T) y l y') :
    energy G Kb (k T) (x'.s - y'.s) (x'.h () - y'.h ()) ≤
      energy G Kb (k T) (x.s - y.s) (x.h () - y.h ()) := by
  induction l generalizing x y with
  | nil => rw [show x' = x from h, show y' = y from h']
  | cons i l ih =>
    obtain ⟨w, hw, h⟩ := h
    obtain ⟨w', hw', h'⟩ := h'
    have hgx := floor_mono hk (hw.grows he hG hC (linear_tame hG hk hfx)) hfx
    have hgy := floor_mono hk (hw'.grows he hG hC (linear_tame hG hk hfy)) hfy
    refine (ih hw.2.2.1 hw'.2.2.1 (hw.2.1.trans hw'.2.1.symm) hgx hgy h h').trans ?_
    exact C187_plastic he hG hB hk hC hS hx hy hxy hfx hfy hw.1 hw'.1

/-- C187: the same for a viscoplastic material. -/
theorem C187_visco_history (he : 0 < eps) (hG : 0 < G) (hB : 0 < Kb) (hk : 0 ≤ k T)
    (hC : el.C T = isoC G Kb) (hm : Flowing gf T) (l : List ((Fin 6 → ℝ) × ℝ)) {x y x' y' : State}
    (hxy : x.e = y.e) (ht : x.t = y.t)
    (hfx : eps ≤ √(2 / 3) * (s0 T + k T * x.h ())) (hfy : eps ≤ √(2 / 3) * (s0 T + k T * y.h ()))
    (h : Along (ViscoStep el eps (linearIso s0 k) gf T) x l x')
    (h' : Along (ViscoStep el eps (linearIso s0 k) gf T) y l y') :
    energy G Kb (k T) (x'.s - y'.s) (x'.h () - y'.h ()) ≤
      energy G Kb (k T) (x.s - y.s) (x.h () - y.h ()) := by
  induction l generalizing x y with
  | nil => rw [show x' = x from h, show y' = y from h']
  | cons i l ih =>
    obtain ⟨w, hw, h⟩ := h
    obtain ⟨w', hw', h'⟩ := h'
    have hgx := floor_mono hk (hw.grows he hG hC hm (linear_tame hG hk hfx)) hfx
    have hgy := floor_mono hk (hw'.grows he hG hC hm (linear_tame hG hk hfy)) hfy
    refine (ih (hw.2.2.1.trans hw'.2.2.1.symm) (hw.2.2.2.2.trans hw'.2.2.2.2.symm) hgx hgy h h').trans ?_
    exact C187_visco he hG hB hk hC hxy hm (sub_pos.mpr hw.1) ht hfx hfy hw.2.1 hw'.2.1

/-- C187: every history has an exact path, and only one. -/
theorem C187_plastic_path (he : 0 < eps) (hG : 0 < G) (hk : 0 ≤ k T)
    (hC : el.C T = isoC G Kb) (l : List ((Fin 6 → ℝ) × ℝ)) {x : State}
    (hfx : eps ≤ √(2 / 3) * (s0 T + k T * x.h ())) :
    ∃ x', Along (PlasticStep el eps (linearIso s0 k) T) x l x' ∧
      ∀ y', Along (PlasticStep el eps (linearIso s0 k) T) x l y' →
        y'.s = x'.s ∧ y'.h () = x'.h () := by
  have step : ∀ (x : State) (i : (Fin 6 → ℝ) × ℝ), eps ≤ √(2 / 3) * (s0 T + k T * x.h ()) →
      ∃ s a, Returns el eps (linearIso s0 k) x i.1 T s a ∧
        ∀ s' a', Returns el eps (linearIso s0 k) x i.1 T s' a' → s' = s ∧ a' = a := by
    intro x i hf
    rcases le_or_gt (excess (linearIso s0 k) T (trial' el x i.1 T) (x.h ())) 0 with h | h
    · refine ⟨_, _, Or.inl ⟨h, rfl, rfl⟩, ?_⟩
      rintro s' a' (⟨-, h1, h2⟩ | ⟨h1, -⟩)
      · exact ⟨h1, h2⟩
      · exact absurd h1 (not_lt.mpr h)
    · obtain ⟨z, ⟨hz, hR⟩, hu⟩ := C182_unique he hG hC (linear_tame hG hk hf)
        (by unfold excess at h; linarith)
      refine ⟨_, _, Or.inr ⟨h, z, hz, hR, rfl, rfl⟩, ?_⟩
      rintro s' a' (⟨h1, -⟩ | ⟨-, z', hz', hR', rfl, rfl⟩)
      · exact absurd h (not_lt.mpr h1)
      · rw [hu z' ⟨hz', hR'⟩]
        exact ⟨rfl, rfl⟩
  have key : ∀ (l : List ((Fin 6 → ℝ) × ℝ)) (x : State), eps ≤ √(2 / 3) * (s0 T + k T * x.h ()) →
      ∃ x', Along (PlasticStep el eps (linearIso s0 k) T) x l x' ∧
        ∀ (y y' : State), y.e = x.e → y.T = x.T → y.s = x.s → y.h () = x.h () →
          Along (PlasticStep el eps (linearIso s0 k) T) y l y' → y'.s = x'.s ∧ y'.h () = x'.h () := by
    intro l
    induction l with
    | nil =>
      intro x _
      refine ⟨x, rfl, fun y y' _ _ h3 h4 h => ?_⟩
      rw [show y' = y from h]
      exact ⟨h3, h4⟩
    | cons i l ih =>
      intro x hf
      obtain ⟨s, a, h1, h2⟩ := step x i hf
      have hP : PlasticStep el eps (linearIso s0 k) T x i ⟨i.1, T, i.2, s, fun _ => a, 0, 0⟩ :=
        ⟨h1, rfl, rfl, rfl⟩
      obtain ⟨x', h3, h4⟩ := ih ⟨i.1, T, i.2, s, fun _ => a, 0, 0⟩
        (floor_mono hk (hP.grows he hG hC (linear_tame hG hk hf)) hf)
      refine ⟨x', ⟨_, hP, h3⟩, fun y y' e1 e2 e3 e4 h => ?_⟩
      obtain ⟨w, hw, h⟩ := h
      have hr : Returns el eps (linearIso s0 k) x i.1 T w.s (w.h ()) := by
        have hh : y.h = x.h := by ext u; exact e4
        have := hw.1
        obtain ⟨ye, yT, yt, ys, yh, yu, yp⟩ := y
        obtain ⟨xe, xT, xt, xs, xh, xu, xp⟩ := x
        simp only at e1 e2 e3 hh
        subst e1 e2 e3 hh
        exact this
      obtain ⟨h5, h6⟩ := h2 _ _ hr
      exact h4 w y' hw.2.1 hw.2.2.1 h5 h6 h
  obtain ⟨x', h1, h2⟩ := key l x hfx
  exact ⟨x', h1, fun y' h => h2 x y' rfl rfl rfl rfl h⟩

/-! ## The computed path -/

/-- A step the code computes. -/
def Computes {P τ : Type} [Fintype P] [DecidableEq P] (m : Integrator ℝ (Fin 6) (Unit → ℝ) P τ) (T : ℝ)
    (x : State) (i : (Fin 6 → ℝ) × ℝ) (y : State) : Prop :=
  ∃ inc, updateStep m x i.1 T i.2 = some inc ∧ y.s = inc.s ∧ y.h = inc.h ∧ y.e = i.1 ∧ y.T = T ∧
    y.t = i.2

theorem apart_chain (hG : 0 < G) (hB : 0 < Kb) (hK : 0 ≤ K) (s s' s'' : Fin 6 → ℝ) (a a' a'' : ℝ) :
    apart G Kb K (s - s'') (a - a'') ≤ apart G Kb K (s - s') (a - a') + apart G Kb K (s' - s'') (a' - a'') := by
  have := apart_add hG hB hK (s - s') (s' - s'') (a - a') (a' - a'')
  rwa [show s - s' + (s' - s'') = s - s'' by abel, show a - a' + (a' - a'') = a - a'' by ring] at this

variable {lin : Matrix (Fin (6 + (1 + 1))) (Fin (6 + (1 + 1))) ℝ → (Fin (6 + (1 + 1)) → ℝ) →
    Option (Fin (6 + (1 + 1)) → ℝ)} {p : Newton.Params} {fuel : Nat}
  {inv : Matrix (RIx (Fin 6) Unit) (RIx (Fin 6) Unit) ℝ → Option (Matrix (RIx (Fin 6) Unit) (RIx (Fin 6) Unit) ℝ)}

/-- One computed step beside the exact step from the same state. -/
theorem plastic_error (he : 0 < eps) (ha : 0 < p.atol) (hl : ExactSolve lin) (hv : ExactInv inv)
    (hG : 0 < G) (hB : 0 < Kb) (hk : 0 ≤ k T)
    (hC : el.C T = isoC G Kb) (hS : el.S T = isoS G Kb) {n : ℕ} (hm : (n : Int) < p.miter) (hn : n < fuel)
    (htol : (k T / (3 * G + k T)) ^ n < p.rtol) {x y : State} {i : (Fin 6 → ℝ) × ℝ} (hx : x.T = T)
    (hf : eps ≤ √(2 / 3) * (s0 T + k T * x.h ()))
    (h : Computes (rateIndep q1Index el (isoFlow eps (linearIso s0 k)) lin p fuel inv) T x i y) :
    x.h () ≤ y.h () ∧ ∃ s a, Returns el eps (linearIso s0 k) x i.1 T s a ∧
      apart G Kb (k T) (y.s - s) (y.h () - a) ≤
        max 0 (excess (linearIso s0 k) T y.s (y.h ())) * (√(2 * G + 2 / 3 * k T) / (2 * G)) := by
  obtain ⟨inc, hu, hs, hh, -, -, -⟩ := h
  have hw : 0 ≤ √(2 * G + 2 / 3 * k T) / (2 * G) := by positivity
  rcases le_or_gt (excess (linearIso s0 k) T (trial' el x i.1 T) (x.h ())) 0 with h0 | h0
  · have hel : inc.s = trial' el x i.1 T ∧ inc.h = x.h := by
      unfold updateStep at hu
      simp only at hu
      rw [if_pos (by
        show (isoFlow eps (linearIso s0 k)).f (trial' el x i.1 T) (fun _ => x.h ()) T ≤ 0
        rw [iso_f]
        exact h0)] at hu
      have := Option.some.inj hu
      rw [← this]
      refine ⟨?_, rfl⟩
      show (fun j => (el.C T *ᵥ (i.1 - x.e)) j + x.s j) = _
      unfold trial'
      have h1 := (C36_iso_inverse G Kb hG hB).2
      rw [hx, hC, hS, show i.1 - (x.e - isoS G Kb *ᵥ x.s) = (i.1 - x.e) + isoS G Kb *ᵥ x.s by abel,
        mulVec_add, mulVec_mulVec, h1, one_mulVec]
      rfl
    refine ⟨by rw [hh, hel.2], trial' el x i.1 T, x.h (), Or.inl ⟨h0, rfl, rfl⟩, ?_⟩
    rw [hs, hh, hel.1, hel.2, sub_self, sub_self]
    have : apart G Kb (k T) 0 0 = 0 := by simp [apart, energy]
    rw [this]
    exact mul_nonneg (le_max_left _ _) hw
  · have hsh : shrink (linearIso s0 k) G (x.h ()) T = k T / (3 * G + k T) := by
      simp [shrink, linearIso]
    obtain ⟨inc', hu', hpos, -, hgr, hz⟩ := C183_converges (eps := eps) (t1 := i.2) (p := p) (fuel := fuel)
      he ha hl hv hG hC
      (C183_linear s0 k (x.h ()) T hk) (by simp only [linearIso]; ring_nf at hf ⊢; exact hf) h0 n hm hn
      (Or.inr (by rw [hsh]; exact htol))
    rw [hu] at hu'
    obtain rfl : inc = inc' := Option.some.inj hu'
    obtain ⟨z, ⟨hz0, hR⟩, -⟩ := C182_unique he hG hC (linear_tame hG hk hf)
      (by unfold excess at h0; linarith)
    obtain ⟨h1, d, hd, hds, hdh⟩ := hz z hz0 hR
    refine ⟨by rw [hh]; exact hgr, _, _, Or.inr ⟨h0, z, hz0, hR, rfl, rfl⟩, ?_⟩
    have hNp : 0 < norm2 (devVec (trial' el x i.1 T)) := by
      have := (linear_tame (s0 := s0) hG hk hf).floor (x.h ()) le_rfl
      unfold excess at h0
      linarith
    have htr : tr3 (dir (trial' el x i.1 T)) = 0 := by rw [dir, tr3_smul, tr3_devVec, mul_zero]
    rw [hs, hh, hds, show inc.h () - z (.inr (.inl ())) = -(√(2 / 3) * d) by linarith,
      apart_missing hG hB htr (dir_unit hNp) hd, max_eq_right hpos]
    rw [hds, norm2_unit (dir_unit hNp), abs_of_nonneg (by positivity)] at h1
    have h2 : d ≤ excess (linearIso s0 k) T inc.s (inc.h ()) / (2 * G) := by
      rw [le_div_iff₀ (by positivity)]
      linarith
    calc d * √(2 * G + 2 / 3 * k T) ≤ excess (linearIso s0 k) T inc.s (inc.h ()) / (2 * G) *
          √(2 * G + 2 / 3 * k T) := mul_le_mul_of_nonneg_right h2 (Real.sqrt_nonneg _)
      _ = _ := by ring

/-- C188: if no computed state is outside the surface by more than `τ`, the computed path differs from
the exact one by at most so much for each step as that excess is worth in elastic strain: errors of the
solver add up, they are not amplified. -/
theorem C188_plastic (he : 0 < eps) (ha : 0 < p.atol) (hl : ExactSolve lin) (hv : ExactInv inv)
    (hG : 0 < G) (hB : 0 < Kb) (hk : 0 ≤ k T)
    (hC : el.C T = isoC G Kb) (hS : el.S T = isoS G Kb) {n : ℕ} (hm : (n : Int) < p.miter) (hn : n < fuel)
    (htol : (k T / (3 * G + k T)) ^ n < p.rtol) {τ : ℝ} (hτ : 0 ≤ τ) (l : List ((Fin 6 → ℝ) × ℝ))
    {x y x' y' : State} (hx : x.T = T) (hy : y.T = T) (hxy : x.e = y.e)
    (hfx : eps ≤ √(2 / 3) * (s0 T + k T * x.h ())) (hfy : eps ≤ √(2 / 3) * (s0 T + k T * y.h ()))
    (h : Along (fun x i w =>
      Computes (rateIndep q1Index el (isoFlow eps (linearIso s0 k)) lin p fuel inv) T x i w ∧
        excess (linearIso s0 k) T w.s (w.h ()) ≤ τ) x l x')
    (h' : Along (PlasticStep el eps (linearIso s0 k) T) y l y') :
    apart G Kb (k T) (x'.s - y'.s) (x'.h () - y'.h ()) ≤
      apart G Kb (k T) (x.s - y.s) (x.h () - y.h ()) +
        l.length * (τ * (√(2 * G + 2 / 3 * k T) / (2 * G))) := by
  induction l generalizing x y with
  | nil =>
    rw [show x' = x from h, show y' = y from h']
    simp
  | cons i l ih =>
    obtain ⟨w, ⟨hw, hwτ⟩, h⟩ := h
    obtain ⟨w', hw', h'⟩ := h'
    obtain ⟨hgr, s, a, hr, herr⟩ := plastic_error he ha hl hv hG hB hk hC hS hm hn htol hx hfx hw
    have hgx := floor_mono hk hgr hfx
    have hgy := floor_mono hk (hw'.grows he hG hC (linear_tame hG hk hfy)) hfy
    obtain ⟨inc, -, -, -, hwe, hwT, -⟩ := hw
    have h1 := ih hwT hw'.2.2.1 (hwe.trans hw'.2.1.symm) hgx hgy h h'
    have h2 := apart_chain hG hB hk w.s s w'.s (w.h ()) a (w'.h ())
    have h3 : apart G Kb (k T) (s - w'.s) (a - w'.h ()) ≤
        apart G Kb (k T) (x.s - y.s) (x.h () - y.h ()) :=
      Real.sqrt_le_sqrt (C187_plastic he hG hB hk hC hS hx hy hxy hfx hfy hr hw'.1)
    have h4 : max 0 (excess (linearIso s0 k) T w.s (w.h ())) * (√(2 * G + 2 / 3 * k T) / (2 * G)) ≤
        τ * (√(2 * G + 2 / 3 * k T) / (2 * G)) :=
      mul_le_mul_of_nonneg_right (max_le hτ hwτ) (by positivity)
    rw [List.length_cons]
    push_cast
    linarith

section visco

variable {χ limit tiny : ℝ}
  {lin : Matrix (Fin (6 + 1)) (Fin (6 + 1)) ℝ → (Fin (6 + 1) → ℝ) → Option (Fin (6 + 1) → ℝ)}
  {p : Newton.Params} {fuel : Nat}
  {inv : Matrix (Fin 6 ⊕ Unit) (Fin 6 ⊕ Unit) ℝ → Option (Matrix (Fin 6 ⊕ Unit) (Fin 6 ⊕ Unit) ℝ)}

/-- One computed step of viscoplasticity beside the exact step from the same state. -/
theorem visco_error (he : 0 < eps) (ha : 0 < p.atol) (hl : ExactSolve lin) (hv : ExactInv inv)
    (hG : 0 < G) (hB : 0 < Kb) (hk : 0 ≤ k T) (hC : el.C T = isoC G Kb) (hfl : Flowing gf T)
    (hg : Gentle χ gf T) (hχ : 0 < χ) (hle : χ ≤ 1) (htiny : 0 < tiny) (hlim0 : 0 ≤ limit)
    {n : ℕ} (hm : (n : Int) < p.miter) (hn : n < fuel) (htol : (1 - χ) ^ n < p.rtol) {x y : State}
    {i : (Fin 6 → ℝ) × ℝ} (hf : eps ≤ √(2 / 3) * (s0 T + k T * x.h ())) (hdt : tiny ≤ i.2 - x.t)
    (hN : 0 < norm2 (devVec (trial el x i.1 T)))
    (hlim : rate gf T (excess (linearIso s0 k) T (trial el x i.1 T) (x.h ())) ≤ limit)
    (h : Computes (viscoPlastic q1Index el (isoPerzyna eps (linearIso s0 k) gf) limit tiny lin p fuel inv)
      T x i y) :
    x.h () ≤ y.h () ∧ ∃ z : Fin 6 ⊕ Unit → ℝ,
      giR (tvp el (isoPerzyna eps (linearIso s0 k) gf)) (giTrial x i.1 T i.2) z = 0 ∧
      apart G Kb (k T) (y.s - fun i => z (.inl i)) (y.h () - z (.inr ())) ≤
        max p.atol (p.rtol * ((i.2 - x.t) *
          rate gf T (excess (linearIso s0 k) T (trial el x i.1 T) (x.h ())) * weight G)) *
          (√(2 * G + 2 / 3 * k T) / (2 * G)) := by
  obtain ⟨inc, hu, hs, hh, -, -, -⟩ := h
  have hw : 0 ≤ √(2 * G + 2 / 3 * k T) / (2 * G) := by positivity
  have hdt0 : 0 < i.2 - x.t := htiny.trans_le hdt
  have ht := linear_tame (s0 := s0) hG hk hf
  obtain ⟨z, hz, -⟩ := C184_unique (x := x) (e1 := i.1) (t1 := i.2) he hG hdt0 hC hfl ht
  rcases le_or_gt (excess (linearIso s0 k) T (trial el x i.1 T) (x.h ())) 0 with h0 | h0
  · obtain ⟨inc', hu', hs', hh'⟩ := C185_elastic (eps := eps) (gf := gf) (lin := lin) (inv := inv)
      (t1 := i.2) (p := p) (fuel := fuel) ha
      (by omega) (by omega) hl hv hC htiny hdt hlim0 hN h0
    rw [hu] at hu'
    obtain rfl : inc = inc' := Option.some.inj hu'
    obtain ⟨h1, h2⟩ := (C184_flow he hG hdt0 hC hfl ht hz).1 h0
    refine ⟨by rw [hh, hh'], z, hz, ?_⟩
    rw [hs, hh, hs', hh', h1, h2, sub_self, sub_self]
    have : apart G Kb (k T) 0 0 = 0 := by simp [apart, energy]
    rw [this]
    exact mul_nonneg (ha.le.trans (le_max_left _ _)) hw
  · rw [rate_of_pos h0] at hlim ⊢
    obtain ⟨inc', hu', hgr, hall⟩ := C185_converges (lin := lin) (inv := inv) (eps := eps) (t1 := i.2) (p := p)
      (fuel := fuel) (r := linearIso s0 k) (x := x) (e1 := i.1) he ha hl hv hG hC htiny hdt
      (C183_linear s0 k (x.h ()) T hk) (by simp only [linearIso]; ring_nf at hf ⊢; exact hf)
      hfl hg (C185_linear s0 k G (x.h ()) T) hχ one_pos (by rw [one_mul]; exact hle) h0 hlim n hm hn
      (by rw [one_mul]; exact htol)
    rw [hu] at hu'
    obtain rfl : inc = inc' := Option.some.inj hu'
    obtain ⟨h1, -, d, hd, hds, hdh⟩ := hall z hz
    refine ⟨by rw [hh]; exact hgr, z, hz, ?_⟩
    have htr : tr3 (dir (trial el x i.1 T)) = 0 := by rw [dir, tr3_smul, tr3_devVec, mul_zero]
    rw [hs, hh, hds, show inc.h () - z (.inr ()) = -(√(2 / 3) * d) by linarith,
      apart_missing hG hB htr (dir_unit hN) hd]
    rw [hds, norm2_unit (dir_unit hN), abs_of_nonneg (by positivity)] at h1
    have h2 := (le_div_iff₀ (show 0 < 2 * G by positivity)).mpr ((mul_comm d (2 * G)).trans_le h1)
    refine (mul_le_mul_of_nonneg_right h2 (Real.sqrt_nonneg _)).trans_eq ?_
    ring

/-- A computed step of viscoplasticity that is no shorter than the smallest step, starts within the limit
of the strain rate, and whose tolerance, as a stress, is at most `τ`. -/
def ViscoComputes (el : Elastic ℝ (Fin 6)) (eps : ℝ) (r : Iso) (gf : GFlow) (G limit tiny : ℝ)
    (lin : Matrix (Fin (6 + 1)) (Fin (6 + 1)) ℝ → (Fin (6 + 1) → ℝ) → Option (Fin (6 + 1) → ℝ))
    (p : Newton.Params) (fuel : Nat)
    (inv : Matrix (Fin 6 ⊕ Unit) (Fin 6 ⊕ Unit) ℝ → Option (Matrix (Fin 6 ⊕ Unit) (Fin 6 ⊕ Unit) ℝ))
    (T τ : ℝ) (x : State) (i : (Fin 6 → ℝ) × ℝ) (y : State) : Prop :=
  Computes (viscoPlastic q1Index el (isoPerzyna eps r gf) limit tiny lin p fuel inv) T x i y ∧
  tiny ≤ i.2 - x.t ∧ 0 < norm2 (devVec (trial el x i.1 T)) ∧
  rate gf T (excess r T (trial el x i.1 T) (x.h ())) ≤ limit ∧
  max p.atol (p.rtol * ((i.2 - x.t) * rate gf T (excess r T (trial el x i.1 T) (x.h ())) * weight G)) ≤ τ

/-- C188: the same of viscoplasticity, with the tolerance of the solver in the place of the excess. -/
theorem C188_visco (he : 0 < eps) (ha : 0 < p.atol) (hl : ExactSolve lin) (hv : ExactInv inv)
    (hG : 0 < G) (hB : 0 < Kb) (hk : 0 ≤ k T) (hC : el.C T = isoC G Kb) (hfl : Flowing gf T)
    (hg : Gentle χ gf T) (hχ : 0 < χ) (hle : χ ≤ 1) (htiny : 0 < tiny) (hlim0 : 0 ≤ limit)
    {n : ℕ} (hm : (n : Int) < p.miter) (hn : n < fuel) (htol : (1 - χ) ^ n < p.rtol) {τ : ℝ}
    (l : List ((Fin 6 → ℝ) × ℝ)) {x y x' y' : State} (hxy : x.e = y.e) (ht : x.t = y.t)
    (hfx : eps ≤ √(2 / 3) * (s0 T + k T * x.h ())) (hfy : eps ≤ √(2 / 3) * (s0 T + k T * y.h ()))
    (h : Along (ViscoComputes el eps (linearIso s0 k) gf G limit tiny lin p fuel inv T τ) x l x')
    (h' : Along (ViscoStep el eps (linearIso s0 k) gf T) y l y') :
    apart G Kb (k T) (x'.s - y'.s) (x'.h () - y'.h ()) ≤
      apart G Kb (k T) (x.s - y.s) (x.h () - y.h ()) +
        l.length * (τ * (√(2 * G + 2 / 3 * k T) / (2 * G))) := by
  induction l generalizing x y with
  | nil =>
    rw [show x' = x from h, show y' = y from h']
    simp
  | cons i l ih =>
    obtain ⟨w, ⟨hw, hdt, hN, hlim, hwτ⟩, h⟩ := h
    obtain ⟨w', hw', h'⟩ := h'
    obtain ⟨hgr, z, hz, herr⟩ := visco_error he ha hl hv hG hB hk hC hfl hg hχ hle htiny hlim0 hm hn htol hfx
      hdt hN hlim hw
    have hgx := floor_mono hk hgr hfx
    have hgy := floor_mono hk (hw'.grows he hG hC hfl (linear_tame hG hk hfy)) hfy
    obtain ⟨inc, -, -, -, hwe, hwT, hwt⟩ := hw
    have h1 := ih (hwe.trans hw'.2.2.1.symm) (hwt.trans hw'.2.2.2.2.symm) hgx hgy h h'
    have h2 := apart_chain hG hB hk w.s (fun i => z (.inl i)) w'.s (w.h ()) (z (.inr ())) (w'.h ())
    have h3 : apart G Kb (k T) ((fun i => z (.inl i)) - w'.s) (z (.inr ()) - w'.h ()) ≤
        apart G Kb (k T) (x.s - y.s) (x.h () - y.h ()) :=
      Real.sqrt_le_sqrt (C187_visco he hG hB hk hC hxy hfl (htiny.trans_le hdt) ht hfx hfy hz hw'.2.1)
    have h4 := mul_le_mul_of_nonneg_right hwτ (show 0 ≤ √(2 * G + 2 / 3 * k T) / (2 * G) by positivity)
    rw [List.length_cons]
    push_cast
    linarith

end visco

end histories

/-! ## The solver is never at a loss -/

section runs

variable {el : Elastic ℝ (Fin 6)} {eps : ℝ} {r : Iso}
  {lin : Matrix (Fin (6 + (1 + 1))) (Fin (6 + (1 + 1))) ℝ → (Fin (6 + (1 + 1)) → ℝ) →
    Option (Fin (6 + (1 + 1)) → ℝ)} {fuel : Nat}
  {inv : Matrix (RIx (Fin 6) Unit) (RIx (Fin 6) Unit) ℝ → Option (Matrix (RIx (Fin 6) Unit) (RIx (Fin 6) Unit) ℝ)}

/-- A step the code computes to a strain, temperature and time. -/
def Steps {P τ : Type} [Fintype P] [DecidableEq P] (m : Integrator ℝ (Fin 6) (Unit → ℝ) P τ)
    (x : State) (i : (Fin 6 → ℝ) × ℝ × ℝ) (y : State) : Prop :=
  ∃ inc, updateStep m x i.1 i.2.1 i.2.2 = some inc ∧ y.s = inc.s ∧ y.h = inc.h ∧ y.e = i.1 ∧
    y.T = i.2.1 ∧ y.t = i.2.2

theorem Concave.later {a b T : ℝ} (h : Concave r a T) (hab : a ≤ b) : Concave r b T :=
  ⟨fun c hc => h.rise c (hab.trans hc), fun c d hc hd => h.below c d (hab.trans hc) (hab.trans hd)⟩

theorem half27 : (1 / 2 : ℝ) ^ 27 < 1e-8 := by norm_num

/-- C188: with the settings of the code, hardening that never gets steeper and starts no steeper than
three shear moduli is integrated along every history of strain, temperature and time without failing,
and the hardening variable never decreases. -/
theorem C188_runs (he : 0 < eps) {atol : ℝ} (ha : 0 < atol) {ls : Bool} (hfuel : 27 < fuel)
    (hl : ExactSolve lin) (hv : ExactInv inv) {G Kb : ℝ → ℝ} {a0 : ℝ} (hG : ∀ T, 0 < G T)
    (hC : ∀ T, el.C T = isoC (G T) (Kb T)) (hc : ∀ T, Concave r a0 T)
    (hf : ∀ T, eps ≤ √(2 / 3) * (-r.q a0 T)) (hs : ∀ T, -r.dq a0 T ≤ 3 * G T)
    (l : List ((Fin 6 → ℝ) × ℝ × ℝ)) (x : State) (hx : a0 ≤ x.h ()) :
    ∃ x', Along (Steps (rateIndep q1Index el (isoFlow eps r) lin ⟨1e-8, atol, 50, ls⟩ fuel inv)) x l x' ∧
      x.h () ≤ x'.h () := by
  induction l generalizing x with
  | nil => exact ⟨x, rfl, le_rfl⟩
  | cons i l ih =>
    obtain ⟨inc, hu, hgr⟩ : ∃ inc, updateStep (rateIndep q1Index el (isoFlow eps r) lin
        ⟨1e-8, atol, 50, ls⟩ fuel inv) x i.1 i.2.1 i.2.2 = some inc ∧ x.h () ≤ inc.h () := by
      rcases le_or_gt (excess r i.2.1 (trial' el x i.1 i.2.1) (x.h ())) 0 with h0 | h0
      · unfold updateStep
        simp only
        rw [if_pos (by
          show (isoFlow eps r).f (trial' el x i.1 i.2.1) (fun _ => x.h ()) i.2.1 ≤ 0
          rw [iso_f]
          exact h0)]
        exact ⟨_, rfl, le_rfl⟩
      · have hcx := (hc i.2.1).later hx
        have hsl : -r.dq (x.h ()) i.2.1 ≤ 3 * G i.2.1 :=
          ((hc i.2.1).slopes le_rfl hx).trans (hs i.2.1)
        have hsh : shrink r (G i.2.1) (x.h ()) i.2.1 ≤ 1 / 2 := by
          have h1 := hcx.rise _ le_rfl
          have h2 := hG i.2.1
          unfold shrink
          rw [div_le_iff₀ (by linarith)]
          linarith
        obtain ⟨inc, h1, -, -, h2, -⟩ := C183_converges (eps := eps) (t1 := i.2.2) (fuel := fuel)
          (p := ⟨1e-8, atol, 50, ls⟩) he ha hl hv (hG i.2.1) (hC i.2.1) hcx
          ((hf i.2.1).trans (mul_le_mul_of_nonneg_left ((hc i.2.1).mono le_rfl hx) (Real.sqrt_nonneg _)))
          h0 27 (by norm_num) hfuel
          (Or.inr ((pow_le_pow_left₀ (shrink_nonneg hcx (hG i.2.1)) hsh 27).trans_lt half27))
        exact ⟨inc, h1, h2⟩
    obtain ⟨x', h1, h2⟩ := ih ⟨i.1, i.2.1, i.2.2, inc.s, inc.h, 0, 0⟩ (hx.trans hgr)
    exact ⟨x', ⟨_, ⟨inc, hu, rfl, rfl, rfl, rfl, rfl⟩, h1⟩, hgr.trans h2⟩

/-- Voce hardening that starts as steep as allowed. -/
example (l : List ((Fin 6 → ℝ) × ℝ × ℝ)) :
    ∃ x', Along (Steps (rateIndep q1Index (isoElastic (1 / 2) 1)
      (isoFlow 1 (voceIso (fun _ => √(3 / 2)) (fun _ => 1) (fun _ => 3 / 2))) exactLin
      ⟨1e-8, 1e-8, 50, true⟩ 28 exactInv)) ⟨0, 0, 0, 0, 0, 0, 0⟩ l x' := by
  obtain ⟨x', h, -⟩ := C188_runs (eps := 1) (el := isoElastic (1 / 2) 1) (fuel := 28) (atol := 1e-8)
    (ls := true) (G := fun _ => 1 / 2) (Kb := fun _ => 1) (a0 := 0)
    (r := voceIso (fun _ => √(3 / 2)) (fun _ => 1) (fun _ => 3 / 2))
    one_pos (by norm_num) (by norm_num) exactLin_exact exactInv_exact (fun _ => by norm_num)
    (fun _ => rfl) (fun T => C183_voce _ _ _ _ T zero_le_one (by norm_num))
    (fun T => by
      have : -(voceIso (fun _ => √(3 / 2)) (fun _ => 1) (fun _ => 3 / 2)).q 0 T = √(3 / 2) := by
        simp [voceIso]
      rw [this, sqrt_cancel])
    (fun T => by simp [voceIso]; norm_num) l ⟨0, 0, 0, 0, 0, 0, 0⟩ le_rfl
  exact ⟨x', h⟩

end runs

/-! ## Histories that meet the conditions of C187 and C188 -/

/-- Two exact paths from two hardened states, and the distance between them. -/
example (l : List ((Fin 6 → ℝ) × ℝ)) : ∃ x' y',
    Along (PlasticStep (isoElastic (1 / 2) 1) 1 (linearIso (fun _ => √(3 / 2)) (fun _ => 1)) 0)
      ⟨0, 0, 0, 0, fun _ => 0, 0, 0⟩ l x' ∧
    Along (PlasticStep (isoElastic (1 / 2) 1) 1 (linearIso (fun _ => √(3 / 2)) (fun _ => 1)) 0)
      ⟨0, 0, 0, 0, fun _ => 1, 0, 0⟩ l y' ∧
    energy (1 / 2) 1 1 (x'.s - y'.s) (x'.h () - y'.h ()) ≤ energy (1 / 2) 1 1 0 (-1) := by
  have hf0 : (1 : ℝ) ≤ √(2 / 3) * (√(3 / 2) + 1 * 0) := by rw [mul_zero, add_zero, sqrt_cancel]
  have hf1 : (1 : ℝ) ≤ √(2 / 3) * (√(3 / 2) + 1 * 1) := floor_mono zero_le_one zero_le_one hf0
  obtain ⟨x', hx, -⟩ := C187_plastic_path (el := isoElastic (1 / 2) 1) (G := 1 / 2) (Kb := 1) (eps := 1)
    (T := 0) (s0 := fun _ => √(3 / 2)) (k := fun _ => 1) (x := ⟨0, 0, 0, 0, fun _ => 0, 0, 0⟩)
    one_pos (by norm_num) zero_le_one rfl l hf0
  obtain ⟨y', hy, -⟩ := C187_plastic_path (el := isoElastic (1 / 2) 1) (G := 1 / 2) (Kb := 1) (eps := 1)
    (T := 0) (s0 := fun _ => √(3 / 2)) (k := fun _ => 1) (x := ⟨0, 0, 0, 0, fun _ => 1, 0, 0⟩)
    one_pos (by norm_num) zero_le_one rfl l hf1
  have := C187_plastic_history (el := isoElastic (1 / 2) 1) (eps := 1) (T := 0)
    (s0 := fun _ => √(3 / 2)) (k := fun _ => 1) (x := ⟨0, 0, 0, 0, fun _ => 0, 0, 0⟩)
    (y := ⟨0, 0, 0, 0, fun _ => 1, 0, 0⟩) (G := 1 / 2) (Kb := 1) one_pos (by norm_num) one_pos zero_le_one rfl rfl l
    rfl rfl rfl hf0 hf1 hx hy
  refine ⟨x', y', hx, hy, ?_⟩
  simpa using this

/-- A computed step and an exact one. -/
example (e : Fin 6 → ℝ) : ∃ x' y' τ, 0 ≤ τ ∧
    Along (fun x i w => Computes (rateIndep q1Index (isoElastic (1 / 2) 1)
      (isoFlow 1 (linearIso (fun _ => √(3 / 2)) (fun _ => 1))) exactLin ⟨1e-8, 1e-8, 50, true⟩ 28 exactInv) 0
        x i w ∧ excess (linearIso (fun _ => √(3 / 2)) (fun _ => 1)) 0 w.s (w.h ()) ≤ τ)
      ⟨0, 0, 0, 0, 0, 0, 0⟩ [(e, 1)] x' ∧
    Along (PlasticStep (isoElastic (1 / 2) 1) 1 (linearIso (fun _ => √(3 / 2)) (fun _ => 1)) 0)
      ⟨0, 0, 0, 0, 0, 0, 0⟩ [(e, 1)] y' ∧
    apart (1 / 2) 1 1 (x'.s - y'.s) (x'.h () - y'.h ()) ≤ τ * √(2 * (1 / 2) + 2 / 3 * 1) := by
  have hf0 : (1 : ℝ) ≤ √(2 / 3) * (√(3 / 2) + 1 * 0) := by rw [mul_zero, add_zero, sqrt_cancel]
  obtain ⟨x', ⟨w, ⟨inc, h1, h2, h3, h4, h5, h6⟩, rfl⟩, -⟩ := C188_runs (eps := 1)
    (el := isoElastic (1 / 2) 1) (fuel := 28) (atol := 1e-8)
    (ls := true) (G := fun _ => 1 / 2) (Kb := fun _ => 1) (a0 := 0)
    (r := linearIso (fun _ => √(3 / 2)) (fun _ => 1))
    one_pos (by norm_num) (by norm_num) exactLin_exact exactInv_exact (fun _ => by norm_num)
    (fun _ => rfl) (fun T => C183_linear _ _ _ T zero_le_one)
    (fun T => by
      have : -(linearIso (fun _ => √(3 / 2)) (fun _ => 1)).q 0 T = √(3 / 2) := by simp [linearIso]
      rw [this, sqrt_cancel])
    (fun T => by simp [linearIso]; norm_num) [(e, 0, 1)] ⟨0, 0, 0, 0, 0, 0, 0⟩ le_rfl
  obtain ⟨y', hy, -⟩ := C187_plastic_path (el := isoElastic (1 / 2) 1) (G := 1 / 2) (Kb := 1) (eps := 1)
    (T := 0) (s0 := fun _ => √(3 / 2)) (k := fun _ => 1) (x := ⟨0, 0, 0, 0, 0, 0, 0⟩)
    one_pos (by norm_num) zero_le_one rfl [(e, 1)] hf0
  have hA : Along (fun x i w => Computes (rateIndep q1Index (isoElastic (1 / 2) 1)
      (isoFlow 1 (linearIso (fun _ => √(3 / 2)) (fun _ => 1))) exactLin ⟨1e-8, 1e-8, 50, true⟩ 28 exactInv) 0
        x i w ∧ excess (linearIso (fun _ => √(3 / 2)) (fun _ => 1)) 0 w.s (w.h ()) ≤
          max 0 (excess (linearIso (fun _ => √(3 / 2)) (fun _ => 1)) 0 x'.s (x'.h ())))
      ⟨0, 0, 0, 0, 0, 0, 0⟩ [(e, 1)] x' :=
    ⟨x', ⟨⟨inc, h1, h2, h3, h4, h5, h6⟩, le_max_right _ _⟩, rfl⟩
  refine ⟨x', y', _, le_max_left _ _, hA, hy, ?_⟩
  have := C188_plastic (el := isoElastic (1 / 2) 1) (eps := 1) (T := 0)
    (s0 := fun _ => √(3 / 2)) (k := fun _ => 1) (x := ⟨0, 0, 0, 0, 0, 0, 0⟩)
    (y := ⟨0, 0, 0, 0, 0, 0, 0⟩) (lin := exactLin) (inv := exactInv) (p := ⟨1e-8, 1e-8, 50, true⟩)
    (fuel := 28) (G := 1 / 2) (Kb := 1) (n := 27) one_pos (by norm_num) exactLin_exact exactInv_exact
    (by norm_num) one_pos zero_le_one rfl rfl (by norm_num) (by norm_num) (by norm_num) (le_max_left _ _)
    [(e, 1)] rfl rfl rfl hf0 hf0 hA hy
  have h0 : apart (1 / 2) 1 1 0 0 = 0 := by simp [apart, energy]
  simp only [sub_self, List.length_singleton, Nat.cast_one, one_mul] at this
  rw [h0, zero_add, show (2 : ℝ) * (1 / 2) = 1 by norm_num, div_one] at this
  rwa [show (2 : ℝ) * (1 / 2) = 1 by norm_num]

/-- A step of viscoplasticity in shear. -/
example : ∃ x' τ, Along (ViscoComputes (isoElastic (1 / 2) 1) 1
    (linearIso (fun _ => √(3 / 2)) (fun _ => 1)) (gPowerLaw (fun _ => 3) (fun _ => 1)) (1 / 2) 1e10 1e-15
    exactLin ⟨1e-8, 1e-8, 50, false⟩ 50 exactInv 0 τ) ⟨0, 0, 0, 0, 0, 0, 0⟩ [((4 : ℝ) • shear, 1)] x' := by
  obtain ⟨inc, h⟩ := Option.isSome_iff_exists.mp shear_step
  refine ⟨⟨(4 : ℝ) • shear, 0, 1, inc.s, inc.h, 0, 0⟩, _, _, ⟨⟨inc, h, rfl, rfl, rfl, rfl, rfl⟩,
    by norm_num, ?_, ?_, le_rfl⟩, rfl⟩
  · rw [trial_shear, devVec_shear, norm2_unit shear_unit]; norm_num
  · rw [trial_shear]
    show rate _ 0 (excess (linearIso (fun _ => √(3 / 2)) (fun _ => 1)) 0 ((4 : ℝ) • shear) 0) ≤ 1e10
    rw [excess_shear, rate_of_pos (by norm_num)]
    simp only [gPowerLaw]
    norm_num

end Neml.SolveStep
