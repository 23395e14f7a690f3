import Verif.Props.PlasticWork

/-!
# C180: J2 plasticity with linear hardening returns to the surface in one iteration
-/

namespace Neml.SolveStep

open Matrix Neml.SmallStrain Neml.Flow Neml.Mandel Neml.Elastic

/-! ## Action of the Jacobian of rate independent plasticity -/

theorem riJ_mulVec {κ : Type} [Fintype κ] [DecidableEq κ] (fl : RIFlow ℝ (Fin 6) κ)
    (ts : RITrial ℝ (Fin 6) κ) (s : Fin 6 → ℝ) (a : κ → ℝ) (dg : ℝ) (v : Fin 6 → ℝ) (b : κ → ℝ)
    (l : ℝ) :
    riJ fl ts (Sum.elim s (Sum.elim a fun _ => dg)) *ᵥ (Sum.elim v (Sum.elim b fun _ => l)) =
      Sum.elim
        (v + dg • (ts.C *ᵥ (fl.dg_ds s a ts.T *ᵥ v + fl.dg_da s a ts.T *ᵥ b)) +
          l • (ts.C *ᵥ fl.g s a ts.T))
        (Sum.elim
          (b - dg • (fl.dh_ds s a ts.T *ᵥ v + fl.dh_da s a ts.T *ᵥ b) - l • fl.h s a ts.T)
          (fun _ => fl.df_ds s a ts.T ⬝ᵥ v + fl.df_da s a ts.T ⬝ᵥ b)) := by
  ext r
  rcases r with i | i | r
  · have h1 : ∑ j, ((ts.C * fl.dg_ds s a ts.T) i j * dg + if i = j then 1 else 0) * v j =
        v i + dg * (ts.C *ᵥ (fl.dg_ds s a ts.T *ᵥ v)) i := by
      have : ∑ j, ((ts.C * fl.dg_ds s a ts.T) i j * dg + if i = j then 1 else 0) * v j =
          ((dg • (ts.C * fl.dg_ds s a ts.T) + 1) *ᵥ v) i := by
        simp only [mulVec, dotProduct]
        refine Finset.sum_congr rfl fun j _ => ?_
        simp only [Matrix.add_apply, Matrix.smul_apply, smul_eq_mul, Matrix.one_apply]
        ring
      rw [this, Matrix.add_mulVec, Matrix.smul_mulVec, Matrix.one_mulVec, mulVec_mulVec]
      simp only [Pi.add_apply, Pi.smul_apply, smul_eq_mul]
      ring
    have h2 : ∑ j, ((ts.C * fl.dg_da s a ts.T) i j * dg) * b j =
        dg * (ts.C *ᵥ (fl.dg_da s a ts.T *ᵥ b)) i := by
      rw [mulVec_mulVec]
      simp only [mulVec, dotProduct, Finset.mul_sum]
      exact Finset.sum_congr rfl fun j _ => by ring
    show ∑ r, _ = _
    rw [Fintype.sum_sum_type, Fintype.sum_sum_type]
    show ∑ j, ((ts.C * fl.dg_ds s a ts.T) i j * dg + if i = j then 1 else 0) * v j +
      (∑ j, ((ts.C * fl.dg_da s a ts.T) i j * dg) * b j + ∑ _ : Unit, (ts.C *ᵥ fl.g s a ts.T) i * l) = _
    rw [h1, h2, mulVec_add]
    simp only [Finset.univ_unique, Finset.sum_singleton, Sum.elim_inl, Pi.add_apply, Pi.smul_apply,
      smul_eq_mul]
    ring
  · have h1 : ∑ j, (-(fl.dh_ds s a ts.T i j * dg)) * v j = -(dg * (fl.dh_ds s a ts.T *ᵥ v) i) := by
      simp only [mulVec, dotProduct, Finset.mul_sum, ← Finset.sum_neg_distrib]
      exact Finset.sum_congr rfl fun j _ => by ring
    have h2 : ∑ j, (-(fl.dh_da s a ts.T i j * dg - if i = j then 1 else 0)) * b j =
        b i - dg * (fl.dh_da s a ts.T *ᵥ b) i := by
      have : ∑ j, (-(fl.dh_da s a ts.T i j * dg - if i = j then 1 else 0)) * b j =
          ((1 - dg • fl.dh_da s a ts.T) *ᵥ b) i := by
        simp only [mulVec, dotProduct]
        refine Finset.sum_congr rfl fun j _ => ?_
        simp only [Matrix.sub_apply, Matrix.smul_apply, smul_eq_mul, Matrix.one_apply]
        ring
      rw [this, Matrix.sub_mulVec, Matrix.smul_mulVec, Matrix.one_mulVec]
      simp
    show ∑ r, _ = _
    rw [Fintype.sum_sum_type, Fintype.sum_sum_type]
    show ∑ j, (-(fl.dh_ds s a ts.T i j * dg)) * v j +
      (∑ j, (-(fl.dh_da s a ts.T i j * dg - if i = j then 1 else 0)) * b j +
        ∑ _ : Unit, (-fl.h s a ts.T i) * l) = _
    rw [h1, h2]
    simp only [Finset.univ_unique, Finset.sum_singleton, Sum.elim_inl, Sum.elim_inr, Pi.add_apply,
      Pi.sub_apply, Pi.smul_apply, smul_eq_mul]
    ring
  · show ∑ r, _ = _
    rw [Fintype.sum_sum_type, Fintype.sum_sum_type]
    show ∑ j, fl.df_ds s a ts.T j * v j + (∑ j, fl.df_da s a ts.T j * b j + ∑ _ : Unit, 0 * l) = _
    simp [dotProduct]

/-! ## The flow rule -/

section flow

variable {eps : ℝ} {s0 Ki H : ℝ → ℝ}

/-- Deviator of the stress less the backstress `H b`. -/
noncomputable def eff (h : ℝ) (s b : Fin 6 → ℝ) : Fin 6 → ℝ := devVec s - h • b

theorem shifted_lin (s : Fin 6 → ℝ) (al : ℝ) (b : Fin 6 → ℝ) (T : ℝ) :
    shifted s ((combinedHardening (linearIso s0 Ki) (linearKin H)).q
      (Sum.elim (fun _ => al) b) T) = eff (H T) s b := by
  ext i
  simp [shifted, combinedHardening, linearKin, eff]
  ring

theorem lin_f (s : Fin 6 → ℝ) (al : ℝ) (b : Fin 6 → ℝ) (T : ℝ) :
    (linearFlow eps s0 Ki H).f s (Sum.elim (fun _ => al) b) T =
      norm2 (eff (H T) s b) - √(2 / 3) * (s0 T + Ki T * al) := by
  show norm2 (shifted s _) + √(2 / 3) * (-s0 T - Ki T * al) = _
  rw [shifted_lin]
  ring

theorem lin_g (s : Fin 6 → ℝ) (al : ℝ) (b : Fin 6 → ℝ) (T : ℝ) :
    (linearFlow eps s0 Ki H).g s (Sum.elim (fun _ => al) b) T = normalize eps (eff (H T) s b) := by
  show normalize eps (shifted s _) = _
  rw [shifted_lin]

theorem lin_df_ds (s : Fin 6 → ℝ) (al : ℝ) (b : Fin 6 → ℝ) (T : ℝ) :
    (linearFlow eps s0 Ki H).df_ds s (Sum.elim (fun _ => al) b) T = normalize eps (eff (H T) s b) := by
  show normalize eps (shifted s _) = _
  rw [shifted_lin]

theorem lin_h (s : Fin 6 → ℝ) (al : ℝ) (b : Fin 6 → ℝ) (T : ℝ) :
    (linearFlow eps s0 Ki H).h s (Sum.elim (fun _ => al) b) T =
      Sum.elim (fun _ => √(2 / 3)) (normalize eps (eff (H T) s b)) := by
  show Sum.elim (fun _ => √(2 / 3)) (normalize eps (shifted s _)) = _
  rw [shifted_lin]

/-- The derivative of the hardening variables, applied. -/
theorem lin_dq (a : Q7 → ℝ) (T : ℝ) (al : ℝ) (b : Fin 6 → ℝ) :
    (combinedHardening (linearIso s0 Ki) (linearKin H)).dq_da a T *ᵥ (Sum.elim (fun _ => al) b) =
      Sum.elim (fun _ => -Ki T * al) (-H T • b) := by
  show fromBlocks _ _ _ _ *ᵥ _ = _
  rw [fromBlocks_mulVec]
  ext r
  rcases r with r | i
  · simp [linearIso, mulVec, dotProduct]
  · simp [linearKin, mulVec, dotProduct]

theorem lin_dqT (a : Q7 → ℝ) (T : ℝ) (al : ℝ) (b : Fin 6 → ℝ) :
    ((combinedHardening (linearIso s0 Ki) (linearKin H)).dq_da a T)ᵀ *ᵥ
      (Sum.elim (fun _ => al) b) = Sum.elim (fun _ => -Ki T * al) (-H T • b) := by
  show (fromBlocks _ _ _ _)ᵀ *ᵥ _ = _
  rw [fromBlocks_transpose, fromBlocks_mulVec]
  ext r
  rcases r with r | i
  · simp [linearIso, mulVec, dotProduct]
  · simp [linearKin, mulVec, dotProduct]

theorem lin_df_da (s : Fin 6 → ℝ) (al : ℝ) (b : Fin 6 → ℝ) (T : ℝ) :
    (linearFlow eps s0 Ki H).df_da s (Sum.elim (fun _ => al) b) T =
      Sum.elim (fun _ => -Ki T * √(2 / 3)) (-H T • normalize eps (eff (H T) s b)) := by
  show ((combinedHardening (linearIso s0 Ki) (linearKin H)).dq_da _ T)ᵀ *ᵥ
    Sum.elim (fun _ : Unit => √(2 / 3)) (normalize eps (shifted s _)) = _
  rw [lin_dqT, shifted_lin]

theorem one_sub_outer (m v : Fin 6 → ℝ) (c : ℝ) :
    (c • (1 - vecMulVec m m)) *ᵥ v = c • (v - (m ⬝ᵥ v) • m) := by
  rw [Matrix.smul_mulVec, Matrix.sub_mulVec, Matrix.one_mulVec]
  congr 2
  ext i
  simp [mulVec, dotProduct, vecMulVec_apply, Finset.mul_sum, mul_comm, mul_assoc, mul_left_comm]

variable {s : Fin 6 → ℝ} {al : ℝ} {b : Fin 6 → ℝ} {T : ℝ}

theorem lin_dg_ds (hN : 0 < norm2 (eff (H T) s b)) (v : Fin 6 → ℝ) :
    (linearFlow eps s0 Ki H).dg_ds s (Sum.elim (fun _ => al) b) T *ᵥ v =
      (1 / norm2 (eff (H T) s b)) • (devProj *ᵥ v -
        (normalize eps (eff (H T) s b) ⬝ᵥ v) • normalize eps (eff (H T) s b)) := by
  show (if norm2 (shifted s _) > 0 then (1 / norm2 (shifted s _)) • (devProj -
    vecMulVec (normalize eps (shifted s _)) (normalize eps (shifted s _))) else 0) *ᵥ v = _
  rw [shifted_lin, if_pos hN, Q_mulVec]

theorem lin_dg_da (hN : 0 < norm2 (eff (H T) s b)) (al' : ℝ) (b' : Fin 6 → ℝ) :
    (linearFlow eps s0 Ki H).dg_da s (Sum.elim (fun _ => al) b) T *ᵥ (Sum.elim (fun _ => al') b') =
      (-H T / norm2 (eff (H T) s b)) • (b' -
        (normalize eps (eff (H T) s b) ⬝ᵥ b') • normalize eps (eff (H T) s b)) := by
  show ((if norm2 (shifted s _) > 0 then fromCols 0 ((1 / norm2 (shifted s _)) • (1 -
    vecMulVec (normalize eps (shifted s _)) (normalize eps (shifted s _)))) else 0) * _) *ᵥ _ = _
  rw [shifted_lin, if_pos hN, ← mulVec_mulVec, lin_dq, fromCols_mulVec]
  simp only [Sum.elim_comp_inl, Sum.elim_comp_inr, zero_mulVec, zero_add]
  rw [one_sub_outer, dotProduct_smul]
  ext i
  simp only [Pi.smul_apply, Pi.sub_apply, smul_eq_mul]
  ring

theorem lin_dh_ds (hN : 0 < norm2 (eff (H T) s b)) (v : Fin 6 → ℝ) :
    (linearFlow eps s0 Ki H).dh_ds s (Sum.elim (fun _ => al) b) T *ᵥ v =
      Sum.elim (fun _ => 0) ((1 / norm2 (eff (H T) s b)) • (devProj *ᵥ v -
        (normalize eps (eff (H T) s b) ⬝ᵥ v) • normalize eps (eff (H T) s b))) := by
  show (fromRows 0 (if norm2 (shifted s _) > 0 then (1 / norm2 (shifted s _)) • (devProj -
    vecMulVec (normalize eps (shifted s _)) (normalize eps (shifted s _))) else 0)) *ᵥ v = _
  rw [shifted_lin, if_pos hN, fromRows_mulVec, Q_mulVec, zero_mulVec]
  rfl

theorem lin_dh_da (hN : 0 < norm2 (eff (H T) s b)) (al' : ℝ) (b' : Fin 6 → ℝ) :
    (linearFlow eps s0 Ki H).dh_da s (Sum.elim (fun _ => al) b) T *ᵥ (Sum.elim (fun _ => al') b') =
      Sum.elim (fun _ => 0) ((-H T / norm2 (eff (H T) s b)) • (b' -
        (normalize eps (eff (H T) s b) ⬝ᵥ b') • normalize eps (eff (H T) s b))) := by
  show ((if norm2 (shifted s _) > 0 then fromBlocks 0 0 0 ((1 / norm2 (shifted s _)) • (1 -
    vecMulVec (normalize eps (shifted s _)) (normalize eps (shifted s _)))) else 0) * _) *ᵥ _ = _
  rw [shifted_lin, if_pos hN, ← mulVec_mulVec, lin_dq, fromBlocks_mulVec]
  simp only [Sum.elim_comp_inl, Sum.elim_comp_inr, zero_mulVec, zero_add]
  rw [one_sub_outer, dotProduct_smul]
  ext r
  rcases r with r | i
  · rfl
  · simp only [Sum.elim_inr, Pi.smul_apply, Pi.sub_apply, smul_eq_mul]
    ring

end flow

/-! ## The system -/

section system

variable {eps : ℝ} {s0 Ki H : ℝ → ℝ}

theorem tr3_eff (h : ℝ) (s : Fin 6 → ℝ) {b : Fin 6 → ℝ} (hb : tr3 b = 0) : tr3 (eff h s b) = 0 := by
  rw [eff, tr3_sub, tr3_smul, tr3_devVec, hb]
  ring

/-- The Jacobian is regular wherever the effective deviator is long enough and the multiplier is not
negative. -/
theorem lin_det (he : 0 < eps) {G Kb : ℝ} (hG : 0 < G) (ts : RITrial ℝ (Fin 6) Q7)
    (hC : ts.C = isoC G Kb) (hH : 0 ≤ H ts.T) (hh : 0 < 2 * G + 2 / 3 * Ki ts.T + H ts.T)
    {s : Fin 6 → ℝ} {al : ℝ} {b : Fin 6 → ℝ} (hb : tr3 b = 0)
    (hs : eps ≤ norm2 (eff (H ts.T) s b)) {dg : ℝ} (hd : 0 ≤ dg) :
    (riJ (linearFlow eps s0 Ki H) ts
      (Sum.elim s (Sum.elim (Sum.elim (fun _ => al) b) fun _ => dg))).det ≠ 0 := by
  intro h0
  obtain ⟨z, hz, h⟩ := exists_mulVec_eq_zero_iff.mpr h0
  apply hz
  have hN : 0 < norm2 (eff (H ts.T) s b) := he.trans_le hs
  obtain ⟨hm, -⟩ := unit_of he hs
  have htr : tr3 (normalize eps (eff (H ts.T) s b)) = 0 := tr3_normalize (tr3_eff _ s hb)
  obtain ⟨v, al', b', l, rfl⟩ : ∃ v al' b' l,
      z = Sum.elim v (Sum.elim (Sum.elim (fun _ => al') b') fun _ => l) :=
    ⟨fun i => z (.inl i), z (.inr (.inl (.inl ()))), fun i => z (.inr (.inl (.inr i))),
      z (.inr (.inr ())), by ext a; rcases a with i | (a | i) | a <;> rfl⟩
  rw [riJ_mulVec, lin_dg_ds hN, lin_dg_da hN, lin_dh_ds hN, lin_dh_da hN, lin_g, lin_h, lin_df_ds,
    lin_df_da, hC, isoC_dev G Kb htr] at h
  set m := normalize eps (eff (H ts.T) s b) with hmdef
  set N := norm2 (eff (H ts.T) s b)
  set η := H ts.T
  set ki := Ki ts.T
  set w := (1 / N) • (devProj *ᵥ v - (m ⬝ᵥ v) • m) + (-η / N) • (b' - (m ⬝ᵥ b') • m) with hw
  have h1 : v + dg • (isoC G Kb *ᵥ w) + l • (2 * G) • m = 0 := by
    ext i; exact congrFun h (.inl i)
  have h2 : al' = √(2 / 3) * l := by
    have := congrFun h (.inr (.inl (.inl ())))
    simp only [Sum.elim_inr, Sum.elim_inl, Pi.sub_apply, Pi.smul_apply, Pi.add_apply, smul_eq_mul,
      Pi.zero_apply] at this
    linarith
  have h3 : b' = dg • w + l • m := by
    ext i
    have := congrFun h (.inr (.inl (.inr i)))
    simp only [Sum.elim_inr, Sum.elim_inl, Pi.sub_apply, Pi.smul_apply, Pi.add_apply, smul_eq_mul,
      Pi.zero_apply] at this
    simp only [hw, Pi.sub_apply, Pi.smul_apply, Pi.add_apply, smul_eq_mul]
    linarith
  have h4 : m ⬝ᵥ v - √(2 / 3) * ki * al' - η * (m ⬝ᵥ b') = 0 := by
    have h5 : m ⬝ᵥ v + (Sum.elim (fun _ : Unit => -ki * √(2 / 3)) (-η • m)) ⬝ᵥ
        (Sum.elim (fun _ => al') b') = 0 := congrFun h (.inr (.inr ()))
    rw [sumElim_dotProduct_sumElim, smul_dotProduct] at h5
    simp only [dotProduct, Finset.univ_unique, Finset.sum_singleton, smul_eq_mul] at h5 ⊢
    linarith
  have hmw : m ⬝ᵥ w = 0 := by
    rw [hw, dotProduct_add, dotProduct_smul, dotProduct_smul, dotProduct_sub, dotProduct_sub,
      dot_devProj htr, dotProduct_smul, dotProduct_smul, hm]
    simp
  have hmv : m ⬝ᵥ v = -(2 * G * l) := by
    have h5 := congrArg (fun w => m ⬝ᵥ w) h1
    simp only [dotProduct_add, dotProduct_smul, dot_isoC G Kb htr, hmw, hm, dotProduct_zero,
      smul_eq_mul] at h5
    linarith
  have hmb : m ⬝ᵥ b' = l := by
    rw [h3, dotProduct_add, dotProduct_smul, dotProduct_smul, hmw, hm]
    simp
  have hl : l = 0 := by
    rw [hmv, h2, hmb] at h4
    have hsq : √(2 / 3) * √(2 / 3) = (2 / 3 : ℝ) := Real.mul_self_sqrt (by norm_num)
    have h5 : (2 * G + 2 / 3 * ki + η) * l = 0 := by
      rw [← hsq]
      linarith
    exact (mul_eq_zero.mp h5).resolve_left hh.ne'
  rw [hl, zero_smul, add_zero] at h1 h3
  rw [hl, mul_zero, neg_zero] at hmv
  rw [hl] at hmb
  have hw2 : (1 + η * dg / N) • w = (1 / N) • (devProj *ᵥ v) := by
    have h5 : w = (1 / N) • (devProj *ᵥ v) + (-η / N) • b' := by
      rw [hw, hmv, hmb]; simp
    rw [h3] at h5
    rw [add_smul, one_smul]
    nth_rewrite 1 [h5]
    module
  have hc1 : 0 < 1 + η * dg / N := by positivity
  have hPw : devProj *ᵥ w = w := by
    have h5 : (1 + η * dg / N) • (devProj *ᵥ w) = (1 + η * dg / N) • w := by
      rw [← mulVec_smul, hw2, mulVec_smul, ← devVec_eq v, devProj_of_tr3 (tr3_devVec v)]
    exact smul_right_injective _ hc1.ne' h5
  have hPv : devProj *ᵥ v = -(2 * G * dg) • w := by
    have h5 := congrArg (fun w => devProj *ᵥ w) h1
    simp only [mulVec_add, mulVec_smul, devProj_isoC, hPw, mulVec_zero] at h5
    rw [eq_neg_of_add_eq_zero_left h5]
    module
  have hw0 : w = 0 := by
    rw [hPv] at hw2
    have h5 : (1 + η * dg / N + 2 * G * dg / N) • w = 0 := by
      rw [add_smul, hw2]; module
    have hc2 : 0 < 1 + η * dg / N + 2 * G * dg / N := by positivity
    exact (smul_eq_zero.mp h5).resolve_left hc2.ne'
  rw [hw0] at h1 h3
  simp only [mulVec_zero, smul_zero, add_zero] at h1 h3
  rw [h1, h2, h3, hl]
  ext a
  rcases a with i | (a | i) | a <;> simp

end system

/-! ## The return -/

/-- Elastic trial stress of a step, from the plastic strain at its start. -/
def trial' {κ : Type} (el : Elastic ℝ (Fin 6))
    (x : Substep.Point ℝ (Fin 6 → ℝ) (Fin 6 → ℝ) (κ → ℝ)) (e1 : Fin 6 → ℝ) (T1 : ℝ) : Fin 6 → ℝ :=
  el.C T1 *ᵥ (e1 - (x.e - el.S x.T *ᵥ x.s))

/-- How far a stress is outside the surface with backstrain `b` and radius `k`. -/
noncomputable def over (h k : ℝ) (s b : Fin 6 → ℝ) : ℝ := norm2 (eff h s b) - k

/-- Direction of the effective deviator. -/
noncomputable def edir (h : ℝ) (s b : Fin 6 → ℝ) : Fin 6 → ℝ := (1 / norm2 (eff h s b)) • eff h s b

/-- The radius of the surface for the isotropic variable `al`. -/
noncomputable def radius (s0 ki al : ℝ) : ℝ := √(2 / 3) * (s0 + ki * al)

theorem edir_unit {h : ℝ} {s b : Fin 6 → ℝ} (hN : 0 < norm2 (eff h s b)) :
    edir h s b ⬝ᵥ edir h s b = 1 := by
  unfold edir
  rw [smul_dotProduct, dotProduct_smul, ← norm2_sq]
  simp only [smul_eq_mul]
  field_simp

theorem eff_edir {h : ℝ} {s b : Fin 6 → ℝ} (hN : 0 < norm2 (eff h s b)) :
    eff h s b = norm2 (eff h s b) • edir h s b := by
  unfold edir
  rw [smul_smul]
  field_simp
  simp

theorem normalize_eff {eps h : ℝ} {s b : Fin 6 → ℝ} (hN : eps ≤ norm2 (eff h s b)) :
    normalize eps (eff h s b) = edir h s b := by
  rw [normalize_of_le hN]
  ext i
  simp only [edir, Pi.smul_apply, smul_eq_mul]
  ring

section steps

variable {el : Elastic ℝ (Fin 6)} {eps G Kb : ℝ} {s0 Ki H : ℝ → ℝ}
  {lin : Matrix (Fin (6 + (7 + 1))) (Fin (6 + (7 + 1))) ℝ → (Fin (6 + (7 + 1)) → ℝ) →
    Option (Fin (6 + (7 + 1)) → ℝ)} {p : Newton.Params} {fuel : Nat}
  {inv : Matrix (RIx (Fin 6) Q7) (RIx (Fin 6) Q7) ℝ → Option (Matrix (RIx (Fin 6) Q7) (RIx (Fin 6) Q7) ℝ)}
  {x : Substep.Point ℝ (Fin 6 → ℝ) (Fin 6 → ℝ) (Q7 → ℝ)} {e1 : Fin 6 → ℝ} {T1 t1 : ℝ}
  {al : ℝ} {b : Fin 6 → ℝ}

theorem ri_str : (riTrial el x e1 T1).str = trial' el x e1 T1 := rfl

theorem riR_lin (hC : el.C T1 = isoC G Kb) (hx : x.h = Sum.elim (fun _ => al) b) (s : Fin 6 → ℝ)
    (al1 : ℝ) (b1 : Fin 6 → ℝ) (dg : ℝ) :
    riR (linearFlow eps s0 Ki H) (riTrial el x e1 T1)
        (Sum.elim s (Sum.elim (Sum.elim (fun _ => al1) b1) fun _ => dg)) =
      Sum.elim (s - trial' el x e1 T1 + dg • (isoC G Kb *ᵥ normalize eps (eff (H T1) s b1)))
        (Sum.elim (Sum.elim (fun _ => al1 - al - √(2 / 3) * dg)
          (b1 - b - dg • normalize eps (eff (H T1) s b1)))
          (fun _ => over (H T1) (radius (s0 T1) (Ki T1) al1) s b1)) := by
  ext r
  rcases r with i | (r | i) | r
  · show s i - (el.C T1 *ᵥ fun i => e1 i - (x.e - el.S x.T *ᵥ x.s) i -
      (linearFlow eps s0 Ki H).g s (Sum.elim (fun _ => al1) b1) T1 i * dg) i = _
    rw [lin_g]
    have h1 : (fun i => e1 i - (x.e - el.S x.T *ᵥ x.s) i -
        normalize eps (eff (H T1) s b1) i * dg) =
        (e1 - (x.e - el.S x.T *ᵥ x.s)) - dg • normalize eps (eff (H T1) s b1) := by
      ext i
      simp only [Pi.sub_apply, Pi.smul_apply, smul_eq_mul]
      ring
    rw [h1, mulVec_sub, mulVec_smul, trial', hC]
    simp only [Sum.elim_inl, Pi.sub_apply, Pi.add_apply]
    ring
  · show al1 - x.h (.inl ()) -
      (linearFlow eps s0 Ki H).h s (Sum.elim (fun _ => al1) b1) T1 (.inl ()) * dg = _
    rw [lin_h, hx]
    rfl
  · show b1 i - x.h (.inr i) -
      (linearFlow eps s0 Ki H).h s (Sum.elim (fun _ => al1) b1) T1 (.inr i) * dg = _
    rw [lin_h, hx]
    simp only [Sum.elim_inr, Sum.elim_inl, Pi.sub_apply, Pi.smul_apply, smul_eq_mul]
    ring
  · show (linearFlow eps s0 Ki H).f s (Sum.elim (fun _ => al1) b1) T1 = _
    rw [lin_f]
    rfl

theorem ri_init (hx : x.h = Sum.elim (fun _ => al) b) : riInit (riTrial el x e1 T1) =
    Sum.elim (trial' el x e1 T1) (Sum.elim (Sum.elim (fun _ => al) b) fun _ => 0) := by
  unfold riInit
  rw [ri_str, show (riTrial el x e1 T1).h = x.h from rfl, hx]

theorem ri_norm_start (hC : el.C T1 = isoC G Kb) (hx : x.h = Sum.elim (fun _ => al) b)
    (hf : 0 ≤ over (H T1) (radius (s0 T1) (Ki T1) al) (trial' el x e1 T1) b) :
    √(∑ r, riR (linearFlow eps s0 Ki H) (riTrial el x e1 T1) (riInit (riTrial el x e1 T1)) r *
        riR (linearFlow eps s0 Ki H) (riTrial el x e1 T1) (riInit (riTrial el x e1 T1)) r) =
      over (H T1) (radius (s0 T1) (Ki T1) al) (trial' el x e1 T1) b := by
  rw [ri_init hx, riR_lin hC hx, Fintype.sum_sum_type, Fintype.sum_sum_type, Fintype.sum_sum_type]
  simp only [Sum.elim_inl, Sum.elim_inr, sub_self, zero_add, zero_smul, Pi.zero_apply, mul_zero,
    Finset.sum_const_zero, Finset.univ_unique, Finset.sum_singleton]
  rw [Real.sqrt_mul_self hf]

theorem ri_elastic (hx : x.h = Sum.elim (fun _ => al) b) :
    (rateIndep q7Index el (linearFlow eps s0 Ki H) lin p fuel inv).elasticStep
      (riTrial el x e1 T1) x e1 T1 t1 ↔
    over (H T1) (radius (s0 T1) (Ki T1) al) (trial' el x e1 T1) b ≤ 0 := by
  show (linearFlow eps s0 Ki H).f (trial' el x e1 T1) x.h T1 ≤ 0 ↔ _
  rw [hx, lin_f]
  rfl

/-- The strain partial of rate independent plasticity (models.cxx:847-865). -/
def riE (el : Elastic ℝ (Fin 6)) (T1 : ℝ) : Matrix (RIx (Fin 6) Q7) (Fin 6) ℝ :=
  Matrix.of fun a j => Sum.elim (fun i => el.C T1 i j) (fun _ => 0) a

theorem ri_update_of {z J A} (hx : x.h = Sum.elim (fun _ => al) b)
    (h : ¬ over (H T1) (radius (s0 T1) (Ki T1) al) (trial' el x e1 T1) b ≤ 0)
    (hs : solveWith (riIndex q7Index) (riInit (riTrial el x e1 T1))
      (riR (linearFlow eps s0 Ki H) (riTrial el x e1 T1))
      (riJ (linearFlow eps s0 Ki H) (riTrial el x e1 T1)) lin p fuel = some (z, J))
    (hA : inv J = some A) :
    ∃ inc, updateStep (rateIndep q7Index el (linearFlow eps s0 Ki H) lin p fuel inv) x e1 T1 t1 =
        some inc ∧
      inc.s = (fun i => z (.inl i)) ∧ inc.h = (fun i => z (.inr (.inl i))) ∧ inc.A = A ∧
      inc.E = riE el T1 := by
  unfold updateStep
  simp only
  have hne : ¬ (rateIndep q7Index el (linearFlow eps s0 Ki H) lin p fuel inv).elasticStep
      ((rateIndep q7Index el (linearFlow eps s0 Ki H) lin p fuel inv).setup x e1 T1 t1) x e1 T1 t1 :=
    fun hh => h ((ri_elastic hx).mp hh)
  rw [if_neg hne]
  have h1 : (rateIndep q7Index el (linearFlow eps s0 Ki H) lin p fuel inv).solve
      ((rateIndep q7Index el (linearFlow eps s0 Ki H) lin p fuel inv).setup x e1 T1 t1) =
      some (z, J) := hs
  have h2 : (rateIndep q7Index el (linearFlow eps s0 Ki H) lin p fuel inv).inv J = some A := hA
  rw [h1]
  simp only [h2]
  exact ⟨_, rfl, rfl, rfl, rfl, rfl⟩

theorem ri_E_mulVec (hC : el.C T1 = isoC G Kb) (v : Fin 6 → ℝ) :
    riE el T1 *ᵥ v =
      Sum.elim (isoC G Kb *ᵥ v) (Sum.elim (Sum.elim (fun _ => 0) 0) fun _ => 0) := by
  ext a
  rcases a with i | (a | i) | a
  · show (fun j => el.C T1 i j) ⬝ᵥ v = _
    rw [hC]
    rfl
  all_goals
    show (fun _ => (0 : ℝ)) ⬝ᵥ v = 0
    exact zero_dotProduct v

/-- Stress of the closed form: `o` is the excess, `m` the direction. -/
noncomputable def linStress (G hh h k : ℝ) (s b : Fin 6 → ℝ) : Fin 6 → ℝ :=
  s - (2 * G * (over h k s b / hh)) • edir h s b

theorem lin_return_step (he : 0 < eps) (hs : Standard p fuel) (hl : ExactSolve lin)
    (hv : ExactInv inv) (hG : 0 < G) (hC : el.C T1 = isoC G Kb) (hH : 0 ≤ H T1)
    (hx : x.h = Sum.elim (fun _ => al) b) (hb : tr3 b = 0) {hh o : ℝ}
    (hhd : hh = 2 * G + 2 / 3 * Ki T1 + H T1) (hh0 : 0 < hh)
    (ho : o = over (H T1) (radius (s0 T1) (Ki T1) al) (trial' el x e1 T1) b) (h : p.atol ≤ o)
    (hk : eps ≤ radius (s0 T1) (Ki T1) (al + √(2 / 3) * (o / hh))) :
    ∃ inc, updateStep (rateIndep q7Index el (linearFlow eps s0 Ki H) lin p fuel inv) x e1 T1 t1 =
        some inc ∧
      inc.s = linStress G hh (H T1) (radius (s0 T1) (Ki T1) al) (trial' el x e1 T1) b ∧
      inc.h = Sum.elim (fun _ => al + √(2 / 3) * (o / hh))
        (b + (o / hh) • edir (H T1) (trial' el x e1 T1) b) ∧
      norm2 (eff (H T1) inc.s (b + (o / hh) • edir (H T1) (trial' el x e1 T1) b)) =
        radius (s0 T1) (Ki T1) (al + √(2 / 3) * (o / hh)) ∧
      ∀ v, (fun i => ((inc.A * inc.E) *ᵥ v) (.inl i)) =
        isoC G Kb *ᵥ v - (2 * G / hh) • ((edir (H T1) (trial' el x e1 T1) b ⬝ᵥ (isoC G Kb *ᵥ v)) •
            edir (H T1) (trial' el x e1 T1) b +
          (o / norm2 (eff (H T1) (trial' el x e1 T1) b)) • (devProj *ᵥ (isoC G Kb *ᵥ v) -
            (edir (H T1) (trial' el x e1 T1) b ⬝ᵥ (isoC G Kb *ᵥ v)) •
              edir (H T1) (trial' el x e1 T1) b)) := by
  have hsq : √(2 / 3) * √(2 / 3) = (2 / 3 : ℝ) := Real.mul_self_sqrt (by norm_num)
  have ho0 : 0 < o := hs.atol.trans_le h
  set str := trial' el x e1 T1 with hstr
  set η := H T1 with hη
  set ki := Ki T1 with hki
  set k0 := radius (s0 T1) ki al with hk0
  set dg := o / hh with hdg
  have hdg0 : 0 < dg := by positivity
  set k1 := radius (s0 T1) ki (al + √(2 / 3) * dg) with hk1
  have hk10 : 0 < k1 := he.trans_le hk
  have hkk : k1 = k0 + 2 / 3 * ki * dg := by
    rw [hk1, hk0, radius, radius]
    linear_combination (ki * dg) * hsq
  have hodg : o = hh * dg := by rw [hdg]; field_simp
  have hN1 : norm2 (eff η str b) - (2 * G + η) * dg = k1 := by
    have : norm2 (eff η str b) = o + k0 := by rw [ho, over]; ring
    rw [this, hkk, hodg, hhd]
    ring
  set N := norm2 (eff η str b) with hNd
  have hge : k1 ≤ N := by
    have : 0 ≤ (2 * G + η) * dg := by positivity
    linarith
  have hN0 : 0 < N := hk10.trans_le hge
  have heN : eps ≤ N := hk.trans hge
  set m := edir η str b with hmdef
  have hm : m ⬝ᵥ m = 1 := edir_unit hN0
  have htr : tr3 m = 0 := by
    rw [hmdef, edir, tr3_smul, tr3_eff _ _ hb, mul_zero]
  set s1 := str - (2 * G * dg) • m with hs1
  set b1 := b + dg • m with hb1
  have htrb1 : tr3 b1 = 0 := by rw [hb1, tr3_add, tr3_smul, hb, htr]; ring
  have heff1 : eff η s1 b1 = k1 • m := by
    have h1 : eff η s1 b1 = eff η str b - ((2 * G + η) * dg) • m := by
      simp only [eff, hs1, hb1]
      rw [devVec_sub', devVec_of_tr3 (v := (2 * G * dg) • m) (by rw [tr3_smul, htr, mul_zero])]
      module
    rw [h1, eff_edir hN0, ← hNd, ← hmdef, ← hN1]
    module
  have hnrm1 : norm2 (eff η s1 b1) = k1 := by rw [heff1, norm2_unit hm, abs_of_pos hk10]
  have hdir1 : normalize eps (eff η s1 b1) = m := by rw [heff1, normalize_smul hm he hk]
  have hdir0 : normalize eps (eff η str b) = m := normalize_eff heN
  have hCt : (riTrial el x e1 T1).C = isoC G Kb := hC
  have hTt : (riTrial el x e1 T1).T = T1 := rfl
  have hJ0 : (riJ (linearFlow eps s0 Ki H) (riTrial el x e1 T1) (riInit (riTrial el x e1 T1))).det ≠ 0 := by
    rw [ri_init hx]
    exact lin_det he hG _ hCt hH (by rw [hhd] at hh0; exact hh0) hb heN le_rfl
  set z1 : RIx (Fin 6) Q7 → ℝ :=
    Sum.elim s1 (Sum.elim (Sum.elim (fun _ => al + √(2 / 3) * dg) b1) fun _ => dg) with hz1
  have hJ1 : (riJ (linearFlow eps s0 Ki H) (riTrial el x e1 T1) z1).det ≠ 0 :=
    lin_det he hG _ hCt hH (by rw [hhd] at hh0; exact hh0) htrb1
      (by rw [hTt, ← hη, hnrm1]; exact hk) hdg0.le
  have hroot : riR (linearFlow eps s0 Ki H) (riTrial el x e1 T1) z1 = 0 := by
    rw [hz1, riR_lin hC hx, ← hη, hdir1, over, hnrm1, isoC_dev G Kb htr, ← hki, ← hk1, ← hstr, hs1, hb1]
    ext r
    rcases r with i | (r | i) | r
    · simp only [Sum.elim_inl, Pi.add_apply, Pi.smul_apply, smul_eq_mul, Pi.zero_apply, Pi.sub_apply]
      ring
    · simp
    · simp
    · simp
  have hstep : riJ (linearFlow eps s0 Ki H) (riTrial el x e1 T1) (riInit (riTrial el x e1 T1)) *ᵥ
      (riInit (riTrial el x e1 T1) - z1) =
      riR (linearFlow eps s0 Ki H) (riTrial el x e1 T1) (riInit (riTrial el x e1 T1)) := by
    have hd : riInit (riTrial el x e1 T1) - z1 = Sum.elim ((2 * G * dg) • m)
        (Sum.elim (Sum.elim (fun _ => -(√(2 / 3) * dg)) (-dg • m)) fun _ => -dg) := by
      rw [ri_init hx, hz1, hs1, hb1, ← hstr]
      ext r
      rcases r with i | (r | i) | r <;> simp
    rw [hd, ri_init hx, riJ_mulVec, riR_lin hC hx, lin_g, lin_h, lin_df_ds, lin_df_da, hCt, hTt, ← hη,
      ← hki, ← hstr, hdir0, isoC_dev G Kb htr, ← hk0, ← ho, sumElim_dotProduct_sumElim]
    ext r
    rcases r with i | (r | i) | r
    · simp only [Sum.elim_inl, Pi.add_apply, Pi.smul_apply, smul_eq_mul, Pi.zero_apply, Pi.sub_apply]
      ring
    · simp only [Sum.elim_inl, Sum.elim_inr, Pi.add_apply, Pi.smul_apply, smul_eq_mul, Pi.zero_apply,
        Pi.sub_apply]
      ring
    · simp only [Sum.elim_inl, Sum.elim_inr, Pi.add_apply, Pi.smul_apply, smul_eq_mul, Pi.zero_apply,
        Pi.sub_apply]
      ring
    · simp only [Sum.elim_inr, dotProduct_smul, smul_dotProduct, hm, smul_eq_mul]
      simp only [dotProduct, Finset.univ_unique, Finset.sum_singleton]
      rw [hodg, hhd]
      linear_combination (ki * dg) * hsq
  have hsolve := solveWith_one (riIndex q7Index) _ _ _ _ hl p fuel
    (by rw [ri_norm_start hC hx (by rw [← hη, ← hki, ← hk0, ← hstr, ← ho]; exact ho0.le),
          ← hη, ← hki, ← hk0, ← hstr, ← ho]; exact h)
    hs.atol hs.rtol hs.miter hs.fuel hJ0 hstep hroot
  obtain ⟨inc, g1, g2, g3, g4, g5⟩ := ri_update_of (t1 := t1) hx
    (by rw [← hη, ← hki, ← hk0, ← hstr, ← ho]; exact not_le.mpr ho0) hsolve (hv _ hJ1)
  have g2' : inc.s = s1 := by rw [g2]; rfl
  have hlin : linStress G hh η k0 str b = s1 := by
    rw [linStress, ← ho, hs1, hdg, hmdef]
  refine ⟨inc, g1, by rw [g2', hlin], by rw [g3]; rfl, by rw [g2', hnrm1], fun v => ?_⟩
  rw [g4, g5]
  set w := isoC G Kb *ᵥ v with hw
  have hmP : m ⬝ᵥ (devProj *ᵥ w) = m ⬝ᵥ w := dot_devProj htr w
  have hPP : devProj *ᵥ (devProj *ᵥ w) = devProj *ᵥ w := by
    rw [← devVec_eq w, devProj_of_tr3 (tr3_devVec w)]
  have hPm : devProj *ᵥ m = m := devProj_of_tr3 htr
  set q := devProj *ᵥ w - (m ⬝ᵥ w) • m with hq
  have htrq : tr3 q = 0 := by
    rw [hq, tr3_sub, tr3_smul, htr, ← devVec_eq, tr3_devVec]
    ring
  have hmq : m ⬝ᵥ q = 0 := by
    rw [hq, dotProduct_sub, hmP, dotProduct_smul, hm]
    simp
  set μ := (m ⬝ᵥ w) / hh with hμ
  set sv := w - (2 * G * μ) • m - (2 * G * dg / N) • q with hsv
  set bv := μ • m + (dg / N) • q with hbv
  have hmsv : m ⬝ᵥ sv = m ⬝ᵥ w - 2 * G * μ := by
    rw [hsv, dotProduct_sub, dotProduct_sub, dotProduct_smul, dotProduct_smul, hm, hmq]
    simp
  have hPsv : devProj *ᵥ sv = devProj *ᵥ w - (2 * G * μ) • m - (2 * G * dg / N) • q := by
    rw [hsv, mulVec_sub, mulVec_sub, mulVec_smul, mulVec_smul, hPm, devProj_of_tr3 htrq]
  have hmbv : m ⬝ᵥ bv = μ := by
    rw [hbv, dotProduct_add, dotProduct_smul, dotProduct_smul, hm, hmq]
    simp
  have hz : ((riJ (linearFlow eps s0 Ki H) (riTrial el x e1 T1) z1)⁻¹ * riE el T1) *ᵥ v =
      Sum.elim sv (Sum.elim (Sum.elim (fun _ => √(2 / 3) * μ) bv) fun _ => μ) := by
    refine tangent_of hJ1 _ v ?_
    rw [ri_E_mulVec hC, hz1, riJ_mulVec, hTt, lin_dg_ds (by rw [← hη, hnrm1]; exact hk10),
      lin_dg_da (by rw [← hη, hnrm1]; exact hk10), lin_dh_ds (by rw [← hη, hnrm1]; exact hk10),
      lin_dh_da (by rw [← hη, hnrm1]; exact hk10), lin_g, lin_h, lin_df_ds, lin_df_da, hCt, ← hη, ← hki,
      hdir1, hnrm1, isoC_dev G Kb htr, sumElim_dotProduct_sumElim, hmsv, hmbv, hPsv]
    have hW : (1 / k1) • (devProj *ᵥ w - (2 * G * μ) • m - (2 * G * dg / N) • q -
        (m ⬝ᵥ w - 2 * G * μ) • m) + (-η / k1) • (bv - μ • m) = (1 / N) • q := by
      have h1 : devProj *ᵥ w - (2 * G * μ) • m - (2 * G * dg / N) • q -
        (m ⬝ᵥ w - 2 * G * μ) • m = (1 - 2 * G * dg / N) • q := by
        have h0 : devProj *ᵥ w = q + (m ⬝ᵥ w) • m := by rw [hq]; abel
        rw [h0]
        module
      have h2 : bv - μ • m = (dg / N) • q := by rw [hbv]; module
      rw [h1, h2, smul_smul, smul_smul, ← add_smul]
      congr 1
      have h3 : N - (2 * G + η) * dg ≠ 0 := by rw [hN1]; exact hk10.ne'
      rw [← hN1]
      field_simp
      ring
    rw [hW, mulVec_smul, isoC_dev G Kb htrq]
    have hW' : ∀ i, (Sum.elim (fun _ => (0 : ℝ)) ((1 / k1) • (devProj *ᵥ w - (2 * G * μ) • m -
          (2 * G * dg / N) • q - (m ⬝ᵥ w - 2 * G * μ) • m)) : Q7 → ℝ) (.inr i) +
        (Sum.elim (fun _ => (0 : ℝ)) ((-η / k1) • (bv - μ • m)) : Q7 → ℝ) (.inr i) =
        ((1 / N) • q) i := fun i => congrFun hW i
    ext r
    rcases r with i | (r | i) | r
    · simp only [Sum.elim_inl, Pi.add_apply, Pi.smul_apply, smul_eq_mul, Pi.sub_apply, hsv]
      field_simp
      ring
    · simp only [Sum.elim_inl, Sum.elim_inr, Pi.add_apply, Pi.smul_apply, smul_eq_mul, Pi.sub_apply]
      ring
    · show bv i - dg * (_ + _) - μ * m i = 0
      rw [hW' i]
      simp only [hbv, Pi.add_apply, Pi.smul_apply, smul_eq_mul]
      field_simp
      ring
    · simp only [Sum.elim_inr, smul_dotProduct, hmbv, smul_eq_mul]
      simp only [dotProduct, Finset.univ_unique, Finset.sum_singleton]
      show m ⬝ᵥ w - 2 * G * μ + (-ki * √(2 / 3) * (√(2 / 3) * μ) + -η * μ) = 0
      have h1 : m ⬝ᵥ w = hh * μ := by rw [hμ]; field_simp
      rw [h1, hhd]
      linear_combination (-ki * μ) * hsq
  rw [hz]
  ext i
  simp only [Sum.elim_inl, hsv, Pi.add_apply, Pi.smul_apply, smul_eq_mul, Pi.sub_apply, hμ, hdg]
  field_simp
  ring

/-- C180, trial stress outside by less than the tolerance: accepted as it is, with its history. -/
theorem lin_band_step (he : 0 < eps) (hs : Standard p fuel) (hv : ExactInv inv) (hG : 0 < G)
    (hC : el.C T1 = isoC G Kb) (hH : 0 ≤ H T1) (hx : x.h = Sum.elim (fun _ => al) b) (hb : tr3 b = 0)
    (hh0 : 0 < 2 * G + 2 / 3 * Ki T1 + H T1) (hk : eps ≤ radius (s0 T1) (Ki T1) al)
    (h0 : 0 < over (H T1) (radius (s0 T1) (Ki T1) al) (trial' el x e1 T1) b)
    (h : over (H T1) (radius (s0 T1) (Ki T1) al) (trial' el x e1 T1) b < p.atol) :
    ∃ inc, updateStep (rateIndep q7Index el (linearFlow eps s0 Ki H) lin p fuel inv) x e1 T1 t1 =
        some inc ∧ inc.s = trial' el x e1 T1 ∧ inc.h = x.h := by
  have heN : eps ≤ norm2 (eff (H T1) (trial' el x e1 T1) b) := by
    unfold over at h0; linarith
  have hCt : (riTrial el x e1 T1).C = isoC G Kb := hC
  have hJ0 : (riJ (linearFlow eps s0 Ki H) (riTrial el x e1 T1) (riInit (riTrial el x e1 T1))).det ≠ 0 := by
    rw [ri_init hx]
    exact lin_det he hG _ hCt hH hh0 hb heN le_rfl
  have hsolve := solveWith_at_once (riIndex q7Index) (riInit (riTrial el x e1 T1))
    (riR (linearFlow eps s0 Ki H) (riTrial el x e1 T1))
    (riJ (linearFlow eps s0 Ki H) (riTrial el x e1 T1)) lin p fuel
    (by rw [ri_norm_start hC hx h0.le]; exact h) (by have := hs.miter; omega)
    (by have := hs.fuel; omega)
  obtain ⟨inc, g1, g2, g3, -, -⟩ := ri_update_of (t1 := t1) hx (not_le.mpr h0) hsolve (hv _ hJ0)
  exact ⟨inc, g1, by rw [g2]; rfl, by rw [g3]; rfl⟩

end steps

/-- Derivative of the closed form along a line of trial stresses. -/
theorem hasDerivAt_linStress (G hh h k : ℝ) {s b w : Fin 6 → ℝ} (hb : tr3 b = 0)
    (hN : 0 < norm2 (eff h s b)) :
    HasDerivAt (fun t : ℝ => linStress G hh h k (s + t • w) b)
      (w - (2 * G / hh) • ((edir h s b ⬝ᵥ w) • edir h s b +
        (over h k s b / norm2 (eff h s b)) • (devProj *ᵥ w - (edir h s b ⬝ᵥ w) • edir h s b))) 0 := by
  rw [hasDerivAt_pi]
  intro i
  have heff : ∀ t : ℝ, eff h (s + t • w) b = eff h s b + t • devVec w := by
    intro t
    simp only [eff, devVec_eq, mulVec_add, mulVec_smul]
    abel
  have hdot : eff h s b ⬝ᵥ devVec w = norm2 (eff h s b) * (edir h s b ⬝ᵥ w) := by
    rw [devVec_eq w, dot_devProj (tr3_eff h s hb)]
    nth_rewrite 1 [eff_edir hN]
    rw [smul_dotProduct, smul_eq_mul]
  have h1 : (fun t : ℝ => linStress G hh h k (s + t • w) b i) = fun t => s i + t * w i -
      2 * G / hh * ((norm2 (eff h s b + t • devVec w) - k) *
        ((eff h s b i + t * devVec w i) / norm2 (eff h s b + t • devVec w))) := by
    ext t
    simp only [linStress, over, edir, heff, Pi.add_apply, Pi.sub_apply, Pi.smul_apply, smul_eq_mul]
    ring
  rw [h1]
  have hlin : ∀ a b : ℝ, HasDerivAt (fun t : ℝ => a + t * b) b 0 := fun a b => by
    simpa using ((hasDerivAt_id' (0 : ℝ)).mul_const b).const_add a
  have hD := hasDerivAt_norm2 (b := devVec w) hN
  have hne : norm2 (eff h s b + (0 : ℝ) • devVec w) ≠ 0 := by simpa using hN.ne'
  refine ((hlin _ _).fun_sub (((hD.sub_const k).fun_mul
    ((hlin _ _).fun_div hD hne)).const_mul (2 * G / hh))).congr_deriv ?_
  have e0 : norm2 (eff h s b + (0 : ℝ) • devVec w) = norm2 (eff h s b) := by simp
  rw [e0, hdot]
  simp only [Pi.add_apply, Pi.sub_apply, Pi.smul_apply, smul_eq_mul, ← devVec_eq, over]
  have e1 : edir h s b i = eff h s b i / norm2 (eff h s b) := by simp [edir]; ring
  rw [e1]
  generalize (2 * G / hh) = c
  field_simp
  ring

/-! ## C180 -/

section claims

variable {el : Elastic ℝ (Fin 6)} {eps G Kb : ℝ} {s0 Ki H : ℝ → ℝ}
  {lin : Matrix (Fin (6 + (7 + 1))) (Fin (6 + (7 + 1))) ℝ → (Fin (6 + (7 + 1)) → ℝ) →
    Option (Fin (6 + (7 + 1)) → ℝ)} {p : Newton.Params} {fuel : Nat}
  {inv : Matrix (RIx (Fin 6) Q7) (RIx (Fin 6) Q7) ℝ → Option (Matrix (RIx (Fin 6) Q7) (RIx (Fin 6) Q7) ℝ)}
  {x : Substep.Point ℝ (Fin 6 → ℝ) (Fin 6 → ℝ) (Q7 → ℝ)} {e1 : Fin 6 → ℝ} {T1 t1 : ℝ}
  {al : ℝ} {b : Fin 6 → ℝ}

/-- C180. With linear isotropic and kinematic hardening a trial stress outside the surface by the
tolerance or more is returned, in one iteration, along the effective deviator, by the share
`2G / (2G + 2K/3 + H)` of the excess; the isotropic variable grows by `√(2/3)` and the backstrain by
the direction, times the excess over `2G + 2K/3 + H`. The result lies on the new surface and the
tangent is the derivative of the returned stress. -/
theorem C180_return (he : 0 < eps) (hs : Standard p fuel) (hl : ExactSolve lin)
    (hv : ExactInv inv) (hG : 0 < G) (hC : el.C T1 = isoC G Kb) (hH : 0 ≤ H T1)
    (hx : x.h = Sum.elim (fun _ => al) b) (hb : tr3 b = 0) {hh o : ℝ}
    (hhd : hh = 2 * G + 2 / 3 * Ki T1 + H T1) (hh0 : 0 < hh)
    (ho : o = over (H T1) (radius (s0 T1) (Ki T1) al) (trial' el x e1 T1) b) (h : p.atol ≤ o)
    (hk : eps ≤ radius (s0 T1) (Ki T1) (al + √(2 / 3) * (o / hh))) :
    ∃ inc, updateStep (rateIndep q7Index el (linearFlow eps s0 Ki H) lin p fuel inv) x e1 T1 t1 =
        some inc ∧
      inc.s = trial' el x e1 T1 - (2 * G * (o / hh)) • edir (H T1) (trial' el x e1 T1) b ∧
      inc.h = Sum.elim (fun _ => al + √(2 / 3) * (o / hh))
        (b + (o / hh) • edir (H T1) (trial' el x e1 T1) b) ∧
      norm2 (eff (H T1) inc.s fun i => inc.h (.inr i)) =
        radius (s0 T1) (Ki T1) (inc.h (.inl ())) ∧
      tr3 (fun i => inc.h (.inr i)) = 0 ∧
      ∀ v, HasDerivAt (fun t : ℝ => linStress G hh (H T1) (radius (s0 T1) (Ki T1) al)
          (trial' el x (e1 + t • v) T1) b)
        (fun i => ((inc.A * inc.E) *ᵥ v) (.inl i)) 0 := by
  obtain ⟨inc, h1, h2, h3, h4, h5⟩ := lin_return_step (t1 := t1) he hs hl hv hG hC hH hx hb hhd hh0 ho h hk
  have hN : 0 < norm2 (eff (H T1) (trial' el x e1 T1) b) := by
    have ho0 : 0 < o := hs.atol.trans_le h
    have hsq : √(2 / 3) * √(2 / 3) = (2 / 3 : ℝ) := Real.mul_self_sqrt (by norm_num)
    have e1' : radius (s0 T1) (Ki T1) (al + √(2 / 3) * (o / hh)) =
        radius (s0 T1) (Ki T1) al + 2 / 3 * Ki T1 * (o / hh) := by
      rw [radius, radius]
      linear_combination (Ki T1 * (o / hh)) * hsq
    have e2 : o = hh * (o / hh) := by field_simp
    have e3 : norm2 (eff (H T1) (trial' el x e1 T1) b) = o + radius (s0 T1) (Ki T1) al := by
      rw [ho, over]; ring
    have e4 : 0 ≤ (2 * G + H T1) * (o / hh) := by positivity
    have e5 : o = (2 * G + H T1) * (o / hh) + 2 / 3 * Ki T1 * (o / hh) := by
      nth_rewrite 1 [e2]
      rw [hhd]
      ring
    linarith
  refine ⟨inc, h1, by rw [h2, linStress, ho], h3, ?_, ?_, fun v => ?_⟩
  · rw [h3]
    exact h4
  · rw [h3]
    show tr3 (b + (o / hh) • edir (H T1) (trial' el x e1 T1) b) = 0
    rw [tr3_add, tr3_smul, hb, edir, tr3_smul, tr3_eff _ _ hb]
    ring
  · have ht : ∀ t : ℝ, trial' el x (e1 + t • v) T1 = trial' el x e1 T1 + t • (isoC G Kb *ᵥ v) := by
      intro t
      unfold trial'
      rw [show e1 + t • v - (x.e - el.S x.T *ᵥ x.s) = (e1 - (x.e - el.S x.T *ᵥ x.s)) + t • v by abel,
        mulVec_add, mulVec_smul, hC]
    simp only [ht, h5]
    rw [ho]
    exact hasDerivAt_linStress G hh (H T1) _ hb hN

/-- C180. Trial stresses outside the surface by less than the tolerance are accepted unchanged. -/
theorem C180_band (he : 0 < eps) (hs : Standard p fuel) (hv : ExactInv inv) (hG : 0 < G)
    (hC : el.C T1 = isoC G Kb) (hH : 0 ≤ H T1) (hx : x.h = Sum.elim (fun _ => al) b) (hb : tr3 b = 0)
    (hh0 : 0 < 2 * G + 2 / 3 * Ki T1 + H T1) (hk : eps ≤ radius (s0 T1) (Ki T1) al)
    (h0 : 0 < over (H T1) (radius (s0 T1) (Ki T1) al) (trial' el x e1 T1) b)
    (h : over (H T1) (radius (s0 T1) (Ki T1) al) (trial' el x e1 T1) b < p.atol) :
    ∃ inc, updateStep (rateIndep q7Index el (linearFlow eps s0 Ki H) lin p fuel inv) x e1 T1 t1 =
        some inc ∧ inc.s = trial' el x e1 T1 ∧ inc.h = x.h :=
  lin_band_step he hs hv hG hC hH hx hb hh0 hk h0 h

/-- C180. A history of steps: with hardening moduli that are not negative, constant elasticity and a
yield stress at least `eps` every step returns, the isotropic variable never falls, the backstrain
stays trace free, and the stress stays within the tolerance of the current surface. -/
theorem C180_every_step (he : 0 < eps) (hs : Standard p fuel) (hl : ExactSolve lin)
    (hv : ExactInv inv) (hi : IsoStep el G Kb x.T T1) (hH : 0 ≤ H T1) (hK : 0 ≤ Ki T1)
    (hx : x.h = Sum.elim (fun _ => al) b) (hal : 0 ≤ al) (hb : tr3 b = 0)
    (hk : eps ≤ √(2 / 3) * s0 T1) :
    ∃ inc, updateStep (rateIndep q7Index el (linearFlow eps s0 Ki H) lin p fuel inv) x e1 T1 t1 =
        some inc ∧
      al ≤ inc.h (.inl ()) ∧ tr3 (fun i => inc.h (.inr i)) = 0 ∧
      tr3 inc.s = tr3 (x.s + el.C T1 *ᵥ (e1 - x.e)) ∧
      norm2 (eff (H T1) inc.s fun i => inc.h (.inr i)) <
        radius (s0 T1) (Ki T1) (inc.h (.inl ())) + p.atol := by
  have hG := hi.shear
  have ha := hs.atol
  have hsq0 : (0 : ℝ) ≤ √(2 / 3) := Real.sqrt_nonneg _
  have hh0 : 0 < 2 * G + 2 / 3 * Ki T1 + H T1 := by positivity
  have hrad : ∀ a, 0 ≤ a → eps ≤ radius (s0 T1) (Ki T1) a := by
    intro a h
    have : 0 ≤ √(2 / 3) * (Ki T1 * a) := by positivity
    unfold radius
    linarith [mul_add (√(2 / 3)) (s0 T1) (Ki T1 * a)]
  have htr : trial' el x e1 T1 = x.s + el.C T1 *ᵥ (e1 - x.e) := by
    unfold trial'
    rw [show e1 - (x.e - el.S x.T *ᵥ x.s) = (e1 - x.e) + el.S x.T *ᵥ x.s by abel, mulVec_add,
      mulVec_mulVec, hi.back, one_mulVec, add_comm]
  rw [← htr]
  by_cases h0 : over (H T1) (radius (s0 T1) (Ki T1) al) (trial' el x e1 T1) b ≤ 0
  · obtain ⟨inc, g1, g2, g3, -⟩ := updateStep_elastic
      (rateIndep q7Index el (linearFlow eps s0 Ki H) lin p fuel inv) x e1 T1 t1 ((ri_elastic hx).mpr h0)
    have g2' : inc.s = trial' el x e1 T1 := by rw [g2, htr, add_comm]; rfl
    refine ⟨inc, g1, ?_, ?_, by rw [g2'], ?_⟩
    · rw [g3, hx]; exact le_rfl
    · rw [g3, hx]; exact hb
    · rw [g3, hx, g2']
      show norm2 (eff (H T1) (trial' el x e1 T1) b) < radius (s0 T1) (Ki T1) al + p.atol
      unfold over at h0
      linarith
  · rcases lt_or_ge (over (H T1) (radius (s0 T1) (Ki T1) al) (trial' el x e1 T1) b) p.atol with h | h
    · obtain ⟨inc, g1, g2, g3⟩ := C180_band (lin := lin) (t1 := t1) he hs hv hG hi.stiff hH hx hb hh0
        (hrad al hal) (not_le.mp h0) h
      refine ⟨inc, g1, ?_, ?_, by rw [g2], ?_⟩
      · rw [g3, hx]; exact le_rfl
      · rw [g3, hx]; exact hb
      · rw [g3, hx, g2]
        show norm2 (eff (H T1) (trial' el x e1 T1) b) < radius (s0 T1) (Ki T1) al + p.atol
        unfold over at h
        linarith
    · have hd : 0 ≤ over (H T1) (radius (s0 T1) (Ki T1) al) (trial' el x e1 T1) b /
          (2 * G + 2 / 3 * Ki T1 + H T1) := div_nonneg (by linarith) hh0.le
      have hd' := mul_nonneg hsq0 hd
      obtain ⟨inc, g1, g2, g3, g4, g5, -⟩ := C180_return (t1 := t1) he hs hl hv hG hi.stiff hH hx hb rfl
        hh0 rfl h (hrad _ (by linarith))
      refine ⟨inc, g1, ?_, g5, ?_, by rw [g4]; linarith⟩
      · rw [g3]
        show al ≤ al + _
        linarith
      · rw [g2, tr3_sub, tr3_smul, edir, tr3_smul, tr3_eff _ _ hb]
        ring

end claims

/-- Shear modulus one half, isotropic modulus three halves, kinematic modulus one, radius one: a trial
shear stress of four exceeds the surface by three, of which a third is given up as stress, a third
moves the surface and a third expands it. -/
example : ∃ inc, updateStep (rateIndep q7Index (isoElastic (1 / 2) 1)
      (linearFlow 1 (fun _ => √(3 / 2)) (fun _ => 3 / 2) (fun _ => 1)) exactLin
      ⟨1 / 10, 1 / 10, 5, true⟩ 5 exactInv) ⟨0, 0, 0, 0, 0, 0, 0⟩ ((4 : ℝ) • shear) 0 1 = some inc ∧
    inc.s = (3 : ℝ) • shear ∧ inc.h = Sum.elim (fun _ => √(2 / 3)) shear := by
  have htr : trial' (isoElastic (1 / 2) 1)
      (⟨0, 0, 0, 0, 0, 0, 0⟩ : Substep.Point ℝ (Fin 6 → ℝ) (Fin 6 → ℝ) (Q7 → ℝ)) ((4 : ℝ) • shear) 0 =
      (4 : ℝ) • shear := by
    have h3 : tr3 ((4 : ℝ) • shear) = 0 := by simp [tr3, shear]
    show isoC (1 / 2) 1 *ᵥ ((4 : ℝ) • shear - (0 - isoS (1 / 2) 1 *ᵥ 0)) = _
    rw [mulVec_zero, sub_zero, sub_zero, isoC_dev _ _ h3]
    simp
  have heff : eff 1 ((4 : ℝ) • shear) 0 = (4 : ℝ) • shear := by
    rw [eff, devVec_shear]; simp
  have hN : norm2 (eff 1 ((4 : ℝ) • shear) 0) = 4 := by
    rw [heff, norm2_unit shear_unit]
    norm_num
  have hdir : edir 1 ((4 : ℝ) • shear) 0 = shear := by
    rw [edir, hN, heff, smul_smul]; norm_num
  have hr : radius (√(3 / 2)) (3 / 2) 0 = 1 := by
    rw [radius, mul_zero, add_zero, sqrt_cancel]
  have hsq : √(2 / 3) * √(2 / 3) = (2 / 3 : ℝ) := Real.mul_self_sqrt (by norm_num)
  have ho : (3 : ℝ) = over 1 (radius (√(3 / 2)) (3 / 2) 0) ((4 : ℝ) • shear) 0 := by
    rw [over, hN, hr]; norm_num
  obtain ⟨inc, h1, h2, h3, -⟩ := C180_return (el := isoElastic (1 / 2) 1) (G := 1 / 2) (Kb := 1)
    (s0 := fun _ => √(3 / 2)) (Ki := fun _ => 3 / 2) (H := fun _ => 1) (al := 0) (b := 0)
    (x := ⟨0, 0, 0, 0, 0, 0, 0⟩) (e1 := (4 : ℝ) • shear) (T1 := 0) (t1 := 1) (o := 3) (hh := 3)
    one_pos (p := ⟨1 / 10, 1 / 10, 5, true⟩) (fuel := 5)
    ⟨by norm_num, by norm_num, by norm_num, by norm_num⟩ exactLin_exact exactInv_exact
    (by norm_num) rfl zero_le_one (by ext r; rcases r with r | i <;> rfl) (by simp [tr3])
    (by norm_num) (by norm_num) (by rw [htr]; exact ho) (by norm_num)
    (by
      rw [radius, mul_add, sqrt_cancel]
      have : 0 ≤ √(2 / 3) * (3 / 2 * (0 + √(2 / 3) * (3 / 3)) : ℝ) := by positivity
      linarith)
  refine ⟨inc, h1, ?_, ?_⟩
  · rw [h2, htr, hdir]; module
  · rw [h3, htr, hdir]
    ext r
    rcases r with r | i <;> simp

end Neml.SolveStep
