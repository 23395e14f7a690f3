import Verif.Props.ConcaveReturn

/-!
# C184, C185: viscoplastic J2 flow with isotropic hardening
-/

namespace Neml.SolveStep

open Matrix Neml.SmallStrain Neml.Flow Neml.Mandel Neml.Elastic

/-- Rate of plastic strain at an overstress: nothing inside the surface. -/
noncomputable def rate (gf : GFlow) (T f : ℝ) : ℝ := if f > 0 then gf.g |f| T else 0

/-- Slope of the rate. -/
noncomputable def rateSlope (gf : GFlow) (T f : ℝ) : ℝ := if f > 0 then gf.dg |f| T else 0

/-! ## The flow rule -/

section flow

variable {eps : ℝ} {r : Iso} {gf : GFlow}

theorem perz_f (s : Fin 6 → ℝ) (al T : ℝ) :
    (isoJ2 eps).f s (r.toHardening.q (fun _ => al) T) T = excess r T s al := by
  have := iso_f (eps := eps) (r := r) s al T
  exact this

theorem perz_y (s : Fin 6 → ℝ) (al T : ℝ) :
    (isoPerzyna eps r gf).y s (fun _ => al) T = rate gf T (excess r T s al) := by
  show (if (isoJ2 eps).f s (r.toHardening.q (fun _ => al) T) T > 0 then
    gf.g |(isoJ2 eps).f s (r.toHardening.q (fun _ => al) T) T| T else 0) = _
  rw [perz_f]
  rfl

theorem perz_g (s : Fin 6 → ℝ) (al T : ℝ) :
    (isoPerzyna eps r gf).g.v s (fun _ => al) T = normalize eps (devVec s) := iso_g s al T

theorem perz_h (s : Fin 6 → ℝ) (al T : ℝ) :
    (isoPerzyna eps r gf).h.v s (fun _ => al) T = fun _ => √(2 / 3) := rfl

theorem perz_dy_ds (s : Fin 6 → ℝ) (al T : ℝ) :
    (isoPerzyna eps r gf).dy_ds s (fun _ => al) T =
      rateSlope gf T (excess r T s al) • normalize eps (devVec s) := by
  show (if (isoJ2 eps).f s (r.toHardening.q (fun _ => al) T) T > 0 then
    fun i => (isoFlow eps r).df_ds s (fun _ => al) T i *
      gf.dg |(isoJ2 eps).f s (r.toHardening.q (fun _ => al) T) T| T else 0) = _
  rw [perz_f, iso_df_ds]
  unfold rateSlope
  split_ifs
  · ext i
    simp only [Pi.smul_apply, smul_eq_mul]
    ring
  · simp

theorem perz_dy_da (s : Fin 6 → ℝ) (al T : ℝ) :
    (isoPerzyna eps r gf).dy_da s (fun _ => al) T =
      fun _ => rateSlope gf T (excess r T s al) * (r.dq al T * √(2 / 3)) := by
  show (if (isoJ2 eps).f s (r.toHardening.q (fun _ => al) T) T > 0 then
    fun i => (isoFlow eps r).df_da s (fun _ => al) T i *
      gf.dg |(isoJ2 eps).f s (r.toHardening.q (fun _ => al) T) T| T else 0) = _
  rw [perz_f, iso_df_da]
  unfold rateSlope
  split_ifs
  · ext i
    simp only
    ring
  · ext; simp

variable {s : Fin 6 → ℝ} {al T : ℝ}

theorem perz_dg_ds (hN : 0 < norm2 (devVec s)) (v : Fin 6 → ℝ) :
    (isoPerzyna eps r gf).g.ds s (fun _ => al) T *ᵥ v =
      (1 / norm2 (devVec s)) • (devProj *ᵥ v -
        (normalize eps (devVec s) ⬝ᵥ v) • normalize eps (devVec s)) := iso_dg_ds hN v

theorem perz_dg_da (hN : 0 < norm2 (devVec s)) :
    (isoPerzyna eps r gf).g.da s (fun _ => al) T = 0 := iso_dg_da hN

theorem perz_dh_ds : (isoPerzyna eps r gf).h.ds s (fun _ => al) T = 0 := iso_dh_ds (eps := eps) (r := r)

theorem perz_dh_da (hN : 0 < norm2 (devVec s)) :
    (isoPerzyna eps r gf).h.da s (fun _ => al) T = 0 := iso_dh_da hN

end flow

/-! ## The system -/

section system

variable {el : Elastic ℝ (Fin 6)} {eps G Kb : ℝ} {r : Iso} {gf : GFlow}
  {x : Substep.Point ℝ (Fin 6 → ℝ) (Fin 6 → ℝ) (Unit → ℝ)} {e1 : Fin 6 → ℝ} {T1 t1 : ℝ}

theorem giTrial_eq (hdt : 0 < t1 - x.t) : giTrial x e1 T1 t1 =
    (⟨fun i => (e1 i - x.e i) / (t1 - x.t), (T1 - x.T) / (t1 - x.t), t1 - x.t, T1, x.s, x.h⟩ :
      GITrial ℝ (Fin 6) Unit) := by
  unfold giTrial
  simp only
  rw [if_pos hdt]

theorem giR_iso (hdt : 0 < t1 - x.t) (hC : el.C T1 = isoC G Kb) (s : Fin 6 → ℝ) (al1 : ℝ) :
    giR (tvp el (isoPerzyna eps r gf)) (giTrial x e1 T1 t1) (Sum.elim s fun _ => al1) =
      Sum.elim (s - trial el x e1 T1 + ((t1 - x.t) * rate gf T1 (excess r T1 s al1)) •
          (isoC G Kb *ᵥ normalize eps (devVec s)))
        (fun _ => al1 - x.h () - √(2 / 3) * ((t1 - x.t) * rate gf T1 (excess r T1 s al1))) := by
  rw [giTrial_eq hdt]
  set dt := t1 - x.t with hdtd
  ext a
  rcases a with i | a
  · show s i - x.s i - (el.C T1 *ᵥ fun i => (e1 i - x.e i) / dt -
      (isoPerzyna eps r gf).y s (fun _ => al1) T1 * (isoPerzyna eps r gf).g.v s (fun _ => al1) T1 i -
      (T1 - x.T) / dt * 0 - 0) i * dt = _
    rw [perz_y, perz_g]
    have h1 : (fun i => (e1 i - x.e i) / dt - rate gf T1 (excess r T1 s al1) *
        normalize eps (devVec s) i - (T1 - x.T) / dt * 0 - 0) =
        (1 / dt) • (e1 - x.e) - rate gf T1 (excess r T1 s al1) • normalize eps (devVec s) := by
      ext i
      simp only [Pi.sub_apply, Pi.smul_apply, smul_eq_mul]
      ring
    rw [h1, mulVec_sub, mulVec_smul, mulVec_smul, trial, hC]
    simp only [Sum.elim_inl, Pi.sub_apply, Pi.add_apply, Pi.smul_apply, smul_eq_mul]
    field_simp
    ring
  · show al1 - x.h () - ((isoPerzyna eps r gf).h.v s (fun _ => al1) T1 () *
      (isoPerzyna eps r gf).y s (fun _ => al1) T1 + 0 * ((T1 - x.T) / dt) + 0) * dt = _
    rw [perz_y, perz_h]
    simp only [Sum.elim_inr]
    ring

theorem giJ_mulVec {fl : GenFlow ℝ (Fin 6) Unit} (ts : GITrial ℝ (Fin 6) Unit) (s : Fin 6 → ℝ) (al : ℝ)
    (v : Fin 6 → ℝ) (b : Unit → ℝ) :
    giJ fl ts (Sum.elim s fun _ => al) *ᵥ (Sum.elim v b) =
      Sum.elim (v - ts.dt • (fl.ds_ds s (fun _ => al) ts.edot ts.T ts.Tdot *ᵥ v +
          fl.ds_da s (fun _ => al) ts.edot ts.T ts.Tdot *ᵥ b))
        (b - ts.dt • (fl.da_ds s (fun _ => al) ts.edot ts.T ts.Tdot *ᵥ v +
          fl.da_da s (fun _ => al) ts.edot ts.T ts.Tdot *ᵥ b)) := by
  have h1 : (of fun i j => -(fl.ds_ds s (fun _ => al) ts.edot ts.T ts.Tdot i j * ts.dt -
      if i = j then 1 else 0)) =
      (1 : Matrix (Fin 6) (Fin 6) ℝ) - ts.dt • fl.ds_ds s (fun _ => al) ts.edot ts.T ts.Tdot := by
    ext i j
    simp only [of_apply, Matrix.sub_apply, Matrix.smul_apply, smul_eq_mul, Matrix.one_apply]
    ring
  have h2 : (of fun i j => -fl.ds_da s (fun _ => al) ts.edot ts.T ts.Tdot i j * ts.dt) =
      -(ts.dt • fl.ds_da s (fun _ => al) ts.edot ts.T ts.Tdot) := by
    ext i j
    simp only [of_apply, Matrix.neg_apply, Matrix.smul_apply, smul_eq_mul]
    ring
  have h3 : (of fun i j => -fl.da_ds s (fun _ => al) ts.edot ts.T ts.Tdot i j * ts.dt) =
      -(ts.dt • fl.da_ds s (fun _ => al) ts.edot ts.T ts.Tdot) := by
    ext i j
    simp only [of_apply, Matrix.neg_apply, Matrix.smul_apply, smul_eq_mul]
    ring
  have h4 : (of fun i j => -(fl.da_da s (fun _ => al) ts.edot ts.T ts.Tdot i j * ts.dt -
      if i = j then 1 else 0)) =
      (1 : Matrix Unit Unit ℝ) - ts.dt • fl.da_da s (fun _ => al) ts.edot ts.T ts.Tdot := by
    ext i j
    simp only [of_apply, Matrix.sub_apply, Matrix.smul_apply, smul_eq_mul, Matrix.one_apply]
    ring
  show fromBlocks (of fun i j => -(fl.ds_ds s (fun _ => al) ts.edot ts.T ts.Tdot i j * ts.dt -
      if i = j then 1 else 0))
    (of fun i j => -fl.ds_da s (fun _ => al) ts.edot ts.T ts.Tdot i j * ts.dt)
    (of fun i j => -fl.da_ds s (fun _ => al) ts.edot ts.T ts.Tdot i j * ts.dt)
    (of fun i j => -(fl.da_da s (fun _ => al) ts.edot ts.T ts.Tdot i j * ts.dt -
      if i = j then 1 else 0)) *ᵥ _ = _
  rw [h1, h2, h3, h4, fromBlocks_mulVec]
  simp only [Sum.elim_comp_inl, Sum.elim_comp_inr, Matrix.sub_mulVec, Matrix.one_mulVec,
    Matrix.neg_mulVec, Matrix.smul_mulVec]
  ext a
  rcases a with i | a
  · simp only [Sum.elim_inl, Pi.add_apply, Pi.sub_apply, Pi.neg_apply, Pi.smul_apply, smul_eq_mul]
    ring
  · simp only [Sum.elim_inr, Pi.add_apply, Pi.sub_apply, Pi.neg_apply, Pi.smul_apply, smul_eq_mul]
    ring

theorem outer_mulVec {κ : Type} (g : κ → ℝ) {ι : Type} [Fintype ι] (d v : ι → ℝ) :
    vecMulVec g d *ᵥ v = (d ⬝ᵥ v) • g := by
  ext i
  simp only [mulVec, dotProduct, vecMulVec_apply, Pi.smul_apply, smul_eq_mul, Finset.sum_mul]
  exact Finset.sum_congr rfl fun j _ => by ring

/-- Action of the Jacobian where the deviator is not zero. -/
theorem giJ_iso (hdt : 0 < t1 - x.t) (hC : el.C T1 = isoC G Kb) {s : Fin 6 → ℝ} {al : ℝ}
    (hN : 0 < norm2 (devVec s)) (v : Fin 6 → ℝ) (b w : ℝ)
    (hw : w = rateSlope gf T1 (excess r T1 s al) *
      (normalize eps (devVec s) ⬝ᵥ v + r.dq al T1 * √(2 / 3) * b)) :
    giJ (tvp el (isoPerzyna eps r gf)) (giTrial x e1 T1 t1) (Sum.elim s fun _ => al) *ᵥ
        (Sum.elim v fun _ => b) =
      Sum.elim (v + (t1 - x.t) • (isoC G Kb *ᵥ (rate gf T1 (excess r T1 s al) •
          (1 / norm2 (devVec s)) • (devProj *ᵥ v -
            (normalize eps (devVec s) ⬝ᵥ v) • normalize eps (devVec s)) +
          w • normalize eps (devVec s))))
        (fun _ => b - (t1 - x.t) * (√(2 / 3) * w)) := by
  rw [giTrial_eq hdt, giJ_mulVec]
  set dt := t1 - x.t with hdtd
  have h1 : (tvp el (isoPerzyna eps r gf)).ds_ds s (fun _ => al)
      (fun i => (e1 i - x.e i) / dt) T1 ((T1 - x.T) / dt) =
      el.C T1 * (-(isoPerzyna eps r gf).y s (fun _ => al) T1 • (isoPerzyna eps r gf).g.ds s (fun _ => al) T1 -
        vecMulVec ((isoPerzyna eps r gf).g.v s (fun _ => al) T1)
          ((isoPerzyna eps r gf).dy_ds s (fun _ => al) T1)) := by
    show el.C T1 * (_ - _ - ((T1 - x.T) / dt) • (0 : Matrix (Fin 6) (Fin 6) ℝ) - 0) = _
    rw [smul_zero, sub_zero, sub_zero]
  have h2 : (tvp el (isoPerzyna eps r gf)).ds_da s (fun _ => al)
      (fun i => (e1 i - x.e i) / dt) T1 ((T1 - x.T) / dt) =
      el.C T1 * (-(isoPerzyna eps r gf).y s (fun _ => al) T1 • (isoPerzyna eps r gf).g.da s (fun _ => al) T1 -
        vecMulVec ((isoPerzyna eps r gf).g.v s (fun _ => al) T1)
          ((isoPerzyna eps r gf).dy_da s (fun _ => al) T1)) := by
    show el.C T1 * (_ - _ - ((T1 - x.T) / dt) • (0 : Matrix (Fin 6) Unit ℝ) - 0) = _
    rw [smul_zero, sub_zero, sub_zero]
  have h3 : (tvp el (isoPerzyna eps r gf)).da_ds s (fun _ => al)
      (fun i => (e1 i - x.e i) / dt) T1 ((T1 - x.T) / dt) =
      (isoPerzyna eps r gf).y s (fun _ => al) T1 • (isoPerzyna eps r gf).h.ds s (fun _ => al) T1 +
        vecMulVec ((isoPerzyna eps r gf).h.v s (fun _ => al) T1)
          ((isoPerzyna eps r gf).dy_ds s (fun _ => al) T1) := by
    show _ + _ + ((T1 - x.T) / dt) • (0 : Matrix Unit (Fin 6) ℝ) + 0 = _
    rw [smul_zero, add_zero, add_zero]
  have h4 : (tvp el (isoPerzyna eps r gf)).da_da s (fun _ => al)
      (fun i => (e1 i - x.e i) / dt) T1 ((T1 - x.T) / dt) =
      (isoPerzyna eps r gf).y s (fun _ => al) T1 • (isoPerzyna eps r gf).h.da s (fun _ => al) T1 +
        vecMulVec ((isoPerzyna eps r gf).h.v s (fun _ => al) T1)
          ((isoPerzyna eps r gf).dy_da s (fun _ => al) T1) := by
    show _ + _ + ((T1 - x.T) / dt) • (0 : Matrix Unit Unit ℝ) + 0 = _
    rw [smul_zero, add_zero, add_zero]
  simp only
  rw [h1, h2, h3, h4, perz_dg_da hN, perz_dh_ds, perz_dh_da hN, perz_y, perz_g, perz_h, perz_dy_ds,
    perz_dy_da, smul_zero, smul_zero, smul_zero, zero_sub, zero_add, zero_add, ← mulVec_mulVec,
    ← mulVec_mulVec, ← mulVec_add, Matrix.sub_mulVec, Matrix.smul_mulVec, perz_dg_ds hN,
    Matrix.neg_mulVec, outer_mulVec, outer_mulVec, outer_mulVec, outer_mulVec, hC]
  set m := normalize eps (devVec s)
  set ρ := rate gf T1 (excess r T1 s al)
  set σ := rateSlope gf T1 (excess r T1 s al)
  have hd1 : (σ • m) ⬝ᵥ v = σ * (m ⬝ᵥ v) := by rw [smul_dotProduct, smul_eq_mul]
  have hd2 : (fun _ : Unit => σ * (r.dq al T1 * √(2 / 3))) ⬝ᵥ (fun _ => b) =
      σ * (r.dq al T1 * √(2 / 3)) * b := by simp [dotProduct]
  rw [hd1, hd2]
  ext a
  rcases a with i | a
  · simp only [Sum.elim_inl]
    rw [hw]
    have : v - dt • (isoC G Kb *ᵥ (-ρ • (1 / norm2 (devVec s)) • (devProj *ᵥ v - (m ⬝ᵥ v) • m) -
        (σ * (m ⬝ᵥ v)) • m + -((σ * (r.dq al T1 * √(2 / 3)) * b) • m))) =
        v + dt • (isoC G Kb *ᵥ (ρ • (1 / norm2 (devVec s)) • (devProj *ᵥ v - (m ⬝ᵥ v) • m) +
          (σ * (m ⬝ᵥ v + r.dq al T1 * √(2 / 3) * b)) • m)) := by
      rw [sub_eq_add_neg, ← smul_neg, ← mulVec_neg]
      congr 3
      module
    rw [this]
  · simp only [Sum.elim_inr, Pi.sub_apply, Pi.add_apply, Pi.smul_apply, smul_eq_mul]
    rw [hw]
    ring

/-- The Jacobian is regular wherever the deviator is long enough and the flow has the right sign. -/
theorem gi_det (he : 0 < eps) (hG : 0 < G) (hdt : 0 < t1 - x.t) (hC : el.C T1 = isoC G Kb)
    {s : Fin 6 → ℝ} {al : ℝ} (hs : eps ≤ norm2 (devVec s))
    (hr : 0 ≤ rate gf T1 (excess r T1 s al)) (hσ : 0 ≤ rateSlope gf T1 (excess r T1 s al))
    (hh : 0 ≤ 2 * G - 2 / 3 * r.dq al T1) :
    (giJ (tvp el (isoPerzyna eps r gf)) (giTrial x e1 T1 t1) (Sum.elim s fun _ => al)).det ≠ 0 := by
  intro h0
  obtain ⟨z, hz, h⟩ := exists_mulVec_eq_zero_iff.mpr h0
  apply hz
  have hN : 0 < norm2 (devVec s) := he.trans_le hs
  obtain ⟨hm, -⟩ := unit_of he hs
  have htr : tr3 (normalize eps (devVec s)) = 0 := tr3_normalize (tr3_devVec s)
  obtain ⟨v, b, rfl⟩ : ∃ v b, z = Sum.elim v fun _ => b :=
    ⟨fun i => z (.inl i), z (.inr ()), by ext a; rcases a with i | a <;> rfl⟩
  rw [giJ_iso hdt hC hN v b _ rfl] at h
  set m := normalize eps (devVec s)
  set N := norm2 (devVec s)
  set dt := t1 - x.t
  set ρ := rate gf T1 (excess r T1 s al)
  set σ := rateSlope gf T1 (excess r T1 s al)
  set w := σ * (m ⬝ᵥ v + r.dq al T1 * √(2 / 3) * b) with hw
  have hsq : √(2 / 3) * √(2 / 3) = (2 / 3 : ℝ) := Real.mul_self_sqrt (by norm_num)
  have h1 : v + dt • (isoC G Kb *ᵥ (ρ • (1 / N) • (devProj *ᵥ v - (m ⬝ᵥ v) • m) + w • m)) = 0 := by
    ext i; exact congrFun h (.inl i)
  have h2 : b = dt * (√(2 / 3) * w) := by
    have := congrFun h (.inr ())
    simp only [Sum.elim_inr, Pi.zero_apply] at this
    linarith
  have hmv : m ⬝ᵥ v = -(2 * G * dt * w) := by
    have h5 := congrArg (fun w => m ⬝ᵥ w) h1
    simp only [dotProduct_add, dotProduct_smul, dot_isoC G Kb htr, dotProduct_sub, dot_devProj htr,
      hm, dotProduct_zero, smul_eq_mul] at h5
    linear_combination h5
  have hw0 : w = 0 := by
    have h5 : (1 + σ * dt * (2 * G - 2 / 3 * r.dq al T1)) * w = 0 := by
      have h6 : w = σ * (-(2 * G * dt * w) + r.dq al T1 * √(2 / 3) * (dt * (√(2 / 3) * w))) := by
        conv_lhs => rw [hw]
        rw [hmv, h2]
      linear_combination h6 + (σ * r.dq al T1 * dt * w) * hsq
    have h7 : 0 < 1 + σ * dt * (2 * G - 2 / 3 * r.dq al T1) := by positivity
    exact (mul_eq_zero.mp h5).resolve_left h7.ne'
  rw [hw0] at h1 h2 hmv
  rw [hmv] at h1
  simp only [mul_zero, neg_zero, zero_smul, sub_zero, add_zero] at h1
  have hPv : devProj *ᵥ v = 0 := by
    have h5 := congrArg (fun w => devProj *ᵥ w) h1
    simp only [mulVec_add, mulVec_smul, devProj_isoC, mulVec_zero] at h5
    have h3 : devProj *ᵥ (devProj *ᵥ v) = devProj *ᵥ v := by
      rw [← devVec_eq v, devProj_of_tr3 (tr3_devVec v)]
    rw [h3] at h5
    have h4 : (1 + dt * (ρ * ((1 / N) * (2 * G)))) • (devProj *ᵥ v) = 0 := by
      rw [← h5]; module
    have h6 : 0 < 1 + dt * (ρ * ((1 / N) * (2 * G))) := by positivity
    exact (smul_eq_zero.mp h4).resolve_left h6.ne'
  rw [hPv] at h1
  simp only [smul_zero, mulVec_zero, add_zero] at h1
  rw [h1, h2]
  ext a
  rcases a with i | a <;> simp

end system

end Neml.SolveStep
