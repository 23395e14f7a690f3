import Verif.Props.LinearReturn
import Verif.Props.NewtonChain
import Mathlib.Topology.Order.IntermediateValue
import Mathlib.Topology.Instances.Real.Lemmas

/-!
# C182, C183: J2 plasticity with isotropic hardening
-/

namespace Neml.SolveStep

open Matrix Neml.SmallStrain Neml.Flow Neml.Mandel Neml.Elastic

/-! ## The flow rule -/

section flow

variable {eps : ℝ} {r : Iso}

theorem iso_f (s : Fin 6 → ℝ) (al T : ℝ) :
    (isoFlow eps r).f s (fun _ => al) T = norm2 (devVec s) - √(2 / 3) * (-r.q al T) := by
  show norm2 (shifted s (expandHist fun _ => r.q al T)) + √(2 / 3) * r.q al T = _
  rw [shifted_expand]
  ring

theorem iso_g (s : Fin 6 → ℝ) (al T : ℝ) :
    (isoFlow eps r).g s (fun _ => al) T = normalize eps (devVec s) := by
  show normalize eps (shifted s (expandHist fun _ => r.q al T)) = _
  rw [shifted_expand]

theorem iso_df_ds (s : Fin 6 → ℝ) (al T : ℝ) :
    (isoFlow eps r).df_ds s (fun _ => al) T = normalize eps (devVec s) := by
  show normalize eps (shifted s (expandHist fun _ => r.q al T)) = _
  rw [shifted_expand]

theorem iso_h (s : Fin 6 → ℝ) (al T : ℝ) :
    (isoFlow eps r).h s (fun _ => al) T = fun _ => √(2 / 3) := rfl

theorem iso_df_da (s : Fin 6 → ℝ) (al T : ℝ) :
    (isoFlow eps r).df_da s (fun _ => al) T = fun _ => r.dq al T * √(2 / 3) := by
  show (Matrix.of fun _ _ => r.dq al T)ᵀ *ᵥ (fun _ : Unit => √(2 / 3)) = _
  ext u
  simp only [mulVec, dotProduct, Finset.univ_unique, Finset.sum_singleton, transpose_apply, of_apply]

variable {s : Fin 6 → ℝ} {al T : ℝ}

theorem iso_dg_ds (hN : 0 < norm2 (devVec s)) (v : Fin 6 → ℝ) :
    (isoFlow eps r).dg_ds s (fun _ => al) T *ᵥ v =
      (1 / norm2 (devVec s)) • (devProj *ᵥ v -
        (normalize eps (devVec s) ⬝ᵥ v) • normalize eps (devVec s)) := by
  show (if norm2 (shifted s (expandHist fun _ => r.q al T)) > 0 then
    (1 / norm2 (shifted s (expandHist fun _ => r.q al T))) • (devProj -
      vecMulVec (normalize eps (shifted s (expandHist fun _ => r.q al T)))
        (normalize eps (shifted s (expandHist fun _ => r.q al T)))) else 0) *ᵥ v = _
  rw [shifted_expand, if_pos hN, Q_mulVec]

theorem iso_dg_da (hN : 0 < norm2 (devVec s)) : (isoFlow eps r).dg_da s (fun _ => al) T = 0 := by
  have h : (isoJ2 eps).df_dsdq s (fun _ => r.q al T) T = 0 := by
    ext i u
    show (if norm2 (shifted s (expandHist fun _ => r.q al T)) > 0 then fromCols 0 _ else 0) i
      (Sum.inl ()) = _
    rw [shifted_expand, if_pos hN]
    rfl
  show (isoJ2 eps).df_dsdq s (fun _ => r.q al T) T * _ = 0
  rw [h, Matrix.zero_mul]

theorem iso_dh_ds : (isoFlow eps r).dh_ds s (fun _ => al) T = 0 := by
  ext i u
  rfl

theorem iso_dh_da (hN : 0 < norm2 (devVec s)) : (isoFlow eps r).dh_da s (fun _ => al) T = 0 := by
  have h : (isoJ2 eps).df_dqdq s (fun _ => r.q al T) T = 0 := by
    ext i u
    show (if norm2 (shifted s (expandHist fun _ => r.q al T)) > 0 then fromBlocks 0 0 0 _ else 0)
      (Sum.inl ()) (Sum.inl ()) = _
    rw [shifted_expand, if_pos hN]
    rfl
  show (isoJ2 eps).df_dqdq s (fun _ => r.q al T) T * _ = 0
  rw [h, Matrix.zero_mul]

end flow

/-! ## The system -/

/-- The Jacobian is regular wherever the deviator is long enough, the multiplier is not negative and
the rule does not soften faster than three times the shear modulus. -/
theorem iso_det {eps : ℝ} {r : Iso} (he : 0 < eps) {G Kb : ℝ} (hG : 0 < G)
    (ts : RITrial ℝ (Fin 6) Unit) (hC : ts.C = isoC G Kb) {s : Fin 6 → ℝ} {al : ℝ}
    (hh : 0 < 2 * G - 2 / 3 * r.dq al ts.T) (hs : eps ≤ norm2 (devVec s)) {dg : ℝ} (hd : 0 ≤ dg) :
    (riJ (isoFlow eps r) ts (Sum.elim s (Sum.elim (fun _ => al) fun _ => dg))).det ≠ 0 := by
  intro h0
  obtain ⟨z, hz, h⟩ := exists_mulVec_eq_zero_iff.mpr h0
  apply hz
  have hN : 0 < norm2 (devVec s) := he.trans_le hs
  obtain ⟨hm, -⟩ := unit_of he hs
  have htr : tr3 (normalize eps (devVec s)) = 0 := tr3_normalize (tr3_devVec s)
  obtain ⟨v, al', l, rfl⟩ : ∃ v al' l, z = Sum.elim v (Sum.elim (fun _ => al') fun _ => l) :=
    ⟨fun i => z (.inl i), z (.inr (.inl ())), z (.inr (.inr ())),
      by ext a; rcases a with i | a | a <;> rfl⟩
  rw [riJ_mulVec, iso_dg_ds hN, iso_dg_da hN, iso_dh_ds, iso_dh_da hN, iso_g, iso_h, iso_df_ds,
    iso_df_da, hC, isoC_dev G Kb htr] at h
  simp only [zero_mulVec, add_zero, smul_zero, sub_zero] at h
  set m := normalize eps (devVec s) with hmdef
  set N := norm2 (devVec s)
  have h1 : v + dg • (isoC G Kb *ᵥ ((1 / N) • (devProj *ᵥ v - (m ⬝ᵥ v) • m))) +
      l • (2 * G) • m = 0 := by
    ext i; exact congrFun h (.inl i)
  have h2 : al' = √(2 / 3) * l := by
    have := congrFun h (.inr (.inl ()))
    simp only [Sum.elim_inr, Sum.elim_inl, Pi.sub_apply, Pi.smul_apply, smul_eq_mul,
      Pi.zero_apply] at this
    linarith
  have h4 : m ⬝ᵥ v + r.dq al ts.T * √(2 / 3) * al' = 0 := by
    have h5 : m ⬝ᵥ v + (fun _ : Unit => r.dq al ts.T * √(2 / 3)) ⬝ᵥ (fun _ => al') = 0 :=
      congrFun h (.inr (.inr ()))
    simpa [dotProduct] using h5
  have hmv : m ⬝ᵥ v = -(2 * G * l) := by
    have h5 := congrArg (fun w => m ⬝ᵥ w) h1
    simp only [dotProduct_add, dotProduct_smul, dot_isoC G Kb htr, dotProduct_sub, dot_devProj htr,
      hm, dotProduct_zero, smul_eq_mul] at h5
    linarith
  have hl : l = 0 := by
    rw [hmv, h2] at h4
    have hsq : √(2 / 3) * √(2 / 3) = (2 / 3 : ℝ) := Real.mul_self_sqrt (by norm_num)
    have h5 : (2 * G - 2 / 3 * r.dq al ts.T) * l = 0 := by
      linear_combination -h4 + (r.dq al ts.T * l) * hsq
    exact (mul_eq_zero.mp h5).resolve_left hh.ne'
  rw [hl, zero_smul, add_zero] at h1
  rw [hl, mul_zero, neg_zero] at hmv
  rw [hmv, zero_smul, sub_zero] at h1
  have hw : devProj *ᵥ v = 0 := by
    have h2 := congrArg (fun w => devProj *ᵥ w) h1
    simp only [mulVec_add, mulVec_smul, devProj_isoC, mulVec_zero] at h2
    have h3 : devProj *ᵥ (devProj *ᵥ v) = devProj *ᵥ v := by
      rw [← devVec_eq v, devProj_of_tr3 (tr3_devVec v)]
    rw [h3] at h2
    have h4 : (1 + dg * ((1 / N) * (2 * G))) • (devProj *ᵥ v) = 0 := by
      rw [← h2]; module
    have h5 : 0 < 1 + dg * ((1 / N) * (2 * G)) := by positivity
    exact (smul_eq_zero.mp h4).resolve_left h5.ne'
  rw [hw] at h1
  simp only [smul_zero, mulVec_zero, add_zero] at h1
  rw [h1, h2, hl]
  ext a
  rcases a with i | a | a <;> simp

/-! ## Along the ray -/

section ray

variable {el : Elastic ℝ (Fin 6)} {eps G Kb : ℝ} {r : Iso}
  {lin : Matrix (Fin (6 + (1 + 1))) (Fin (6 + (1 + 1))) ℝ → (Fin (6 + (1 + 1)) → ℝ) →
    Option (Fin (6 + (1 + 1)) → ℝ)} {p : Newton.Params} {fuel : Nat}
  {inv : Matrix (RIx (Fin 6) Unit) (RIx (Fin 6) Unit) ℝ → Option (Matrix (RIx (Fin 6) Unit) (RIx (Fin 6) Unit) ℝ)}
  {x : Substep.Point ℝ (Fin 6 → ℝ) (Fin 6 → ℝ) (Unit → ℝ)} {e1 : Fin 6 → ℝ} {T1 t1 : ℝ}

theorem riR_iso (hC : el.C T1 = isoC G Kb) (s : Fin 6 → ℝ) (al1 dg : ℝ) :
    riR (isoFlow eps r) (riTrial el x e1 T1) (Sum.elim s (Sum.elim (fun _ => al1) fun _ => dg)) =
      Sum.elim (s - trial' el x e1 T1 + dg • (isoC G Kb *ᵥ normalize eps (devVec s)))
        (Sum.elim (fun _ => al1 - x.h () - √(2 / 3) * dg)
          (fun _ => norm2 (devVec s) - √(2 / 3) * (-r.q al1 T1))) := by
  ext a
  rcases a with i | a | a
  · show s i - (el.C T1 *ᵥ fun i => e1 i - (x.e - el.S x.T *ᵥ x.s) i -
      (isoFlow eps r).g s (fun _ => al1) T1 i * dg) i = _
    rw [iso_g]
    have h1 : (fun i => e1 i - (x.e - el.S x.T *ᵥ x.s) i - normalize eps (devVec s) i * dg) =
        (e1 - (x.e - el.S x.T *ᵥ x.s)) - dg • normalize eps (devVec s) := by
      ext i
      simp only [Pi.sub_apply, Pi.smul_apply, smul_eq_mul]
      ring
    rw [h1, mulVec_sub, mulVec_smul, trial', hC]
    simp only [Sum.elim_inl, Pi.sub_apply, Pi.add_apply]
    ring
  · rfl
  · show (isoFlow eps r).f s (fun _ => al1) T1 = _
    rw [iso_f]
    rfl

/-- Length of the deviator of the trial stress less what a plastic strain of length `d` takes off it,
less the radius of the surface after that strain. -/
noncomputable def gap (r : Iso) (G N al T d : ℝ) : ℝ :=
  N - 2 * G * d - √(2 / 3) * (-r.q (al + √(2 / 3) * d) T)

/-- The stress after a plastic strain of length `d` along the deviator of the trial stress. -/
noncomputable def back (G : ℝ) (s : Fin 6 → ℝ) (d : ℝ) : Fin 6 → ℝ := s - (2 * G * d) • dir s

/-- The unknowns after a plastic strain of length `d`. -/
noncomputable def ray (G : ℝ) (s : Fin 6 → ℝ) (al d : ℝ) : RIx (Fin 6) Unit → ℝ :=
  Sum.elim (back G s d) (Sum.elim (fun _ => al + √(2 / 3) * d) fun _ => d)

theorem dir_unit {s : Fin 6 → ℝ} (h : 0 < norm2 (devVec s)) : dir s ⬝ᵥ dir s = 1 := by
  unfold dir
  rw [smul_dotProduct, dotProduct_smul, ← norm2_sq]
  simp only [smul_eq_mul]
  field_simp

theorem devVec_back {s : Fin 6 → ℝ} (h : 0 < norm2 (devVec s)) (d : ℝ) :
    devVec (back G s d) = (norm2 (devVec s) - 2 * G * d) • dir s := by
  have h1 : tr3 (dir s) = 0 := by rw [dir, tr3_smul, tr3_devVec, mul_zero]
  rw [back, devVec_sub', devVec_of_tr3 (v := (2 * G * d) • dir s) (by rw [tr3_smul, h1, mul_zero]),
    sub_smul]
  congr 1
  unfold dir
  rw [smul_smul]
  field_simp
  simp

variable {s : Fin 6 → ℝ} {al d : ℝ}

theorem norm2_back (he : 0 < eps) (h : 0 < norm2 (devVec s)) (hd : eps ≤ norm2 (devVec s) - 2 * G * d) :
    norm2 (devVec (back G s d)) = norm2 (devVec s) - 2 * G * d := by
  rw [devVec_back h, norm2_unit (dir_unit h), abs_of_pos (he.trans_le hd)]

theorem normalize_back (he : 0 < eps) (h : 0 < norm2 (devVec s))
    (hd : eps ≤ norm2 (devVec s) - 2 * G * d) : normalize eps (devVec (back G s d)) = dir s := by
  rw [devVec_back h, normalize_smul (dir_unit h) he hd]

theorem riR_ray (he : 0 < eps) (hC : el.C T1 = isoC G Kb) (h : 0 < norm2 (devVec (trial' el x e1 T1)))
    (hd : eps ≤ norm2 (devVec (trial' el x e1 T1)) - 2 * G * d) :
    riR (isoFlow eps r) (riTrial el x e1 T1) (ray G (trial' el x e1 T1) (x.h ()) d) =
      Sum.elim (0 : Fin 6 → ℝ) (Sum.elim (fun _ => 0)
        (fun _ => gap r G (norm2 (devVec (trial' el x e1 T1))) (x.h ()) T1 d)) := by
  have htr : tr3 (dir (trial' el x e1 T1)) = 0 := by rw [dir, tr3_smul, tr3_devVec, mul_zero]
  rw [ray, riR_iso hC, normalize_back he h hd, norm2_back he h hd, isoC_dev G Kb htr]
  have h1 : back G (trial' el x e1 T1) d - trial' el x e1 T1 + d • (2 * G) • dir (trial' el x e1 T1) = 0 := by
    unfold back; module
  rw [h1]
  ext a
  rcases a with i | a | a
  · rfl
  · simp only [Sum.elim_inr, Sum.elim_inl]; ring
  · rfl

theorem riJ_ray (he : 0 < eps) (hC : el.C T1 = isoC G Kb) (h : 0 < norm2 (devVec (trial' el x e1 T1)))
    (hd : eps ≤ norm2 (devVec (trial' el x e1 T1)) - 2 * G * d) (t : ℝ) :
    riJ (isoFlow eps r) (riTrial el x e1 T1) (ray G (trial' el x e1 T1) (x.h ()) d) *ᵥ
        (ray G (trial' el x e1 T1) (x.h ()) d - ray G (trial' el x e1 T1) (x.h ()) (d + t)) =
      Sum.elim (0 : Fin 6 → ℝ) (Sum.elim (fun _ => 0)
        (fun _ => (2 * G - 2 / 3 * r.dq (x.h () + √(2 / 3) * d) T1) * t)) := by
  have hsq : √(2 / 3) * √(2 / 3) = (2 / 3 : ℝ) := Real.mul_self_sqrt (by norm_num)
  set str := trial' el x e1 T1 with hstr
  have htr : tr3 (dir str) = 0 := by rw [dir, tr3_smul, tr3_devVec, mul_zero]
  have hm := dir_unit h
  have hN : 0 < norm2 (devVec (back G str d)) := by
    rw [norm2_back he h hd]; exact he.trans_le hd
  have hδ : ray G str (x.h ()) d - ray G str (x.h ()) (d + t) =
      Sum.elim ((2 * G * t) • dir str) (Sum.elim (fun _ => -(√(2 / 3) * t)) fun _ => -t) := by
    ext a
    rcases a with i | a | a
    · simp only [ray, back, Pi.sub_apply, Sum.elim_inl, Pi.smul_apply, smul_eq_mul]; ring
    · simp only [ray, Pi.sub_apply, Sum.elim_inl, Sum.elim_inr]; ring
    · simp only [ray, Pi.sub_apply, Sum.elim_inr]; ring
  rw [hδ, ray, riJ_mulVec, iso_dg_ds hN, iso_dg_da hN, iso_dh_ds, iso_dh_da hN, iso_g, iso_h,
    iso_df_ds, iso_df_da, normalize_back he h hd, show (riTrial el x e1 T1).C = isoC G Kb from hC,
    isoC_dev G Kb htr]
  have hP : devProj *ᵥ ((2 * G * t) • dir str) = (2 * G * t) • dir str := by
    rw [mulVec_smul, devProj_of_tr3 htr]
  have h0 : devProj *ᵥ ((2 * G * t) • dir str) - (dir str ⬝ᵥ ((2 * G * t) • dir str)) • dir str = 0 := by
    rw [hP, dotProduct_smul, hm]
    simp
  rw [h0]
  ext a
  rcases a with i | a | a
  · simp only [zero_mulVec, add_zero, smul_zero, mulVec_zero, Sum.elim_inl, Pi.add_apply, Pi.smul_apply,
      smul_eq_mul, Pi.zero_apply]
    ring
  · simp only [zero_mulVec, add_zero, smul_zero, sub_zero, Sum.elim_inl, Sum.elim_inr, Pi.sub_apply,
      Pi.smul_apply, smul_eq_mul]
    ring
  · simp only [Sum.elim_inr, dotProduct_smul, hm, smul_eq_mul]
    simp only [dotProduct, Finset.univ_unique, Finset.sum_singleton]
    show _ + r.dq (x.h () + √(2 / 3) * d) T1 * √(2 / 3) * -(√(2 / 3) * t) = _
    linear_combination (-(r.dq (x.h () + √(2 / 3) * d) T1) * t) * hsq

theorem ray_zero : riInit (riTrial el x e1 T1) = ray G (trial' el x e1 T1) (x.h ()) 0 := by
  unfold riInit ray back
  ext a
  rcases a with i | a | a
  · simp; rfl
  · simp; rfl
  · rfl

theorem norm_ray (he : 0 < eps) (hC : el.C T1 = isoC G Kb)
    (h : 0 < norm2 (devVec (trial' el x e1 T1)))
    (hd : eps ≤ norm2 (devVec (trial' el x e1 T1)) - 2 * G * d) :
    √(∑ a, riR (isoFlow eps r) (riTrial el x e1 T1) (ray G (trial' el x e1 T1) (x.h ()) d) a *
        riR (isoFlow eps r) (riTrial el x e1 T1) (ray G (trial' el x e1 T1) (x.h ()) d) a) =
      |gap r G (norm2 (devVec (trial' el x e1 T1))) (x.h ()) T1 d| := by
  rw [riR_ray he hC h hd, Fintype.sum_sum_type, Fintype.sum_sum_type]
  simp only [Sum.elim_inl, Sum.elim_inr, Pi.zero_apply, mul_zero, Finset.sum_const_zero, zero_add,
    Finset.univ_unique, Finset.sum_singleton]
  rw [Real.sqrt_mul_self_eq_abs]

/-! ## Exactly one return -/

/-- What is asked of the hardening rule from the strain `al` on: the surface never shrinks below the
smallest length the code divides by, its radius is continuous, and it softens slower than three times
the shear modulus. -/
structure Tame (eps G : ℝ) (r : Iso) (al T : ℝ) : Prop where
  floor : ∀ a, al ≤ a → eps ≤ √(2 / 3) * (-r.q a T)
  cont : ContinuousOn (fun a => r.q a T) (Set.Ici al)
  slow : ∀ a b, al ≤ a → a < b → (-r.q a T) - (-r.q b T) < 3 * G * (b - a)

theorem gap_anti {N T : ℝ} (ht : Tame eps G r al T) {d1 d2 : ℝ} (h1 : 0 ≤ d1) (h : d1 < d2) :
    gap r G N al T d2 < gap r G N al T d1 := by
  have hsq : √(2 / 3) * √(2 / 3) = (2 / 3 : ℝ) := Real.mul_self_sqrt (by norm_num)
  have hc : 0 < √(2 / 3 : ℝ) := Real.sqrt_pos.mpr (by norm_num)
  have := ht.slow (al + √(2 / 3) * d1) (al + √(2 / 3) * d2)
    (le_add_of_nonneg_right (by positivity)) (by nlinarith)
  have h2 := mul_lt_mul_of_pos_left this hc
  have h3 : √(2 / 3) * (3 * G * (al + √(2 / 3) * d2 - (al + √(2 / 3) * d1))) = 2 * G * (d2 - d1) := by
    linear_combination (3 * G * (d2 - d1)) * hsq
  rw [h3] at h2
  unfold gap
  linarith

theorem exists_root {N T : ℝ} (he : 0 < eps) (hG : 0 < G) (ht : Tame eps G r al T)
    (h0 : 0 < gap r G N al T 0) : ∃ d, 0 < d ∧ gap r G N al T d = 0 := by
  have hc : 0 < √(2 / 3 : ℝ) := Real.sqrt_pos.mpr (by norm_num)
  have hf := ht.floor al le_rfl
  have hN : 0 < N := by
    unfold gap at h0
    simp only [mul_zero, add_zero, sub_zero] at h0
    linarith
  have hcont : ContinuousOn (gap r G N al T) (Set.Icc 0 (N / (2 * G))) := by
    unfold gap
    refine ContinuousOn.sub (by fun_prop) (ContinuousOn.mul (by fun_prop) (ContinuousOn.neg ?_))
    exact ht.cont.comp (f := fun d => al + √(2 / 3) * d) (by fun_prop)
      fun d hd => le_add_of_nonneg_right (mul_nonneg hc.le hd.1)
  have h1 : gap r G N al T (N / (2 * G)) < 0 := by
    have := ht.floor (al + √(2 / 3) * (N / (2 * G))) (le_add_of_nonneg_right (by positivity))
    unfold gap
    have h2 : N - 2 * G * (N / (2 * G)) = 0 := by field_simp; ring
    rw [h2]
    linarith
  obtain ⟨d, hd, hd0⟩ := intermediate_value_Icc' (by positivity) hcont ⟨h1.le, h0.le⟩
  refine ⟨d, lt_of_le_of_ne hd.1 fun h => ?_, hd0⟩
  rw [← h] at hd0
  linarith

/-- Every solution of the equations lies on the ray. -/
theorem on_ray (he : 0 < eps) (hG : 0 < G) (hC : el.C T1 = isoC G Kb)
    (ht : Tame eps G r (x.h ()) T1) {z : RIx (Fin 6) Unit → ℝ} (hz : 0 ≤ z (.inr (.inr ())))
    (h : riR (isoFlow eps r) (riTrial el x e1 T1) z = 0) :
    z = ray G (trial' el x e1 T1) (x.h ()) (z (.inr (.inr ()))) ∧
      gap r G (norm2 (devVec (trial' el x e1 T1))) (x.h ()) T1 (z (.inr (.inr ()))) = 0 ∧
      eps ≤ norm2 (devVec (trial' el x e1 T1)) - 2 * G * z (.inr (.inr ())) := by
  obtain ⟨s, al1, dg, rfl⟩ : ∃ s al1 dg, z = Sum.elim s (Sum.elim (fun _ => al1) fun _ => dg) :=
    ⟨fun i => z (.inl i), z (.inr (.inl ())), z (.inr (.inr ())),
      by ext a; rcases a with i | a | a <;> rfl⟩
  simp only [Sum.elim_inr] at hz ⊢
  rw [riR_iso hC] at h
  set str := trial' el x e1 T1
  have h2 : al1 = x.h () + √(2 / 3) * dg := by
    have := congrFun h (.inr (.inl ()))
    simp only [Sum.elim_inr, Sum.elim_inl, Pi.zero_apply] at this
    linarith
  have h3 : norm2 (devVec s) = √(2 / 3) * (-r.q al1 T1) := by
    have := congrFun h (.inr (.inr ()))
    simp only [Sum.elim_inr, Pi.zero_apply] at this
    linarith
  have hfl : eps ≤ norm2 (devVec s) := by
    rw [h3]
    exact ht.floor _ (by rw [h2]; exact le_add_of_nonneg_right (by positivity))
  obtain ⟨hm, hdev⟩ := unit_of he hfl
  have htr : tr3 (normalize eps (devVec s)) = 0 := tr3_normalize (tr3_devVec s)
  set m := normalize eps (devVec s) with hmdef
  have h1 : str = s + (2 * G * dg) • m := by
    have h4 : s - str + dg • (isoC G Kb *ᵥ m) = 0 := by ext i; exact congrFun h (.inl i)
    rw [isoC_dev G Kb htr] at h4
    rw [eq_comm, ← sub_eq_zero, ← h4]
    module
  have h5 : devVec str = (norm2 (devVec s) + 2 * G * dg) • m := by
    rw [h1, devVec_add, devVec_of_tr3 (v := (2 * G * dg) • m) (by rw [tr3_smul, htr, mul_zero]),
      add_smul, ← hdev]
  have h6 : norm2 (devVec str) = norm2 (devVec s) + 2 * G * dg := by
    rw [h5, norm2_unit hm, abs_of_nonneg]
    have := he.le.trans hfl
    positivity
  have hp : 0 < norm2 (devVec str) := by
    rw [h6]
    have := he.trans_le hfl
    positivity
  have h7 : dir str = m := by
    unfold dir
    rw [h5, norm2_unit hm, smul_smul, ← h6, abs_of_pos hp]
    field_simp
    simp
  refine ⟨?_, ?_, by linarith⟩
  · unfold ray back
    rw [h7, h2, h1]
    congr 1
    module
  · unfold gap
    rw [← h2, ← h3, h6]
    ring

/-- C182: with isotropic hardening, the equations of a step whose trial stress is outside the surface
have exactly one solution with a multiplier that is not negative. -/
theorem C182_unique (he : 0 < eps) (hG : 0 < G) (hC : el.C T1 = isoC G Kb)
    (ht : Tame eps G r (x.h ()) T1)
    (ho : √(2 / 3) * (-r.q (x.h ()) T1) < norm2 (devVec (trial' el x e1 T1))) :
    ∃! z : RIx (Fin 6) Unit → ℝ, 0 ≤ z (.inr (.inr ())) ∧
      riR (isoFlow eps r) (riTrial el x e1 T1) z = 0 := by
  have h0 : 0 < gap r G (norm2 (devVec (trial' el x e1 T1))) (x.h ()) T1 0 := by
    unfold gap
    simp only [mul_zero, add_zero, sub_zero]
    linarith
  obtain ⟨d, hd, hd0⟩ := exists_root he hG ht h0
  have hfl := ht.floor (x.h ()) le_rfl
  have hp : 0 < norm2 (devVec (trial' el x e1 T1)) := by linarith
  have hde : eps ≤ norm2 (devVec (trial' el x e1 T1)) - 2 * G * d := by
    have := ht.floor (x.h () + √(2 / 3) * d) (le_add_of_nonneg_right (by positivity))
    unfold gap at hd0
    linarith
  refine ⟨ray G (trial' el x e1 T1) (x.h ()) d, ⟨hd.le, ?_⟩, ?_⟩
  · rw [riR_ray he hC hp hde, hd0]
    ext a
    rcases a with i | a | a <;> rfl
  · rintro z ⟨hz, hz0⟩
    obtain ⟨h1, h2, -⟩ := on_ray he hG hC ht hz hz0
    have : z (.inr (.inr ())) = d := by
      rcases lt_trichotomy (z (.inr (.inr ()))) d with h | h | h
      · have := gap_anti (N := norm2 (devVec (trial' el x e1 T1))) ht hz h
        linarith
      · exact h
      · have := gap_anti (N := norm2 (devVec (trial' el x e1 T1))) ht hd.le h
        linarith
    rw [h1, this]

/-- C182: that solution keeps the mean stress and the deviatoric direction of the trial stress, is on
the surface as it is after the step, and raises the plastic strain. -/
theorem C182_radial (he : 0 < eps) (hG : 0 < G) (hC : el.C T1 = isoC G Kb)
    (ht : Tame eps G r (x.h ()) T1)
    (ho : √(2 / 3) * (-r.q (x.h ()) T1) < norm2 (devVec (trial' el x e1 T1)))
    {z : RIx (Fin 6) Unit → ℝ} (hz : 0 ≤ z (.inr (.inr ())))
    (h : riR (isoFlow eps r) (riTrial el x e1 T1) z = 0) :
    (fun i => z (.inl i)) =
        radial (√(2 / 3) * (-r.q (z (.inr (.inl ()))) T1)) (trial' el x e1 T1) ∧
      x.h () < z (.inr (.inl ())) := by
  obtain ⟨h1, h2, h3⟩ := on_ray he hG hC ht hz h
  have hc : 0 < √(2 / 3 : ℝ) := Real.sqrt_pos.mpr (by norm_num)
  set d := z (.inr (.inr ()))
  have hfl := ht.floor (x.h ()) le_rfl
  have hp : 0 < norm2 (devVec (trial' el x e1 T1)) := by linarith
  have hal : z (.inr (.inl ())) = x.h () + √(2 / 3) * d := by rw [h1]; rfl
  constructor
  · have hs : (fun i => z (.inl i)) = back G (trial' el x e1 T1) d := by
      conv_lhs => rw [h1]
      rfl
    rw [hs, hal]
    unfold gap at h2
    rw [show √(2 / 3) * (-r.q (x.h () + √(2 / 3) * d) T1) =
      norm2 (devVec (trial' el x e1 T1)) - 2 * G * d by linarith]
    unfold radial back
    have hd : devVec (trial' el x e1 T1) =
        norm2 (devVec (trial' el x e1 T1)) • dir (trial' el x e1 T1) := by
      unfold dir
      rw [smul_smul]
      field_simp
      simp
    nth_rewrite 1 [hd]
    module
  · rw [hal]
    have : d ≠ 0 := by
      intro hd
      rw [hd] at h2
      unfold gap at h2
      simp only [mul_zero, add_zero, sub_zero] at h2
      linarith
    have : 0 < d := lt_of_le_of_ne hz (Ne.symm this)
    have := mul_pos hc this
    linarith

end ray

end Neml.SolveStep
