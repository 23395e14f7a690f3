import Mathlib.Analysis.Complex.ExponentialBounds
import Verif.Props.ViscoUnique

/-!
# C185, C186: the viscoplastic update converges, unless its trial stress flows too fast
-/

namespace Neml.SolveStep

open Matrix Neml.SmallStrain Neml.Flow Neml.Mandel Neml.Elastic

variable {eps G : ℝ} {r : Iso} {gf : GFlow} {al N T dt χ ρ : ℝ}

/-- A flow function above its tangents whose slope keeps the fraction `χ` of itself wherever a Newton
step for a root of the function may lead. -/
structure Gentle (χ : ℝ) (gf : GFlow) (T : ℝ) : Prop where
  pos : ∀ f, 0 < f → 0 < gf.g f T
  rise : ∀ f, 0 < f → 0 < gf.dg f T
  above : ∀ f, 0 < f → ∀ f', gf.g f T + gf.dg f T * (f' - f) ≤ rate gf T f'
  keep : ∀ f f', 0 < f → 0 < f' → gf.dg f T * (f - f') ≤ gf.g f T → χ * gf.dg f T ≤ gf.dg f' T

/-- Slope of the lag. -/
noncomputable def lagSlope (r : Iso) (gf : GFlow) (G N al T dt d : ℝ) : ℝ :=
  1 + dt * gf.dg (gap r G N al T d) T * slope r G al T d

/-- The lengths of the plastic strain the iteration goes through. -/
noncomputable def vlengths (r : Iso) (gf : GFlow) (G N al T dt : ℝ) : ℕ → ℝ
  | 0 => 0
  | k + 1 => vlengths r gf G N al T dt k +
      -lag r gf G N al T dt (vlengths r gf G N al T dt k) /
        lagSlope r gf G N al T dt (vlengths r gf G N al T dt k)

/-- The hardening slope does not drop, relative to the shear modulus, below the fraction `ρ`. -/
def Holds (ρ : ℝ) (r : Iso) (G al T : ℝ) : Prop :=
  ∀ d d', 0 ≤ d → d ≤ d' → ρ * slope r G al T d ≤ slope r G al T d'

theorem lagSlope_ge (hc : Concave r al T) (hg : Gentle χ gf T) (hG : 0 < G) (hdt : 0 < dt) {d : ℝ}
    (hd : 0 ≤ d) (hp : 0 < gap r G N al T d) : 1 ≤ lagSlope r gf G N al T dt d := by
  have h1 := slope_pos hc hG hd
  have h2 := hg.rise _ hp
  have h3 : 0 ≤ dt * gf.dg (gap r G N al T d) T * slope r G al T d :=
    mul_nonneg (mul_nonneg hdt.le h2.le) (by linarith)
  unfold lagSlope
  linarith

/-- The lag lies below its tangents. -/
theorem lag_tangent (hc : Concave r al T) (hg : Gentle χ gf T) (hdt : 0 < dt) {d d' : ℝ}
    (hd : 0 ≤ d) (hd' : 0 ≤ d') (hp : 0 < gap r G N al T d) :
    lag r gf G N al T dt d' ≤ lag r gf G N al T dt d + lagSlope r gf G N al T dt d * (d' - d) := by
  have h1 := hg.above _ hp (gap r G N al T d')
  have h2 := gap_tangent (G := G) (N := N) hc hd hd'
  have h3 := hg.rise _ hp
  have h4 := mul_le_mul_of_nonneg_left (show -(slope r G al T d * (d' - d)) ≤
    gap r G N al T d' - gap r G N al T d by linarith) h3.le
  have h5 := mul_le_mul_of_nonneg_left (show gf.g (gap r G N al T d) T +
    gf.dg (gap r G N al T d) T * -(slope r G al T d * (d' - d)) ≤ rate gf T (gap r G N al T d') by linarith)
    hdt.le
  unfold lag lagSlope
  rw [rate_of_pos hp]
  linarith

/-- Where the lag is not positive there is overstress. -/
theorem gap_pos_of_lag (h0 : 0 < gap r G N al T 0) {d : ℝ} (hd : 0 ≤ d)
    (hl : lag r gf G N al T dt d ≤ 0) : 0 < gap r G N al T d := by
  by_contra hneg
  rw [not_lt] at hneg
  unfold lag at hl
  rw [rate_of_nonpos hneg] at hl
  have : d = 0 := by linarith
  rw [this] at hneg
  linarith

theorem lag_step (hc : Concave r al T) (hg : Gentle χ gf T) (hρ : Holds ρ r G al T) (hG : 0 < G)
    (hdt : 0 < dt) (hχ : 0 < χ) (hρ0 : 0 < ρ) (hle : ρ * χ ≤ 1) (h0 : 0 < gap r G N al T 0) {d : ℝ}
    (hd : 0 ≤ d) (hl : lag r gf G N al T dt d ≤ 0) :
    let d' := d + -lag r gf G N al T dt d / lagSlope r gf G N al T dt d
    d ≤ d' ∧ lag r gf G N al T dt d' ≤ 0 ∧
      -lag r gf G N al T dt d' ≤ (1 - ρ * χ) * -lag r gf G N al T dt d := by
  intro d'
  have hp := gap_pos_of_lag h0 hd hl
  have hS := lagSlope_ge (dt := dt) hc hg hG hdt hd hp
  have hSp : 0 < lagSlope r gf G N al T dt d := by linarith
  have ht : 0 ≤ -lag r gf G N al T dt d / lagSlope r gf G N al T dt d :=
    div_nonneg (by linarith) hSp.le
  have hdd : d ≤ d' := le_add_of_nonneg_right ht
  have hd' : 0 ≤ d' := hd.trans hdd
  have he : lagSlope r gf G N al T dt d * (d' - d) = -lag r gf G N al T dt d := by
    show lagSlope r gf G N al T dt d *
      (d + -lag r gf G N al T dt d / lagSlope r gf G N al T dt d - d) = _
    rw [add_sub_cancel_left]
    field_simp
  have hl' : lag r gf G N al T dt d' ≤ 0 := by
    have := lag_tangent hc hg hdt hd hd' hp
    linarith
  have hp' := gap_pos_of_lag h0 hd' hl'
  refine ⟨hdd, hl', ?_⟩
  -- the slope is kept
  have hsl := slope_pos hc hG hd
  have hkeep : χ * gf.dg (gap r G N al T d) T ≤ gf.dg (gap r G N al T d') T := by
    apply hg.keep _ _ hp hp'
    have h1 := gap_tangent (G := G) (N := N) hc hd hd'
    have h2 := hg.rise _ hp
    have h3 : gf.dg (gap r G N al T d) T * (gap r G N al T d - gap r G N al T d') ≤
        gf.dg (gap r G N al T d) T * (slope r G al T d * (d' - d)) :=
      mul_le_mul_of_nonneg_left (by linarith) h2.le
    refine h3.trans ?_
    have h4 : dt * (gf.dg (gap r G N al T d) T * (slope r G al T d * (d' - d))) ≤
        dt * gf.g (gap r G N al T d) T := by
      have h5 : lagSlope r gf G N al T dt d * (d' - d) = (d' - d) +
          dt * (gf.dg (gap r G N al T d) T * (slope r G al T d * (d' - d))) := by
        unfold lagSlope; ring
      have h6 : lag r gf G N al T dt d = d - dt * gf.g (gap r G N al T d) T := by
        unfold lag; rw [rate_of_pos hp]
      linarith
    exact le_of_mul_le_mul_left h4 hdt
  have hSS : ρ * χ * lagSlope r gf G N al T dt d ≤ lagSlope r gf G N al T dt d' := by
    have h1 := hρ d d' hd hdd
    have h2 := hg.rise _ hp
    have h3 : (χ * gf.dg (gap r G N al T d) T) * (ρ * slope r G al T d) ≤
        gf.dg (gap r G N al T d') T * slope r G al T d' :=
      mul_le_mul hkeep h1 (mul_nonneg hρ0.le (by linarith)) (hg.rise _ hp').le
    have h4 := mul_le_mul_of_nonneg_left h3 hdt.le
    unfold lagSlope
    linarith
  have hb := lag_tangent hc hg hdt hd' hd hp'
  have h7 := mul_le_mul_of_nonneg_right hSS (sub_nonneg.mpr hdd)
  have h8 : ρ * χ * lagSlope r gf G N al T dt d * (d' - d) = ρ * χ * -lag r gf G N al T dt d := by
    rw [mul_assoc, he]
  linarith

theorem vlengths_spec (hc : Concave r al T) (hg : Gentle χ gf T) (hρ : Holds ρ r G al T) (hG : 0 < G)
    (hdt : 0 < dt) (hχ : 0 < χ) (hρ0 : 0 < ρ) (hle : ρ * χ ≤ 1) (h0 : 0 < gap r G N al T 0) (k : ℕ) :
    0 ≤ vlengths r gf G N al T dt k ∧ lag r gf G N al T dt (vlengths r gf G N al T dt k) ≤ 0 ∧
      -lag r gf G N al T dt (vlengths r gf G N al T dt k) ≤
        (1 - ρ * χ) ^ k * -lag r gf G N al T dt 0 := by
  induction k with
  | zero =>
    refine ⟨le_rfl, ?_, by simp [vlengths]⟩
    show 0 - dt * rate gf T (gap r G N al T 0) ≤ 0
    have := mul_pos hdt (hg.pos _ h0)
    rw [rate_of_pos h0]
    linarith
  | succ k ih =>
    obtain ⟨h1, h2, h3⟩ := ih
    obtain ⟨h4, h5, h6⟩ := lag_step hc hg hρ hG hdt hχ hρ0 hle h0 h1 h2
    refine ⟨h1.trans h4, h5, h6.trans ?_⟩
    rw [pow_succ, mul_comm _ (1 - ρ * χ), mul_assoc]
    exact mul_le_mul_of_nonneg_left h3 (by linarith)

section steps

variable {el : Elastic ℝ (Fin 6)} {Kb limit tiny : ℝ}
  {lin : Matrix (Fin (6 + 1)) (Fin (6 + 1)) ℝ → (Fin (6 + 1) → ℝ) → Option (Fin (6 + 1) → ℝ)}
  {p : Newton.Params} {fuel : Nat}
  {inv : Matrix (Fin 6 ⊕ Unit) (Fin 6 ⊕ Unit) ℝ → Option (Matrix (Fin 6 ⊕ Unit) (Fin 6 ⊕ Unit) ℝ)}
  {x : Substep.Point ℝ (Fin 6 → ℝ) (Fin 6 → ℝ) (Unit → ℝ)} {e1 : Fin 6 → ℝ} {T1 t1 : ℝ}

/-- The guess is the trial state. -/
theorem giInit_eq (hdt : 0 < t1 - x.t) :
    giInit el (giTrial x e1 T1 t1) = Sum.elim (trial el x e1 T1) fun _ => x.h () := by
  rw [giTrial_eq hdt]
  unfold giInit trial
  have : ((t1 - x.t) • fun i => (e1 i - x.e i) / (t1 - x.t)) = e1 - x.e := by
    ext i
    simp only [Pi.smul_apply, smul_eq_mul, Pi.sub_apply]
    field_simp
  simp only [this]

theorem giInit_ray (hdt : 0 < t1 - x.t) :
    giInit el (giTrial x e1 T1 t1) = vray G (trial el x e1 T1) (x.h ()) 0 := by
  rw [giInit_eq hdt, vray, back]
  simp

/-- The length of the direction of the residual. -/
noncomputable def weight (G : ℝ) : ℝ := √(4 * G ^ 2 + 2 / 3)

theorem giR_norm (he : 0 < eps) (hdt : 0 < t1 - x.t) (hC : el.C T1 = isoC G Kb)
    (h : 0 < norm2 (devVec (trial el x e1 T1))) {d : ℝ}
    (hd : eps ≤ norm2 (devVec (trial el x e1 T1)) - 2 * G * d) :
    √(∑ a, giR (tvp el (isoPerzyna eps r gf)) (giTrial x e1 T1 t1)
        (vray G (trial el x e1 T1) (x.h ()) d) a *
      giR (tvp el (isoPerzyna eps r gf)) (giTrial x e1 T1 t1)
        (vray G (trial el x e1 T1) (x.h ()) d) a) =
      |lag r gf G (norm2 (devVec (trial el x e1 T1))) (x.h ()) T1 (t1 - x.t) d| * weight G := by
  rw [giR_ray he hdt hC h hd]
  set l := lag r gf G (norm2 (devVec (trial el x e1 T1))) (x.h ()) T1 (t1 - x.t) d
  have hsq : √(2 / 3) * √(2 / 3) = (2 / 3 : ℝ) := Real.mul_self_sqrt (by norm_num)
  have hu := dir_unit h
  rw [Fintype.sum_sum_type]
  simp only [Pi.smul_apply, Sum.elim_inl, Sum.elim_inr, smul_eq_mul, Finset.univ_unique,
    Finset.sum_singleton]
  have h1 : ∑ i, l * (-(2 * G) * dir (trial el x e1 T1) i) * (l * (-(2 * G) * dir (trial el x e1 T1) i)) +
      l * √(2 / 3) * (l * √(2 / 3)) = l ^ 2 * (4 * G ^ 2 + 2 / 3) := by
    have h2 : ∑ i, l * (-(2 * G) * dir (trial el x e1 T1) i) *
        (l * (-(2 * G) * dir (trial el x e1 T1) i)) =
        (l ^ 2 * (4 * G ^ 2)) * (dir (trial el x e1 T1) ⬝ᵥ dir (trial el x e1 T1)) := by
      simp only [dotProduct, Finset.mul_sum]
      exact Finset.sum_congr rfl fun i _ => by ring
    rw [h2, hu]
    linear_combination l ^ 2 * hsq
  rw [h1, Real.sqrt_mul (sq_nonneg l), Real.sqrt_sq_eq_abs]
  rfl

/-- On the ray the Newton step is the one for the lag. -/
theorem visco_newton (he : 0 < eps) (hdt : 0 < t1 - x.t) (hC : el.C T1 = isoC G Kb)
    (h : 0 < norm2 (devVec (trial el x e1 T1))) {d : ℝ}
    (hd : eps ≤ norm2 (devVec (trial el x e1 T1)) - 2 * G * d)
    (hp : 0 < gap r G (norm2 (devVec (trial el x e1 T1))) (x.h ()) T1 d)
    (hS : 0 < lagSlope r gf G (norm2 (devVec (trial el x e1 T1))) (x.h ()) T1 (t1 - x.t) d) :
    giJ (tvp el (isoPerzyna eps r gf)) (giTrial x e1 T1 t1) (vray G (trial el x e1 T1) (x.h ()) d) *ᵥ
        (vray G (trial el x e1 T1) (x.h ()) d - vray G (trial el x e1 T1) (x.h ())
          (d + -lag r gf G (norm2 (devVec (trial el x e1 T1))) (x.h ()) T1 (t1 - x.t) d /
            lagSlope r gf G (norm2 (devVec (trial el x e1 T1))) (x.h ()) T1 (t1 - x.t) d)) =
      giR (tvp el (isoPerzyna eps r gf)) (giTrial x e1 T1 t1)
        (vray G (trial el x e1 T1) (x.h ()) d) := by
  have hm := dir_unit h
  have htr : tr3 (dir (trial el x e1 T1)) = 0 := by rw [dir, tr3_smul, tr3_devVec, mul_zero]
  have hsq : √(2 / 3) * √(2 / 3) = (2 / 3 : ℝ) := Real.mul_self_sqrt (by norm_num)
  have hNk : 0 < norm2 (devVec (back G (trial el x e1 T1) d)) := by
    rw [norm2_back he h hd]; exact he.trans_le hd
  rw [giR_ray he hdt hC h hd]
  set S := lagSlope r gf G (norm2 (devVec (trial el x e1 T1))) (x.h ()) T1 (t1 - x.t) d with hSd
  set L := lag r gf G (norm2 (devVec (trial el x e1 T1))) (x.h ()) T1 (t1 - x.t) d with hLd
  obtain ⟨t, htd⟩ : ∃ t, t = -L / S := ⟨_, rfl⟩
  have hst : S * t = -L := by rw [htd]; field_simp
  rw [← htd]
  have hδ : vray G (trial el x e1 T1) (x.h ()) d - vray G (trial el x e1 T1) (x.h ()) (d + t) =
      Sum.elim ((2 * G * t) • dir (trial el x e1 T1)) fun _ => -(√(2 / 3) * t) := by
    ext a
    rcases a with i | a
    · simp only [vray, back, Pi.sub_apply, Sum.elim_inl, Pi.smul_apply, smul_eq_mul]; ring
    · simp only [vray, Pi.sub_apply, Sum.elim_inr]; ring
  have hdot : dir (trial el x e1 T1) ⬝ᵥ ((2 * G * t) • dir (trial el x e1 T1)) = 2 * G * t := by
    rw [dotProduct_smul, hm]; simp
  have hP : devProj *ᵥ ((2 * G * t) • dir (trial el x e1 T1)) - (2 * G * t) • dir (trial el x e1 T1) = 0 := by
    rw [mulVec_smul, devProj_of_tr3 htr, sub_self]
  have hσ : rateSlope gf T1 (gap r G (norm2 (devVec (trial el x e1 T1))) (x.h ()) T1 d) =
      gf.dg (gap r G (norm2 (devVec (trial el x e1 T1))) (x.h ()) T1 d) T1 := by
    unfold rateSlope
    rw [if_pos hp, abs_of_pos hp]
  rw [hδ, show vray G (trial el x e1 T1) (x.h ()) d =
      Sum.elim (back G (trial el x e1 T1) d) fun _ => x.h () + √(2 / 3) * d from rfl,
    giJ_iso hdt hC hNk _ _ _ rfl, normalize_back he h hd, excess_back he h hd, hdot, hP, hσ]
  have hw : gf.dg (gap r G (norm2 (devVec (trial el x e1 T1))) (x.h ()) T1 d) T1 *
      (2 * G * t + r.dq (x.h () + √(2 / 3) * d) T1 * √(2 / 3) * -(√(2 / 3) * t)) =
      gf.dg (gap r G (norm2 (devVec (trial el x e1 T1))) (x.h ()) T1 d) T1 *
        slope r G (x.h ()) T1 d * t := by
    unfold slope
    linear_combination (-(gf.dg (gap r G (norm2 (devVec (trial el x e1 T1))) (x.h ()) T1 d) T1 *
      r.dq (x.h () + √(2 / 3) * d) T1 * t)) * hsq
  have hfin : t + (t1 - x.t) * (gf.dg (gap r G (norm2 (devVec (trial el x e1 T1))) (x.h ()) T1 d) T1 *
        slope r G (x.h ()) T1 d * t) = -L := by
    rw [← hst, hSd]; unfold lagSlope; ring
  rw [hw, smul_zero, smul_zero, zero_add, mulVec_smul, isoC_dev G Kb htr]
  ext a
  rcases a with i | a
  · simp only [Sum.elim_inl, Pi.add_apply, Pi.smul_apply, smul_eq_mul]
    linear_combination (2 * G * dir (trial el x e1 T1) i) * hfin
  · simp only [Sum.elim_inr, Pi.smul_apply, smul_eq_mul]
    linear_combination (-√(2 / 3)) * hfin

theorem visco_update_of {z J A} (hdt : tiny ≤ t1 - x.t)
    (hs : solveGuarded (fun z => tvpAccepts limit (isoPerzyna eps r gf) (fun i => z (.inl i))
        (fun i => z (.inr i)) (giTrial x e1 T1 t1).T) (giIndex q1Index)
      (giInit el (giTrial x e1 T1 t1)) (giR (tvp el (isoPerzyna eps r gf)) (giTrial x e1 T1 t1))
      (giJ (tvp el (isoPerzyna eps r gf)) (giTrial x e1 T1 t1)) lin p fuel = some (z, J))
    (hA : inv J = some A) :
    ∃ inc, updateStep (viscoPlastic q1Index el (isoPerzyna eps r gf) limit tiny lin p fuel inv)
        x e1 T1 t1 = some inc ∧
      inc.s = (fun i => z (.inl i)) ∧ inc.h = (fun i => z (.inr i)) := by
  unfold updateStep
  simp only
  have hne : ¬ (viscoPlastic q1Index el (isoPerzyna eps r gf) limit tiny lin p fuel inv).elasticStep
      ((viscoPlastic q1Index el (isoPerzyna eps r gf) limit tiny lin p fuel inv).setup x e1 T1 t1)
      x e1 T1 t1 := by
    show ¬ t1 - x.t < tiny
    exact not_lt.mpr hdt
  rw [if_neg hne]
  have h1 : (viscoPlastic q1Index el (isoPerzyna eps r gf) limit tiny lin p fuel inv).solve
      ((viscoPlastic q1Index el (isoPerzyna eps r gf) limit tiny lin p fuel inv).setup x e1 T1 t1) =
      some (z, J) := hs
  have h2 : (viscoPlastic q1Index el (isoPerzyna eps r gf) limit tiny lin p fuel inv).inv J = some A := hA
  rw [h1]
  simp only [h2]
  exact ⟨_, rfl, rfl, rfl⟩

/-- C185: the update of a viscoplastic step whose trial stress is outside the surface succeeds whenever
the strain rate at the trial stress is not refused and the limit of iterations allows the power of the
shrinking factor to reach the relative tolerance. The factor does not depend on the time step or the
viscosity. The stress returned is within the tolerances of the solution of the equations and approaches
it from outside. -/
theorem C185_converges (he : 0 < eps) (ha : 0 < p.atol) (hl : ExactSolve lin) (hv : ExactInv inv)
    (hG : 0 < G) (hC : el.C T1 = isoC G Kb) (htiny : 0 < tiny) (hdt : tiny ≤ t1 - x.t)
    (hc : Concave r (x.h ()) T1) (hf : eps ≤ √(2 / 3) * (-r.q (x.h ()) T1))
    (hfl : Flowing gf T1) (hg : Gentle χ gf T1) (hρ : Holds ρ r G (x.h ()) T1) (hχ : 0 < χ) (hρ0 : 0 < ρ)
    (hle : ρ * χ ≤ 1) (ho : 0 < excess r T1 (trial el x e1 T1) (x.h ()))
    (hlim : gf.g (excess r T1 (trial el x e1 T1) (x.h ())) T1 ≤ limit)
    (K : ℕ) (hm : (K : Int) < p.miter) (hK : K < fuel) (htol : (1 - ρ * χ) ^ K < p.rtol) :
    ∃ inc, updateStep (viscoPlastic q1Index el (isoPerzyna eps r gf) limit tiny lin p fuel inv)
        x e1 T1 t1 = some inc ∧ x.h () ≤ inc.h () ∧
      ∀ z : Fin 6 ⊕ Unit → ℝ,
        giR (tvp el (isoPerzyna eps r gf)) (giTrial x e1 T1 t1) z = 0 →
        norm2 (inc.s - fun i => z (.inl i)) ≤ max p.atol (p.rtol *
          ((t1 - x.t) * gf.g (excess r T1 (trial el x e1 T1) (x.h ())) T1 * weight G)) ∧
        excess r T1 (fun i => z (.inl i)) (z (.inr ())) ≤ excess r T1 inc.s (inc.h ()) ∧
        ∃ d, 0 ≤ d ∧ (inc.s - fun i => z (.inl i)) = (2 * G * d) • dir (trial el x e1 T1) ∧
          z (.inr ()) - inc.h () = √(2 / 3) * d := by
  have hcp : 0 < √(2 / 3 : ℝ) := Real.sqrt_pos.mpr (by norm_num)
  have ht := hc.tame hG hf
  have hdt0 : 0 < t1 - x.t := htiny.trans_le hdt
  set str := trial el x e1 T1 with hstr
  set N := norm2 (devVec str) with hN
  set al := x.h () with hal
  set dt := t1 - x.t with hdtd
  have hg0 : gap r G N al T1 0 = excess r T1 str al := by
    unfold gap excess
    simp only [mul_zero, add_zero, sub_zero]
    rfl
  have h0 : 0 < gap r G N al T1 0 := by rw [hg0]; exact ho
  have hNp : 0 < N := by
    unfold excess at ho
    linarith
  have hW : 0 < weight G := Real.sqrt_pos.mpr (by positivity)
  have hW2 : 2 * G ≤ weight G := by
    unfold weight
    apply Real.le_sqrt_of_sq_le
    nlinarith
  set X := vlengths r gf G N al T1 dt with hX
  have spec := vlengths_spec (N := N) (dt := dt) hc hg hρ hG hdt0 hχ hρ0 hle h0
  have hgp : ∀ k, 0 < gap r G N al T1 (X k) := fun k => gap_pos_of_lag h0 (spec k).1 (spec k).2.1
  have hfar : ∀ k, eps ≤ N - 2 * G * X k := by
    intro k
    have h1 := ht.floor (al + √(2 / 3) * X k)
      (le_add_of_nonneg_right (mul_nonneg hcp.le (spec k).1))
    have h2 := hgp k
    unfold gap at h2
    linarith
  have hnorm : ∀ k, √(∑ a, giR (tvp el (isoPerzyna eps r gf)) (giTrial x e1 T1 t1) (vray G str al (X k)) a *
      giR (tvp el (isoPerzyna eps r gf)) (giTrial x e1 T1 t1) (vray G str al (X k)) a) =
      -lag r gf G N al T1 dt (X k) * weight G := by
    intro k
    rw [giR_norm he hdt0 hC hNp (hfar k), abs_of_nonpos (spec k).2.1]
  have hX0 : X 0 = 0 := rfl
  have hlag0 : -lag r gf G N al T1 dt 0 = dt * gf.g (excess r T1 str al) T1 := by
    unfold lag
    rw [rate_of_pos h0, hg0]
    ring
  have hl0 : 0 < -lag r gf G N al T1 dt 0 := by
    rw [hlag0]
    exact mul_pos hdt0 (hg.pos _ ho)
  let Done : ℕ → Prop := fun k => -lag r gf G N al T1 dt (X k) * weight G < p.atol ∨
    (-lag r gf G N al T1 dt (X 0) * weight G ≠ 0 ∧
      -lag r gf G N al T1 dt (X k) * weight G / (-lag r gf G N al T1 dt (X 0) * weight G) < p.rtol)
  have hDK : Done K := by
    right
    rw [hX0]
    refine ⟨(mul_pos hl0 hW).ne', ?_⟩
    rw [div_lt_iff₀ (mul_pos hl0 hW)]
    have h1 := mul_le_mul_of_nonneg_right (spec K).2.2 hW.le
    have h2 := mul_lt_mul_of_pos_right htol (mul_pos hl0 hW)
    exact h1.trans_lt (by linarith)
  obtain ⟨M, hMK, hDM, hmin⟩ : ∃ M ≤ K, Done M ∧ ∀ k < M, ¬ Done k := by
    classical
    have hex : ∃ k, Done k := ⟨K, hDK⟩
    exact ⟨Nat.find hex, Nat.find_min' hex hDK, Nat.find_spec hex, fun k hk => Nat.find_min hex hk⟩
  have hnot : ∀ k < M, 0 < -lag r gf G N al T1 dt (X k) := by
    intro k hk
    have h1 := hmin k hk
    by_contra hlt
    apply h1
    left
    have h2 := mul_nonpos_of_nonpos_of_nonneg (not_lt.mp hlt) hW.le
    linarith
  have hTt : (giTrial x e1 T1 t1).T = T1 := by rw [giTrial_eq hdt0]
  have hok : ∀ k, tvpAccepts limit (isoPerzyna eps r gf) (fun i => vray G str al (X k) (.inl i))
      (fun i => vray G str al (X k) (.inr i)) (giTrial x e1 T1 t1).T := by
    intro k
    rw [hTt]
    show ¬ (isoPerzyna eps r gf).y (back G str (X k)) (fun _ => al + √(2 / 3) * X k) T1 > limit
    rw [perz_y, excess_back he hNp (hfar k), not_lt]
    refine le_trans (hfl.rate_le (f' := gap r G N al T1 0) ?_) (by rw [rate_of_pos h0, hg0]; exact hlim)
    rcases (spec k).1.eq_or_lt with h | h
    · rw [← hX] at h
      rw [← h]
    · exact (gap_anti (N := N) ht le_rfl h).le
  have hdet : ∀ k, (giJ (tvp el (isoPerzyna eps r gf)) (giTrial x e1 T1 t1)
      (vray G str al (X k))).det ≠ 0 := by
    intro k
    refine gi_det he hG hdt0 hC ?_ (hfl.nonneg _) ?_ ?_
    · rw [norm2_back he hNp (hfar k)]
      exact hfar k
    · rw [excess_back he hNp (hfar k)]
      unfold rateSlope
      rw [if_pos (hgp k), abs_of_pos (hgp k)]
      exact (hg.rise _ (hgp k)).le
    · have := slope_pos hc hG (spec k).1
      show 0 ≤ slope r G al T1 (X k)
      linarith
  have hst : ∀ k, giJ (tvp el (isoPerzyna eps r gf)) (giTrial x e1 T1 t1) (vray G str al (X k)) *ᵥ
      (vray G str al (X k) - vray G str al (X (k + 1))) =
      giR (tvp el (isoPerzyna eps r gf)) (giTrial x e1 T1 t1) (vray G str al (X k)) := fun k =>
    visco_newton he hdt0 hC hNp (hfar k) (hgp k)
      (by linarith [lagSlope_ge (dt := dt) hc hg hG hdt0 (spec k).1 (hgp k)])
  have hlt : ∀ k < M, -lag r gf G N al T1 dt (X (k + 1)) * weight G <
      -lag r gf G N al T1 dt (X k) * weight G := by
    intro k hk
    have h1 := (lag_step hc hg hρ hG hdt0 hχ hρ0 hle h0 (spec k).1 (spec k).2.1).2.2
    have h2 : (1 - ρ * χ) * -lag r gf G N al T1 dt (X k) < -lag r gf G N al T1 dt (X k) := by
      have := mul_pos (mul_pos hρ0 hχ) (hnot k hk)
      linarith
    exact mul_lt_mul_of_pos_right (h1.trans_lt h2) hW
  have hmi : (M : Int) < p.miter := by omega
  have hfu : M < fuel := by omega
  obtain ⟨R, hR⟩ : ∃ R, R = giR (tvp el (isoPerzyna eps r gf)) (giTrial x e1 T1 t1) := ⟨_, rfl⟩
  obtain ⟨J, hJ⟩ : ∃ J, J = giJ (tvp el (isoPerzyna eps r gf)) (giTrial x e1 T1 t1) := ⟨_, rfl⟩
  obtain ⟨Z, hZ⟩ : ∃ Z : ℕ → Fin 6 ⊕ Unit → ℝ, Z = fun k => vray G str al (X k) := ⟨_, rfl⟩
  have hZk : ∀ k, Z k = vray G str al (X k) := fun k => by rw [hZ]
  simp only [← hZk, ← hR, ← hJ] at hst hnorm hdet
  obtain ⟨k, hkM, hk, hsol⟩ := solveGuarded_chain
    (fun z => tvpAccepts limit (isoPerzyna eps r gf) (fun i => z (.inl i)) (fun i => z (.inr i))
      (giTrial x e1 T1 t1).T) (giIndex q1Index) Z R J hl p fuel M
    (fun k => by rw [hZk]; exact hok k) (fun k _ => hdet k) (fun k _ => hst k)
    (fun k hk => by rw [hnorm, hnorm]; exact hlt k hk)
    (by rw [hnorm, hnorm]; exact hDM) hmi hfu
  rw [hnorm, hnorm] at hk
  rw [hZk 0, show vray G str al (X 0) = giInit el (giTrial x e1 T1 t1) from (giInit_ray hdt0).symm,
    hR, hJ] at hsol
  obtain ⟨inc, hu, hs, hh⟩ := visco_update_of hdt hsol (hv _ (by rw [← hJ]; exact hdet k))
  have hs' : inc.s = back G str (X k) := by rw [hs, hZk]; rfl
  have hh' : inc.h () = al + √(2 / 3) * X k := by rw [hh, hZk]; rfl
  have hex' : excess r T1 inc.s (inc.h ()) = gap r G N al T1 (X k) := by
    rw [hs', hh', excess_back he hNp (hfar k)]
  refine ⟨inc, hu, by rw [hh']; exact le_add_of_nonneg_right (mul_nonneg hcp.le (spec k).1), fun z hz => ?_⟩
  obtain ⟨d, hd, hzr, hzl, hzx⟩ := visco_on_ray he hG hdt0 hC hfl ht hz
  have hle' : X k ≤ d := by
    by_contra hlt
    have h1 := lag_mono (N := N) hfl hdt0 ht hd (not_le.mp hlt)
    have h2 := (spec k).2.1
    rw [← hX] at h2
    linarith
  have hzs : (fun i => z (.inl i)) = back G str d := by rw [hzr]; rfl
  have hzh : z (.inr ()) = al + √(2 / 3) * d := by rw [hzr]; rfl
  refine ⟨?_, ?_, ?_⟩
  · have hdiff : back G str (X k) - back G str d = (2 * G * (d - X k)) • dir str := by
      unfold back; module
    rw [hs', hzs, hdiff, norm2_unit (dir_unit hNp),
      abs_of_nonneg (mul_nonneg (by positivity) (sub_nonneg.mpr hle'))]
    have hdl : d - X k ≤ -lag r gf G N al T1 dt (X k) := by
      have h1 : gap r G N al T1 d ≤ gap r G N al T1 (X k) := by
        rcases hle'.eq_or_lt with h | h
        · rw [h]
        · exact (gap_anti (N := N) ht (spec k).1 h).le
      have h2 := mul_le_mul_of_nonneg_left (hfl.rate_le h1) hdt0.le
      have h3 : lag r gf G N al T1 dt d = 0 := hzl
      unfold lag at h3 ⊢
      linarith
    have h4 : 2 * G * (d - X k) ≤ -lag r gf G N al T1 dt (X k) * weight G := by
      have h5 := mul_le_mul_of_nonneg_left hdl (show 0 ≤ 2 * G by positivity)
      have h6 := mul_le_mul_of_nonneg_right hW2 (show 0 ≤ -lag r gf G N al T1 dt (X k) by
        linarith [(spec k).2.1])
      linarith
    refine h4.trans ?_
    rcases hk with h | ⟨-, h⟩
    · exact h.le.trans (le_max_left _ _)
    · rw [hX0, div_lt_iff₀ (mul_pos hl0 hW), hlag0] at h
      exact h.le.trans (le_max_right _ _)
  · rw [hex', hzx]
    rcases hle'.eq_or_lt with h | h
    · rw [h]
    · exact (gap_anti (N := N) ht (spec k).1 h).le
  · refine ⟨d - X k, sub_nonneg.mpr hle', ?_, ?_⟩
    · rw [hs', hzs]
      unfold back
      module
    · rw [hh', hzh]
      ring

/-- C185: a trial state that is not outside the surface is returned at once. -/
theorem C185_elastic (ha : 0 < p.atol) (hm : 0 < p.miter) (hK : 0 < fuel) (hl : ExactSolve lin)
    (hv : ExactInv inv) (hC : el.C T1 = isoC G Kb) (htiny : 0 < tiny) (hdt : tiny ≤ t1 - x.t)
    (hlim : 0 ≤ limit) (hN : 0 < norm2 (devVec (trial el x e1 T1)))
    (ho : excess r T1 (trial el x e1 T1) (x.h ()) ≤ 0) :
    ∃ inc, updateStep (viscoPlastic q1Index el (isoPerzyna eps r gf) limit tiny lin p fuel inv)
        x e1 T1 t1 = some inc ∧ inc.s = trial el x e1 T1 ∧ inc.h () = x.h () := by
  have hdt0 : 0 < t1 - x.t := htiny.trans_le hdt
  have h0 := giR_inside (eps := eps) (gf := gf) (e1 := e1) hdt0 hC ho
  rw [← giInit_eq hdt0] at h0
  have hdet : (giJ (tvp el (isoPerzyna eps r gf)) (giTrial x e1 T1 t1)
      (giInit el (giTrial x e1 T1 t1))).det ≠ 0 := by
    intro hz
    obtain ⟨z, hz, h⟩ := exists_mulVec_eq_zero_iff.mpr hz
    apply hz
    obtain ⟨v, b, rfl⟩ : ∃ v b, z = Sum.elim v fun _ => b :=
      ⟨fun i => z (.inl i), z (.inr ()), by ext a; rcases a with i | a <;> rfl⟩
    have hσ : rateSlope gf T1 (excess r T1 (trial el x e1 T1) (x.h ())) = 0 := by
      unfold rateSlope
      rw [if_neg (not_lt.mpr ho)]
    rw [giInit_eq hdt0, giJ_iso hdt0 hC hN v b _ rfl, rate_of_nonpos ho, hσ] at h
    rw [← h]
    simp
  have hy : (isoPerzyna eps r gf).y (trial el x e1 T1) (fun _ => x.h ()) T1 = 0 := by
    rw [perz_y, rate_of_nonpos ho]
  have hok : tvpAccepts limit (isoPerzyna eps r gf)
      (fun i => giInit el (giTrial x e1 T1 t1) (.inl i))
      (fun i => giInit el (giTrial x e1 T1 t1) (.inr i)) (giTrial x e1 T1 t1).T := by
    rw [giInit_eq hdt0, giTrial_eq hdt0]
    show ¬ (isoPerzyna eps r gf).y (trial el x e1 T1) (fun _ => x.h ()) T1 > limit
    rw [hy]
    exact not_lt.mpr hlim
  obtain ⟨R, hR⟩ : ∃ R, R = giR (tvp el (isoPerzyna eps r gf)) (giTrial x e1 T1 t1) := ⟨_, rfl⟩
  obtain ⟨J, hJ⟩ : ∃ J, J = giJ (tvp el (isoPerzyna eps r gf)) (giTrial x e1 T1 t1) := ⟨_, rfl⟩
  obtain ⟨z, hz⟩ : ∃ z, z = giInit el (giTrial x e1 T1 t1) := ⟨_, rfl⟩
  rw [← hR, ← hz] at h0
  rw [← hJ, ← hz] at hdet
  obtain ⟨k, -, -, hsol⟩ := solveGuarded_chain
    (fun z => tvpAccepts limit (isoPerzyna eps r gf) (fun i => z (.inl i)) (fun i => z (.inr i))
      (giTrial x e1 T1 t1).T) (giIndex q1Index) (fun _ => z) R J hl p fuel 0
    (fun _ => by rw [hz]; exact hok)
    (fun k hk => absurd hk (Nat.not_lt_zero k)) (fun k hk => absurd hk (Nat.not_lt_zero k))
    (fun k hk => absurd hk (Nat.not_lt_zero k)) (by left; rw [h0]; simpa using ha)
    (by exact_mod_cast hm) hK
  rw [hR, hJ, hz] at hsol
  obtain ⟨inc, hu, hs, hh⟩ := visco_update_of hdt hsol (hv _ (by rw [← hJ, ← hz]; exact hdet))
  refine ⟨inc, hu, ?_, ?_⟩
  · rw [hs, giInit_eq hdt0]; rfl
  · rw [hh, giInit_eq hdt0]; rfl

/-- C186: a step at whose trial stress the strain rate is above the limit is refused, whatever its
solution. -/
theorem C186_refused (htiny : 0 < tiny) (hdt : tiny ≤ t1 - x.t)
    (hlim : limit < rate gf T1 (excess r T1 (trial el x e1 T1) (x.h ()))) :
    updateStep (viscoPlastic q1Index el (isoPerzyna eps r gf) limit tiny lin p fuel inv)
      x e1 T1 t1 = none := by
  have hdt0 : 0 < t1 - x.t := htiny.trans_le hdt
  have hno : ¬ tvpAccepts limit (isoPerzyna eps r gf)
      (fun i => giInit el (giTrial x e1 T1 t1) (.inl i))
      (fun i => giInit el (giTrial x e1 T1 t1) (.inr i)) (giTrial x e1 T1 t1).T := by
    rw [giInit_eq hdt0, giTrial_eq hdt0]
    show ¬ ¬ (isoPerzyna eps r gf).y (trial el x e1 T1) (fun _ => x.h ()) T1 > limit
    rw [perz_y, not_not]
    exact hlim
  have hsol : solveGuarded (fun z => tvpAccepts limit (isoPerzyna eps r gf) (fun i => z (.inl i))
        (fun i => z (.inr i)) (giTrial x e1 T1 t1).T) (giIndex q1Index)
      (giInit el (giTrial x e1 T1 t1)) (giR (tvp el (isoPerzyna eps r gf)) (giTrial x e1 T1 t1))
      (giJ (tvp el (isoPerzyna eps r gf)) (giTrial x e1 T1 t1)) lin p fuel = none := by
    have hRJ : (guarded (fun z => tvpAccepts limit (isoPerzyna eps r gf) (fun i => z (.inl i))
        (fun i => z (.inr i)) (giTrial x e1 T1 t1).T) (giIndex q1Index)
      (giInit el (giTrial x e1 T1 t1)) (giR (tvp el (isoPerzyna eps r gf)) (giTrial x e1 T1 t1))
      (giJ (tvp el (isoPerzyna eps r gf)) (giTrial x e1 T1 t1))).RJ
        (fun i => giInit el (giTrial x e1 T1 t1) ((giIndex q1Index).symm i)) = none := by
      simp only [guarded, Equiv.symm_apply_apply]
      exact if_neg hno
    unfold solveGuarded Newton.newton
    rw [show (guarded (fun z => tvpAccepts limit (isoPerzyna eps r gf) (fun i => z (.inl i))
        (fun i => z (.inr i)) (giTrial x e1 T1 t1).T) (giIndex q1Index)
      (giInit el (giTrial x e1 T1 t1)) (giR (tvp el (isoPerzyna eps r gf)) (giTrial x e1 T1 t1))
      (giJ (tvp el (isoPerzyna eps r gf)) (giTrial x e1 T1 t1))).init =
        fun i => giInit el (giTrial x e1 T1 t1) ((giIndex q1Index).symm i) from rfl, hRJ]
  unfold updateStep
  simp only
  have hne : ¬ (viscoPlastic q1Index el (isoPerzyna eps r gf) limit tiny lin p fuel inv).elasticStep
      ((viscoPlastic q1Index el (isoPerzyna eps r gf) limit tiny lin p fuel inv).setup x e1 T1 t1)
      x e1 T1 t1 := by
    show ¬ t1 - x.t < tiny
    exact not_lt.mpr hdt
  rw [if_neg hne]
  have h1 : (viscoPlastic q1Index el (isoPerzyna eps r gf) limit tiny lin p fuel inv).solve
      ((viscoPlastic q1Index el (isoPerzyna eps r gf) limit tiny lin p fuel inv).setup x e1 T1 t1) =
      none := hsol
  rw [h1]

end steps

/-! ## What meets the conditions -/

/-- C185: power law flow with an exponent of at least one, whatever the exponent. -/
theorem C185_power (n eta : ℝ → ℝ) (T : ℝ) (hn : 1 ≤ n T) (he : 0 < eta T) :
    Gentle (Real.exp (-1)) (gPowerLaw n eta) T where
  pos f hf := by simp only [gPowerLaw]; positivity
  rise f hf := by
    have : 0 < n T := by linarith
    simp only [gPowerLaw]; positivity
  above f hf f' := by
    have hfe : 0 < f / eta T := by positivity
    have hpow : (f / eta T) ^ n T = (f / eta T) ^ (n T - 1) * (f / eta T) := by
      rw [Real.rpow_sub_one hfe.ne']; field_simp
    have hq : 0 < (f / eta T) ^ (n T - 1) := by positivity
    rcases lt_or_ge 0 f' with h | h
    · rw [rate_of_pos h]
      simp only [gPowerLaw]
      have h1 := one_add_mul_self_le_rpow_one_add (s := f' / f - 1) (by
        have : 0 < f' / f := by positivity
        linarith) hn
      rw [add_sub_cancel] at h1
      have h2 : (f' / eta T) ^ n T = (f / eta T) ^ n T * (f' / f) ^ n T := by
        rw [← Real.mul_rpow hfe.le (by positivity)]
        congr 1
        field_simp
      rw [h2]
      have h3 := mul_le_mul_of_nonneg_left h1 (show 0 ≤ (f / eta T) ^ n T by positivity)
      refine le_trans (le_of_eq ?_) h3
      rw [hpow]
      field_simp
    · rw [rate_of_nonpos h]
      simp only [gPowerLaw]
      rw [hpow]
      have h1 : (f / eta T) ^ (n T - 1) * (f / eta T) +
          n T * (f / eta T) ^ (n T - 1) / eta T * (f' - f) =
          (f / eta T) ^ (n T - 1) / eta T * ((1 - n T) * f + n T * f') := by
        field_simp
        ring
      rw [h1]
      apply mul_nonpos_of_nonneg_of_nonpos (by positivity)
      have h2 := mul_nonpos_of_nonpos_of_nonneg (show 1 - n T ≤ 0 by linarith) hf.le
      have h3 := mul_nonpos_of_nonneg_of_nonpos (show 0 ≤ n T by linarith) h
      linarith
  keep f f' hf hf' h := by
    simp only [gPowerLaw] at h ⊢
    have hfe : 0 < f / eta T := by positivity
    have hn0 : 0 < n T := by linarith
    have hu : 0 < f' / f := by positivity
    have hpow : (f / eta T) ^ n T = (f / eta T) ^ (n T - 1) * (f / eta T) := by
      rw [Real.rpow_sub_one hfe.ne']; field_simp
    have hq : 0 < (f / eta T) ^ (n T - 1) := by positivity
    have h1 : n T * (f - f') ≤ f := by
      rw [hpow] at h
      have h2 : (f / eta T) ^ (n T - 1) / eta T * (n T * (f - f')) ≤
          (f / eta T) ^ (n T - 1) / eta T * f := by
        refine le_trans (le_of_eq ?_) (h.trans (le_of_eq ?_)) <;> field_simp
      exact le_of_mul_le_mul_left h2 (by positivity)
    have h3 : (f' / eta T) ^ (n T - 1) = (f / eta T) ^ (n T - 1) * (f' / f) ^ (n T - 1) := by
      rw [← Real.mul_rpow hfe.le hu.le]
      congr 1
      field_simp
    have h4 : Real.exp (-1) ≤ (f' / f) ^ (n T - 1) := by
      rw [Real.rpow_def_of_pos hu, Real.exp_le_exp]
      have h5 := Real.one_sub_inv_le_log_of_pos hu
      have h6 : -1 ≤ (1 - (f' / f)⁻¹) * (n T - 1) := by
        rw [inv_div]
        have h7 : (1 - f / f') * (n T - 1) + 1 = (f - n T * (f - f')) / f' := by
          field_simp
          ring
        have h8 : 0 ≤ (f - n T * (f - f')) / f' := div_nonneg (by linarith) hf'.le
        linarith
      exact h6.trans (mul_le_mul_of_nonneg_right h5 (by linarith))
    rw [h3]
    have h9 : 0 ≤ n T * (f / eta T) ^ (n T - 1) / eta T := by positivity
    calc Real.exp (-1) * (n T * (f / eta T) ^ (n T - 1) / eta T) ≤
        (f' / f) ^ (n T - 1) * (n T * (f / eta T) ^ (n T - 1) / eta T) :=
          mul_le_mul_of_nonneg_right h4 h9
      _ = _ := by ring

/-- C185: linear hardening keeps its slope. -/
theorem C185_linear (s0 K : ℝ → ℝ) (G al T : ℝ) : Holds 1 (linearIso s0 K) G al T := by
  intro d d' _ _
  simp [slope, linearIso]

/-- C185: concave hardening keeps the share of the shear modulus in the initial slope. -/
theorem C185_concave (hc : Concave r al T) (hG : 0 < G) :
    Holds (3 * G / (3 * G + -r.dq al T)) r G al T := by
  intro d d' hd hdd
  have hd' := hd.trans hdd
  have h1 := slope_pos hc hG hd'
  have h0 := hc.rise al le_rfl
  have h2 : -r.dq (al + √(2 / 3) * d) T ≤ -r.dq al T :=
    hc.slopes le_rfl (le_add_of_nonneg_right (by positivity))
  have h3 : slope r G al T d ≤ 2 / 3 * (3 * G + -r.dq al T) := by
    unfold slope
    linarith
  have h4 : 0 < 3 * G + -r.dq al T := by linarith
  have h5 := mul_le_mul_of_nonneg_left h3 (show 0 ≤ 3 * G / (3 * G + -r.dq al T) by positivity)
  have h6 : 3 * G / (3 * G + -r.dq al T) * (2 / 3 * (3 * G + -r.dq al T)) = 2 * G := by
    field_simp
  linarith

theorem shrink41 : (1 - 1 * Real.exp (-1)) ^ 41 < (1e-8 : ℝ) := by
  have h1 : (0.3678 : ℝ) ≤ Real.exp (-1) := by
    rw [Real.exp_neg, le_inv_comm₀ (by norm_num) (Real.exp_pos 1)]
    exact (le_of_lt Real.exp_one_lt_d9).trans (by norm_num)
  have h2 : Real.exp (-1) ≤ 1 := Real.exp_le_one_iff.mpr (by norm_num)
  calc (1 - 1 * Real.exp (-1)) ^ 41 ≤ (0.6322 : ℝ) ^ 41 :=
        pow_le_pow_left₀ (by linarith) (by linarith) 41
    _ < 1e-8 := by norm_num

/-- C185: with the tolerance and limit of iterations the code supplies, the update of power law flow
with linear hardening never fails below the limit of the strain rate: whatever the exponent, viscosity,
hardening slope, strain increment and time step. -/
theorem C185_defaults {el : Elastic ℝ (Fin 6)} {Kb limit tiny atol : ℝ} {ls : Bool} {lin} {fuel : Nat}
    {inv} {x : Substep.Point ℝ (Fin 6 → ℝ) (Fin 6 → ℝ) (Unit → ℝ)} {e1 : Fin 6 → ℝ} {T1 t1 : ℝ}
    {n eta s0 K : ℝ → ℝ} (he : 0 < eps) (ha : 0 < atol) (hl : ExactSolve lin) (hv : ExactInv inv)
    (hG : 0 < G) (hC : el.C T1 = isoC G Kb) (htiny : 0 < tiny) (hdt : tiny ≤ t1 - x.t)
    (hn : 1 ≤ n T1) (hη : 0 < eta T1) (hK : 0 ≤ K T1)
    (hf : eps ≤ √(2 / 3) * (s0 T1 + K T1 * x.h ()))
    (hlim0 : 0 ≤ limit) (hN : 0 < norm2 (devVec (trial el x e1 T1)))
    (hlim : 0 < excess (linearIso s0 K) T1 (trial el x e1 T1) (x.h ()) →
      (excess (linearIso s0 K) T1 (trial el x e1 T1) (x.h ()) / eta T1) ^ n T1 ≤ limit)
    (hfuel : 41 < fuel) :
    (updateStep (viscoPlastic q1Index el (isoPerzyna eps (linearIso s0 K) (gPowerLaw n eta)) limit tiny
      lin ⟨1e-8, atol, 50, ls⟩ fuel inv) x e1 T1 t1).isSome := by
  rcases lt_or_ge 0 (excess (linearIso s0 K) T1 (trial el x e1 T1) (x.h ())) with ho | ho
  · obtain ⟨inc, h, -⟩ := C185_converges (p := ⟨1e-8, atol, 50, ls⟩) (fuel := fuel) (limit := limit)
      he ha hl hv hG hC htiny hdt
      (C183_linear s0 K (x.h ()) T1 hK) (by simp only [linearIso]; ring_nf at hf ⊢; exact hf)
      (C184_power n eta T1 (by linarith) hη) (C185_power n eta T1 hn hη)
      (C185_linear s0 K G (x.h ()) T1) (Real.exp_pos _) one_pos
      (by rw [one_mul]; exact Real.exp_le_one_iff.mpr (by norm_num)) ho (hlim ho) 41
      (by norm_num) hfuel shrink41
    rw [h]
    rfl
  · obtain ⟨inc, h, -⟩ := C185_elastic (eps := eps) (gf := gPowerLaw n eta)
      (p := ⟨1e-8, atol, 50, ls⟩) (fuel := fuel) (limit := limit) ha (by norm_num)
      (by omega) hl hv hC htiny hdt hlim0 hN ho
    rw [h]
    rfl


/-! ## The limit of the strain rate -/

/-- C186: the strain rate of a solution is at most the elastic strain rate that would carry the trial
deviator. -/
theorem C186_bounded {el : Elastic ℝ (Fin 6)} {Kb : ℝ}
    {x : Substep.Point ℝ (Fin 6 → ℝ) (Fin 6 → ℝ) (Unit → ℝ)} {e1 : Fin 6 → ℝ} {T1 t1 : ℝ}
    (he : 0 < eps) (hG : 0 < G) (hdt : 0 < t1 - x.t) (hC : el.C T1 = isoC G Kb)
    (hm : Flowing gf T1) (ht : Tame eps G r (x.h ()) T1) {z : Fin 6 ⊕ Unit → ℝ}
    (h : giR (tvp el (isoPerzyna eps r gf)) (giTrial x e1 T1 t1) z = 0) :
    2 * G * (t1 - x.t) * (isoPerzyna eps r gf).y (fun i => z (.inl i)) (fun i => z (.inr i)) T1 ≤
      norm2 (devVec (trial el x e1 T1)) := by
  obtain ⟨d, hd, hz, hl, hx⟩ := visco_on_ray he hG hdt hC hm ht h
  have hy : (isoPerzyna eps r gf).y (fun i => z (.inl i)) (fun i => z (.inr i)) T1 =
      rate gf T1 (gap r G (norm2 (devVec (trial el x e1 T1))) (x.h ()) T1 d) := by
    rw [← hx]
    exact perz_y _ _ _
  rw [hy]
  have hN : 0 ≤ norm2 (devVec (trial el x e1 T1)) := Real.sqrt_nonneg _
  rcases le_or_gt (gap r G (norm2 (devVec (trial el x e1 T1))) (x.h ()) T1 d) 0 with hg | hg
  · rw [rate_of_nonpos hg, mul_zero]
    exact hN
  · unfold lag at hl
    have h1 := ht.floor (x.h () + √(2 / 3) * d) (le_add_of_nonneg_right (by positivity))
    unfold gap at hg
    have h2 : 2 * G * (t1 - x.t) * rate gf T1 (gap r G (norm2 (devVec (trial el x e1 T1))) (x.h ()) T1 d) =
        2 * G * d := by linear_combination -(2 * G) * hl
    rw [h2]
    linarith

/-- C186, for trial stresses within the limit: the rate of the solution is within it too. That a step
is refused only where its own rate is above the limit fails, see `C186_refused_disagreement`. -/
theorem C186_within_partial {el : Elastic ℝ (Fin 6)} {Kb limit : ℝ}
    {x : Substep.Point ℝ (Fin 6 → ℝ) (Fin 6 → ℝ) (Unit → ℝ)} {e1 : Fin 6 → ℝ} {T1 t1 : ℝ}
    (he : 0 < eps) (hG : 0 < G) (hdt : 0 < t1 - x.t) (hC : el.C T1 = isoC G Kb)
    (hm : Flowing gf T1) (ht : Tame eps G r (x.h ()) T1)
    (hlim : rate gf T1 (excess r T1 (trial el x e1 T1) (x.h ())) ≤ limit) {z : Fin 6 ⊕ Unit → ℝ}
    (h : giR (tvp el (isoPerzyna eps r gf)) (giTrial x e1 T1 t1) z = 0) :
    (isoPerzyna eps r gf).y (fun i => z (.inl i)) (fun i => z (.inr i)) T1 ≤ limit := by
  have hf := C184_flow he hG hdt hC hm ht h
  refine le_trans ?_ hlim
  rw [show (isoPerzyna eps r gf).y (fun i => z (.inl i)) (fun i => z (.inr i)) T1 =
    rate gf T1 (excess r T1 (fun i => z (.inl i)) (z (.inr ()))) from perz_y _ _ _]
  rcases le_or_gt (excess r T1 (trial el x e1 T1) (x.h ())) 0 with h0 | h0
  · obtain ⟨h1, h2⟩ := hf.1 h0
    rw [h1, h2]
  · exact hm.rate_le (hf.2 h0).2.1

theorem trial_shear :
    trial (isoElastic (1 / 2) 1)
      (⟨0, 0, 0, 0, 0, 0, 0⟩ : Substep.Point ℝ (Fin 6 → ℝ) (Fin 6 → ℝ) (Unit → ℝ))
      ((4 : ℝ) • shear) 0 = (4 : ℝ) • shear := by
  have h3 : tr3 ((4 : ℝ) • shear) = 0 := by simp [tr3, shear]
  show (0 : Fin 6 → ℝ) + isoC (1 / 2) 1 *ᵥ ((4 : ℝ) • shear - 0) = _
  rw [sub_zero, zero_add, isoC_dev _ _ h3]
  simp

theorem excess_shear : excess (linearIso (fun _ => √(3 / 2)) (fun _ => 1)) 0 ((4 : ℝ) • shear) 0 = 3 := by
  have hq : √(2 / 3) * (-(linearIso (fun _ => √(3 / 2)) (fun _ => 1)).q 0 0) = 1 := by
    have : -(linearIso (fun _ => √(3 / 2)) (fun _ => 1)).q 0 0 = √(3 / 2) := by simp [linearIso]
    rw [this, sqrt_cancel]
  rw [excess, hq, devVec_shear, norm2_unit shear_unit]
  norm_num

/-- A step in shear that meets the conditions, with an exponent of three. -/
theorem shear_step : (updateStep (viscoPlastic q1Index (isoElastic (1 / 2) 1)
      (isoPerzyna 1 (linearIso (fun _ => √(3 / 2)) (fun _ => 1)) (gPowerLaw (fun _ => 3) (fun _ => 1)))
      1e10 1e-15 exactLin ⟨1e-8, 1e-8, 50, false⟩ 50 exactInv)
      ⟨0, 0, 0, 0, 0, 0, 0⟩ ((4 : ℝ) • shear) 0 1).isSome := by
  have hN : norm2 (devVec ((4 : ℝ) • shear)) = 4 := by
    rw [devVec_shear, norm2_unit shear_unit]; norm_num
  refine C185_defaults (G := 1 / 2) (Kb := 1) one_pos (by norm_num) exactLin_exact exactInv_exact
    (by norm_num) rfl (by norm_num) (by norm_num) (by norm_num) one_pos zero_le_one ?_ (by norm_num)
    ?_ ?_ (by norm_num)
  · show 1 ≤ √(2 / 3) * (√(3 / 2) + 1 * 0)
    rw [mul_zero, add_zero, sqrt_cancel]
  · rw [trial_shear, hN]; norm_num
  · intro _
    rw [trial_shear]
    show (excess (linearIso (fun _ => √(3 / 2)) (fun _ => 1)) 0 ((4 : ℝ) • shear) 0 / 1) ^ (3 : ℝ) ≤ 1e10
    rw [excess_shear]
    norm_num

/-- C186: the limit is applied to the trial stress, so a step is refused although its only solution
flows at a rate far below the limit. -/
theorem C186_refused_disagreement :
    ∃ (el : Elastic ℝ (Fin 6)) (r : Iso) (gf : GFlow) (e1 : Fin 6 → ℝ),
      (∃! z : Fin 6 ⊕ Unit → ℝ, giR (tvp el (isoPerzyna 1 r gf))
        (giTrial ⟨0, 0, 0, 0, 0, 0, 0⟩ e1 0 1) z = 0) ∧
      (∀ z : Fin 6 ⊕ Unit → ℝ, giR (tvp el (isoPerzyna 1 r gf))
          (giTrial ⟨0, 0, 0, 0, 0, 0, 0⟩ e1 0 1) z = 0 →
        (isoPerzyna 1 r gf).y (fun i => z (.inl i)) (fun i => z (.inr i)) 0 ≤ 4) ∧
      ∀ lin p fuel inv, updateStep (viscoPlastic q1Index el (isoPerzyna 1 r gf) 1e10 1e-15 lin p fuel inv)
        ⟨0, 0, 0, 0, 0, 0, 0⟩ e1 0 1 = none := by
  have hf : (1 : ℝ) ≤ √(2 / 3) * (-(linearIso (fun _ => √(3 / 2)) (fun _ => 1)).q 0 0) := by
    have : -(linearIso (fun _ => √(3 / 2)) (fun _ => 1)).q 0 0 = √(3 / 2) := by simp [linearIso]
    rw [this, sqrt_cancel]
  have ht : Tame 1 (1 / 2) (linearIso (fun _ => √(3 / 2)) (fun _ => 1)) 0 0 :=
    (C183_linear _ _ 0 0 zero_le_one).tame (by norm_num) hf
  have hm : Flowing (gPowerLaw (fun _ => 1) (fun _ => 1e-10)) 0 :=
    C184_power _ _ _ one_pos (by norm_num)
  refine ⟨isoElastic (1 / 2) 1, linearIso (fun _ => √(3 / 2)) (fun _ => 1),
    gPowerLaw (fun _ => 1) (fun _ => 1e-10), (4 : ℝ) • shear, ?_, ?_, ?_⟩
  · exact C184_unique (G := 1 / 2) (Kb := 1) one_pos (by norm_num) (by norm_num) rfl hm ht
  · intro z hz
    have h := C186_bounded (G := 1 / 2) (Kb := 1) one_pos (by norm_num) (by norm_num) rfl hm ht hz
    rw [trial_shear, devVec_shear, norm2_unit shear_unit] at h
    simp only [one_div, sub_zero, abs_of_pos (show (0 : ℝ) < 4 by norm_num)] at h
    rw [show 2 * (2 : ℝ)⁻¹ * 1 = 1 by norm_num, one_mul] at h
    exact h
  · intro lin p fuel inv
    refine C186_refused (by norm_num) (by norm_num) ?_
    rw [trial_shear]
    show (1e10 : ℝ) < rate _ 0 (excess (linearIso (fun _ => √(3 / 2)) (fun _ => 1)) 0 ((4 : ℝ) • shear) 0)
    rw [excess_shear, rate_of_pos (by norm_num)]
    norm_num [gPowerLaw]

end Neml.SolveStep
