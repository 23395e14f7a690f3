import Verif.Model.CreepSeries
import Verif.Props.Creep
import Verif.Props.NewtonChain
import Mathlib.Analysis.Calculus.MeanValue
import Mathlib.Analysis.Complex.ExponentialBounds
import Mathlib.LinearAlgebra.Matrix.SchurComplement
import Mathlib.Analysis.Convex.SpecificFunctions.Basic

/-!
# C193: stress relaxation

A material that is elastic and creeps, held at a strain. Specification: the equivalent stress obeys
`σ' = −3 G g(σ)`, the direction of the deviator and the mean stress stay. The implicit step replaces it by
`σ₁ + 3 G Δt g(σ₁) = σ₀`.
-/

namespace Neml.CreepSeries

open Matrix Neml.Mandel Neml.Flow Neml.SolveStep Neml.SmallStrain Neml.Elastic

/-! ## The scalar equation -/

/-- A rate that grows with the stress and whose graph lies above its tangents, from the guard on. -/
structure Growing (eps : ℝ) (g dg : ℝ → ℝ) : Prop where
  pos : ∀ σ, eps ≤ σ → 0 < g σ
  slope : ∀ σ, eps ≤ σ → 0 ≤ dg σ
  tangent : ∀ σ τ, eps ≤ σ → eps ≤ τ → g σ + dg σ * (τ - σ) ≤ g τ
  cont : ContinuousOn g (Set.Ici eps)

section scalar

variable {eps : ℝ} {g dg : ℝ → ℝ} {a σ τ σ0 ρ : ℝ}

theorem Growing.mono (h : Growing eps g dg) (h1 : eps ≤ σ) (h2 : σ ≤ τ) : g σ ≤ g τ := by
  have h3 := h.tangent σ τ h1 (h1.trans h2)
  have h4 := mul_nonneg (h.slope σ h1) (sub_nonneg.mpr h2)
  linarith

theorem Growing.mono_slope (h : Growing eps g dg) (h1 : eps ≤ σ) (h2 : σ ≤ τ) : dg σ ≤ dg τ := by
  rcases h2.eq_or_lt with rfl | h3
  · exact le_rfl
  · have h4 := h.tangent σ τ h1 (h1.trans h2)
    have h5 := h.tangent τ σ (h1.trans h2) h1
    have h6 : (dg τ - dg σ) * (τ - σ) ≥ 0 := by linarith
    by_contra hc
    have := mul_neg_of_neg_of_pos (show dg τ - dg σ < 0 by linarith [not_le.mp hc]) (sub_pos.mpr h3)
    linarith

/-- `σ + a g(σ) − σ₀`, where `a = 3 G Δt`. -/
def psi (g : ℝ → ℝ) (a σ0 σ : ℝ) : ℝ := σ + a * g σ - σ0

/-- Newton's iterates for it. -/
noncomputable def rel (g dg : ℝ → ℝ) (a σ0 : ℝ) : ℕ → ℝ
  | 0 => σ0
  | j + 1 => rel g dg a σ0 j - psi g a σ0 (rel g dg a σ0 j) / (1 + a * dg (rel g dg a σ0 j))

theorem psi_grows (h : Growing eps g dg) (ha : 0 ≤ a) (h1 : eps ≤ σ) (h2 : σ ≤ τ) :
    τ - σ ≤ psi g a σ0 τ - psi g a σ0 σ := by
  have := mul_le_mul_of_nonneg_left (h.mono h1 h2) ha
  simp only [psi]; linarith

theorem psi_unique (h : Growing eps g dg) (ha : 0 ≤ a) (h1 : eps ≤ σ) (h2 : eps ≤ τ)
    (h3 : psi g a σ0 σ = psi g a σ0 τ) : σ = τ := by
  rcases le_total σ τ with h4 | h4
  · have := psi_grows (σ0 := σ0) h ha h1 h4; linarith
  · have := psi_grows (σ0 := σ0) h ha h2 h4; linarith

/-- From the right of the root `ρ` Newton's method comes down to it. -/
theorem rel_spec (h : Growing eps g dg) (ha : 0 ≤ a) (hρ : eps ≤ ρ) (hr : psi g a σ0 ρ = 0) (j : ℕ) :
    ρ ≤ rel g dg a σ0 j ∧ rel g dg a σ0 j ≤ σ0 ∧ 0 ≤ psi g a σ0 (rel g dg a σ0 j) ∧
      psi g a σ0 (rel g dg a σ0 (j + 1)) ≤ (1 - 1 / (1 + a * dg σ0)) * psi g a σ0 (rel g dg a σ0 j) := by
  have hρ0 : ρ ≤ σ0 := by
    have := mul_nonneg ha (h.pos ρ hρ).le
    simp only [psi] at hr; linarith
  have key : ∀ x, ρ ≤ x → x ≤ σ0 → ρ ≤ x - psi g a σ0 x / (1 + a * dg x) ∧
      x - psi g a σ0 x / (1 + a * dg x) ≤ σ0 ∧
      psi g a σ0 (x - psi g a σ0 x / (1 + a * dg x)) ≤ (1 - 1 / (1 + a * dg σ0)) * psi g a σ0 x := by
    intro x hx hx0
    have hxe := hρ.trans hx
    have hd : 1 ≤ 1 + a * dg x := by linarith [mul_nonneg ha (h.slope x hxe)]
    have hp : 0 ≤ psi g a σ0 x := by linarith [psi_grows (σ0 := σ0) h ha hρ hx]
    have h1 : ρ ≤ x - psi g a σ0 x / (1 + a * dg x) := by
      have h2 := mul_le_mul_of_nonneg_left (h.tangent x ρ hxe hρ) ha
      have h3 : psi g a σ0 x ≤ (x - ρ) * (1 + a * dg x) := by
        simp only [psi] at hr ⊢; linarith
      have := (div_le_iff₀ (show 0 < 1 + a * dg x by linarith)).mpr h3
      linarith
    have h4 : 0 ≤ psi g a σ0 x / (1 + a * dg x) := div_nonneg hp (by linarith)
    refine ⟨h1, by linarith, ?_⟩
    have h5 := psi_grows (σ0 := σ0) h ha (hρ.trans h1) (show x - psi g a σ0 x / (1 + a * dg x) ≤ x by linarith)
    have h6 := mul_le_mul_of_nonneg_left (h.mono_slope hxe hx0) ha
    have h7 : 1 / (1 + a * dg σ0) * psi g a σ0 x ≤ psi g a σ0 x / (1 + a * dg x) := by
      rw [div_eq_mul_one_div (psi g a σ0 x), mul_comm]
      exact mul_le_mul_of_nonneg_left (one_div_le_one_div_of_le (by linarith) (by linarith)) hp
    linarith
  have base : ∀ j, ρ ≤ rel g dg a σ0 j ∧ rel g dg a σ0 j ≤ σ0 := by
    intro j
    induction j with
    | zero => exact ⟨hρ0, le_rfl⟩
    | succ j ih =>
      obtain ⟨h1, h2, -⟩ := key _ ih.1 ih.2
      exact ⟨h1, h2⟩
  obtain ⟨h1, h2⟩ := base j
  refine ⟨h1, h2, by linarith [psi_grows (σ0 := σ0) h ha hρ h1], (key _ h1 h2).2.2⟩

theorem rel_rate (h : Growing eps g dg) (ha : 0 ≤ a) (hρ : eps ≤ ρ) (hr : psi g a σ0 ρ = 0) (j : ℕ) :
    psi g a σ0 (rel g dg a σ0 j) ≤ (1 - 1 / (1 + a * dg σ0)) ^ j * psi g a σ0 σ0 := by
  have hρ0 := (rel_spec h ha hρ hr 0).1
  have hd : 1 ≤ 1 + a * dg σ0 := by linarith [mul_nonneg ha (h.slope σ0 (hρ.trans hρ0))]
  have hq : 0 ≤ 1 - 1 / (1 + a * dg σ0) := sub_nonneg.mpr ((div_le_one (by linarith)).mpr hd)
  induction j with
  | zero => simp [rel]
  | succ j ih =>
    refine (rel_spec h ha hρ hr j).2.2.2.trans ?_
    rw [pow_succ', mul_assoc]
    exact mul_le_mul_of_nonneg_left ih hq

/-- A larger start value has a larger solution. -/
theorem root_mono (h : Growing eps g dg) (ha : 0 ≤ a) (hρ : eps ≤ ρ) (hr : ρ + a * g ρ = σ) (hσ : σ ≤ σ0) :
    ∃ ρ', ρ ≤ ρ' ∧ ρ' ≤ σ0 ∧ ρ' + a * g ρ' = σ0 := by
  have h1 := mul_nonneg ha (h.pos ρ hρ).le
  have h2 : ρ ≤ σ0 := by linarith
  have h3 := mul_nonneg ha (h.pos σ0 (hρ.trans h2)).le
  have hc : ContinuousOn (fun x => x + a * g x) (Set.Icc ρ σ0) :=
    continuousOn_id.add (continuousOn_const.mul (h.cont.mono fun x hx => hρ.trans hx.1))
  obtain ⟨x, hx, hx2⟩ := intermediate_value_Icc h2 hc (show σ0 ∈ _ from ⟨by linarith, by linarith⟩)
  exact ⟨x, hx.1, hx.2, hx2⟩

/-- **C193** the exact relaxation curve is not above the implicit step: if `y' = −3 G g(y)` over the step and
`y` starts at or below `σ₀`, it ends at or below the solution `ρ` of the step. -/
theorem C193_never_faster (h : Growing eps g dg) {G t0 t1 : ℝ} (hG : 0 ≤ G) (hdt : t0 < t1) (hρ : eps ≤ ρ)
    (hr : ρ + 3 * G * (t1 - t0) * g ρ = σ0) (y : ℝ → ℝ) (hy0 : y t0 ≤ σ0) (hye : ∀ t ∈ Set.Icc t0 t1, eps ≤ y t)
    (hy : ∀ t ∈ Set.Icc t0 t1, HasDerivAt y (-(3 * G * g (y t))) t) :
    y t1 ≤ ρ := by
  have hc : ContinuousOn y (Set.Icc t0 t1) := fun t ht => (hy t ht).continuousAt.continuousWithinAt
  obtain ⟨c, hc1, hc2⟩ := exists_hasDerivAt_eq_slope y (fun t => -(3 * G * g (y t))) hdt hc
    fun t ht => hy t ⟨ht.1.le, ht.2.le⟩
  have hanti : y t1 ≤ y c := by
    obtain ⟨d, hd1, hd2⟩ := exists_hasDerivAt_eq_slope y (fun t => -(3 * G * g (y t))) hc1.2
      (hc.mono (Set.Icc_subset_Icc hc1.1.le le_rfl)) fun t ht => hy t ⟨(hc1.1.trans ht.1).le, ht.2.le⟩
    have h2 : 0 ≤ 3 * G * g (y d) :=
      mul_nonneg (by linarith) (h.pos _ (hye d ⟨(hc1.1.trans hd1.1).le, hd1.2.le⟩)).le
    rw [eq_div_iff (by linarith [hc1.2])] at hd2
    have := mul_nonneg h2 (sub_nonneg.mpr hc1.2.le)
    linarith
  have hye1 := hye t1 ⟨hdt.le, le_rfl⟩
  have hm := h.mono hye1 hanti
  rw [eq_div_iff (by linarith)] at hc2
  have ha : 0 ≤ 3 * G * (t1 - t0) := mul_nonneg (by linarith) (by linarith)
  by_contra hcon
  have h3 := psi_grows (σ0 := σ0) h ha hρ (not_le.mp hcon).le
  have h4 := mul_le_mul_of_nonneg_left hm ha
  simp only [psi] at h3
  rw [not_le] at hcon
  linarith

end scalar

/-! ## Creep under an elastic stress -/

open Creep (seq sdir sdir_of_le)

variable {eps : ℝ} {s : Fin 6 → ℝ} {r : Creep.Scalar} {G Kb : ℝ} {T t t1 t0 dt : ℝ} {g dg : ℝ → ℝ}

theorem devVec_iso (G Kb : ℝ) (v : Fin 6 → ℝ) : devVec (isoC G Kb *ᵥ v) = (2 * G) • devVec v := by
  rw [devVec_eq, devProj_isoC, devVec_eq]

theorem seq_pos_dot (hs : 0 < seq s) (he : eps ≤ seq s) : sdir eps s ⬝ᵥ sdir eps s = 2 / 3 := by
  have h := Creep.devVec_dot s
  have e : sdir eps s ⬝ᵥ sdir eps s = (devVec s ⬝ᵥ devVec s) / (seq s * seq s) := by
    rw [sdir_of_le he]
    simp only [dotProduct, Finset.sum_div]
    refine Finset.sum_congr rfl fun i _ => ?_
    rw [div_mul_div_comm]
  rw [e, h]
  field_simp

theorem j2_free (hf : r.StrainFree) : (Creep.j2 eps r).StrainFree := by
  refine ⟨fun s e e' t T => ?_, fun s e t T => ?_⟩
  · simp only [Creep.j2, hf.1 (seq s) (Creep.eeq e) (Creep.eeq e')]
  · ext i j
    simp [Creep.j2, hf.2, vecMulVec_apply]

/-- The stress derivative of the rate, applied to a change of stress. -/
theorem df_ds_apply (hs : eps ≤ seq s) (e w : Fin 6 → ℝ) (t T : ℝ) :
    (Creep.j2 eps r).df_ds s e t T *ᵥ w =
      (9 / 4 * (r.dg_ds (seq s) (Creep.eeq e) t T - r.g (seq s) (Creep.eeq e) t T / seq s) * (sdir eps s ⬝ᵥ w)) •
        sdir eps s + (3 / 2 * (r.g (seq s) (Creep.eeq e) t T / seq s)) • devVec w := by
  have hN : sdir eps s ⬝ᵥ devVec w = sdir eps s ⬝ᵥ w := by
    rw [devVec_eq, dot_devProj (Creep.tr3_sdir eps s)]
  simp only [Creep.j2, if_neg (not_lt.mpr hs), Creep.devId_eq]
  rw [← mulVec_mulVec, smul_mulVec, ← devVec_eq, add_mulVec, smul_mulVec, smul_mulVec, one_mulVec, vecMulVec_mulVec]
  ext i
  simp only [dotProduct_smul, hN, Pi.add_apply, Pi.smul_apply, smul_eq_mul, MulOpposite.smul_eq_mul_unop,
    MulOpposite.unop_op]
  ring

/-- The creep rate does not decrease work: its stress derivative is positive semidefinite. -/
theorem df_ds_nonneg (he : 0 < eps) (hs : eps ≤ seq s) (e w : Fin 6 → ℝ) (t T : ℝ)
    (hg : 0 ≤ r.g (seq s) (Creep.eeq e) t T) (hd : 0 ≤ r.dg_ds (seq s) (Creep.eeq e) t T) :
    0 ≤ w ⬝ᵥ ((Creep.j2 eps r).df_ds s e t T *ᵥ w) := by
  have hs0 := he.trans_le hs
  rw [df_ds_apply hs]
  have h1 : w ⬝ᵥ devVec w = devVec w ⬝ᵥ devVec w := Creep.dot_devVec w
  have h2 : w ⬝ᵥ sdir eps s = sdir eps s ⬝ᵥ w := dotProduct_comm _ _
  have hN : sdir eps s ⬝ᵥ devVec w = sdir eps s ⬝ᵥ w := by
    rw [devVec_eq, dot_devProj (Creep.tr3_sdir eps s)]
  rw [dotProduct_add, dotProduct_smul, dotProduct_smul, h1, h2, smul_eq_mul, smul_eq_mul]
  have h3 : 0 ≤ devVec w ⬝ᵥ devVec w - 3 / 2 * (sdir eps s ⬝ᵥ w) ^ 2 := by
    have h4 : 0 ≤ (devVec w - (3 / 2 * (sdir eps s ⬝ᵥ w)) • sdir eps s) ⬝ᵥ
        (devVec w - (3 / 2 * (sdir eps s ⬝ᵥ w)) • sdir eps s) :=
      Finset.sum_nonneg fun i _ => mul_self_nonneg _
    rw [sub_dotProduct, dotProduct_sub, dotProduct_sub, smul_dotProduct, dotProduct_smul, smul_dotProduct,
      dotProduct_smul, dotProduct_comm (devVec w) (sdir eps s), hN, seq_pos_dot hs0 hs] at h4
    simp only [smul_eq_mul] at h4
    nlinarith
  have h5 : 0 ≤ r.g (seq s) (Creep.eeq e) t T / seq s := div_nonneg hg hs0.le
  have h6 := mul_nonneg h5 h3
  have h7 := mul_nonneg hd (sq_nonneg (sdir eps s ⬝ᵥ w))
  nlinarith

/-- The matrix of the step is regular. -/
theorem step_det (hG : 0 < G) (hK : 0 < Kb) {B : Matrix (Fin 6) (Fin 6) ℝ} (hB : ∀ w, 0 ≤ w ⬝ᵥ (B *ᵥ w)) :
    (B * isoC G Kb + 1).det ≠ 0 := by
  intro hdet
  obtain ⟨v, hv, h0⟩ := Matrix.exists_mulVec_eq_zero_iff.mpr hdet
  have hp := (C36_iso_positive G Kb).mpr ⟨hG, hK⟩ v hv
  rw [add_mulVec, one_mulVec, ← mulVec_mulVec] at h0
  have h1 := hB (isoC G Kb *ᵥ v)
  have h2 : B *ᵥ (isoC G Kb *ᵥ v) = -v := eq_neg_of_add_eq_zero_left h0
  rw [h2, dotProduct_neg, dotProduct_comm] at h1
  linarith

/-! ## A hold -/

/-- The elastic strain `ep` with the deviator changed so that the equivalent stress is `σ` instead of `σ₀`. -/
noncomputable def held (ep : Fin 6 → ℝ) (σ0 σ : ℝ) : Fin 6 → ℝ := ep - devVec ep + (σ / σ0) • devVec ep

theorem devVec_smul (c : ℝ) (v : Fin 6 → ℝ) : devVec (c • v) = c • devVec v := by
  rw [devVec_eq, devVec_eq, mulVec_smul]

theorem devVec_held (ep : Fin 6 → ℝ) (σ0 σ : ℝ) : devVec (held ep σ0 σ) = (σ / σ0) • devVec ep := by
  rw [held, devVec_add, devVec_sub', devVec_smul, devVec_of_tr3 (tr3_devVec ep), sub_self, zero_add]

section hold

variable {ep : Fin 6 → ℝ} {σ σ0 : ℝ}

theorem seq_held (hG : 0 < G) (h0 : seq (isoC G Kb *ᵥ ep) = σ0) (hp : 0 < σ0) (hσ : 0 ≤ σ) :
    seq (isoC G Kb *ᵥ held ep σ0 σ) = σ := by
  rw [seq, devVec_iso, norm2_smul] at h0 ⊢
  rw [devVec_held, norm2_smul, abs_of_nonneg (div_nonneg hσ hp.le)]
  rw [show √(3 / 2) * (|2 * G| * (σ / σ0 * norm2 (devVec ep))) =
    σ / σ0 * (√(3 / 2) * (|2 * G| * norm2 (devVec ep))) by ring, h0]
  field_simp

theorem sdir_held (hG : 0 < G) (h0 : seq (isoC G Kb *ᵥ ep) = σ0) (hp : 0 < σ0) (hσ : 0 < σ) (he : eps ≤ σ) :
    sdir eps (isoC G Kb *ᵥ held ep σ0 σ) = (2 * G / σ0) • devVec ep := by
  have hq := seq_held hG h0 hp hσ.le
  rw [sdir_of_le (by rw [hq]; exact he), hq, devVec_iso, devVec_held]
  ext i
  simp only [Pi.smul_apply, smul_eq_mul]
  field_simp

/-- What the theorems assume of the creep rule: the rate depends on stress and temperature alone, and grows. -/
structure Rule (eps : ℝ) (r : Creep.Scalar) (T : ℝ) (g dg : ℝ → ℝ) : Prop where
  free : r.StrainFree
  rate : ∀ σ e t, eps ≤ σ → r.g σ e t T = g σ
  slope : ∀ σ e t, eps ≤ σ → r.dg_ds σ e t T = dg σ
  grows : Growing eps g dg

theorem j2_rate (hr : Rule eps r T g dg) (hσ : eps ≤ seq s) (t1 : ℝ) (en : Fin 6 → ℝ) :
    (Creep.j2 eps r).f s en t1 T = fun i => sdir eps s i * (3 / 2 * g (seq s)) := by
  simp only [Creep.j2, hr.rate _ _ _ hσ]

theorem norm_creep (he : 0 < eps) (hr : Rule eps r T g dg) (hσ : eps ≤ seq s) (hdt : t0 ≤ t1) (en : Fin 6 → ℝ) :
    norm2 (fun i => (Creep.j2 eps r).f s en t1 T i * (t1 - t0)) = √(3 / 2) * ((t1 - t0) * g (seq s)) := by
  have hs0 := he.trans_le hσ
  have hgp := hr.grows.pos _ hσ
  have e1 : (fun i => (Creep.j2 eps r).f s en t1 T i * (t1 - t0)) = (3 / 2 * g (seq s) * (t1 - t0)) • sdir eps s := by
    rw [j2_rate hr hσ]; ext i; simp only [Pi.smul_apply, smul_eq_mul]; ring
  have hpos : 0 ≤ 3 / 2 * g (seq s) * (t1 - t0) := by
    have := sub_nonneg.mpr hdt
    positivity
  have e2 : norm2 (sdir eps s) = √(2 / 3) := by unfold norm2; rw [seq_pos_dot hs0 hσ]
  have e3 : (3 / 2 : ℝ) * √(2 / 3) = √(3 / 2) := by
    rw [show (3 / 2 : ℝ) = √(3 / 2) * √(3 / 2) from (Real.mul_self_sqrt (by norm_num)).symm, mul_assoc,
      ← Real.sqrt_mul (by positivity), Real.mul_self_sqrt (by norm_num)]
    norm_num
  rw [e1, norm2_smul, abs_of_nonneg hpos, e2]
  linear_combination (g (seq s) * (t1 - t0)) * e3

theorem creep_held (he : 0 < eps) (hr : Rule eps r T g dg) {c : Settings} (hl : ExactSolve c.lin) (hv : ExactInv c.inv)
    (hi : 0 < c.inner.atol) (hi1 : c.inner.rtol ≤ 1) (hi2 : 2 ≤ c.inner.miter) (hf : 2 ≤ c.fuel) (hdt : t0 < t1)
    (hσ : eps ≤ seq s) (hbig : c.inner.atol ≤ √(3 / 2) * ((t1 - t0) * g (seq s))) (en : Fin 6 → ℝ) :
    creepOf (Creep.j2 eps r) c T t1 t0 s en =
      some (fun i => en i + sdir eps s i * (3 / 2 * g (seq s)) * (t1 - t0),
        (t1 - t0) • (Creep.j2 eps r).df_ds s (fun i => en i + sdir eps s i * (3 / 2 * g (seq s)) * (t1 - t0)) t1 T) := by
  have hs0 := he.trans_le hσ
  have hff := j2_rate hr hσ t1 en
  have hn := norm_creep he hr hσ hdt.le en
  have h := Creep.C43_explicit (m := Creep.j2 eps r) (lin := c.lin) (inv := c.inv) (p := c.inner) (fuel := c.fuel)
    (T1 := T) (t1 := t1) (t0 := t0) (s := s) (en := en) (j2_free hr.free)
    (fun b => by simpa using hl 1 b (by simp)) (by simpa using hv 1 (by simp)) hi hi1 hi2 hf (by rw [hn]; exact hbig)
  rw [hff] at h
  exact h

/-- Settings under which the theorems hold: exact linear algebra and tolerances of the usual kind. -/
structure Settings.Fine (c : Settings) : Prop where
  lin : ExactSolve c.lin
  inv : ExactInv c.inv
  scale : 0 < c.scale
  outer : 0 < c.outer.atol
  inner : 0 < c.inner.atol
  inner_rtol : c.inner.rtol ≤ 1
  inner_miter : 2 ≤ c.inner.miter
  fuel : 2 ≤ c.fuel

/-- Creep strain derivative at a held strain. -/
noncomputable def heldB (eps : ℝ) (r : Creep.Scalar) (G Kb T t1 t0 : ℝ) (e0 ep : Fin 6 → ℝ) (g : ℝ → ℝ) (σ0 σ : ℝ) :
    Matrix (Fin 6) (Fin 6) ℝ :=
  (t1 - t0) • (Creep.j2 eps r).df_ds (isoC G Kb *ᵥ held ep σ0 σ)
    (fun i => (e0 - ep) i + sdir eps (isoC G Kb *ᵥ held ep σ0 σ) i *
      (3 / 2 * g (seq (isoC G Kb *ᵥ held ep σ0 σ))) * (t1 - t0)) t1 T

theorem heldB_nonneg (he : 0 < eps) (hr : Rule eps r T g dg) (hG : 0 < G) (h0 : seq (isoC G Kb *ᵥ ep) = σ0)
    (hp : 0 < σ0) (hσ : eps ≤ σ) (hdt : t0 < t1) (e0 w : Fin 6 → ℝ) :
    0 ≤ w ⬝ᵥ (heldB eps r G Kb T t1 t0 e0 ep g σ0 σ *ᵥ w) := by
  have hq := seq_held hG h0 hp (he.le.trans hσ)
  unfold heldB
  rw [smul_mulVec, dotProduct_smul, smul_eq_mul]
  refine mul_nonneg (sub_nonneg.mpr hdt.le) (df_ds_nonneg he (by rw [hq]; exact hσ) _ _ _ _ ?_ ?_)
  · rw [hq, hr.rate _ _ _ hσ]; exact (hr.grows.pos _ hσ).le
  · rw [hq, hr.slope _ _ _ hσ]; exact hr.grows.slope _ hσ

theorem hold_RJ (he : 0 < eps) (hr : Rule eps r T g dg) {c : Settings} (hc : c.Fine) (hG : 0 < G)
    {el : Elastic ℝ (Fin 6)} (hC : el.C T = isoC G Kb) (h0 : seq (isoC G Kb *ᵥ ep) = σ0)
    (hp : 0 < σ0) (hσ : eps ≤ σ) (hdt : t0 < t1) (hbig : c.inner.atol ≤ √(3 / 2) * ((t1 - t0) * g σ))
    (e0 s0 : Fin 6 → ℝ) :
    cpRJ (elasticModel el T) (creepOf (Creep.j2 eps r) c T t1 t0) c.scale e0 e0 ep s0 () (held ep σ0 σ) =
      some ((c.scale * (psi g (3 * G * (t1 - t0)) σ0 σ / σ0)) • devVec ep,
        c.scale • (heldB eps r G Kb T t1 t0 e0 ep g σ0 σ * isoC G Kb + 1)) := by
  have hq := seq_held hG h0 hp (he.le.trans hσ)
  have hd := sdir_held (eps := eps) hG h0 hp (he.trans_le hσ) hσ
  have hcr := creep_held (s := isoC G Kb *ᵥ held ep σ0 σ) he hr hc.lin hc.inv hc.inner hc.inner_rtol hc.inner_miter hc.fuel hdt
    (by rw [hq]; exact hσ) (by rw [hq]; exact hbig) (e0 - ep)
  simp only [cpRJ, elasticModel, elasticUpdate, hC, hcr]
  congr 2
  · ext i
    rw [hd, hq]
    simp only [held, psi, Pi.add_apply, Pi.sub_apply, Pi.smul_apply, smul_eq_mul]
    field_simp
    ring
  · ext i j
    simp only [heldB, Matrix.smul_apply, Matrix.add_apply, Matrix.one_apply, smul_eq_mul]
    ring

theorem hold_J (he : 0 < eps) (hr : Rule eps r T g dg) (hG : 0 < G) (h0 : seq (isoC G Kb *ᵥ ep) = σ0)
    (hp : 0 < σ0) (hσ : eps ≤ σ) (e0 : Fin 6 → ℝ) (sc : ℝ) :
    (sc • (heldB eps r G Kb T t1 t0 e0 ep g σ0 σ * isoC G Kb + 1)) *ᵥ devVec ep =
      (sc * (1 + 3 * G * (t1 - t0) * dg σ)) • devVec ep := by
  have hs := he.trans_le hσ
  have hq := seq_held hG h0 hp hs.le
  have hd := sdir_held (eps := eps) hG h0 hp hs hσ
  have hN : sdir eps (isoC G Kb *ᵥ held ep σ0 σ) ⬝ᵥ sdir eps (isoC G Kb *ᵥ held ep σ0 σ) = 2 / 3 :=
    seq_pos_dot (by rw [hq]; exact hs) (by rw [hq]; exact hσ)
  have hdev : devVec ep = (σ0 / (2 * G)) • sdir eps (isoC G Kb *ᵥ held ep σ0 σ) := by
    rw [hd, smul_smul]
    have : σ0 / (2 * G) * (2 * G / σ0) = 1 := by field_simp
    rw [this, one_smul]
  have hNe : sdir eps (isoC G Kb *ᵥ held ep σ0 σ) ⬝ᵥ devVec ep = σ0 / (3 * G) := by
    rw [hdev, dotProduct_smul, hN, smul_eq_mul]; field_simp
  rw [smul_mulVec, add_mulVec, one_mulVec, ← mulVec_mulVec, isoC_dev G Kb (tr3_devVec ep), mulVec_smul, heldB,
    smul_mulVec, df_ds_apply (by rw [hq]; exact hσ), hNe, devVec_of_tr3 (tr3_devVec ep), hq, hr.rate _ _ _ hσ,
    hr.slope _ _ _ hσ, hd]
  ext i
  simp only [Pi.add_apply, Pi.smul_apply, smul_eq_mul]
  field_simp
  ring

/-- **C193** a hold: the solver finds the relaxed stress. It is the old stress with the deviator shortened and the
mean stress kept; its size `σ` is not below the solution `ρ` of the implicit step, not above the old one, and at `ρ`
up to the tolerances. -/
theorem C193_relaxes (he : 0 < eps) (hr : Rule eps r T g dg) {c : Settings} (hc : c.Fine) (hG : 0 < G) (hK : 0 < Kb)
    {el : Elastic ℝ (Fin 6)} (hC : el.C T = isoC G Kb) (h0 : seq (isoC G Kb *ᵥ ep) = σ0) (hdt : t0 < t1)
    {ρ : ℝ} (hρ : eps ≤ ρ) (hρ0 : ρ + 3 * G * (t1 - t0) * g ρ = σ0)
    (hin : c.inner.atol ≤ √(3 / 2) * ((t1 - t0) * g ρ)) {k : ℕ}
    (hk : (1 - 1 / (1 + 3 * G * (t1 - t0) * dg σ0)) ^ k < c.outer.rtol) (hm : (k : ℤ) < c.outer.miter)
    (hf : k < c.fuel) (e0 s0 : Fin 6 → ℝ) (u0 p0 : ℝ) :
    ∃ σ u, seriesUpdate (elasticModel el T) (Creep.j2 eps r) c T t1 t0 e0 e0 s0 (ep, ()) u0 p0 = some u ∧
      u.s = isoC G Kb *ᵥ u.h.1 ∧ tr3 u.s = tr3 (isoC G Kb *ᵥ ep) ∧
      devVec u.s = (σ / σ0) • devVec (isoC G Kb *ᵥ ep) ∧ seq u.s = σ ∧ ρ ≤ σ ∧ σ ≤ σ0 ∧
      σ - ρ ≤ max (2 * G * √(3 / 2) * c.outer.atol / c.scale) (c.outer.rtol * (3 * G * (t1 - t0) * g σ0)) := by
  have hdt0 := sub_pos.mpr hdt
  have ha : 0 ≤ 3 * G * (t1 - t0) := by positivity
  have hgr := hr.grows
  have hρp := he.trans_le hρ
  have hρσ : ρ ≤ σ0 := by linarith [mul_nonneg ha (hgr.pos ρ hρ).le]
  have hp : 0 < σ0 := hρp.trans_le hρσ
  have hψ : psi g (3 * G * (t1 - t0)) σ0 ρ = 0 := by simp only [psi]; linarith
  have hsp := fun j => rel_spec hgr ha hρ hψ j
  have hrt := fun j => rel_rate hgr ha hρ hψ j
  generalize hX : rel g dg (3 * G * (t1 - t0)) σ0 = X at hsp hrt
  have hXe : ∀ j, eps ≤ X j := fun j => hρ.trans (hsp j).1
  have hbig : ∀ j, c.inner.atol ≤ √(3 / 2) * ((t1 - t0) * g (X j)) := fun j =>
    hin.trans (mul_le_mul_of_nonneg_left (mul_le_mul_of_nonneg_left (hgr.mono hρ (hsp j).1) hdt0.le) (Real.sqrt_nonneg _))
  have hnd : norm2 (devVec ep) = σ0 / (2 * G * √(3 / 2)) := by
    rw [seq, devVec_iso, norm2_smul, abs_of_pos (by positivity)] at h0
    have hq : √(3 / 2 : ℝ) ≠ 0 := by positivity
    rw [← h0]; field_simp
  have hndp : 0 < norm2 (devVec ep) := by rw [hnd]; positivity
  have hN : ∀ x, 0 ≤ x → Newton.norm2 ((c.scale * (x / σ0)) • devVec ep) = c.scale * x / (2 * G * √(3 / 2)) := by
    intro x hx
    have h1 : Newton.norm2 ((c.scale * (x / σ0)) • devVec ep) = norm2 ((c.scale * (x / σ0)) • devVec ep) := rfl
    have hsc := hc.scale
    rw [h1, norm2_smul, abs_of_nonneg (by positivity), hnd]
    field_simp
  have hψ0 : psi g (3 * G * (t1 - t0)) σ0 σ0 = 3 * G * (t1 - t0) * g σ0 := by simp only [psi]; ring
  have hψ0p : 0 < psi g (3 * G * (t1 - t0)) σ0 σ0 := by
    rw [hψ0]; have := hgr.pos σ0 (hρ.trans hρσ); positivity
  have hX0 : X 0 = σ0 := by rw [← hX]; rfl
  have hXs : ∀ j, X (j + 1) = X j - psi g (3 * G * (t1 - t0)) σ0 (X j) / (1 + 3 * G * (t1 - t0) * dg (X j)) := by
    intro j; rw [← hX]; rfl
  have hsl : ∀ j, 0 < 1 + 3 * G * (t1 - t0) * dg (X j) := fun j => by
    have := mul_nonneg ha (hgr.slope _ (hXe j)); linarith
  have hsc := hc.scale
  have hq : 0 < 2 * G * √(3 / 2) := by positivity
  obtain ⟨R, hR⟩ : ∃ R : ℕ → Fin 6 → ℝ, R = fun j =>
    (c.scale * (psi g (3 * G * (t1 - t0)) σ0 (X j) / σ0)) • devVec ep := ⟨_, rfl⟩
  obtain ⟨J, hJ⟩ : ∃ J : ℕ → Matrix (Fin 6) (Fin 6) ℝ, J = fun j =>
    c.scale • (heldB eps r G Kb T t1 t0 e0 ep g σ0 (X j) * isoC G Kb + 1) := ⟨_, rfl⟩
  have hNR : ∀ j, Newton.norm2 (R j) = c.scale * psi g (3 * G * (t1 - t0)) σ0 (X j) / (2 * G * √(3 / 2)) := fun j => by
    rw [hR]; exact hN _ (hsp j).2.2.1
  have hNR0 : 0 < Newton.norm2 (R 0) := by rw [hNR, hX0]; positivity
  have hdet : ∀ j, (J j).det ≠ 0 := fun j => by
    rw [hJ, Matrix.det_smul]
    exact mul_ne_zero (pow_ne_zero _ hsc.ne')
      (step_det hG hK fun w => heldB_nonneg he hr hG h0 hp (hXe j) hdt e0 w)
  obtain ⟨cv, hcv⟩ : ∃ cv : ℕ → Prop, cv = fun j => Newton.norm2 (R j) < c.outer.atol ∨
      (Newton.norm2 (R 0) ≠ 0 ∧ Newton.norm2 (R j) / Newton.norm2 (R 0) < c.outer.rtol) := ⟨_, rfl⟩
  have hratio : ∀ j, Newton.norm2 (R j) / Newton.norm2 (R 0) =
      psi g (3 * G * (t1 - t0)) σ0 (X j) / psi g (3 * G * (t1 - t0)) σ0 σ0 := fun j => by
    rw [hNR, hNR, hX0]; field_simp
  have hck : cv k := by
    rw [hcv]
    refine Or.inr ⟨hNR0.ne', ?_⟩
    rw [hratio, div_lt_iff₀ hψ0p]
    exact (hrt k).trans_lt (mul_lt_mul_of_pos_right hk hψ0p)
  classical
  have hex : ∃ j, cv j := ⟨k, hck⟩
  obtain ⟨M, hM1, hM2, hM3⟩ : ∃ M, cv M ∧ M ≤ k ∧ ∀ j < M, ¬ cv j :=
    ⟨Nat.find hex, Nat.find_spec hex, Nat.find_min' hex hck, fun j hj => Nat.find_min hex hj⟩
  obtain ⟨j, hj, hcj, hnw⟩ := newton_chain
    (cpSystem (elasticModel el T) (creepOf (Creep.j2 eps r) c T t1 t0) c.scale e0 e0 ep s0 ()) c.lin c.outer c.fuel
    (fun j => held ep σ0 (X j)) R J M
    (by show held ep σ0 (X 0) = ep
        rw [hX0, held, div_self hp.ne', one_smul, sub_add_cancel])
    (fun j _ => by
      rw [hR, hJ]
      exact hold_RJ he hr hc hG hC h0 hp (hXe j) hdt (hbig j) e0 s0)
    (fun j _ => by
      have h := hc.lin _ (held ep σ0 (X j) - held ep σ0 (X (j + 1))) (hdet j)
      rw [← h]
      congr 1
      have e : held ep σ0 (X j) - held ep σ0 (X (j + 1)) =
          (psi g (3 * G * (t1 - t0)) σ0 (X j) / σ0 / (1 + 3 * G * (t1 - t0) * dg (X j))) • devVec ep := by
        have := (hsl j).ne'
        rw [hXs]
        ext i
        simp only [held, Pi.add_apply, Pi.sub_apply, Pi.smul_apply, smul_eq_mul]
        field_simp
        ring
      rw [e, mulVec_smul, hJ, hold_J he hr hG h0 hp (hXe j), smul_smul, hR]
      have := (hsl j).ne'
      congr 1
      field_simp)
    (fun j hj => by
      have h1 : ¬ cv j := hM3 j hj
      rw [hcv] at h1
      have h2 : ¬ Newton.norm2 (R j) < c.outer.atol := fun h => h1 (Or.inl h)
      have h3 : 0 < psi g (3 * G * (t1 - t0)) σ0 (X j) := by
        rcases (hsp j).2.2.1.eq_or_lt with h | h
        · rw [hNR, ← h] at h2
          simp only [mul_zero, zero_div] at h2
          exact absurd hc.outer h2
        · exact h
      have h4 := (hsp j).2.2.2
      have h5 : 0 < 1 / (1 + 3 * G * (t1 - t0) * dg σ0) := by
        have := hsl 0; rw [hX0] at this; positivity
      have h6 := mul_pos h5 h3
      rw [hNR, hNR]
      refine div_lt_div_of_pos_right (mul_lt_mul_of_pos_left ?_ hsc) hq
      linarith)
    (by rw [hcv] at hM1; exact hM1) (by omega) (by omega)
  have hqs := seq_held hG h0 hp (he.le.trans (hXe j))
  have hcr := creep_held (s := isoC G Kb *ᵥ held ep σ0 (X j)) he hr hc.lin hc.inv hc.inner hc.inner_rtol hc.inner_miter hc.fuel hdt
    (by rw [hqs]; exact hXe j) (by rw [hqs]; exact hbig j) (e0 - ep)
  have hdet2 : (isoC G Kb * heldB eps r G Kb T t1 t0 e0 ep g σ0 (X j) + 1).det ≠ 0 := by
    rw [add_comm, Matrix.det_one_add_mul_comm, add_comm]
    exact step_det hG hK fun w => heldB_nonneg he hr hG h0 hp (hXe j) hdt e0 w
  have hinv := hc.inv _ hdet2
  unfold heldB at hinv
  obtain ⟨u, hu, hus, huh⟩ : ∃ u, seriesUpdate (elasticModel el T) (Creep.j2 eps r) c T t1 t0 e0 e0 s0 (ep, ()) u0 p0 =
      some u ∧ u.s = isoC G Kb *ᵥ held ep σ0 (X j) ∧ u.h.1 = held ep σ0 (X j) := by
    simp only [seriesUpdate, cpUpdate, cpSolve, hnw, elasticModel, elasticUpdate, hC, hcr, cpTangent, hinv]
    exact ⟨_, rfl, rfl, rfl⟩
  refine ⟨X j, u, hu, by rw [hus, huh], ?_, ?_, by rw [hus, hqs], (hsp j).1, (hsp j).2.1, ?_⟩
  · have h1 : isoC G Kb *ᵥ held ep σ0 (X j) = isoC G Kb *ᵥ ep + (2 * G * (X j / σ0 - 1)) • devVec ep := by
      have h2 : held ep σ0 (X j) = ep + (X j / σ0 - 1) • devVec ep := by rw [held]; module
      rw [h2, mulVec_add, mulVec_smul, isoC_dev G Kb (tr3_devVec ep), smul_smul]
      congr 2
      ring
    rw [hus, h1, tr3_add, tr3_smul, tr3_devVec, mul_zero, add_zero]
  · rw [hus, devVec_iso, devVec_held, devVec_iso, smul_smul, smul_smul, mul_comm]
  · have h1 := psi_grows (σ0 := σ0) hgr ha hρ (hsp j).1
    rw [hψ, sub_zero] at h1
    rcases hcj with h | ⟨-, h⟩
    · refine le_max_of_le_left ?_
      rw [hNR, div_lt_iff₀ hq] at h
      rw [le_div_iff₀ hsc]
      nlinarith
    · refine le_max_of_le_right ?_
      rw [hratio, div_lt_iff₀ hψ0p, hψ0] at h
      linarith

end hold

/-! ## Histories of holds -/

/-- Updates at a fixed strain `e` at the times of a list. -/
noncomputable def holdPath {H : Type} (upd : ℝ → ℝ → Model ℝ (Fin 6) H) (e : Fin 6 → ℝ) :
    ℝ → Update ℝ (Fin 6) H → List ℝ → Option (Update ℝ (Fin 6) H)
  | _, u, [] => some u
  | t0, u, t1 :: ts => match upd t1 t0 e e u.s u.h u.u u.p with
    | none => none
    | some u' => holdPath upd e t1 u' ts

/-- The exact solutions of the implicit steps, from `σ₀` at `t₀` over the times of the list to `σ`, never below the
level `l`. -/
inductive Chain (g : ℝ → ℝ) (G l : ℝ) : ℝ → ℝ → List ℝ → ℝ → Prop
  | nil (t0 σ) : Chain g G l t0 σ [] σ
  | cons {t0 t1 σ0 ρ σ ts} : t0 < t1 → l ≤ ρ → ρ + 3 * G * (t1 - t0) * g ρ = σ0 → Chain g G l t1 ρ ts σ →
      Chain g G l t0 σ0 (t1 :: ts) σ

/-- The last time of a history. -/
def endTime : ℝ → List ℝ → ℝ
  | t, [] => t
  | _, t :: ts => endTime t ts

theorem Chain.le_end {g : ℝ → ℝ} {G l t0 σ0 σ : ℝ} {ts : List ℝ} (h : Chain g G l t0 σ0 ts σ) : t0 ≤ endTime t0 ts := by
  induction h with
  | nil => exact le_rfl
  | cons h1 _ _ _ ih => exact h1.le.trans ih

/-- **C193** over a history the exact relaxation curve of the law ends at or below the implicit steps. -/
theorem C193_curve {eps : ℝ} {g dg : ℝ → ℝ} (h : Growing eps g dg) {G l t0 σ0 σ : ℝ} (hG : 0 ≤ G) (hl : eps ≤ l)
    {ts : List ℝ} (hch : Chain g G l t0 σ0 ts σ) (y : ℝ → ℝ) (hy0 : y t0 ≤ σ0)
    (hye : ∀ t ∈ Set.Icc t0 (endTime t0 ts), eps ≤ y t)
    (hy : ∀ t ∈ Set.Icc t0 (endTime t0 ts), HasDerivAt y (-(3 * G * g (y t))) t) : y (endTime t0 ts) ≤ σ := by
  induction hch with
  | nil => exact hy0
  | @cons t0 t1 σ0 ρ σ ts h1 h2 h3 h4 ih =>
    have hle := h4.le_end
    refine ih (C193_never_faster h hG h1 (hl.trans h2) h3 y hy0 (fun t ht => hye t ⟨ht.1, ht.2.trans hle⟩)
      fun t ht => hy t ⟨ht.1, ht.2.trans hle⟩) (fun t ht => hye t ⟨h1.le.trans ht.1, ht.2⟩)
      fun t ht => hy t ⟨h1.le.trans ht.1, ht.2⟩

/-- Step lengths of a history. -/
def steps : ℝ → List ℝ → List ℝ
  | _, [] => []
  | t0, t1 :: ts => (t1 - t0) :: steps t1 ts

/-- **C193** a history of holds: if the exact implicit steps stay above a level at which each step's creep is not lost
in the inner solver's tolerance, every update gets an answer. The stress keeps its direction and its mean, does not
grow, and does not fall below the exact implicit steps, hence (`C193_curve`) not below the law's curve. -/
theorem C193_history (he : 0 < eps) (hr : Rule eps r T g dg) {c : Settings} (hc : c.Fine) (hG : 0 < G) (hK : 0 < Kb)
    {el : Elastic ℝ (Fin 6)} (hC : el.C T = isoC G Kb) {l D σmax : ℝ} (hl : eps ≤ l) {k : ℕ}
    (hk : (1 - 1 / (1 + 3 * G * D * dg σmax)) ^ k < c.outer.rtol) (hm : (k : ℤ) < c.outer.miter) (hf : k < c.fuel)
    (e : Fin 6 → ℝ) {ts : List ℝ} {σe σ : ℝ} (hch : Chain g G l t0 σe ts σ)
    (hst : ∀ d ∈ steps t0 ts, d ≤ D ∧ c.inner.atol ≤ √(3 / 2) * (d * g l))
    (u : Update ℝ (Fin 6) ((Fin 6 → ℝ) × Unit)) (hu : u.s = isoC G Kb *ᵥ u.h.1) (h1 : σe ≤ seq u.s)
    (h2 : seq u.s ≤ σmax) (h3 : 0 < seq u.s) :
    ∃ v, holdPath (fun t1 t0 => seriesUpdate (elasticModel el T) (Creep.j2 eps r) c T t1 t0) e t0 u ts = some v ∧
      σ ≤ seq v.s ∧ seq v.s ≤ seq u.s ∧ tr3 v.s = tr3 u.s ∧ devVec v.s = (seq v.s / seq u.s) • devVec u.s := by
  induction hch generalizing u with
  | nil =>
    refine ⟨u, rfl, h1, le_rfl, rfl, ?_⟩
    rw [div_self h3.ne', one_smul]
  | @cons t0 t1 σ0 ρ σ ts g1 g2 g3 g4 ih =>
    have hdt := sub_pos.mpr g1
    have ha : 0 ≤ 3 * G * (t1 - t0) := by positivity
    have hst1 := hst (t1 - t0) (List.mem_cons_self ..)
    obtain ⟨ρ', hp1, hp2, hp3⟩ := root_mono (σ0 := seq u.s) hr.grows ha (hl.trans g2) g3 h1
    have hρe : eps ≤ ρ' := hl.trans (g2.trans hp1)
    have hσe : eps ≤ seq u.s := hρe.trans hp2
    have hq : (1 - 1 / (1 + 3 * G * (t1 - t0) * dg (seq u.s))) ^ k < c.outer.rtol := by
      have k1 : 3 * G * (t1 - t0) * dg (seq u.s) ≤ 3 * G * D * dg σmax :=
        mul_le_mul (mul_le_mul_of_nonneg_left hst1.1 (by positivity)) (hr.grows.mono_slope hσe h2)
          (hr.grows.slope _ hσe) (by have := hdt.trans_le hst1.1; positivity)
      have k2 := mul_nonneg ha (hr.grows.slope _ hσe)
      refine lt_of_le_of_lt (pow_le_pow_left₀ ?_ ?_ k) hk
      · exact sub_nonneg.mpr ((div_le_one (by linarith)).mpr (by linarith))
      · have := one_div_le_one_div_of_le (show 0 < 1 + 3 * G * (t1 - t0) * dg (seq u.s) by linarith)
          (show 1 + 3 * G * (t1 - t0) * dg (seq u.s) ≤ 1 + 3 * G * D * dg σmax by linarith)
        linarith
    have hin : c.inner.atol ≤ √(3 / 2) * ((t1 - t0) * g ρ') :=
      hst1.2.trans (mul_le_mul_of_nonneg_left
        (mul_le_mul_of_nonneg_left (hr.grows.mono hl (g2.trans hp1)) hdt.le) (Real.sqrt_nonneg _))
    obtain ⟨τ, v, hv, hvs, hvt, hvd, hvq, q1, q2, -⟩ := C193_relaxes (σ0 := seq u.s) (ep := u.h.1) he hr hc hG hK hC
      (by rw [← hu]) g1 hρe hp3 hin hq hm hf e u.s u.u u.p
    rw [← hu] at hvt hvd
    have hτp : 0 < τ := (he.trans_le hρe).trans_le q1
    obtain ⟨w, w1, w2, w3, w4, w5⟩ := ih (fun d hd => hst d (List.mem_cons_of_mem _ hd)) v hvs
      (by rw [hvq]; exact hp1.trans q1) (by rw [hvq]; exact q2.trans h2) (by rw [hvq]; exact hτp)
    refine ⟨w, ?_, w2, by rw [hvq] at w3; exact w3.trans q2, w4.trans hvt, ?_⟩
    · have hh : (u.h.1, ()) = u.h := rfl
      rw [hh] at hv
      simp only [holdPath, hv]
      exact w1
    · rw [w5, hvd, hvq, smul_smul]
      congr 1
      field_simp

/-- The reported derivative of a creep update whose rate does not depend on the strain. -/
theorem update_free {m : Creep.Model} {lin inv} {p : Newton.Params} {fuel : ℕ} {en e1 : Fin 6 → ℝ} {A}
    (hf : m.StrainFree) (hinv : inv 1 = some 1) (h : Creep.update m lin inv p fuel T t1 t0 s en = some (e1, A)) :
    A = (t1 - t0) • m.df_ds s e1 t1 T := by
  unfold Creep.update at h
  split at h
  · rename_i it hit
    have hJ : (Creep.creepRJ m s en t1 T (t1 - t0) it.x).2 = 1 := by
      ext i j
      simp [Creep.creepRJ, hf.2, Matrix.one_apply]
    have h3 : (Matrix.of fun i j => (1 : Matrix (Fin 6) (Fin 6) ℝ) i j * (t1 - t0)) = (t1 - t0) • 1 := by
      ext i j; simp [mul_comm]
    simp only [Creep.creepTangent, hJ, hinv, h3, Matrix.smul_mul, Matrix.one_mul] at h
    cases h
    rfl
  · cases h

/-- **C193** what the inner tolerance does: if every step of a hold creeps less than the inner solver's absolute
tolerance, the stress does not relax at all, however long the hold. -/
theorem C193_stuck_disagreement (he : 0 < eps) (hr : Rule eps r T g dg) {c : Settings} (hc : c.Fine) (hm : 1 ≤ c.outer.miter)
    (hG : 0 < G) (hK : 0 < Kb) {el : Elastic ℝ (Fin 6)} (hC : el.C T = isoC G Kb) (e : Fin 6 → ℝ) (ts : List ℝ)
    (u : Update ℝ (Fin 6) ((Fin 6 → ℝ) × Unit)) (hu : u.s = isoC G Kb *ᵥ u.h.1) (hσ : eps ≤ seq u.s)
    (hst : ∀ d ∈ steps t0 ts, 0 ≤ d ∧ √(3 / 2) * (d * g (seq u.s)) < c.inner.atol) :
    ∃ v, holdPath (fun t1 t0 => seriesUpdate (elasticModel el T) (Creep.j2 eps r) c T t1 t0) e t0 u ts = some v ∧
      v.s = u.s := by
  induction ts generalizing u t0 with
  | nil => exact ⟨u, rfl, rfl⟩
  | cons t1 ts ih =>
    obtain ⟨hd, hsm⟩ := hst (t1 - t0) (List.mem_cons_self ..)
    have hinv1 : c.inv 1 = some 1 := by simpa using hc.inv 1 (by simp)
    obtain ⟨B, hB⟩ := Creep.C43_small_step_dropped (m := Creep.j2 eps r) (lin := c.lin) (inv := c.inv) (p := c.inner)
      (fuel := c.fuel) (T1 := T) (t1 := t1) (t0 := t0) (s := u.s) (en := e - u.h.1) (j2_free hr.free) hinv1
      (by have := hc.inner_miter; omega) (by have := hc.fuel; omega)
      (by rw [norm_creep he hr hσ (sub_nonneg.mp hd)]; exact hsm)
    have hBe := update_free (j2_free hr.free) hinv1 hB
    have hcr : creepOf (Creep.j2 eps r) c T t1 t0 (isoC G Kb *ᵥ u.h.1) (e - u.h.1) = some (e - u.h.1, B) := by
      rw [← hu]; exact hB
    have hBn : ∀ w, 0 ≤ w ⬝ᵥ (B *ᵥ w) := fun w => by
      rw [hBe, smul_mulVec, dotProduct_smul, smul_eq_mul]
      refine mul_nonneg hd (df_ds_nonneg he hσ _ _ _ _ ?_ ?_)
      · rw [hr.rate _ _ _ hσ]; exact (hr.grows.pos _ hσ).le
      · rw [hr.slope _ _ _ hσ]; exact hr.grows.slope _ hσ
    have hRJ : (cpSystem (elasticModel el T) (creepOf (Creep.j2 eps r) c T t1 t0) c.scale e e u.h.1 u.s u.h.2).RJ u.h.1 =
        some (0, c.scale • (B * isoC G Kb + 1)) := by
      simp only [cpSystem, cpRJ, elasticModel, elasticUpdate, hC, hcr]
      congr 2
      · ext i; simp
      · ext i j; simp [Matrix.one_apply]; ring
    have hN0 : Newton.norm2 (0 : Fin 6 → ℝ) < c.outer.atol := by
      have : Newton.norm2 (0 : Fin 6 → ℝ) = 0 := by simp [Newton.norm2]
      rw [this]; exact hc.outer
    have hnw := newton_at_once (cpSystem (elasticModel el T) (creepOf (Creep.j2 eps r) c T t1 t0) c.scale e e u.h.1 u.s
      u.h.2) c.lin c.outer c.fuel hRJ hN0 (by omega) (by have := hc.fuel; omega)
    have hdet2 : (isoC G Kb * B + 1).det ≠ 0 := by
      rw [add_comm, Matrix.det_one_add_mul_comm, add_comm]
      exact step_det hG hK hBn
    have hinv := hc.inv _ hdet2
    obtain ⟨v, hv, hvs, hvh⟩ : ∃ v, seriesUpdate (elasticModel el T) (Creep.j2 eps r) c T t1 t0 e e u.s u.h u.u u.p =
        some v ∧ v.s = isoC G Kb *ᵥ u.h.1 ∧ v.h.1 = u.h.1 := by
      simp only [seriesUpdate, cpUpdate, cpSolve, hnw]
      simp only [cpSystem, elasticModel, elasticUpdate, hC, hcr, cpTangent, hinv]
      exact ⟨_, rfl, rfl, rfl⟩
    rw [← hu] at hvs
    obtain ⟨w, w1, w2⟩ := ih (t0 := t1) v (by rw [hvs, hvh, hu]) (by rw [hvs]; exact hσ)
      (by rw [hvs]; exact fun d hd => hst d (List.mem_cons_of_mem _ hd))
    refine ⟨w, ?_, w2.trans hvs⟩
    simp only [holdPath, hv]
    exact w1

/-! ## Any step -/

/-- The equation of a step from elastic strain `ep` and total strain `e₀` to total strain `e₁`: elastic strain plus
old creep strain plus new creep makes the total strain. -/
def Series (eps : ℝ) (r : Creep.Scalar) (T G Kb t1 t0 : ℝ) (e1 e0 ep x : Fin 6 → ℝ) : Prop :=
  x + (e0 - ep) + (t1 - t0) • (Creep.j2 eps r).f (isoC G Kb *ᵥ x) 0 t1 T = e1

/-- Creep rates grow with the stress: the work of a change of rate on the change of stress is not negative. -/
theorem rate_monotone (he : 0 < eps) (hr : Rule eps r T g dg) (s s' : Fin 6 → ℝ) (t : ℝ) :
    0 ≤ (s - s') ⬝ᵥ ((Creep.j2 eps r).f s 0 t T - (Creep.j2 eps r).f s' 0 t T) := by
  -- the rate is a nonnegative factor times the direction
  have hf : ∀ s : Fin 6 → ℝ, ∃ w, 0 ≤ w ∧ (Creep.j2 eps r).f s 0 t T = (3 / 2 * w) • sdir eps s ∧
      (eps ≤ seq s → w = g (seq s)) ∧ (seq s < eps → w = 0) := by
    intro s
    by_cases h : seq s < eps
    · refine ⟨0, le_rfl, ?_, fun h' => absurd h (not_lt.mpr h'), fun _ => rfl⟩
      ext i; simp [Creep.j2, sdir, h]
    · rw [not_lt] at h
      refine ⟨g (seq s), (hr.grows.pos _ h).le, ?_, fun _ => rfl, fun h' => absurd h' (not_lt.mpr h)⟩
      ext i
      simp only [Creep.j2, hr.rate _ _ _ h, Pi.smul_apply, smul_eq_mul]; ring
  -- the direction's product with any stress is at most 2/3 of the equivalent stress, and that much for its own
  have hd : ∀ s s' : Fin 6 → ℝ, eps ≤ seq s → s' ⬝ᵥ sdir eps s ≤ 2 / 3 * seq s' := by
    intro s s' h
    have hN := seq_pos_dot (he.trans_le h) h
    have h1 : s' ⬝ᵥ sdir eps s = devVec s' ⬝ᵥ sdir eps s := by
      rw [dotProduct_comm s', dotProduct_comm (devVec s'), devVec_eq, dot_devProj (Creep.tr3_sdir eps s)]
    have h2 := dot_le_norm2 (devVec s') (sdir eps s)
    have h3 : norm2 (sdir eps s) = √(2 / 3) := by unfold norm2; rw [hN]
    have h4 : norm2 (devVec s') = √(2 / 3) * seq s' := by
      rw [seq, ← mul_assoc, ← Real.sqrt_mul (by norm_num)]; norm_num
    rw [h1]
    refine h2.trans (le_of_eq ?_)
    rw [h3, h4]
    linear_combination (seq s') * Creep.sqrt_mul_sqrt.2
  have ho : ∀ s : Fin 6 → ℝ, eps ≤ seq s → s ⬝ᵥ sdir eps s = 2 / 3 * seq s := by
    intro s h
    have hp := he.trans_le h
    have h1 : s ⬝ᵥ sdir eps s = (s ⬝ᵥ devVec s) / seq s := by
      rw [sdir_of_le h]
      simp only [dotProduct, Finset.sum_div]
      exact Finset.sum_congr rfl fun i _ => by ring
    rw [h1, Creep.dot_devVec, Creep.devVec_dot]
    field_simp
  obtain ⟨w, w0, w1, w2, w3⟩ := hf s
  obtain ⟨w', w0', w1', w2', w3'⟩ := hf s'
  rw [w1, w1', sub_dotProduct, dotProduct_sub, dotProduct_sub, dotProduct_smul, dotProduct_smul, dotProduct_smul,
    dotProduct_smul]
  simp only [smul_eq_mul]
  by_cases h : eps ≤ seq s <;> by_cases h' : eps ≤ seq s'
  · rw [ho s h, ho s' h']
    have k1 := mul_le_mul_of_nonneg_left (hd s s' h) w0
    have k2 := mul_le_mul_of_nonneg_left (hd s' s h') w0'
    have k3 : 0 ≤ (w - w') * (seq s - seq s') := by
      rw [w2 h, w2' h']
      rcases le_total (seq s) (seq s') with k | k
      · exact mul_nonneg_of_nonpos_of_nonpos (by linarith [hr.grows.mono h k]) (by linarith)
      · exact mul_nonneg (by linarith [hr.grows.mono h' k]) (by linarith)
    nlinarith
  · rw [w3' (not_le.mp h'), ho s h]
    have k1 := mul_le_mul_of_nonneg_left (hd s s' h) w0
    have k2 := mul_nonneg w0 (sub_nonneg.mpr ((not_le.mp h').le.trans h))
    nlinarith
  · rw [w3 (not_le.mp h), ho s' h']
    have k1 := mul_le_mul_of_nonneg_left (hd s' s h') w0'
    have k2 := mul_nonneg w0' (sub_nonneg.mpr ((not_le.mp h).le.trans h'))
    nlinarith
  · rw [w3 (not_le.mp h), w3' (not_le.mp h')]
    simp

/-- **C193** every step, whatever the strains and the old state, has at most one solution. -/
theorem C193_unique (he : 0 < eps) (hr : Rule eps r T g dg) (hG : 0 < G) (hK : 0 < Kb) (hdt : t0 ≤ t1)
    {e1 e0 ep x y : Fin 6 → ℝ} (hx : Series eps r T G Kb t1 t0 e1 e0 ep x) (hy : Series eps r T G Kb t1 t0 e1 e0 ep y) :
    x = y := by
  by_contra hne
  have h1 := (C36_iso_positive G Kb).mpr ⟨hG, hK⟩ (x - y) (sub_ne_zero.mpr hne)
  have h2 := rate_monotone he hr (isoC G Kb *ᵥ x) (isoC G Kb *ᵥ y) t1
  have h3 : x - y = -((t1 - t0) • ((Creep.j2 eps r).f (isoC G Kb *ᵥ x) 0 t1 T - (Creep.j2 eps r).f (isoC G Kb *ᵥ y) 0 t1 T)) := by
    unfold Series at hx hy
    rw [← hy] at hx
    ext i
    have := congrFun hx i
    simp only [Pi.add_apply, Pi.sub_apply, Pi.smul_apply, Pi.neg_apply, smul_eq_mul] at this ⊢
    linarith
  rw [← mulVec_sub] at h2
  have h4 : (x - y) ⬝ᵥ (isoC G Kb *ᵥ (x - y)) = -((t1 - t0) * ((isoC G Kb *ᵥ (x - y)) ⬝ᵥ
      ((Creep.j2 eps r).f (isoC G Kb *ᵥ x) 0 t1 T - (Creep.j2 eps r).f (isoC G Kb *ᵥ y) 0 t1 T))) := by
    rw [dotProduct_comm]
    nth_rewrite 2 [h3]
    rw [dotProduct_neg, dotProduct_smul, smul_eq_mul]
  have h5 := mul_nonneg (sub_nonneg.mpr hdt) h2
  linarith

/-- **C193** the guard leaves a gap: steps whose trial stress is at the guard have no solution. -/
theorem C193_gap_disagreement (he : 0 < eps) (hr : Rule eps r T g dg) (hG : 0 < G) (hdt : t0 < t1)
    {e1 e0 ep : Fin 6 → ℝ} (h1 : eps ≤ seq (isoC G Kb *ᵥ (e1 - (e0 - ep))))
    (h2 : seq (isoC G Kb *ᵥ (e1 - (e0 - ep))) < eps + 3 * G * (t1 - t0) * g eps) (x : Fin 6 → ℝ) :
    ¬ Series eps r T G Kb t1 t0 e1 e0 ep x := by
  intro hx
  have hw : e1 - (e0 - ep) = x + (t1 - t0) • (Creep.j2 eps r).f (isoC G Kb *ᵥ x) 0 t1 T := by
    rw [← hx]; abel
  rw [hw] at h1 h2
  by_cases h : seq (isoC G Kb *ᵥ x) < eps
  · have hf : (Creep.j2 eps r).f (isoC G Kb *ᵥ x) 0 t1 T = 0 := by ext i; simp [Creep.j2, sdir, h]
    rw [hf, smul_zero, add_zero] at h1
    linarith
  · rw [not_lt] at h
    have hp := he.trans_le h
    have hg := hr.grows.pos _ h
    have hdt0 := sub_pos.mpr hdt
    have hdev : devVec (isoC G Kb *ᵥ (x + (t1 - t0) • (Creep.j2 eps r).f (isoC G Kb *ᵥ x) 0 t1 T)) =
        (1 + 3 * G * (t1 - t0) * g (seq (isoC G Kb *ᵥ x)) / seq (isoC G Kb *ᵥ x)) • devVec (isoC G Kb *ᵥ x) := by
      have hf : (Creep.j2 eps r).f (isoC G Kb *ᵥ x) 0 t1 T =
          (3 / 2 * g (seq (isoC G Kb *ᵥ x)) / seq (isoC G Kb *ᵥ x)) • devVec (isoC G Kb *ᵥ x) := by
        ext i
        simp only [Creep.j2, hr.rate _ _ _ h, sdir_of_le h, Pi.smul_apply, smul_eq_mul]; ring
      rw [hf, mulVec_add, mulVec_smul, mulVec_smul, isoC_dev G Kb (tr3_devVec _), devVec_add, devVec_smul, devVec_smul,
        devVec_smul, devVec_of_tr3 (tr3_devVec _), smul_smul, smul_smul]
      module
    have hq : seq (isoC G Kb *ᵥ (x + (t1 - t0) • (Creep.j2 eps r).f (isoC G Kb *ᵥ x) 0 t1 T)) =
        seq (isoC G Kb *ᵥ x) + 3 * G * (t1 - t0) * g (seq (isoC G Kb *ᵥ x)) := by
      rw [seq, hdev, norm2_smul, abs_of_pos (by positivity)]
      have : √(3 / 2) * norm2 (devVec (isoC G Kb *ᵥ x)) = seq (isoC G Kb *ᵥ x) := rfl
      rw [mul_left_comm, this]
      field_simp
    rw [hq] at h2
    have h3 := mul_le_mul_of_nonneg_left (hr.grows.mono le_rfl h) (show 0 ≤ 3 * G * (t1 - t0) by positivity)
    linarith

/-! ## Power law creep -/

/-- **C193** power law creep with an exponent of at least one meets the assumptions. -/
theorem C193_powerLaw {A n : ℝ → ℝ} (he : 0 < eps) (hA : 0 < A T) (hn : 1 ≤ n T) :
    Rule eps (Creep.powerLaw A n) T (fun σ => A T * σ ^ n T) fun σ => A T * n T * σ ^ (n T - 1) := by
  refine ⟨⟨fun _ _ _ _ _ => rfl, fun _ _ _ _ => rfl⟩, fun _ _ _ _ => rfl, fun _ _ _ _ => rfl, ?_, ?_, ?_, ?_⟩
  · intro σ hσ
    have := he.trans_le hσ
    positivity
  · intro σ hσ
    have := he.trans_le hσ
    have : 0 < n T := by linarith
    positivity
  · intro σ τ hσ hτ
    have hp := he.trans_le hσ
    have hq := he.trans_le hτ
    have h1 := one_add_mul_self_le_rpow_one_add (s := τ / σ - 1) (by have := div_pos hq hp; linarith) hn
    rw [add_sub_cancel, Real.div_rpow hq.le hp.le, le_div_iff₀ (Real.rpow_pos_of_pos hp _)] at h1
    have e : σ ^ (n T - 1) = σ ^ n T / σ := by rw [Real.rpow_sub hp, Real.rpow_one]
    have h2 := mul_le_mul_of_nonneg_left h1 hA.le
    have h3 : A T * ((1 + n T * (τ / σ - 1)) * σ ^ n T) = A T * σ ^ n T + A T * n T * (σ ^ n T / σ) * (τ - σ) := by
      field_simp
    rw [e]
    linarith
  · intro σ hσ
    have hp := he.trans_le (Set.mem_Ici.mp hσ)
    exact ((Real.continuousAt_rpow_const σ (n T) (Or.inl hp.ne')).const_mul _).continuousWithinAt

/-- A shear strain with equivalent stress `q` for `G = 1/3`. -/
theorem seq_shear {q : ℝ} (h : 0 ≤ q) : seq (isoC (1 / 3) 1 *ᵥ ![0, 0, 0, 3 / 2 * q * √(2 / 3), 0, 0]) = q := by
  have h1 : norm2 (devVec ![0, 0, 0, 3 / 2 * q * √(2 / 3), 0, 0]) = 3 / 2 * q * √(2 / 3) := by
    have : devVec ![0, 0, 0, 3 / 2 * q * √(2 / 3), 0, 0] ⬝ᵥ devVec ![0, 0, 0, 3 / 2 * q * √(2 / 3), 0, 0] =
        (3 / 2 * q * √(2 / 3)) * (3 / 2 * q * √(2 / 3)) := by
      simp [devVec, dotProduct, Fin.sum_univ_succ]
    rw [norm2, this, Real.sqrt_mul_self (by positivity)]
  have h2 : √(3 / 2 : ℝ) * √(2 / 3) = 1 := by rw [← Real.sqrt_mul (by norm_num)]; norm_num
  rw [seq, devVec_iso, norm2_smul, h1, abs_of_pos (by norm_num)]
  linear_combination q * h2

/-- Concrete case of `C193_stuck_disagreement`: a rate of 8e-12 per unit time, default tolerances, steps of unit time. -/
example : ∃ v, holdPath (fun t1 t0 => seriesUpdate (elasticModel ⟨fun _ => isoC (1 / 3) 1, fun _ => isoS (1 / 3) 1⟩ 0)
      (Creep.j2 (2 ^ (-52 : ℤ)) (Creep.powerLaw (fun _ => 1e-12) fun _ => 1))
      ⟨1e6, ⟨1e-12, 1e-10, 50, true⟩, ⟨1e-8, 1e-10, 25, false⟩, 50, exactLin, exactInv⟩ 0 t1 t0) 0 0
      ⟨isoC (1 / 3) 1 *ᵥ ![0, 0, 0, 3 / 2 * 8 * √(2 / 3), 0, 0], (![0, 0, 0, 3 / 2 * 8 * √(2 / 3), 0, 0], ()), 0, 0, 0⟩
      [1, 2, 3] = some v ∧ v.s = isoC (1 / 3) 1 *ᵥ ![0, 0, 0, 3 / 2 * 8 * √(2 / 3), 0, 0] := by
  have hq := seq_shear (q := 8) (by norm_num)
  have hlin : Rule (2 ^ (-52 : ℤ)) (Creep.powerLaw (fun _ => 1e-12) fun _ => 1) 0 (fun σ => 1e-12 * σ ^ (1 : ℝ))
      fun σ => 1e-12 * 1 * σ ^ ((1 : ℝ) - 1) :=
    C193_powerLaw (A := fun _ => 1e-12) (n := fun _ => 1) (T := 0) (by positivity) (by norm_num) le_rfl
  have hs1 : √(3 / 2 : ℝ) ≤ 2 := by rw [Real.sqrt_le_left (by norm_num)]; norm_num
  refine C193_stuck_disagreement (Kb := 1) (eps := 2 ^ (-52 : ℤ))
    (c := ⟨1e6, ⟨1e-12, 1e-10, 50, true⟩, ⟨1e-8, 1e-10, 25, false⟩, 50, exactLin, exactInv⟩) (by positivity) hlin
    ⟨exactLin_exact, exactInv_exact, by norm_num, by norm_num, by norm_num, by norm_num, by norm_num, by norm_num⟩
    (by norm_num) (by norm_num) one_pos (el := ⟨fun _ => isoC (1 / 3) 1, fun _ => isoS (1 / 3) 1⟩) rfl 0 _ _ rfl
    (by rw [hq]; norm_num) ?_
  intro d hd
  simp only [steps, List.mem_cons, List.not_mem_nil, or_false] at hd
  have : d = 1 := by rcases hd with rfl | rfl | rfl <;> norm_num
  subst this
  rw [hq]
  refine ⟨by norm_num, ?_⟩
  norm_num only [Real.rpow_one]
  linarith

/-- Concrete case of `C193_gap_disagreement`, with a guard of one to see it. -/
example (x : Fin 6 → ℝ) : ¬ Series 1 (Creep.powerLaw (fun _ => 1) fun _ => 1) 0 (1 / 3) 1 1 0
    ![0, 0, 0, 3 / 2 * (3 / 2) * √(2 / 3), 0, 0] 0 0 x := by
  have hq := seq_shear (q := 3 / 2) (by norm_num)
  have hlin : Rule 1 (Creep.powerLaw (fun _ => 1) fun _ => 1) 0 (fun σ => 1 * σ ^ (1 : ℝ))
      fun σ => 1 * 1 * σ ^ ((1 : ℝ) - 1) :=
    C193_powerLaw (A := fun _ => 1) (n := fun _ => 1) (T := 0) one_pos one_pos le_rfl
  refine C193_gap_disagreement one_pos hlin (by norm_num) one_pos ?_ ?_ x
  · rw [sub_zero, sub_zero, hq]; norm_num
  · rw [sub_zero, sub_zero, hq]; norm_num

/-- Concrete case of `C193_unique`: the elastic strain of stress 1 is the solution from stress 2, and no other. -/
example (x : Fin 6 → ℝ) (hx : Series (1 / 100) (Creep.powerLaw (fun _ => 1) fun _ => 1) 0 (1 / 3) 1 1 0
    ![0, 0, 0, 3 / 2 * 2 * √(2 / 3), 0, 0] 0 0 x) : x = ![0, 0, 0, 3 / 2 * 1 * √(2 / 3), 0, 0] := by
  have hlin : Rule (1 / 100) (Creep.powerLaw (fun _ => 1) fun _ => 1) 0 (fun σ => 1 * σ ^ (1 : ℝ))
      fun σ => 1 * 1 * σ ^ ((1 : ℝ) - 1) :=
    C193_powerLaw (A := fun _ => 1) (n := fun _ => 1) (T := 0) (by norm_num) one_pos le_rfl
  refine C193_unique (by norm_num) hlin (by norm_num) one_pos zero_le_one hx ?_
  have hq := seq_shear (q := 1) (by norm_num)
  have hdev : devVec ![0, 0, 0, 3 / 2 * 1 * √(2 / 3), 0, 0] = ![0, 0, 0, 3 / 2 * 1 * √(2 / 3), 0, 0] := by
    ext i; fin_cases i <;> simp [devVec]
  unfold Series
  rw [j2_rate hlin (by rw [hq]; norm_num), hq, sdir_of_le (by rw [hq]; norm_num), hq, devVec_iso, hdev]
  ext i
  fin_cases i <;> simp
  ring

/-- Concrete case of `C193_history` (and `C193_relaxes`): linear creep, default tolerances, three holds of unit time
that halve the stress each: from 8 to 1 in the exact steps. -/
example : ∃ v, holdPath (fun t1 t0 => seriesUpdate (elasticModel ⟨fun _ => isoC (1 / 3) 1, fun _ => isoS (1 / 3) 1⟩ 0)
      (Creep.j2 (2 ^ (-52 : ℤ)) (Creep.powerLaw (fun _ => 1) fun _ => 1))
      ⟨1e6, ⟨1e-12, 1e-10, 50, true⟩, ⟨1e-8, 1e-10, 25, false⟩, 50, exactLin, exactInv⟩ 0 t1 t0) 0 0
      ⟨isoC (1 / 3) 1 *ᵥ ![0, 0, 0, 12 * √(2 / 3), 0, 0], (![0, 0, 0, 12 * √(2 / 3), 0, 0], ()), 0, 0, 0⟩ [1, 2, 3] =
        some v ∧ 1 ≤ seq v.s ∧ seq v.s ≤ 8 := by
  have hq : seq (isoC (1 / 3) 1 *ᵥ ![0, 0, 0, 12 * √(2 / 3), 0, 0]) = 8 := by
    have h1 : norm2 (devVec ![0, 0, 0, 12 * √(2 / 3), 0, 0]) = 12 * √(2 / 3) := by
      have : devVec ![0, 0, 0, 12 * √(2 / 3), 0, 0] ⬝ᵥ devVec ![0, 0, 0, 12 * √(2 / 3), 0, 0] =
          (12 * √(2 / 3)) * (12 * √(2 / 3)) := by
        simp [devVec, dotProduct, Fin.sum_univ_succ]
      rw [norm2, this, Real.sqrt_mul_self (by positivity)]
    have h2 : √(3 / 2 : ℝ) * √(2 / 3) = 1 := by rw [← Real.sqrt_mul (by norm_num)]; norm_num
    rw [seq, devVec_iso, norm2_smul, h1, abs_of_pos (by norm_num)]
    linear_combination 8 * h2
  have hlin : Rule (2 ^ (-52 : ℤ)) (Creep.powerLaw (fun _ => 1) fun _ => 1) 0 (fun σ => 1 * σ ^ (1 : ℝ))
      fun σ => 1 * 1 * σ ^ ((1 : ℝ) - 1) :=
    C193_powerLaw (A := fun _ => 1) (n := fun _ => 1) (T := 0) (by positivity) one_pos le_rfl
  have hch : Chain (fun σ => 1 * σ ^ (1 : ℝ)) (1 / 3) 1 0 8 [1, 2, 3] 1 :=
    .cons (ρ := 4) (by norm_num) (by norm_num) (by norm_num)
      (.cons (ρ := 2) (by norm_num) (by norm_num) (by norm_num)
        (.cons (ρ := 1) (by norm_num) (by norm_num) (by norm_num) (.nil _ _)))
  have hs1 : (1 : ℝ) ≤ √(3 / 2) := by rw [Real.one_le_sqrt]; norm_num
  obtain ⟨v, h1, h2, h3, -⟩ := C193_history (Kb := 1) (eps := 2 ^ (-52 : ℤ))
    (c := ⟨1e6, ⟨1e-12, 1e-10, 50, true⟩, ⟨1e-8, 1e-10, 25, false⟩, 50, exactLin, exactInv⟩) (by positivity) hlin
    ⟨exactLin_exact, exactInv_exact, by norm_num, by norm_num, by norm_num, by norm_num, by norm_num, by norm_num⟩
    (by norm_num) one_pos (el := ⟨fun _ => isoC (1 / 3) 1, fun _ => isoS (1 / 3) 1⟩) rfl (D := 1) (σmax := 8) (k := 45)
    (by norm_num) (by norm_num) (by norm_num) (by norm_num) 0 hch
    (by
      intro d hd
      simp only [steps, List.mem_cons, List.not_mem_nil, or_false] at hd
      have : d = 1 := by rcases hd with rfl | rfl | rfl <;> norm_num
      subst this
      refine ⟨le_rfl, ?_⟩
      norm_num only [Real.one_rpow]
      linarith)
    ⟨isoC (1 / 3) 1 *ᵥ ![0, 0, 0, 12 * √(2 / 3), 0, 0], (![0, 0, 0, 12 * √(2 / 3), 0, 0], ()), 0, 0, 0⟩ rfl
    (by rw [hq]) (by rw [hq]) (by rw [hq]; norm_num)
  refine ⟨v, h1, h2, ?_⟩
  rw [hq] at h3
  exact h3

/-- Concrete case of `C193_curve`: linear creep relaxes exponentially, and the halving steps stay above. -/
example : Real.exp (-3) * 8 ≤ 1 := by
  have hlin : Growing 0.01 (fun σ => (1 : ℝ) * σ ^ (1 : ℝ)) fun σ => 1 * 1 * σ ^ ((1 : ℝ) - 1) :=
    (C193_powerLaw (A := fun _ => 1) (n := fun _ => 1) (T := 0) (by norm_num) one_pos le_rfl).grows
  have hch : Chain (fun σ => (1 : ℝ) * σ ^ (1 : ℝ)) (1 / 3) 1 0 8 [1, 2, 3] 1 :=
    .cons (ρ := 4) (by norm_num) (by norm_num) (by norm_num)
      (.cons (ρ := 2) (by norm_num) (by norm_num) (by norm_num)
        (.cons (ρ := 1) (by norm_num) (by norm_num) (by norm_num) (.nil _ _)))
  have h := C193_curve hlin (by norm_num) (by norm_num) hch (fun t => Real.exp (-t) * 8) (by simp) (by
    intro t ht
    have h1 : Real.exp (-3) ≤ Real.exp (-t) := Real.exp_le_exp.mpr (by have := ht.2; simp only [endTime] at this; linarith)
    have h2 : (1 / 27 : ℝ) ≤ Real.exp (-3) := by
      rw [Real.exp_neg, ← one_div, one_div_le_one_div (by norm_num) (Real.exp_pos _)]
      have h3 : Real.exp 3 = Real.exp 1 ^ 3 := by rw [← Real.exp_nat_mul]; norm_num
      rw [h3]
      have h4 : Real.exp 1 ≤ 3 := Real.exp_one_lt_d9.le.trans (by norm_num)
      calc Real.exp 1 ^ 3 ≤ 3 ^ 3 := pow_le_pow_left₀ (Real.exp_pos _).le h4 3
        _ = 27 := by norm_num
    norm_num
    linarith) (by
    intro t _
    have h1 : HasDerivAt (fun t : ℝ => Real.exp (-t) * 8) (Real.exp (-t) * -1 * 8) t :=
      ((hasDerivAt_neg t).exp).mul_const 8
    refine h1.congr_deriv ?_
    simp only [Real.rpow_one]
    ring)
  simpa [endTime] using h

end Neml.CreepSeries
