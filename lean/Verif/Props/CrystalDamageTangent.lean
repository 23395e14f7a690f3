import Verif.Props.CrystalDamageMap
import Verif.Props.KinematicsInel
import Mathlib.Analysis.Calculus.Deriv.Add

/-!
# C108: derivatives of the damaged crystal
-/

namespace Neml.CrystalDamage

open Matrix Filter Topology Neml.Mandel Neml.Rotation Neml.Slip Neml.Kinematics
open Neml.Damage (Moves)

/-! ## Specification -/

/-- The derivatives of a transformation are right at a point. -/
def Transform.Right (t : Transform) (d ns : ℝ) : Prop :=
  ∀ (x y : ℝ → ℝ) (x' y' t0 : ℝ), HasDerivAt x x' t0 → HasDerivAt y y' t0 → x t0 = d → y t0 = ns →
    HasDerivAt (fun u => t.map (x u) (y u)) (t.dDamage d ns * x' + t.dNormal d ns * y') t0

/-- The matrix `A` has the derivative `A'` at `t0`, entry by entry. -/
def MMoves {κ μ : Type} (A : ℝ → Matrix κ μ ℝ) (A' : Matrix κ μ ℝ) (t0 : ℝ) : Prop :=
  ∀ i j, HasDerivAt (fun t => A t i j) (A' i j) t0

/-! ## Transformations -/

theorem sigTrial_deriv {c β d : ℝ} (h0 : 0 < d) (hc : d < c) :
    HasDerivAt (sigTrial c β) (β * c * d ^ (β - 1) * (1 / (c - d)) ^ (β + 1) / ((d / (c - d)) ^ β + 1) ^ 2) d := by
  have hr : 0 < c / d - 1 := by rw [sub_pos, lt_div_iff₀ h0]; linarith
  have hcd : 0 < c - d := sub_pos.2 hc
  have hev : sigTrial c β =ᶠ[𝓝 d] fun x => 1 / (1 + (c / x - 1) ^ β) := by
    filter_upwards [lt_mem_nhds h0] with x hx
    rw [sigTrial, if_neg hx.ne']
  have h1 : HasDerivAt (fun x : ℝ => c / x - 1) (-(c / d ^ 2)) d := by
    have := ((hasDerivAt_inv h0.ne').const_mul c).sub_const 1
    refine (this.congr_of_eventuallyEq (Eventually.of_forall fun x => ?_)).congr_deriv ?_
    · simp [div_eq_mul_inv]
    · field_simp
  have h2 := h1.rpow_const (p := β) (Or.inl hr.ne')
  have hp : 0 < (c / d - 1) ^ β := Real.rpow_pos_of_pos hr β
  have h3 := ((h2.const_add 1).fun_inv (by positivity))
  refine ((h3.congr_of_eventuallyEq ?_).congr_of_eventuallyEq hev).congr_deriv ?_
  · exact Eventually.of_forall fun x => by simp
  · have e0 : c / d - 1 = (c - d) / d := by field_simp
    rw [e0, Real.rpow_sub_one (by positivity), Real.rpow_sub_one h0.ne', Real.div_rpow hcd.le h0.le,
      Real.rpow_add_one (by positivity), Real.div_rpow h0.le hcd.le, Real.div_rpow zero_le_one hcd.le, Real.one_rpow]
    have hA : 0 < d ^ β := Real.rpow_pos_of_pos h0 β
    have hB : 0 < (c - d) ^ β := Real.rpow_pos_of_pos hcd β
    set A := d ^ β
    set B := (c - d) ^ β
    have hs : A + B ≠ 0 := by positivity
    have hs' : B + A ≠ 0 := by positivity
    field_simp

/-- C108, sigmoid: the derivative is right wherever the damage is positive and not at the critical value or the cut. -/
theorem C108_sigmoid {c β cut d : ℝ} (ns : ℝ) (h : d < 0 ∨ c < d ∧ 0 < d ∨ 0 < d ∧ d < c ∧ sigTrial c β d ≠ cut) :
    (sigmoid c β cut).Right d ns := by
  intro x y x' y' t0 hx hy ex ey
  have z : (sigmoid c β cut).dNormal d ns = 0 := rfl
  rw [z, zero_mul, add_zero]
  have cx := hx.continuousAt
  have const : ∀ v : ℝ, (∀ᶠ u in 𝓝 t0, (sigmoid c β cut).map (x u) (y u) = v) → (sigmoid c β cut).dDamage d ns = 0 →
      HasDerivAt (fun u => (sigmoid c β cut).map (x u) (y u)) ((sigmoid c β cut).dDamage d ns * x') t0 := by
    intro v hv h0
    rw [h0, zero_mul]
    exact (hasDerivAt_const t0 v).congr_of_eventuallyEq hv
  rcases h with h | ⟨h, hp⟩ | ⟨h0, hc, hcut⟩
  · refine const 0 ?_ (by simp [sigmoid, h])
    filter_upwards [cx.eventually_lt continuousAt_const (by simpa only [ex] using h)] with u hu
    simp [sigmoid, hu]
  · refine const cut ?_ (by simp [sigmoid, not_lt.2 hp.le, not_lt.2 h.le])
    filter_upwards [continuousAt_const.eventually_lt cx (by simpa only [ex] using h),
      continuousAt_const.eventually_lt cx (by simpa only [ex] using hp)] with u hu hu'
    simp [sigmoid, not_lt.2 hu.le, not_lt.2 hu'.le]
  · have e1 := continuousAt_const.eventually_lt cx (by simpa only [ex] using h0)
    have e2 := cx.eventually_lt continuousAt_const (by simpa only [ex] using hc)
    have hd := sigTrial_deriv (β := β) h0 hc
    have ht : HasDerivAt (fun u => sigTrial c β (x u)) _ t0 := (show HasDerivAt (sigTrial c β) _ (x t0) by
      rw [ex]; exact hd).comp t0 hx
    rcases lt_or_gt_of_ne hcut with hl | hl
    · have e3 := ht.continuousAt.eventually_lt continuousAt_const (by simpa only [ex] using hl)
      have hD : (sigmoid c β cut).dDamage d ns =
          β * c * d ^ (β - 1) * (1 / (c - d)) ^ (β + 1) / ((d / (c - d)) ^ β + 1) ^ 2 := by
        simp only [sigmoid, not_lt.2 h0.le, hc, not_lt.2 hl.le, if_true, if_false]
      rw [hD]
      refine ht.congr_of_eventuallyEq ?_
      filter_upwards [e1, e2, e3] with u h1 h2 h3
      simp only [sigmoid, not_lt.2 h1.le, h2, not_lt.2 h3.le, if_true, if_false]
    · have e3 := continuousAt_const.eventually_lt ht.continuousAt (by simpa only [ex] using hl)
      refine const cut ?_ (by simp only [sigmoid, not_lt.2 h0.le, hc, hl, if_true, if_false])
      filter_upwards [e1, e2, e3] with u h1 h2 h3
      simp only [sigmoid, not_lt.2 h1.le, h2, h3, if_true, if_false]

/-- C108, fresh planes: for `beta > 1` the derivative is also right at damage zero, where every crystal starts. -/
theorem C108_sigmoid_zero {c β cut : ℝ} (hc : 0 < c) (hβ : 1 < β) (hcut : 0 ≤ cut) (ns : ℝ) :
    (sigmoid c β cut).Right 0 ns := by
  intro x y x' y' t0 hx hy ex ey
  have hD : (sigmoid c β cut).dDamage 0 ns * x' + (sigmoid c β cut).dNormal 0 ns * y' = 0 := by
    have : (0 : ℝ) ^ (β - 1) = 0 := Real.zero_rpow (by linarith)
    simp [sigmoid, hc, this]
  rw [hD]
  have hg : HasDerivAt (fun u => (2 * x u / c) ^ β) 0 t0 := by
    have := ((hx.const_mul 2).div_const c).rpow_const (p := β) (Or.inr hβ.le)
    refine this.congr_deriv ?_
    rw [ex]
    have : (0 : ℝ) ^ (β - 1) = 0 := Real.zero_rpow (by linarith)
    simp [this]
  refine squeeze ?_ (by simp [ex, Real.zero_rpow (by linarith : β ≠ 0)]) hg
  filter_upwards [hx.continuousAt.eventually_lt continuousAt_const (by simpa only [ex] using half_pos hc)] with u hu
  have hr := C107_range (c := c) (lt_trans zero_lt_one hβ) hcut (x u) (y u)
  rw [abs_of_nonneg hr.1]
  rcases lt_trichotomy (x u) 0 with h | h | h
  · have : (sigmoid c β cut).map (x u) (y u) = 0 := by simp [sigmoid, h]
    rw [this]
    exact abs_nonneg _
  · have : (sigmoid c β cut).map (x u) (y u) = 0 := by
      have hβ0 : 0 < β := by linarith
      simp [sigmoid, h, hc, sigTrial, hβ0, not_lt.2 hcut]
    rw [this]
    exact abs_nonneg _
  · have hxc : x u < c := by linarith
    have hm : (sigmoid c β cut).map (x u) (y u) ≤ sigTrial c β (x u) := by
      simp only [sigmoid, not_lt.2 h.le, hxc, if_true, if_false]
      split_ifs with h1
      · exact h1.le
      · exact le_rfl
    refine hm.trans ?_
    rw [sigTrial, if_neg h.ne']
    have e0 : c / x u - 1 = (c - x u) / x u := by field_simp
    have hcx : 0 < c - x u := by linarith
    have hA : 0 < x u ^ β := Real.rpow_pos_of_pos h β
    have hB : 0 < (c - x u) ^ β := Real.rpow_pos_of_pos hcx β
    have hle : x u / (c - x u) ≤ 2 * x u / c := by
      rw [div_le_div_iff₀ hcx hc]
      nlinarith
    have hle2 := Real.rpow_le_rpow (by positivity) hle (by linarith : (0 : ℝ) ≤ β)
    rw [abs_of_nonneg (by positivity)]
    refine le_trans ?_ hle2
    rw [e0, Real.div_rpow hcx.le h.le, Real.div_rpow h.le hcx.le, div_le_div_iff₀ (by positivity) hB]
    field_simp
    linarith

/-- C108, switch: the derivatives are right where those of the base are, except at normal stress zero. -/
theorem C108_switch {t : Transform} {d ns : ℝ} (hns : ns ≠ 0) (hb : t.Right d ns) (h0 : t.dNormal d ns = 0) :
    (switch t).Right d ns := by
  intro x y x' y' t0 hx hy ex ey
  have h := hb x y x' y' t0 hx hy ex ey
  have z : (switch t).dNormal d ns = 0 := rfl
  rw [z, zero_mul, add_zero]
  rcases lt_or_gt_of_ne hns with hl | hl
  · have : (switch t).dDamage d ns = 0 := by simp [switch, not_le.2 hl]
    rw [this, zero_mul]
    refine (hasDerivAt_const t0 (0 : ℝ)).congr_of_eventuallyEq ?_
    filter_upwards [hy.continuousAt.eventually_lt continuousAt_const (by simpa only [ey] using hl)] with u hu
    simp [switch, not_le.2 hu]
  · have : (switch t).dDamage d ns = t.dDamage d ns := by simp [switch, hl.le]
    rw [this]
    rw [h0, zero_mul, add_zero] at h
    refine h.congr_of_eventuallyEq ?_
    filter_upwards [continuousAt_const.eventually_lt hy.continuousAt (by simpa only [ey] using hl)] with u hu
    simp [switch, le_of_lt hu]

/-! ## Matrices that move -/

theorem MMoves.mul {κ μ ν : Type} [Fintype μ] {A : ℝ → Matrix κ μ ℝ} {A' : Matrix κ μ ℝ} {B : ℝ → Matrix μ ν ℝ}
    {B' : Matrix μ ν ℝ} {t0 : ℝ} (hA : MMoves A A' t0) (hB : MMoves B B' t0) :
    MMoves (fun t => A t * B t) (A' * B t0 + A t0 * B') t0 := by
  intro i j
  simp only [Matrix.mul_apply, Matrix.add_apply, ← Finset.sum_add_distrib]
  exact HasDerivAt.fun_sum fun k _ => (hA i k).fun_mul (hB k j)

theorem MMoves.mulVec {κ μ : Type} [Fintype μ] {A : ℝ → Matrix κ μ ℝ} {A' : Matrix κ μ ℝ} {v : ℝ → μ → ℝ}
    {v' : μ → ℝ} {t0 : ℝ} (hA : MMoves A A' t0) (hv : Moves v v' t0) :
    Moves (fun t => A t *ᵥ v t) (A' *ᵥ v t0 + A t0 *ᵥ v') t0 := by
  intro i
  simp only [Matrix.mulVec, dotProduct, Pi.add_apply, ← Finset.sum_add_distrib]
  exact HasDerivAt.fun_sum fun k _ => (hA i k).fun_mul (hv k)

theorem MMoves.congr {κ μ : Type} {A : ℝ → Matrix κ μ ℝ} {A' B' : Matrix κ μ ℝ} {t0 : ℝ} (hA : MMoves A A' t0)
    (h : A' = B') : MMoves A B' t0 := h ▸ hA

theorem moves_congr {κ : Type} {v : ℝ → κ → ℝ} {a b : κ → ℝ} {t0 : ℝ} (hv : Moves v a t0) (h : a = b) :
    Moves v b t0 := h ▸ hv

theorem det_diff {κ : Type} [Fintype κ] [DecidableEq κ] {A : ℝ → Matrix κ κ ℝ} {t0 : ℝ}
    (hA : ∀ i j, DifferentiableAt ℝ (fun t => A t i j) t0) : DifferentiableAt ℝ (fun t => (A t).det) t0 := by
  simp only [det_apply]
  refine DifferentiableAt.fun_sum fun σ _ => ?_
  refine DifferentiableAt.fun_const_smul ?_ _
  exact DifferentiableAt.fun_finset_prod fun i _ => hA _ _

/-- The derivative of an inverse. -/
theorem MMoves.inv {κ : Type} [Fintype κ] [DecidableEq κ] {A : ℝ → Matrix κ κ ℝ} {A' : Matrix κ κ ℝ} {t0 : ℝ}
    (hA : MMoves A A' t0) (h0 : (A t0).det ≠ 0) :
    MMoves (fun t => (A t)⁻¹) (-((A t0)⁻¹ * A' * (A t0)⁻¹)) t0 := by
  have hdA : ∀ i j, DifferentiableAt ℝ (fun t => A t i j) t0 := fun i j => (hA i j).differentiableAt
  have hdet := det_diff hdA
  have hadj : ∀ i j, DifferentiableAt ℝ (fun t => (A t).adjugate i j) t0 := by
    intro i j
    simp only [adjugate_apply]
    refine det_diff fun k l => ?_
    by_cases hk : k = j
    · subst hk
      simp only [updateRow_self]
      exact differentiableAt_const _
    · simp only [updateRow_ne hk]
      exact hdA k l
  have hinv : ∀ i j, DifferentiableAt ℝ (fun t => (A t)⁻¹ i j) t0 := by
    intro i j
    have : (fun t => (A t)⁻¹ i j) = fun t => (A t).det⁻¹ * (A t).adjugate i j := by
      funext t
      rw [Matrix.inv_def, Matrix.smul_apply, Ring.inverse_eq_inv', smul_eq_mul]
    rw [this]
    exact (hdet.fun_inv h0).fun_mul (hadj i j)
  let B' : Matrix κ κ ℝ := of fun i j => deriv (fun t => (A t)⁻¹ i j) t0
  have hB : MMoves (fun t => (A t)⁻¹) B' t0 := fun i j => (hinv i j).hasDerivAt
  have hev : ∀ᶠ t in 𝓝 t0, (A t)⁻¹ * A t = 1 := by
    filter_upwards [hdet.continuousAt.eventually_ne h0] with t ht
    exact nonsing_inv_mul _ (isUnit_iff_ne_zero.2 ht)
  have hmul := hB.mul hA
  have e : B' * A t0 + (A t0)⁻¹ * A' = 0 := by
    ext i j
    have h1 : HasDerivAt (fun t => ((A t)⁻¹ * A t) i j) 0 t0 :=
      (hasDerivAt_const t0 ((1 : Matrix κ κ ℝ) i j)).congr_of_eventuallyEq (hev.mono fun t ht => by simp only [ht])
    exact (hmul i j).unique h1
  have I : A t0 * (A t0)⁻¹ = 1 := mul_nonsing_inv _ (isUnit_iff_ne_zero.2 h0)
  refine hB.congr ?_
  have : B' * A t0 = -((A t0)⁻¹ * A') := eq_neg_of_add_eq_zero_left e
  calc B' = B' * A t0 * (A t0)⁻¹ := by rw [Matrix.mul_assoc, I, Matrix.mul_one]
    _ = _ := by rw [this, Matrix.neg_mul]

/-- The derivative of a product of matrices in a list without repetitions: one term for each, with its factor replaced
by the derivative. -/
theorem prod_moves {α : Type} [DecidableEq α] {F : ℝ → α → Matrix (Fin 6) (Fin 6) ℝ}
    {G : α → Matrix (Fin 6) (Fin 6) ℝ} {e : α → ℝ} {t0 : ℝ}
    (hF : ∀ a, MMoves (fun t => F t a) (e a • G a) t0) (l : List α) (hl : l.Nodup) :
    MMoves (fun t => (l.map (F t)).prod)
      (l.map fun i => e i • (l.map fun j => if i ≠ j then F t0 j else G j).prod).sum t0 := by
  induction l with
  | nil =>
    intro i j
    simpa using hasDerivAt_const t0 _
  | cons a l ih =>
    obtain ⟨ha, hl⟩ := List.nodup_cons.1 hl
    have := (hF a).mul (ih hl)
    simp only [List.map_cons, List.prod_cons, List.sum_cons]
    refine this.congr ?_
    have h1 : (l.map fun j => if a ≠ j then F t0 j else G j) = l.map (F t0) :=
      List.map_congr_left fun j hj => if_pos (by rintro rfl; exact ha hj)
    have h2 : (l.map fun i => e i • ((if i ≠ a then F t0 a else G a) *
        (l.map fun j => if i ≠ j then F t0 j else G j).prod)) =
        l.map fun i => F t0 a * (e i • (l.map fun j => if i ≠ j then F t0 j else G j).prod) :=
      List.map_congr_left fun i hi => by
        rw [if_pos (by rintro rfl; exact ha hi), Matrix.mul_smul]
    rw [h1, h2, List.sum_map_mul_left]
    simp [Matrix.smul_mul]

/-! ## Damage models -/

section

variable {N D : Type}

/-- The derivatives of the projection are right at a point. -/
def Dmg.ProjRight [Fintype D] (g : Dmg N D) (s : Fin 6 → ℝ) (d : D → ℝ) : Prop :=
  ∀ (x : ℝ → Fin 6 → ℝ) (x' : Fin 6 → ℝ) (y : ℝ → D → ℝ) (y' : D → ℝ) (t0 : ℝ), Moves x x' t0 → Moves y y' t0 →
    x t0 = s → y t0 = d →
    MMoves (fun t => g.proj (x t) (y t)) (dotK (g.projS s d) x' + ∑ a, y' a • g.projH s d a) t0

/-- The derivatives of the damage rates are right at a point. -/
def Dmg.RateRight [Fintype N] [Fintype D] (g : Dmg N D) (s : Fin 6 → ℝ) (h : N ⊕ D → ℝ) : Prop :=
  ∀ (x : ℝ → Fin 6 → ℝ) (x' : Fin 6 → ℝ) (y : ℝ → N ⊕ D → ℝ) (y' : N ⊕ D → ℝ) (t0 : ℝ), Moves x x' t0 → Moves y y' t0 →
    x t0 = s → y t0 = h → Moves (fun t => g.rate (x t) (y t)) (g.rateS s h *ᵥ x' + g.rateH s h *ᵥ y') t0

end

section planar

variable {N : Type} [DecidableEq N] {m p : Nat} (c : Crys) (r : Rule N m) (pl : Planes p) (shear normal : Transform)
  (rule : PlaneRule)

theorem normalStress_moves (n : Fin 3 → ℝ) {x : ℝ → Fin 6 → ℝ} {x' : Fin 6 → ℝ} {t0 : ℝ} (hx : Moves x x' t0) :
    HasDerivAt (fun t => normalStress (x t) n) (normalStress x' n) t0 := by
  have hu := fun i j => LargeDef.usym_deriv (hasDerivAt_pi.2 hx) i j
  simp only [normalStress, mulVec, dotProduct, Fin.sum_univ_three]
  exact (((((hu 0 0).mul_const _).fun_add ((hu 0 1).mul_const _)).fun_add ((hu 0 2).mul_const _)).mul_const _ |>.fun_add
    (((((hu 1 0).mul_const _).fun_add ((hu 1 1).mul_const _)).fun_add ((hu 1 2).mul_const _)).mul_const _)).fun_add
    (((((hu 2 0).mul_const _).fun_add ((hu 2 1).mul_const _)).fun_add ((hu 2 2).mul_const _)).mul_const _)

theorem projH_eq (s : Fin 6 → ℝ) (d : Fin p → ℝ) (i : Fin p) :
    (planar c r pl shear normal rule).projH s d i = ((List.finRange p).map fun j =>
      if i ≠ j then planeFactor pl shear normal s d j
      else -(shear.dDamage (d j) (normalStress s (pl.normal j)) • shearSS (pl.normal j)) -
        normal.dDamage (d j) (normalStress s (pl.normal j)) • normalSS (pl.normal j)).prod := by
  have := foldl_prod (List.finRange p) (fun j => if i ≠ j then planeFactor pl shear normal s d j
      else -(shear.dDamage (d j) (normalStress s (pl.normal j)) • shearSS (pl.normal j)) -
        normal.dDamage (d j) (normalStress s (pl.normal j)) • normalSS (pl.normal j)) 1
  rw [Matrix.one_mul] at this
  rw [← this]
  simp only [planar]
  congr 1
  funext R j
  split_ifs <;> rfl

/-- The derivative by stress that the code builds is zero, because both transformations say so. -/
theorem projS_zero (hs : ∀ d ns, shear.dNormal d ns = 0) (hn : ∀ d ns, normal.dNormal d ns = 0) (s : Fin 6 → ℝ)
    (d : Fin p → ℝ) : (planar c r pl shear normal rule).projS s d = 0 := by
  have z1 : ∀ (A : Matrix (Fin 6) (Fin 6) ℝ) (b : Fin 6 → ℝ), outerK A ((0 : ℝ) • b) = 0 := by
    intro A b
    funext i j k
    simp [outerK]
  have hmid : ∀ (i : Fin p) (l : List (Fin p)) (b : Matrix (Fin 6) (Fin 6) ℝ × (Fin 6 → Fin 6 → Fin 6 → ℝ) ×
      Matrix (Fin 6) (Fin 6) ℝ), b.2.1 = 0 →
      (l.foldl (fun (bma : Matrix (Fin 6) (Fin 6) ℝ × (Fin 6 → Fin 6 → Fin 6 → ℝ) × Matrix (Fin 6) (Fin 6) ℝ) j =>
        if i < j then (bma.1 * planeFactor pl shear normal s d j, bma.2)
        else if i = j then
          (bma.1,
            -outerK (shearSS (pl.normal j))
              (shear.dNormal (d j) (normalStress s (pl.normal j)) • symOfFull (vecMulVec (pl.normal j) (pl.normal j))) -
              outerK (normalSS (pl.normal j))
              (normal.dNormal (d j) (normalStress s (pl.normal j)) • symOfFull (vecMulVec (pl.normal j) (pl.normal j))),
            bma.2.2)
        else (bma.1, bma.2.1, bma.2.2 * planeFactor pl shear normal s d j)) b).2.1 = 0 := by
    intro i l
    induction l with
    | nil => intro b hb; exact hb
    | cons j l ih =>
      intro b hb
      rw [List.foldl_cons]
      apply ih
      split_ifs
      · exact hb
      · simp only [hs, hn, z1, neg_zero, sub_zero]
      · exact hb
  have hout : ∀ (l : List (Fin p)) (z : Fin 6 → Fin 6 → Fin 6 → ℝ) (f : Fin p → Fin 6 → Fin 6 → Fin 6 → ℝ),
      (∀ i, f i = 0) → l.foldl (fun Pd i => Pd + f i) z = z := by
    intro l z f hf
    induction l generalizing z with
    | nil => rfl
    | cons i l ih => rw [List.foldl_cons, ih, hf, add_zero]
  refine hout _ _ _ fun i => ?_
  have h0 := hmid i (List.finRange p) (1, 0, 1) rfl
  simp only [planeFactor] at h0
  funext a b e
  simp only [middleDotBefore, middleDotAfter, h0]
  simp

/-- C108, projection: its derivatives by stress and damage are right wherever those of the transformations are. -/
theorem C108_projection (hs : ∀ d ns, shear.dNormal d ns = 0) (hn : ∀ d ns, normal.dNormal d ns = 0) (s : Fin 6 → ℝ)
    (d : Fin p → ℝ) (h : ∀ i, shear.Right (d i) (normalStress s (pl.normal i)) ∧
      normal.Right (d i) (normalStress s (pl.normal i))) :
    (planar c r pl shear normal rule).ProjRight s d := by
  intro x x' y y' t0 hx hy ex ey
  have hF : ∀ a, MMoves (fun t => planeFactor pl shear normal (x t) (y t) a)
      (y' a • (-(shear.dDamage (d a) (normalStress s (pl.normal a)) • shearSS (pl.normal a)) -
        normal.dDamage (d a) (normalStress s (pl.normal a)) • normalSS (pl.normal a))) t0 := by
    intro a i j
    have hns := normalStress_moves (pl.normal a) hx
    have h1 := (h a).1 _ _ _ _ t0 (hy a) hns (by rw [ey]) (by rw [ex])
    have h2 := (h a).2 _ _ _ _ t0 (hy a) hns (by rw [ey]) (by rw [ex])
    rw [hs, zero_mul, add_zero] at h1
    rw [hn, zero_mul, add_zero] at h2
    simp only [planeFactor, factor, Matrix.sub_apply, Matrix.smul_apply, smul_eq_mul]
    refine (((h1.mul_const _).const_sub _).fun_sub (h2.mul_const _)).congr_deriv ?_
    simp only [Matrix.neg_apply, Matrix.smul_apply, smul_eq_mul]
    ring
  have hp := prod_moves hF (List.finRange p) (List.nodup_finRange p)
  have e : (fun t => (planar c r pl shear normal rule).proj (x t) (y t)) =
      fun t => ((List.finRange p).map (planeFactor pl shear normal (x t) (y t))).prod :=
    funext fun t => proj_eq c r pl shear normal rule _ _
  rw [e]
  refine hp.congr ?_
  rw [projS_zero c r pl shear normal rule hs hn]
  have z : dotK 0 x' = 0 := by
    ext i j
    simp [dotK]
  rw [z, zero_add]
  simp only [projH_eq, ex, ey]
  rw [← List.sum_ofFn, List.ofFn_eq_map]

end planar

end Neml.CrystalDamage
