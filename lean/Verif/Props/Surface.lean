import Verif.Props.Diff
import Verif.Props.Mandel
import Mathlib.Analysis.InnerProductSpace.PiL2
import Mathlib.Analysis.Convex.Function

/-!
# Properties of the yield surfaces (C38)

`Deviatoric q`: the backstress has zero trace. `normals s = n · (s' - s)` style statements use the
plain dot product of Mandel vectors, which is the double contraction of the tensors.
-/

namespace Neml.Flow

open Matrix Neml.Mandel

variable {ι κ : Type} [Fintype ι] [DecidableEq ι] [Fintype κ] [DecidableEq κ]

/-! ## The norm and its derivatives -/

theorem norm2_nonneg (v : Fin 6 → ℝ) : 0 ≤ norm2 v := Real.sqrt_nonneg _

theorem norm2_sq (v : Fin 6 → ℝ) : norm2 v * norm2 v = v ⬝ᵥ v :=
  Real.mul_self_sqrt (Finset.sum_nonneg fun i _ => mul_self_nonneg (v i))

theorem norm2_eq_norm (v : Fin 6 → ℝ) : norm2 v = ‖(WithLp.toLp 2 v : EuclideanSpace ℝ (Fin 6))‖ := by
  rw [EuclideanSpace.norm_eq]
  simp [norm2, dotProduct, pow_two]

theorem norm2_add_le (u v : Fin 6 → ℝ) : norm2 (u + v) ≤ norm2 u + norm2 v := by
  simp only [norm2_eq_norm, WithLp.toLp_add]
  exact norm_add_le _ _

theorem norm2_smul (c : ℝ) (v : Fin 6 → ℝ) : norm2 (c • v) = |c| * norm2 v := by
  simp only [norm2_eq_norm, WithLp.toLp_smul, norm_smul, Real.norm_eq_abs]

theorem dot_le_norm2 (u v : Fin 6 → ℝ) : u ⬝ᵥ v ≤ norm2 u * norm2 v := by
  have := real_inner_le_norm (WithLp.toLp 2 v : EuclideanSpace ℝ (Fin 6)) (WithLp.toLp 2 u)
  rw [norm2_eq_norm, norm2_eq_norm, mul_comm]
  refine le_trans (le_of_eq ?_) this
  simp [PiLp.inner_apply, dotProduct]

theorem normalize_of_le {eps : ℝ} {v : Fin 6 → ℝ} (h : eps ≤ norm2 v) :
    normalize eps v = fun i => v i / norm2 v := by
  unfold normalize
  rw [abs_of_nonneg (norm2_nonneg v), if_neg (not_lt.mpr h)]

/-- Gradient of the length of a vector. -/
theorem norm2_DV {F : (ι → ℝ) → (κ → ℝ) → Fin 6 → ℝ} {Fs : Matrix (Fin 6) ι ℝ}
    {Fa : Matrix (Fin 6) κ ℝ} {s1 : ι → ℝ} {a1 : κ → ℝ} (h : DV F Fs Fa s1 a1)
    (h0 : 0 < norm2 (F s1 a1)) :
    D1 (fun s a => norm2 (F s a)) (Fsᵀ *ᵥ fun i => F s1 a1 i / norm2 (F s1 a1))
      (Faᵀ *ᵥ fun i => F s1 a1 i / norm2 (F s1 a1)) s1 a1 := by
  have hsq : D1 (fun s a => F s a ⬝ᵥ F s a) _ _ s1 a1 := D1.sum Finset.univ fun i _ => (h i).mul (h i)
  have hne : F s1 a1 ⬝ᵥ F s1 a1 ≠ 0 := by rw [← norm2_sq]; exact (mul_pos h0 h0).ne'
  refine (hsq.scalar (Real.hasDerivAt_sqrt hne)).congr ?_ ?_ <;>
  · ext j
    simp only [Pi.smul_apply, Finset.sum_apply, Pi.add_apply, smul_eq_mul, mulVec, dotProduct,
      Matrix.transpose_apply, Finset.mul_sum]
    refine Finset.sum_congr rfl fun i _ => ?_
    change 1 / (2 * norm2 (F s1 a1)) * _ = _
    field_simp
    ring

/-- Derivatives of the direction of a vector longer than the threshold. -/
theorem normalize_DV {eps : ℝ} {F : (ι → ℝ) → (κ → ℝ) → Fin 6 → ℝ} {Fs : Matrix (Fin 6) ι ℝ}
    {Fa : Matrix (Fin 6) κ ℝ} {s1 : ι → ℝ} {a1 : κ → ℝ} (h : DV F Fs Fa s1 a1) (he : 0 < eps)
    (h0 : eps < norm2 (F s1 a1)) :
    DV (fun s a => normalize eps (F s a))
      ((1 / norm2 (F s1 a1)) • (Fs - vecMulVec (normalize eps (F s1 a1))
        (Fsᵀ *ᵥ normalize eps (F s1 a1))))
      ((1 / norm2 (F s1 a1)) • (Fa - vecMulVec (normalize eps (F s1 a1))
        (Faᵀ *ᵥ normalize eps (F s1 a1)))) s1 a1 := by
  intro i
  have hpos : 0 < norm2 (F s1 a1) := he.trans h0
  have hn := norm2_DV h hpos
  refine ((hn.sub (D1.const eps)).congr_near (sub_pos.mpr h0) (fun s a hsa => ?_)
    ((h i).div hn hpos.ne')).congr ?_ ?_
  · exact congrFun (normalize_of_le (sub_pos.mp hsa).le) i
  all_goals
    rw [normalize_of_le h0.le]
    ext j
    simp only [Pi.smul_apply, Pi.sub_apply, smul_eq_mul, Matrix.smul_apply, Matrix.sub_apply,
      vecMulVec_apply]
    ring

/-! ## The effective deviator -/

/-- The backstress is trace free. -/
def Deviatoric (q : Q7 → ℝ) : Prop := tr3 (fun i => q (.inr i)) = 0

theorem devVec_eq (s : Fin 6 → ℝ) : devVec s = devProj *ᵥ s := by
  ext i
  fin_cases i <;>
    simp [devVec, devProj, mulVec, dotProduct, Fin.sum_univ_succ, vecMulVec_apply, Matrix.one_apply]
      <;> ring

theorem devProj_symm : devProjᵀ = devProj := by
  ext i j
  fin_cases i <;> fin_cases j <;> simp [devProj, vecMulVec_apply, Matrix.one_apply]

theorem devProj_of_tr3 {v : Fin 6 → ℝ} (h : tr3 v = 0) : devProj *ᵥ v = v := by
  unfold tr3 at h
  ext i
  fin_cases i <;>
    simp [devProj, mulVec, dotProduct, Fin.sum_univ_succ, vecMulVec_apply, Matrix.one_apply]
      <;> linarith

theorem tr3_devVec (s : Fin 6 → ℝ) : tr3 (devVec s) = 0 := by
  simp [tr3, devVec]; ring

theorem tr3_shifted {q : Q7 → ℝ} (hq : Deviatoric q) (s : Fin 6 → ℝ) : tr3 (shifted s q) = 0 := by
  have h1 := tr3_devVec s
  simp only [Deviatoric, tr3, shifted] at *
  linarith

theorem tr3_normalize {eps : ℝ} {v : Fin 6 → ℝ} (h : tr3 v = 0) : tr3 (normalize eps v) = 0 := by
  unfold normalize
  split_ifs
  · simp [tr3]
  · simp only [tr3] at *
    rw [← add_div, ← add_div, h, zero_div]

theorem shifted_DV (s : Fin 6 → ℝ) (q : Q7 → ℝ) :
    DV (fun s (q : Q7 → ℝ) => shifted s q) devProj (fromCols 0 1) s q := by
  intro i
  have h1 : D1 (fun (s : Fin 6 → ℝ) (_ : Q7 → ℝ) => ∑ j, devProj i j * s j) _ _ s q :=
    D1.sum Finset.univ fun j _ => (D1.coord_s j).smul (devProj i j)
  have h2 : (fun (s : Fin 6 → ℝ) (q : Q7 → ℝ) => shifted s q i) =
      fun s q => (∑ j, devProj i j * s j) + q (.inr i) := by
    funext s q
    simp only [shifted, devVec_eq, mulVec, dotProduct]
  simp only [h2]
  refine (h1.add (D1.coord_a (Sum.inr i))).congr ?_ ?_
  · ext j
    simp [Pi.single_apply]
  · ext (j | j)
    · simp [fromCols]
    · simp [fromCols, Pi.single_apply, Matrix.one_apply, eq_comm]

theorem shifted_pressure (s : Fin 6 → ℝ) (q : Q7 → ℝ) (p : ℝ) :
    shifted (s + ![p, p, p, 0, 0, 0]) q = shifted s q := by
  ext i
  fin_cases i <;> simp [shifted, devVec] <;> ring

/-! ## C38 -/

/-- **C38** the surface, its gradients and its second derivatives do not change with pressure. -/
theorem C38_pressure (eps : ℝ) (s : Fin 6 → ℝ) (q : Q7 → ℝ) (T p : ℝ) :
    let s' := s + ![p, p, p, 0, 0, 0]
    (isoKinJ2 eps).f s' q T = (isoKinJ2 eps).f s q T ∧
    (isoKinJ2 eps).df_ds s' q T = (isoKinJ2 eps).df_ds s q T ∧
    (isoKinJ2 eps).df_dq s' q T = (isoKinJ2 eps).df_dq s q T ∧
    (isoKinJ2 eps).df_dsds s' q T = (isoKinJ2 eps).df_dsds s q T := by
  simp only [isoKinJ2, shifted_pressure, and_self]

/-- **C38** the surface sees stress and backstress only through the tensor
`dev σ + X`: its value is the Frobenius length of that tensor plus the isotropic term. -/
theorem C38_value (eps : ℝ) (s : Fin 6 → ℝ) (q : Q7 → ℝ) (T : ℝ) :
    let Y := usym s - ((usym s).trace / 3) • (1 : Matrix (Fin 3) (Fin 3) ℝ) + usym (fun i => q (.inr i))
    (isoKinJ2 eps).f s q T = √(∑ i, ∑ j, Y i j * Y i j) + √(2 / 3) * q (.inl ()) := by
  intro Y
  have hr := r2_sq
  simp only [isoKinJ2, norm2]
  congr 2
  simp [Y, shifted, devVec, usym, dotProduct, Fin.sum_univ_succ, Matrix.trace, div_r2]
  grind

/-- **C38** wherever the effective deviator is longer than the threshold of the normalisation, the
gradient and every second derivative are the true ones, for a trace free backstress. -/
theorem C38_gradient {eps : ℝ} (he : 0 < eps) {s : Fin 6 → ℝ} {q : Q7 → ℝ} (T : ℝ)
    (hq : Deviatoric q) (h0 : eps < norm2 (shifted s q)) : (isoKinJ2 eps).CorrectAt s q T := by
  have hpos := he.trans h0
  have hn : devProj *ᵥ normalize eps (shifted s q) = normalize eps (shifted s q) :=
    devProj_of_tr3 (tr3_normalize (tr3_shifted hq s))
  have hn' : (devProj *ᵥ fun i => shifted s q i / norm2 (shifted s q)) =
      normalize eps (shifted s q) := by
    rw [← hn, normalize_of_le h0.le]
  have hq1 : ∀ v : Fin 6 → ℝ, (fromCols 0 1 : Matrix (Fin 6) Q7 ℝ)ᵀ *ᵥ v = Sum.elim (0 : Unit → ℝ) v := by
    intro v
    ext (j | j) <;> simp [mulVec, dotProduct, fromCols, Matrix.one_apply]
  have hN := normalize_DV (shifted_DV s q) he h0
  rw [devProj_symm, hn, hq1] at hN
  have e2 : (fromCols 0 1 : Matrix (Fin 6) Q7 ℝ) -
      vecMulVec (normalize eps (shifted s q)) (Sum.elim (0 : Unit → ℝ) (normalize eps (shifted s q))) =
      fromCols 0 (1 - vecMulVec (normalize eps (shifted s q)) (normalize eps (shifted s q))) := by
    ext i (j | j) <;> simp [fromCols, vecMulVec_apply]
  rw [e2] at hN
  refine ⟨?_, fun i => ?_, ?_⟩
  · refine ((norm2_DV (shifted_DV s q) hpos).add ((D1.coord_a (Sum.inl ())).smul (√(2 / 3)))).congr ?_ ?_
    · rw [devProj_symm, hn']
      simp [isoKinJ2]
    · rw [hq1]
      ext (j | j)
      · simp [isoKinJ2]
      · simp [isoKinJ2, normalize_of_le h0.le]
  · refine (hN i).congr ?_ ?_
    · simp [isoKinJ2, hpos]
    · ext (j | j) <;> simp [isoKinJ2, hpos, fromCols]
  · rintro (i | i)
    · refine (D1.const (√(2 / 3))).congr ?_ ?_
      · ext j; simp [isoKinJ2, fromRows]; rfl
      · ext (j | j) <;> simp [isoKinJ2, hpos, fromBlocks]
    · refine (hN i).congr ?_ ?_
      · ext j; simp [isoKinJ2, hpos, fromRows]; rfl
      · ext (j | j) <;> simp [isoKinJ2, hpos, fromBlocks, fromCols]

/-- **C38** the gradient is trace free. -/
theorem C38_tracefree (eps : ℝ) (s : Fin 6 → ℝ) (q : Q7 → ℝ) (T : ℝ) (hq : Deviatoric q) :
    (usym ((isoKinJ2 eps).df_ds s q T)).trace = 0 := by
  have := tr3_normalize (eps := eps) (tr3_shifted hq s)
  simp only [tr3] at this
  simp [isoKinJ2, usym, Matrix.trace, Fin.sum_univ_succ]
  linarith

/-- **C38** the gradient has unit length. -/
theorem C38_unit {eps : ℝ} (he : 0 < eps) {s : Fin 6 → ℝ} {q : Q7 → ℝ} (T : ℝ)
    (h0 : eps ≤ norm2 (shifted s q)) :
    ∑ i, ∑ j, usym ((isoKinJ2 eps).df_ds s q T) i j * usym ((isoKinJ2 eps).df_ds s q T) i j = 1 := by
  have hpos := he.trans_le h0
  have h1 : (isoKinJ2 eps).df_ds s q T ⬝ᵥ (isoKinJ2 eps).df_ds s q T = 1 := by
    simp only [isoKinJ2, normalize_of_le h0, dotProduct]
    have := norm2_sq (shifted s q)
    simp only [dotProduct] at this
    simp_rw [div_mul_div_comm, ← Finset.sum_div]
    rw [← this, div_self (mul_pos hpos hpos).ne']
  have hr := r2_sq
  rw [← h1]
  simp [usym, dotProduct, Fin.sum_univ_succ, div_r2]
  grind

/-- **C38** the surface is convex in the stress, for every backstress. -/
theorem C38_convex (eps : ℝ) (q : Q7 → ℝ) (T : ℝ) :
    ConvexOn ℝ Set.univ (fun s => (isoKinJ2 eps).f s q T) := by
  refine ⟨convex_univ, fun x _ y _ a b ha hb hab => ?_⟩
  have h1 : shifted (a • x + b • y) q = a • shifted x q + b • shifted y q := by
    ext i
    simp only [shifted, devVec_eq, mulVec_add, mulVec_smul, Pi.add_apply, Pi.smul_apply, smul_eq_mul]
    linear_combination (-q (.inr i)) * hab
  simp only [isoKinJ2, smul_eq_mul]
  have h2 := norm2_add_le (a • shifted x q) (b • shifted y q)
  rw [norm2_smul, norm2_smul, abs_of_nonneg ha, abs_of_nonneg hb, ← h1] at h2
  have h3 : √(2 / 3) * q (.inl ()) =
      a * (√(2 / 3) * q (.inl ())) + b * (√(2 / 3) * q (.inl ())) := by
    rw [← add_mul, hab, one_mul]
  linarith

/-- The subgradient inequality: the gradient supports the surface from below. -/
theorem subgradient {eps : ℝ} (he : 0 < eps) {s : Fin 6 → ℝ} {q : Q7 → ℝ} (T : ℝ)
    (hq : Deviatoric q) (h0 : eps ≤ norm2 (shifted s q)) (s' : Fin 6 → ℝ) :
    (isoKinJ2 eps).df_ds s q T ⬝ᵥ (s' - s) ≤
      (isoKinJ2 eps).f s' q T - (isoKinJ2 eps).f s q T := by
  have hpos := he.trans_le h0
  have hn : devProj *ᵥ normalize eps (shifted s q) = normalize eps (shifted s q) :=
    devProj_of_tr3 (tr3_normalize (tr3_shifted hq s))
  have h1 : normalize eps (shifted s q) ⬝ᵥ (s' - s) =
      normalize eps (shifted s q) ⬝ᵥ (shifted s' q - shifted s q) := by
    have e : shifted s' q - shifted s q = devProj *ᵥ (s' - s) := by
      ext i
      simp [shifted, devVec_eq, mulVec_sub]
    rw [e, dotProduct_mulVec, ← mulVec_transpose, devProj_symm, hn]
  have h2 : normalize eps (shifted s q) ⬝ᵥ shifted s' q ≤ norm2 (shifted s' q) := by
    have h3 := dot_le_norm2 (shifted s q) (shifted s' q)
    simp only [normalize_of_le h0, dotProduct, div_mul_eq_mul_div, ← Finset.sum_div] at *
    rw [div_le_iff₀ hpos]
    linarith
  have h4 : normalize eps (shifted s q) ⬝ᵥ shifted s q = norm2 (shifted s q) := by
    have h3 := norm2_sq (shifted s q)
    simp only [normalize_of_le h0, dotProduct, div_mul_eq_mul_div, ← Finset.sum_div] at *
    rw [← h3, mul_div_assoc, div_self hpos.ne', mul_one]
  simp only [isoKinJ2]
  rw [h1, dotProduct_sub, h4]
  linarith

/-- **C82** maximum plastic dissipation: a stress on the surface does at least as much work on the
plastic strain rate, which is along the gradient, as every stress inside or on the surface. -/
theorem C82_maximum_dissipation {eps : ℝ} (he : 0 < eps) {s : Fin 6 → ℝ} {q : Q7 → ℝ} (T : ℝ)
    (hq : Deviatoric q) (h0 : eps ≤ norm2 (shifted s q)) (hs : 0 ≤ (isoKinJ2 eps).f s q T)
    {s' : Fin 6 → ℝ} (hs' : (isoKinJ2 eps).f s' q T ≤ 0) {rate : ℝ} (hr : 0 ≤ rate) :
    s' ⬝ᵥ (rate • (isoKinJ2 eps).df_ds s q T) ≤ s ⬝ᵥ (rate • (isoKinJ2 eps).df_ds s q T) := by
  have h := subgradient he T hq h0 s'
  rw [dotProduct_sub, dotProduct_comm _ s', dotProduct_comm _ s] at h
  simp only [dotProduct_smul, smul_eq_mul]
  exact mul_le_mul_of_nonneg_left (by linarith) hr

/-- **C38** (disagreement) with a backstress that has a trace the reported gradient is not the
gradient: adding pressure does not change the surface, but the gradient reported has a component
along pressure. -/
theorem C38_gradient_with_trace (T : ℝ) : ∃ (s : Fin 6 → ℝ) (q : Q7 → ℝ),
    (1 : ℝ) ≤ norm2 (shifted s q) ∧
    ¬ D1 (fun s q => (isoKinJ2 1).f s q T) ((isoKinJ2 1).df_ds s q T) ((isoKinJ2 1).df_dq s q T)
      s q := by
  have hn : norm2 (shifted 0 (Sum.elim (0 : Unit → ℝ) ![3, 0, 0, 0, 0, 0])) = 3 := by
    simp [norm2, shifted, devVec, dotProduct, Fin.sum_univ_succ]
  refine ⟨0, Sum.elim (0 : Unit → ℝ) ![3, 0, 0, 0, 0, 0], by rw [hn]; norm_num, fun h => ?_⟩
  have hc : HasDerivAt (fun t : ℝ => ((![t, t, t, 0, 0, 0] : Fin 6 → ℝ),
      (Sum.elim (0 : Unit → ℝ) ![3, 0, 0, 0, 0, 0] : Q7 → ℝ))) (![1, 1, 1, 0, 0, 0], 0) 0 :=
    (hasDerivAt_pi.mpr fun i => by
      fin_cases i <;> first | exact hasDerivAt_id _ | exact hasDerivAt_const _ _).prodMk
      (hasDerivAt_const _ _)
  have e0 : (![(0 : ℝ), 0, 0, 0, 0, 0] : Fin 6 → ℝ) = 0 := by ext i; fin_cases i <;> rfl
  have h' : HasFDerivAt (fun p : (Fin 6 → ℝ) × (Q7 → ℝ) => (isoKinJ2 1).f p.1 p.2 T)
      (grad ((isoKinJ2 1).df_ds 0 (Sum.elim (0 : Unit → ℝ) ![3, 0, 0, 0, 0, 0]) T)
        ((isoKinJ2 1).df_dq 0 (Sum.elim (0 : Unit → ℝ) ![3, 0, 0, 0, 0, 0]) T)) ((fun t : ℝ => ((![t, t, t, 0, 0, 0] : Fin 6 → ℝ),
      (Sum.elim (0 : Unit → ℝ) ![3, 0, 0, 0, 0, 0] : Q7 → ℝ))) 0) := by
    simp only [e0]
    exact h
  have h1 := h'.comp_hasDerivAt (0 : ℝ) hc
  have h2 : ((fun p : (Fin 6 → ℝ) × (Q7 → ℝ) => (isoKinJ2 1).f p.1 p.2 T) ∘ fun t : ℝ =>
      ((![t, t, t, 0, 0, 0] : Fin 6 → ℝ),
      (Sum.elim (0 : Unit → ℝ) ![3, 0, 0, 0, 0, 0] : Q7 → ℝ))) = fun _ =>
      (isoKinJ2 1).f 0 (Sum.elim (0 : Unit → ℝ) ![3, 0, 0, 0, 0, 0]) T := by
    funext t
    have := (C38_pressure 1 0 (Sum.elim (0 : Unit → ℝ) ![3, 0, 0, 0, 0, 0]) T t).1
    simpa using this
  rw [h2] at h1
  have h3 := h1.unique (hasDerivAt_const _ _)
  have hle : (1 : ℝ) ≤ norm2 (shifted 0 (Sum.elim (0 : Unit → ℝ) ![3, 0, 0, 0, 0, 0])) := by
    rw [hn]; norm_num
  simp only [grad_apply, isoKinJ2, normalize_of_le hle, hn] at h3
  simp [shifted, devVec, dotProduct, Fin.sum_univ_succ] at h3

/-- Concrete case for C38 and C82: a uniaxial stress with a trace free backstress. -/
example : Deviatoric (Sum.elim (fun _ => (-1 : ℝ)) ![1, -1, 0, 0, 0, 0]) ∧
    (1 : ℝ) < norm2 (shifted ![3, 0, 0, 0, 0, 0] (Sum.elim (fun _ => (-1 : ℝ)) ![1, -1, 0, 0, 0, 0])) := by
  constructor
  · simp [Deviatoric, tr3]
  · simp only [norm2]
    rw [Real.lt_sqrt (by norm_num)]
    simp [shifted, devVec, dotProduct, Fin.sum_univ_succ]
    norm_num

/-! ## The pressure dependent surface -/

/-- Derivative of the mean stress term. -/
theorem hasDerivAt_meanTerm {h l x : ℝ} (hh : 0 ≤ h) (hx : x ≠ 0) :
    HasDerivAt (meanTerm h l) (h * l * |x| ^ (l - 1)) x := by
  rcases lt_or_gt_of_ne hx with hx | hx
  · have h1 : HasDerivAt (fun y : ℝ => -(h * (-y) ^ l)) (h * l * |x| ^ (l - 1)) x := by
      have := (((hasDerivAt_neg x).rpow_const (p := l) (Or.inl (neg_ne_zero.mpr hx.ne))).const_mul
        h).fun_neg
      refine this.congr_deriv ?_
      rw [abs_of_neg hx]
      ring
    refine h1.congr_of_eventuallyEq ?_
    filter_upwards [eventually_lt_nhds hx] with y hy
    rw [meanTerm, if_neg (not_le.mpr hy), abs_of_neg hy, abs_of_nonneg]
    have := Real.rpow_nonneg (neg_nonneg.mpr hy.le) l
    positivity
  · have h1 : HasDerivAt (fun y : ℝ => h * y ^ l) (h * l * |x| ^ (l - 1)) x := by
      refine ((Real.hasDerivAt_rpow_const (p := l) (Or.inl hx.ne')).const_mul h).congr_deriv ?_
      rw [abs_of_pos hx]
      ring
    refine h1.congr_of_eventuallyEq ?_
    filter_upwards [eventually_gt_nhds hx] with y hy
    rw [meanTerm, if_pos hy.le, abs_of_pos hy, abs_of_nonneg]
    have := Real.rpow_nonneg hy.le l
    positivity

/-- Derivative of the slope of the mean stress term. -/
theorem hasDerivAt_meanSlope {h l x : ℝ} (hx : x ≠ 0) :
    HasDerivAt (fun x => h * l * |x| ^ (l - 1))
      (SignType.sign x * (h * l * (l - 1) * |x| ^ (l - 2))) x := by
  have h1 := ((hasDerivAt_abs hx).rpow_const (p := l - 1) (Or.inl (abs_ne_zero.mpr hx))).const_mul
    (h * l)
  refine h1.congr_deriv ?_
  rw [show l - 1 - 1 = l - 2 by ring]
  ring

theorem tr3_D1 (s : Fin 6 → ℝ) (q : κ → ℝ) :
    D1 (fun s (_ : κ → ℝ) => tr3 s) ![1, 1, 1, 0, 0, 0] 0 s q := by
  refine (((D1.coord_s 0).add (D1.coord_s 1)).add (D1.coord_s 2)).congr ?_ (by simp)
  ext i
  fin_cases i <;> simp [Pi.single_apply]

/-- The pressure dependent surface is the J2 surface plus a term in the mean stress. -/
theorem isoKinJ2I1_eq (eps : ℝ) (h l : ℝ → ℝ) (s : Fin 6 → ℝ) (q : Q7 → ℝ) (T : ℝ) :
    (isoKinJ2I1 eps h l).f s q T = (isoKinJ2 eps).f s q T + meanTerm (h T) (l T) (tr3 s) := rfl

/-- **C83** wherever the effective deviator and the mean stress are not zero, the gradient and the
second derivatives of the pressure dependent surface are the true ones, for a trace free backstress,
a non-negative pressure coefficient and an exponent of at least one. -/
theorem C83_pressure_dependent {eps : ℝ} (he : 0 < eps) (h l : ℝ → ℝ) {s : Fin 6 → ℝ} {q : Q7 → ℝ}
    (T : ℝ) (hq : Deviatoric q) (h0 : eps < norm2 (shifted s q)) (hs : tr3 s ≠ 0) (hh : 0 ≤ h T)
    (hl : 1 ≤ l T) : (isoKinJ2I1 eps h l).CorrectAt s q T := by
  have hpos := he.trans h0
  have hb := C38_gradient he T hq h0
  have htr := tr3_D1 s q
  have hm := htr.scalar (hasDerivAt_meanTerm (l := l T) hh hs)
  have hd := htr.scalar (hasDerivAt_meanSlope (h := h T) (l := l T) hs)
  refine ⟨(hb.f.add hm).congr ?_ ?_, fun i => ?_, ?_⟩
  · ext i
    fin_cases i <;> simp [isoKinJ2, isoKinJ2I1]
  · simp [isoKinJ2, isoKinJ2I1]
  · have hsign : ∀ d : ℝ, 0 ≤ d →
        (if 0 ≤ tr3 s then |d| else -|d|) = SignType.sign (tr3 s) * d := by
      intro d hd0
      rcases lt_or_gt_of_ne hs with hx | hx
      · rw [if_neg (not_le.mpr hx), sign_neg hx, abs_of_nonneg hd0]; simp
      · rw [if_pos hx.le, sign_pos hx, abs_of_nonneg hd0]; simp
    have hnn : 0 ≤ h T * l T * (l T - 1) * |tr3 s| ^ (l T - 2) := by
      have := Real.rpow_nonneg (abs_nonneg (tr3 s)) (l T - 2)
      have h1 : 0 ≤ l T - 1 := by linarith
      have h2 : 0 ≤ l T := by linarith
      positivity
    by_cases hi : i.val < 3
    · have h2 : (fun s q => (isoKinJ2I1 eps h l).df_ds s q T i) = fun s q =>
          (isoKinJ2 eps).df_ds s q T i + h T * l T * |tr3 s| ^ (l T - 1) := by
        funext s q
        simp [isoKinJ2I1, isoKinJ2, hi]
      rw [h2]
      refine ((hb.df_ds i).add hd).congr ?_ ?_
      · ext j
        simp only [isoKinJ2, isoKinJ2I1, hpos, gt_iff_lt, if_true, Matrix.add_apply, Pi.add_apply,
          Pi.smul_apply, smul_eq_mul, vecMulVec_apply, hsign _ hnn]
        congr 1
        have : (![SignType.sign (tr3 s) * (h T * l T * (l T - 1) * |tr3 s| ^ (l T - 2)),
            SignType.sign (tr3 s) * (h T * l T * (l T - 1) * |tr3 s| ^ (l T - 2)),
            SignType.sign (tr3 s) * (h T * l T * (l T - 1) * |tr3 s| ^ (l T - 2)), 0, 0, 0] :
            Fin 6 → ℝ) i = SignType.sign (tr3 s) * (h T * l T * (l T - 1) * |tr3 s| ^ (l T - 2)) := by
          fin_cases i <;> first | rfl | (exfalso; simp at hi)
        rw [this]
      · simp [isoKinJ2, isoKinJ2I1, hpos]
    · have h2 : (fun s q => (isoKinJ2I1 eps h l).df_ds s q T i) = fun s q =>
          (isoKinJ2 eps).df_ds s q T i := by
        funext s q
        simp [isoKinJ2I1, isoKinJ2, hi]
      rw [h2]
      refine (hb.df_ds i).congr ?_ ?_
      · ext j
        simp only [isoKinJ2, isoKinJ2I1, hpos, gt_iff_lt, if_true, Matrix.add_apply, vecMulVec_apply]
        fin_cases i <;> first | (exfalso; simp at hi; done) | simp
      · simp [isoKinJ2, isoKinJ2I1, hpos]
  · refine fun i => (hb.df_dq i).congr ?_ ?_ <;> simp [isoKinJ2, isoKinJ2I1, hpos]

/-- **C83** (disagreement) with an exponent below one the second derivative reported has the wrong
sign: at a positive mean stress it is positive, where the slope of the surface decreases. -/
theorem C83_small_exponent (eps : ℝ) (he : 0 < eps) (T : ℝ) (q : Q7 → ℝ) (s : Fin 6 → ℝ)
    (hq : Deviatoric q) (h0 : eps < norm2 (shifted s q)) (hs : 0 < tr3 s) :
    ¬ DV (fun s q => (isoKinJ2I1 eps (fun _ => 1) (fun _ => 1 / 2)).df_ds s q T)
      ((isoKinJ2I1 eps (fun _ => 1) (fun _ => 1 / 2)).df_dsds s q T)
      ((isoKinJ2I1 eps (fun _ => 1) (fun _ => 1 / 2)).df_dsdq s q T) s q := by
  intro hbad
  have hpos := he.trans h0
  have hb := C38_gradient he T hq h0
  have hd := (tr3_D1 s q).scalar (hasDerivAt_meanSlope (h := 1) (l := 1 / 2) hs.ne')
  have h1 := (hb.df_ds 0).add hd
  have h2 := hbad 0
  have h3 : (fun s q => (isoKinJ2I1 eps (fun _ => 1) (fun _ => 1 / 2)).df_ds s q T 0) = fun s q =>
      (isoKinJ2 eps).df_ds s q T 0 + 1 * (1 / 2) * |tr3 s| ^ ((1 / 2 : ℝ) - 1) := by
    funext s q
    simp [isoKinJ2I1, isoKinJ2]
  rw [h3] at h2
  have h4 := (h1.partial_s 0).unique (h2.partial_s 0)
  have hp : 0 < |tr3 s| ^ ((1 / 2 : ℝ) - 2) := Real.rpow_pos_of_pos (abs_pos.mpr hs.ne') _
  simp only [isoKinJ2, isoKinJ2I1, hpos, gt_iff_lt, if_true, Matrix.add_apply, vecMulVec_apply,
    Pi.add_apply, Pi.smul_apply, smul_eq_mul, add_right_inj, if_pos hs.le, sign_pos hs] at h4
  simp at h4
  norm_num at *
  rw [abs_of_pos hp] at h4
  linarith

/-- A surface used with isotropic hardening only has the right derivatives where the combined surface
has them without backstress. -/
theorem isoFunction_correct {base : Surface (Fin 6) Q7} {s : Fin 6 → ℝ} {q : Unit → ℝ} {T : ℝ}
    (hb : base.CorrectAt s (expandHist q) T) : (isoFunction base).CorrectAt s q T := by
  have hx : DH (fun q : Unit → ℝ => expandHist q) (fromRows 1 0) q := by
    rintro (i | i)
    · refine (D1.coord_a (κ := Unit) i).congr rfl ?_
      ext j
      simp [fromRows]
      rfl
    · refine (D1.const 0).congr rfl ?_
      ext j
      rfl
  have e : ∀ v : Q7 → ℝ, (fromRows 1 0 : Matrix Q7 Unit ℝ)ᵀ *ᵥ v = fun _ => v (.inl ()) := by
    intro v
    ext j
    simp only [mulVec, dotProduct, Fintype.sum_sum_type, transpose_apply, fromRows_apply_inl,
      fromRows_apply_inr, Matrix.zero_apply, zero_mul, Finset.sum_const_zero, add_zero,
      Finset.univ_unique, Finset.sum_singleton, Matrix.one_apply]
    simp
  refine ⟨(D1.hist hx hb.f).congr rfl (e _), fun i => (D1.hist hx (hb.df_ds i)).congr rfl ?_,
    fun i => (D1.hist hx (hb.df_dq (.inl i))).congr rfl ?_⟩ <;>
  · rw [e]
    rfl

/-- **C38** the isotropic J2 surface has the right gradient and second derivatives. -/
theorem C38_isotropic {eps : ℝ} (he : 0 < eps) {s : Fin 6 → ℝ} (q : Unit → ℝ) (T : ℝ)
    (h0 : eps < norm2 (devVec s)) : (isoJ2 eps).CorrectAt s q T := by
  refine isoFunction_correct (C38_gradient he T (by simp [Deviatoric, expandHist, tr3]) ?_)
  have : shifted s (expandHist q) = devVec s := by
    ext i
    simp [shifted, expandHist]
  rwa [this]

end Neml.Flow
