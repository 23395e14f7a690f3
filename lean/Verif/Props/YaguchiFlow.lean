import Verif.Model.Yaguchi
import Verif.Props.WalkerBounds

/-!
# The Yaguchi flow rule: reported derivatives (C140)
-/

namespace Neml.Yaguchi

open Matrix Neml.Flow Neml.Mandel Neml.SmallStrain Neml.Walker Filter Topology

/-! ## Tools -/

section
variable {ι κ : Type} [Fintype ι] [Fintype κ] {f g : (ι → ℝ) → (κ → ℝ) → ℝ} {fs gs : ι → ℝ} {fa ga : κ → ℝ}
  {s : ι → ℝ} {a : κ → ℝ}

theorem D1.congr_ev (hf : D1 f fs fa s a)
    (h : ∀ᶠ p : (ι → ℝ) × (κ → ℝ) in 𝓝 (s, a), g p.1 p.2 = f p.1 p.2) : D1 g fs fa s a :=
  HasFDerivAt.congr_of_eventuallyEq hf h

theorem D1.cont (hf : D1 f fs fa s a) : ContinuousAt (fun p : (ι → ℝ) × (κ → ℝ) => f p.1 p.2) (s, a) :=
  HasFDerivAt.continuousAt hf

/-- A product whose second factor vanishes, with a first factor that is only continuous. -/
theorem D1.mul_vanish (hf : ContinuousAt (fun p : (ι → ℝ) × (κ → ℝ) => f p.1 p.2) (s, a)) (hg : D1 g gs ga s a)
    (h0 : g s a = 0) : D1 (fun s a => f s a * g s a) (f s a • gs) (f s a • ga) s a := by
  have h1 : HasFDerivAt (fun p : (ι → ℝ) × (κ → ℝ) => f s a * g p.1 p.2) (grad (f s a • gs) (f s a • ga)) (s, a) :=
    (HasFDerivAt.const_mul hg (f s a)).congr_fderiv (ContinuousLinearMap.ext fun p => by
      simp [smul_dotProduct, mul_add])
  have h2 : (fun p : (ι → ℝ) × (κ → ℝ) => (f p.1 p.2 - f s a) * g p.1 p.2) =o[𝓝 (s, a)] fun p => p - (s, a) := by
    have hO : (fun p : (ι → ℝ) × (κ → ℝ) => g p.1 p.2) =O[𝓝 (s, a)] fun p => p - (s, a) := by
      have := HasFDerivAt.isBigO_sub hg
      simpa [h0] using this
    have ho : (fun p : (ι → ℝ) × (κ → ℝ) => f p.1 p.2 - f s a) =o[𝓝 (s, a)] fun _ => (1 : ℝ) := by
      rw [Asymptotics.isLittleO_one_iff]
      simpa using (hf.tendsto.sub_const (f s a))
    simpa using ho.mul_isBigO hO.norm_right
  have h3 : HasFDerivAt (fun p : (ι → ℝ) × (κ → ℝ) => (f p.1 p.2 - f s a) * g p.1 p.2)
      (0 : (ι → ℝ) × (κ → ℝ) →L[ℝ] ℝ) (s, a) := by
    rw [hasFDerivAt_iff_isLittleO]
    simpa [h0] using h2
  refine ((h1.add h3).congr_fderiv (add_zero _)).congr_of_eventuallyEq (Eventually.of_forall fun p => ?_)
  simp only [Pi.add_apply]
  ring

end

/-- The power law above zero. -/
theorem ramp_deriv (n x : ℝ) (h : x ≠ 0 ∨ 1 < n) :
    HasDerivAt (fun x : ℝ => if x > 0 then |x| ^ n else 0) (if x > 0 then n * |x| ^ (n - 1) else 0) x := by
  rcases lt_trichotomy x 0 with hx | hx | hx
  · rw [if_neg (not_lt.mpr hx.le)]
    refine (hasDerivAt_const x (0 : ℝ)).congr_of_eventuallyEq ?_
    filter_upwards [eventually_lt_nhds hx] with z hz
    rw [if_neg (not_lt.mpr hz.le)]
  · subst hx
    have hn : 1 < n := h.resolve_left fun h => h rfl
    rw [if_neg (lt_irrefl _), hasDerivAt_iff_isLittleO]
    simp only [lt_irrefl, gt_iff_lt, if_false, sub_zero, smul_zero]
    rw [Asymptotics.isLittleO_iff]
    intro c hc
    have hcont : ContinuousAt (fun x : ℝ => |x| ^ (n - 1)) 0 :=
      (continuous_abs.continuousAt).rpow_const (Or.inr (by linarith))
    have h0 : (fun x : ℝ => |x| ^ (n - 1)) 0 < c := by
      simp only [abs_zero]
      rw [Real.zero_rpow (by linarith)]
      exact hc
    filter_upwards [hcont.eventually_lt_const h0] with z hz
    split_ifs with hz0
    · rw [Real.norm_of_nonneg (Real.rpow_nonneg (abs_nonneg _) _), Real.norm_eq_abs]
      have hp : 0 < |z| := abs_pos.mpr hz0.ne'
      have : |z| ^ n = |z| ^ (n - 1) * |z| := by
        rw [Real.rpow_sub_one hp.ne', div_mul_cancel₀ _ hp.ne']
      rw [this]
      exact mul_le_mul_of_nonneg_right hz.le hp.le
    · rw [norm_zero]
      exact mul_nonneg hc.le (norm_nonneg _)
  · rw [if_pos hx, abs_of_pos hx]
    refine (Real.hasDerivAt_rpow_const (Or.inl hx.ne')).congr_of_eventuallyEq ?_
    filter_upwards [eventually_gt_nhds hx] with z hz
    rw [if_pos hz, abs_of_pos hz]

/-! ## The effective stress -/

theorem devDeriv_eq (v : Fin 6 → ℝ) : devDeriv v = devVec v := by
  ext i
  fin_cases i <;> simp [devDeriv, devVec] <;> ring

theorem J2_eq (v : Fin 6 → ℝ) : J2 v = √(3 / 2) * norm2 (devVec v) := by
  rw [J2, Real.sqrt_mul (by norm_num)]
  rfl

theorem J2_nonneg (v : Fin 6 → ℝ) : 0 ≤ J2 v := Real.sqrt_nonneg _

theorem J2_eq_zero {v : Fin 6 → ℝ} : J2 v = 0 ↔ devVec v = 0 := by
  rw [J2_eq, mul_eq_zero, norm2_eq_zero]
  exact ⟨fun h => h.resolve_left sqrt32_pos.ne', Or.inr⟩

theorem dir_eq (s : Fin 6 → ℝ) (a : Var → ℝ) : dir s a = dirOf (devVec (dS s a)) := by
  by_cases h0 : norm2 (devVec (dS s a)) = 0
  · rw [dirOf, if_pos h0]
    ext i
    rw [dir, J2_eq, h0]
    simp
  · rw [dirOf, if_neg h0]
    ext i
    rw [dir, J2_eq]

theorem g_eq (s : Fin 6 → ℝ) (a : Var → ℝ) (T : ℝ) : g.v s a T = dirOf (devVec (dS s a)) := by
  simp only [g]
  split_ifs with h
  · exact dir_eq s a
  · have h0 : J2 (dS s a) = 0 := le_antisymm (not_lt.mp h) (J2_nonneg _)
    rw [J2_eq_zero] at h0
    rw [dirOf, if_pos (norm2_eq_zero.mpr h0)]

/-- The deviator of the effective stress with its derivatives. -/
theorem eff_DV (s : Fin 6 → ℝ) (a : Var → ℝ) :
    DV (fun s (a : Var → ℝ) => devVec (dS s a)) devProj
      (of fun i v => match v with
        | .X1 j => -devProj i j
        | .X2 j => -devProj i j
        | _ => 0) s a := by
  have h1 : DV (fun s (a : Var → ℝ) => dS s a) (1 : Matrix (Fin 6) (Fin 6) ℝ)
      (of fun i v => match v with
        | .X1 j => if i = j then -1 else 0
        | .X2 j => if i = j then -1 else 0
        | _ => 0) s a := by
    intro i
    refine ((D1.coord_s (κ := Var) i).sub ((D1.coord_a (Var.X1 i)).add (D1.coord_a (Var.X2 i)))).congr ?_ ?_
    · ext j
      simp [Matrix.one_apply, Pi.single_apply, eq_comm]
    · ext v
      cases v <;> simp [Pi.single_apply, eq_comm]
      all_goals split_ifs <;> simp
  have h2 := h1.mulVec devProj
  intro i
  have e : (fun (s : Fin 6 → ℝ) (a : Var → ℝ) => devVec (dS s a) i) = fun s a => (devProj *ᵥ dS s a) i := by
    funext s a
    rw [devVec_eq]
  rw [e]
  refine (h2 i).congr ?_ ?_
  · rw [Matrix.mul_one]
  · ext v
    cases v <;> simp [Matrix.mul_apply]

/-- The derivatives of the deviator of a backstress. -/
theorem devX_DV (X : (Var → ℝ) → Fin 6 → ℝ) (c : Fin 6 → Var) (hX : ∀ a j, X a j = a (c j)) (s : Fin 6 → ℝ) (a : Var → ℝ) :
    DV (fun (_ : Fin 6 → ℝ) a => devVec (X a)) 0 (devProj * (of fun j => Pi.single (c j) 1 : Matrix (Fin 6) Var ℝ)) s a := by
  have h1 : DV (fun (_ : Fin 6 → ℝ) (a : Var → ℝ) => X a) (0 : Matrix (Fin 6) (Fin 6) ℝ)
      (of fun j => Pi.single (c j) 1) s a := by
    intro i
    have e : (fun (_ : Fin 6 → ℝ) (a : Var → ℝ) => X a i) = fun _ a => a (c i) := by
      funext s a
      rw [hX]
    rw [e]
    exact D1.coord_a (c i)
  have h2 := h1.mulVec devProj
  intro i
  have e : (fun (_ : Fin 6 → ℝ) (a : Var → ℝ) => devVec (X a) i) = fun _ a => (devProj *ᵥ X a) i := by
    funext s a
    rw [devVec_eq]
  rw [e]
  refine (h2 i).congr ?_ rfl
  rw [Matrix.mul_zero]

theorem J2_D1 {s : Fin 6 → ℝ} {a : Var → ℝ} (h : 0 < J2 (dS s a)) :
    D1 (fun s a => J2 (dS s a)) ((3 / 2 / J2 (dS s a)) • devVec (dS s a))
      (fun v => match v with
        | .X1 j => -(3 / 2 / J2 (dS s a) * devVec (dS s a) j)
        | .X2 j => -(3 / 2 / J2 (dS s a) * devVec (dS s a) j)
        | _ => 0) s a := by
  have h0 : devVec (dS s a) ≠ 0 := fun h0 => h.ne' (J2_eq_zero.mpr h0)
  have hp := norm2_pos h0
  have hs := sqrt32_pos
  have hn := (norm2_DV (eff_DV s a) hp).smul (√(3 / 2))
  have e : (fun (s : Fin 6 → ℝ) (a : Var → ℝ) => J2 (dS s a)) = fun s a => √(3 / 2) * norm2 (devVec (dS s a)) := by
    funext s a
    rw [J2_eq]
  have hm : (fun i => devVec (dS s a) i / norm2 (devVec (dS s a))) = (1 / norm2 (devVec (dS s a))) • devVec (dS s a) := by
    ext i
    simp only [Pi.smul_apply, smul_eq_mul]
    ring
  have hd : devProj *ᵥ devVec (dS s a) = devVec (dS s a) := devProj_of_tr3 (tr3_devVec _)
  have hc : ∀ j, √(3 / 2) * (1 / norm2 (devVec (dS s a)) * devVec (dS s a) j) =
      3 / 2 / (√(3 / 2) * norm2 (devVec (dS s a))) * devVec (dS s a) j := by
    intro j
    have := sqrt32_sq
    field_simp
    linear_combination 2 * devVec (dS s a) j * this
  rw [e]
  refine hn.congr ?_ ?_
  · rw [hm, devProj_symm, mulVec_smul, hd, J2_eq]
    ext j
    simp only [Pi.smul_apply, smul_eq_mul]
    exact hc j
  · rw [hm, mulVec_smul, J2_eq]
    ext v
    have hrow : ∀ j, ∑ i, devProj i j * devVec (dS s a) i = devVec (dS s a) j := by
      intro j
      conv_rhs => rw [← hd]
      rw [mulVec, dotProduct]
      refine Finset.sum_congr rfl fun i _ => ?_
      have := congrFun (congrFun devProj_symm i) j
      rw [transpose_apply] at this
      rw [← this]
    cases v with
    | X1 j =>
      simp only [Pi.smul_apply, smul_eq_mul, mulVec, dotProduct, transpose_apply, of_apply, neg_mul,
        Finset.sum_neg_distrib, hrow, mul_neg, hc]
    | X2 j =>
      simp only [Pi.smul_apply, smul_eq_mul, mulVec, dotProduct, transpose_apply, of_apply, neg_mul,
        Finset.sum_neg_distrib, hrow, mul_neg, hc]
    | _ => simp [mulVec, dotProduct]

theorem dgds_eq {s : Fin 6 → ℝ} {a : Var → ℝ} (h : 0 < J2 (dS s a)) :
    dgds s a = dDirOf (devVec (dS s a)) * devProj := by
  have h0 : devVec (dS s a) ≠ 0 := fun h0 => h.ne' (J2_eq_zero.mpr h0)
  have hp := norm2_pos h0
  have hs := sqrt32_pos
  have h2 := sqrt32_sq
  rw [dDirOf_of_ne h0, smul_mul, Matrix.sub_mul, Matrix.one_mul, vecMulVec_mul, dgds, devDeriv_eq, J2_eq]
  have hm : (fun i => devVec (dS s a) i / norm2 (devVec (dS s a))) ᵥ* devProj =
      fun i => devVec (dS s a) i / norm2 (devVec (dS s a)) := devProj_vecMul (by
    have := tr3_devVec (dS s a)
    simp only [tr3] at *
    rw [← add_div, ← add_div, this, zero_div])
  rw [hm]
  ext i j
  simp only [Matrix.smul_apply, Matrix.sub_apply, vecMulVec_apply, smul_eq_mul]
  have e1 : 3 / (2 * (√(3 / 2) * norm2 (devVec (dS s a)))) = √(3 / 2) / norm2 (devVec (dS s a)) := by
    field_simp
    linear_combination -2 * h2
  have e2 : 3 / (2 * (√(3 / 2) * norm2 (devVec (dS s a))) ^ 2) = 1 / norm2 (devVec (dS s a)) ^ 2 := by
    rw [mul_pow, pow_two (√(3 / 2)), h2]
    field_simp
  rw [e1, e2]
  ring

theorem dir_DV {s : Fin 6 → ℝ} {a : Var → ℝ} (h : 0 < J2 (dS s a)) :
    DV (fun s a => dirOf (devVec (dS s a))) (dgds s a) (dgda s a) s a := by
  have h0 : devVec (dS s a) ≠ 0 := fun h0 => h.ne' (J2_eq_zero.mpr h0)
  intro i
  refine (dirOf_DV (eff_DV s a) h0 i).congr ?_ ?_
  · rw [dgds_eq h]
  · ext v
    cases v <;> simp [dgda, dgds_eq h, Matrix.mul_apply]

/-- The derivatives of the flow direction. -/
theorem g_correct {s : Fin 6 → ℝ} {a : Var → ℝ} (T : ℝ) (h : 0 < J2 (dS s a)) : g.CorrectAt s a T := by
  intro i
  have e : (fun (s : Fin 6 → ℝ) (a : Var → ℝ) => g.v s a T i) = fun s a => dirOf (devVec (dS s a)) i := by
    funext s a
    rw [g_eq]
  rw [e]
  exact dir_DV h i

/-! ## The rate -/

theorem y_pos_iff (P : Par) (s : Fin 6 → ℝ) (a : Var → ℝ) (T : ℝ) : 0 < P.y s a T ↔ 0 < P.over s a T := by
  rw [Par.y]
  split_ifs with h
  · exact ⟨fun _ => h, fun _ => Real.rpow_pos_of_pos (abs_pos.mpr (ne_of_gt h)) _⟩
  · exact ⟨fun h' => absurd h' (lt_irrefl _), fun h' => absurd h' h⟩

theorem y_nonneg (P : Par) (s : Fin 6 → ℝ) (a : Var → ℝ) (T : ℝ) : 0 ≤ P.y s a T := by
  rw [Par.y]
  split_ifs
  · exact Real.rpow_nonneg (abs_nonneg _) _
  · exact le_rfl

theorem y_D1 (P : Par) {s : Fin 6 → ℝ} {a : Var → ℝ} {T : ℝ} (h : 0 < J2 (dS s a))
    (hn : P.over s a T ≠ 0 ∨ 1 < P.n T) :
    D1 (fun s a => P.y s a T) (P.dyds s a T) (P.dyda s a T) s a := by
  have ho : D1 (fun s a => P.over s a T) _ _ s a := (((J2_D1 h).sub (D1.coord_a Var.sa)).smul (1 / P.D T)).congr rfl rfl
    |> fun h => by
      have e : (fun (s : Fin 6 → ℝ) (a : Var → ℝ) => P.over s a T) = fun s a => 1 / P.D T * (J2 (dS s a) - a .sa) := by
        funext s a
        rw [Par.over]
        ring
      rw [e]
      exact h
  have hy := ho.scalar (ramp_deriv (P.n T) _ hn)
  refine hy.congr ?_ ?_
  · by_cases hp : 0 < P.over s a T
    · rw [Par.dyds, if_pos ((y_pos_iff P s a T).mpr hp), if_pos hp, devDeriv_eq]
      ext i
      simp only [Pi.smul_apply, Pi.sub_apply, Pi.zero_apply, smul_eq_mul, sub_zero, Par.sp, sgn, if_neg (not_lt.mpr hp.le)]
      ring
    · rw [Par.dyds, if_neg (fun h' => hp ((y_pos_iff P s a T).mp h')), if_neg hp, zero_smul]
  · by_cases hp : 0 < P.over s a T
    · rw [Par.dyda, if_pos ((y_pos_iff P s a T).mpr hp), if_pos hp, devDeriv_eq]
      ext v
      cases v <;> simp only [Pi.smul_apply, Pi.sub_apply, Pi.single_apply, smul_eq_mul, Par.sp, sgn,
        if_neg (not_lt.mpr hp.le), reduceCtorEq, if_false, if_true] <;> ring
    · rw [Par.dyda, if_neg (fun h' => hp ((y_pos_iff P s a T).mp h')), if_neg hp, zero_smul]

/-! ## The hardening -/

/-- The switch of the threshold stress is not at a kink: nothing there below the tolerance on the rate, a target above
zero that is not the present value, or a target below zero and a present value above. -/
def Par.Switch (P : Par) (s : Fin 6 → ℝ) (a : Var → ℝ) (T : ℝ) : Prop :=
  P.y s a T < logTol ∨ logTol < P.y s a T ∧ (0 < P.sas s a T ∧ P.sas s a T ≠ a .sa ∨ P.sas s a T < 0 ∧ 0 < a .sa)

theorem logTol_pos : 0 < logTol := by
  unfold logTol
  norm_num

theorem hsa_D1 (P : Par) {s : Fin 6 → ℝ} {a : Var → ℝ} {T : ℝ} (h : 0 < J2 (dS s a))
    (hn : P.over s a T ≠ 0 ∨ 1 < P.n T) (hk : P.Switch s a T) :
    D1 (fun s a => P.hv s a T .sa) (P.hds s a T .sa) (P.hda s a T .sa) s a := by
  have hy := y_D1 P h hn
  have hl := logTol_pos
  rcases hk with hk | ⟨hk, hk'⟩
  · have h1 : P.hds s a T .sa = 0 := by
      funext j
      simp only [Par.hds, of_apply, abs_of_nonneg (y_nonneg P s a T), if_neg (not_lt.mpr hk.le), gt_iff_lt, Pi.zero_apply]
    have h2 : P.hda s a T .sa = 0 := by
      funext j
      simp only [Par.hda, of_apply, abs_of_nonneg (y_nonneg P s a T), if_neg (not_lt.mpr hk.le), gt_iff_lt, Pi.zero_apply]
    rw [h1, h2]
    refine D1.congr_ev (D1.const 0) ?_
    filter_upwards [(D1.cont hy).eventually_lt_const hk] with p hp
    simp only [Par.hv, abs_of_nonneg (y_nonneg P p.1 p.2 T), if_neg (not_lt.mpr hp.le), gt_iff_lt]
  · have hy0 : P.y s a T ≠ 0 := (hl.trans hk).ne'
    have hln : Real.log 10 ≠ 0 := (Real.log_pos (by norm_num)).ne'
    have hs : D1 (fun s a => P.sas s a T) ((P.B T / (P.y s a T * Real.log 10)) • P.dyds s a T)
        ((P.B T / (P.y s a T * Real.log 10)) • P.dyda s a T) s a := by
      have := ((D1.const (P.A T)).add ((hy.scalar (Real.hasDerivAt_log hy0)).smul (P.B T / Real.log 10)))
      have e : (fun (s : Fin 6 → ℝ) (a : Var → ℝ) => P.sas s a T) =
          fun s a => P.A T + P.B T / Real.log 10 * Real.log (P.y s a T) := by
        funext s a
        rw [Par.sas, log10]
        ring
      rw [e]
      refine this.congr ?_ ?_ <;>
      · ext i
        simp only [Pi.add_apply, Pi.smul_apply, Pi.zero_apply, smul_eq_mul]
        field_simp
        ring
    have hd := hs.sub (D1.coord_a Var.sa)
    have ha : D1 (fun (_ : Fin 6 → ℝ) (a : Var → ℝ) => a .sa) 0 (Pi.single Var.sa 1) s a := D1.coord_a Var.sa
    rcases hk' with ⟨hp, hne⟩ | ⟨hneg, hp⟩
    · have hds : P.hds s a T .sa = P.bi (P.sas s a T) a T • ((P.B T / (P.y s a T * Real.log 10)) • P.dyds s a T) := by
        funext j
        simp only [Par.hds, of_apply, abs_of_nonneg (y_nonneg P s a T), if_pos hk, if_pos hp, gt_iff_lt, Pi.smul_apply,
          smul_eq_mul]
        ring
      have hda : P.hda s a T .sa = P.bi (P.sas s a T) a T •
          ((P.B T / (P.y s a T * Real.log 10)) • P.dyda s a T - Pi.single Var.sa 1) := by
        funext j
        simp only [Par.hda, of_apply, abs_of_nonneg (y_nonneg P s a T), if_pos hk, if_pos hp, gt_iff_lt, Pi.smul_apply,
          smul_eq_mul, Pi.sub_apply, Pi.single_apply]
        split_ifs <;> ring
      refine D1.congr_ev (((hd.smul (P.bi (P.sas s a T) a T))).congr (by rw [hds, sub_zero]) hda.symm) ?_
      rcases lt_or_gt_of_ne hne with hlt | hgt
      · filter_upwards [(D1.cont hy).eventually_const_lt hk, (D1.cont hs).eventually_const_lt hp,
          (D1.cont hd).eventually_lt_const (sub_neg.mpr hlt)] with p h1 h2 h3
        simp only [Par.hv, abs_of_nonneg (y_nonneg P p.1 p.2 T), gt_iff_lt, if_pos h1, if_neg (not_lt.mpr h2.le), Par.bi,
          ge_iff_le, if_neg (not_le.mpr h3), if_neg (not_le.mpr (sub_neg.mpr hlt))]
      · filter_upwards [(D1.cont hy).eventually_const_lt hk, (D1.cont hs).eventually_const_lt hp,
          (D1.cont hd).eventually_const_lt (sub_pos.mpr hgt)] with p h1 h2 h3
        simp only [Par.hv, abs_of_nonneg (y_nonneg P p.1 p.2 T), gt_iff_lt, if_pos h1, if_neg (not_lt.mpr h2.le), Par.bi,
          ge_iff_le, if_pos h3.le, if_pos (sub_pos.mpr hgt).le]
    · have hb : ∀ x, x ≤ 0 → P.bi x a T = P.br T := fun x hx => if_neg (not_le.mpr (by linarith))
      have hds : P.hds s a T .sa = 0 := by
        funext j
        simp only [Par.hds, of_apply, abs_of_nonneg (y_nonneg P s a T), if_pos hk, if_neg (not_lt.mpr hneg.le), gt_iff_lt,
          Pi.zero_apply]
      have hda : P.hda s a T .sa = (-P.br T) • Pi.single Var.sa 1 := by
        funext j
        simp only [Par.hda, of_apply, abs_of_nonneg (y_nonneg P s a T), if_pos hk, if_neg (not_lt.mpr hneg.le), gt_iff_lt,
          Pi.smul_apply, smul_eq_mul, Pi.single_apply, hb _ hneg.le]
        split_ifs <;> ring
      refine D1.congr_ev ((ha.smul (-P.br T)).congr (by rw [hds, smul_zero]) hda.symm) ?_
      filter_upwards [(D1.cont hy).eventually_const_lt hk, (D1.cont hs).eventually_lt_const hneg,
          (D1.cont ha).eventually_const_lt hp] with p h1 h2 h3
      simp only [Par.hv, abs_of_nonneg (y_nonneg P p.1 p.2 T), gt_iff_lt, if_pos h1, if_pos h2, Par.bi,
          ge_iff_le]
      rw [if_neg (by linarith)]
      ring

/-- The derivatives of the hardening. -/
theorem h_correct (P : Par) {s : Fin 6 → ℝ} {a : Var → ℝ} {T : ℝ} (h : 0 < J2 (dS s a))
    (hn : P.over s a T ≠ 0 ∨ 1 < P.n T) (hk : P.Switch s a T) : P.flow.h.CorrectAt s a T := by
  intro v
  have hdir := dir_DV h
  cases v with
  | X1 i =>
    have e : (fun (s : Fin 6 → ℝ) (a : Var → ℝ) => P.flow.h.v s a T (.X1 i)) =
        fun s a => P.C1 T * (2 / 3 * ((P.a10 T - a .Q) * dirOf (devVec (dS s a)) i) - a (.X1 i)) := by
      funext s a
      simp only [Par.flow, Par.hv, dir_eq]
      ring
    rw [e]
    refine ((((((D1.const (P.a10 T)).sub (D1.coord_a Var.Q)).mul (hdir i)).smul (2 / 3)).sub
      (D1.coord_a (Var.X1 i))).smul (P.C1 T)).congr ?_ ?_
    · ext j
      simp only [Par.flow, Par.hds, of_apply, Pi.smul_apply, Pi.sub_apply, Pi.add_apply, Pi.zero_apply, smul_eq_mul]
      ring
    · ext w
      simp only [Par.flow, Par.hda, of_apply, Pi.smul_apply, Pi.sub_apply, Pi.add_apply, Pi.zero_apply, smul_eq_mul,
        Pi.single_apply, dir_eq]
      split_ifs <;> ring
  | X2 i =>
    have e : (fun (s : Fin 6 → ℝ) (a : Var → ℝ) => P.flow.h.v s a T (.X2 i)) =
        fun s a => P.C2 T * (2 / 3 * P.a2 T * dirOf (devVec (dS s a)) i - a (.X2 i)) := by
      funext s a
      simp only [Par.flow, Par.hv, dir_eq]
    rw [e]
    refine ((((hdir i).smul (2 / 3 * P.a2 T)).sub (D1.coord_a (Var.X2 i))).smul (P.C2 T)).congr ?_ ?_
    · ext j
      simp only [Par.flow, Par.hds, of_apply, Pi.smul_apply, Pi.sub_apply, Pi.zero_apply, smul_eq_mul]
      ring
    · ext w
      simp only [Par.flow, Par.hda, of_apply, Pi.smul_apply, Pi.sub_apply, smul_eq_mul, Pi.single_apply]
      split_ifs <;> ring
  | Q =>
    refine (((D1.const (P.q T)).sub (D1.coord_a Var.Q)).smul (P.d T)).congr ?_ ?_
    · ext j
      simp [Par.flow, Par.hds]
    · ext w
      simp only [Par.flow, Par.hda, of_apply, Pi.smul_apply, Pi.sub_apply, Pi.zero_apply, smul_eq_mul, Pi.single_apply]
      split_ifs <;> ring
  | sa => exact hsa_D1 P h hn hk

/-! ## The static recovery -/

/-- Derivative of the recovery of one backstress, away from zero or with an exponent that is not below 3. -/
theorem recovery_D1 (X : (Var → ℝ) → Fin 6 → ℝ) (c : Fin 6 → Var) (hX : ∀ a j, X a j = a (c j)) (γ m : ℝ)
    {s : Fin 6 → ℝ} {a : Var → ℝ} (h0 : tr3 (X a) = 0) (hm : X a ≠ 0 ∨ 1 < m) (i : Fin 6) :
    D1 (fun (_ : Fin 6 → ℝ) a => -γ * J2 (X a) ^ (m - 1) * a (c i)) 0
      (fun w => -γ * ∑ j, (J2 (X a) ^ (m - 1) * (if i = j then 1 else 0) +
        X a i * ((m - 1) * J2 (X a) ^ (m - 3) * 3 / 2) * X a j) * Pi.single (M := fun _ => ℝ) (c j) 1 w) s a := by
  have hdev : devVec (X a) = X a := by
    rw [devVec_eq]
    exact devProj_of_tr3 h0
  have hsum1 : ∀ w, ∑ j, (J2 (X a) ^ (m - 1) * (if i = j then 1 else 0) : ℝ) * Pi.single (M := fun _ => ℝ) (c j) 1 w =
      J2 (X a) ^ (m - 1) * Pi.single (M := fun _ => ℝ) (c i) 1 w := by
    intro w
    rw [Finset.sum_eq_single i]
    · simp
    · intro j _ hj
      simp [hj.symm]
    · simp
  have hJc : Continuous fun p : (Fin 6 → ℝ) × (Var → ℝ) => J2 (X p.2) := by
    have e : (fun p : (Fin 6 → ℝ) × (Var → ℝ) => J2 (X p.2)) = fun p => J2 (fun j => p.2 (c j)) := by
      funext p
      congr 1
      exact funext (hX p.2)
    rw [e]
    unfold J2 devVec dotProduct
    refine Real.continuous_sqrt.comp (continuous_const.mul (continuous_finsetSum _ fun i _ => ?_))
    fin_cases i <;> simp <;> fun_prop
  by_cases hz : X a = 0
  · have hm1 : 1 < m := hm.resolve_left fun h => h hz
    have hg : D1 (fun (_ : Fin 6 → ℝ) (a : Var → ℝ) => -γ * a (c i)) 0 ((-γ) • Pi.single (c i) 1) s a :=
      ((D1.coord_a (c i)).smul (-γ)).congr (smul_zero _) rfl
    have hcont : ContinuousAt (fun p : (Fin 6 → ℝ) × (Var → ℝ) => J2 (X p.2) ^ (m - 1)) (s, a) :=
      hJc.continuousAt.rpow_const (Or.inr (by linarith))
    have hv : -γ * a (c i) = 0 := by
      rw [← hX a i, hz]
      simp
    have := D1.mul_vanish (f := fun _ a => J2 (X a) ^ (m - 1)) hcont hg hv
    have e : (fun (_ : Fin 6 → ℝ) (a : Var → ℝ) => -γ * J2 (X a) ^ (m - 1) * a (c i)) =
        fun _ a => J2 (X a) ^ (m - 1) * (-γ * a (c i)) := by
      funext _ a
      ring
    rw [e]
    refine this.congr (smul_zero _) ?_
    ext w
    have hxi : X a i = 0 := by rw [hz]; rfl
    simp only [hxi, zero_mul, add_zero, hsum1, Pi.smul_apply, smul_eq_mul]
    ring
  · have hd0 : devVec (X a) ≠ 0 := by rwa [hdev]
    have hp := norm2_pos hd0
    have hJp : 0 < J2 (X a) := by
      rw [J2_eq]
      exact mul_pos sqrt32_pos hp
    have hJ : D1 (fun (_ : Fin 6 → ℝ) a => J2 (X a)) 0
        (fun w => 3 / 2 / J2 (X a) * ∑ j, X a j * Pi.single (M := fun _ => ℝ) (c j) 1 w) s a := by
      have e : (fun (_ : Fin 6 → ℝ) (a : Var → ℝ) => J2 (X a)) = fun _ a => √(3 / 2) * norm2 (devVec (X a)) := by
        funext _ a
        rw [J2_eq]
      rw [e]
      refine ((norm2_DV (devX_DV X c hX s a) hp).smul (√(3 / 2))).congr ?_ ?_
      · rw [transpose_zero, zero_mulVec, smul_zero]
      · have hcol : devProjᵀ *ᵥ (fun j => devVec (X a) j / norm2 (devVec (X a))) =
            fun j => X a j / norm2 (X a) := by
          rw [devProj_symm, hdev]
          refine devProj_of_tr3 ?_
          simp only [tr3] at *
          rw [← add_div, ← add_div, h0, zero_div]
        rw [transpose_mul, ← mulVec_mulVec, hcol, J2_eq, hdev]
        ext w
        simp only [Pi.smul_apply, smul_eq_mul, mulVec, dotProduct, transpose_apply, of_apply]
        rw [hdev] at hp
        have h2 := sqrt32_sq
        have hs := sqrt32_pos
        rw [Finset.mul_sum, Finset.mul_sum]
        refine Finset.sum_congr rfl fun j _ => ?_
        field_simp
        linear_combination 2 * X a j * Pi.single (M := fun _ => ℝ) (c j) 1 w * h2
    have hpw := (hJ.scalar (Real.hasDerivAt_rpow_const (p := m - 1) (Or.inl hJp.ne'))).smul (-γ)
    refine (hpw.mul (D1.coord_a (c i))).congr ?_ ?_
    · simp
    · ext w
      have e3 : J2 (X a) ^ (m - 1 - 1) = J2 (X a) ^ (m - 3) * J2 (X a) := by
        rw [← Real.rpow_add_one hJp.ne']
        congr 1
        ring
      simp only [Pi.add_apply, Pi.smul_apply, smul_eq_mul, add_mul, Finset.sum_add_distrib, hsum1, e3]
      have : ∑ j, X a i * ((m - 1) * J2 (X a) ^ (m - 3) * 3 / 2) * X a j * Pi.single (M := fun _ => ℝ) (c j) 1 w =
          X a i * ((m - 1) * J2 (X a) ^ (m - 3) * 3 / 2) * ∑ j, X a j * Pi.single (M := fun _ => ℝ) (c j) 1 w := by
        rw [Finset.mul_sum]
        exact Finset.sum_congr rfl fun j _ => by ring
      rw [this, hX a i]
      field_simp
      ring

/-- The derivatives of the static recovery. -/
theorem h_time_correct (P : Par) {s : Fin 6 → ℝ} {a : Var → ℝ} {T : ℝ} (h1 : tr3 (X1 a) = 0) (h2 : tr3 (X2 a) = 0)
    (hm : (X1 a ≠ 0 ∧ X2 a ≠ 0) ∨ 3 ≤ P.m T) : P.flow.h_time.CorrectAt s a T := by
  have hd : ∀ X : Fin 6 → ℝ, tr3 X = 0 → devVec X = X := fun X hX => by
    rw [devVec_eq]
    exact devProj_of_tr3 hX
  intro v
  cases v with
  | X1 i =>
    refine (recovery_D1 X1 Var.X1 (fun _ _ => rfl) (P.g1 T) (P.m T) h1
      (hm.imp (fun h => h.1) fun h => by linarith) i).congr rfl ?_
    ext w
    cases w <;> simp [Par.flow, Par.htda, Par.dX, Pi.single_apply, devDeriv_eq, hd _ h1, Matrix.one_apply, vecMulVec_apply]
  | X2 i =>
    refine (recovery_D1 X2 Var.X2 (fun _ _ => rfl) (P.g2 T) (P.m T) h2
      (hm.imp (fun h => h.2) fun h => by linarith) i).congr rfl ?_
    ext w
    cases w <;> simp [Par.flow, Par.htda, Par.dX, Pi.single_apply, devDeriv_eq, hd _ h2, Matrix.one_apply, vecMulVec_apply]
  | Q => exact (D1.const 0).congr rfl (by ext w; simp [Par.flow, Par.htda])
  | sa => exact (D1.const 0).congr rfl (by ext w; simp [Par.flow, Par.htda])

/-! ## The whole rule -/

/-- Where the rule is smooth. -/
structure Par.Smooth (P : Par) (s : Fin 6 → ℝ) (a : Var → ℝ) (T : ℝ) : Prop where
  /-- the stress less the backstresses is not hydrostatic -/
  eff : devVec (dS s a) ≠ 0
  /-- not at the edge of flow, or an exponent above one -/
  pow : P.over s a T ≠ 0 ∨ 1 < P.n T
  switch : P.Switch s a T
  dev1 : tr3 (X1 a) = 0
  dev2 : tr3 (X2 a) = 0
  recovery : (X1 a ≠ 0 ∧ X2 a ≠ 0) ∨ 3 ≤ P.m T

theorem J2_pos {v : Fin 6 → ℝ} (h : devVec v ≠ 0) : 0 < J2 v :=
  lt_of_le_of_ne (J2_nonneg v) fun h0 => h (J2_eq_zero.mp h0.symm)

/-- **C140** the Yaguchi rule reports the derivatives of its rates in stress and history. Missing: the kinks, and states
with backstresses that are not deviatoric or with a negative threshold, where it does not
(`C140_deviatoric_disagreement`, `C140_negative_disagreement`). -/
theorem C140_yaguchi_partial (P : Par) (s : Fin 6 → ℝ) (a : Var → ℝ) (T : ℝ) (h : P.Smooth s a T) :
    P.flow.CorrectAt s a T :=
  ⟨y_D1 P (J2_pos h.eff) h.pow, g_correct T (J2_pos h.eff), Part.zero_correct _ _ _, Part.zero_correct _ _ _,
    h_correct P (J2_pos h.eff) h.pow h.switch, h_time_correct P h.dev1 h.dev2 h.recovery, Part.zero_correct _ _ _⟩

/-- **C140** so the general integrator reports the derivative of its residual there. -/
theorem C140_integrator_partial (P : Par) (el : Elastic ℝ (Fin 6)) (ts : GITrial ℝ (Fin 6) Var) (x : Fin 6 ⊕ Var → ℝ)
    (h : P.Smooth (fun i => x (.inl i)) (fun i => x (.inr i)) ts.T) :
    IsJacobian (giR (tvp el P.flow) ts) (giJ (tvp el P.flow) ts x) x :=
  C81_integrator_jacobian el ts x (C140_yaguchi_partial P _ _ _ h)

/-! ## Where the code departs from it -/

/-- **C140** the derivative of the threshold rate takes the softening rate from the target before it is cut off at zero:
it is wrong where the threshold is negative but above that target. -/
theorem C140_negative_disagreement (P : Par) (s : Fin 6 → ℝ) (a : Var → ℝ) (T : ℝ) (hJ : devVec (dS s a) ≠ 0)
    (hp : P.over s a T ≠ 0 ∨ 1 < P.n T) (hy : logTol < P.y s a T) (h1 : P.sas s a T < a .sa) (h2 : a .sa < 0)
    (hb : P.bh T ≠ P.br T) : ¬ P.flow.CorrectAt s a T := by
  intro hc
  have hr := hc.h .sa
  have hyd := y_D1 P (J2_pos hJ) hp
  have hl := logTol_pos
  have hy0 : P.y s a T ≠ 0 := (hl.trans hy).ne'
  have hs : ContinuousAt (fun p : (Fin 6 → ℝ) × (Var → ℝ) => P.sas p.1 p.2 T) (s, a) := by
    unfold Par.sas log10
    exact continuousAt_const.add (continuousAt_const.mul (((D1.cont hyd).log hy0).div_const _))
  have ha : D1 (fun (_ : Fin 6 → ℝ) (a : Var → ℝ) => a .sa) 0 (Pi.single Var.sa 1) s a := D1.coord_a Var.sa
  have htrue : D1 (fun s a => P.flow.h.v s a T .sa) ((-P.bh T) • 0) ((-P.bh T) • Pi.single Var.sa 1) s a := by
    refine D1.congr_ev (ha.smul (-P.bh T)) ?_
    filter_upwards [(D1.cont hyd).eventually_const_lt hy, hs.eventually_lt_const (h1.trans h2),
      (D1.cont ha).eventually_lt_const h2] with p e1 e2 e3
    simp only [Par.flow, Par.hv, abs_of_nonneg (y_nonneg P p.1 p.2 T), gt_iff_lt, if_pos e1, if_pos e2, Par.bi, ge_iff_le]
    rw [if_pos (by linarith)]
    ring
  have hu := (hr.partial_a Var.sa).unique (htrue.partial_a Var.sa)
  simp only [Par.flow, Par.hda, of_apply, abs_of_nonneg (y_nonneg P s a T), gt_iff_lt, if_pos hy,
    if_neg (not_lt.mpr (h1.trans h2).le), if_true, Par.bi, ge_iff_le, if_neg (not_le.mpr (sub_neg.mpr h1)), Pi.smul_apply,
    Pi.single_eq_same, smul_eq_mul] at hu
  exact hb (by linarith)

/-- **C140** the derivative of the static recovery takes the deviator of the backstress where the recovery takes the
backstress: it is wrong for a backstress with a trace. -/
theorem C140_deviatoric_disagreement (P : Par) (s : Fin 6 → ℝ) (a : Var → ℝ) (T : ℝ) (hJ : devVec (X1 a) ≠ 0)
    (ht : tr3 (X1 a) ≠ 0) (hg : P.g1 T ≠ 0) (hm : P.m T ≠ 1) : ¬ P.flow.CorrectAt s a T := by
  intro hc
  obtain ⟨j, hj⟩ : ∃ j, devVec (X1 a) j ≠ 0 := by
    by_contra hn
    push Not at hn
    exact hJ (funext hn)
  have hp := norm2_pos hJ
  have hJp := J2_pos hJ
  have hJ1 : D1 (fun (_ : Fin 6 → ℝ) a => J2 (X1 a)) 0
      (√(3 / 2) • ((devProj * (of fun j => Pi.single (Var.X1 j) 1 : Matrix (Fin 6) Var ℝ))ᵀ *ᵥ
        fun i => devVec (X1 a) i / norm2 (devVec (X1 a)))) s a := by
    have e : (fun (_ : Fin 6 → ℝ) (a : Var → ℝ) => J2 (X1 a)) = fun _ a => √(3 / 2) * norm2 (devVec (X1 a)) := by
      funext _ a
      rw [J2_eq]
    rw [e]
    refine ((norm2_DV (devX_DV X1 Var.X1 (fun _ _ => rfl) s a) hp).smul (√(3 / 2))).congr ?_ rfl
    rw [transpose_zero, zero_mulVec, smul_zero]
  have hrow : ∀ k, (√(3 / 2) • ((devProj * (of fun j => Pi.single (Var.X1 j) 1 : Matrix (Fin 6) Var ℝ))ᵀ *ᵥ
        fun i => devVec (X1 a) i / norm2 (devVec (X1 a)))) (Var.X1 k) = 3 / 2 / J2 (X1 a) * devVec (X1 a) k := by
    intro k
    have hcol : devProjᵀ *ᵥ (fun j => devVec (X1 a) j / norm2 (devVec (X1 a))) =
        fun j => devVec (X1 a) j / norm2 (devVec (X1 a)) := by
      rw [devProj_symm]
      refine devProj_of_tr3 ?_
      have := tr3_devVec (X1 a)
      simp only [tr3] at *
      rw [← add_div, ← add_div, this, zero_div]
    rw [transpose_mul, ← mulVec_mulVec, hcol, J2_eq]
    have h2 := sqrt32_sq
    have hs := sqrt32_pos
    simp only [Pi.smul_apply, smul_eq_mul, mulVec, dotProduct, transpose_apply, of_apply, Pi.single_apply, Var.X1.injEq,
      ite_mul, one_mul, zero_mul, Finset.sum_ite_eq, Finset.mem_univ, if_true]
    field_simp
    linear_combination 2 * devVec (X1 a) k * h2
  have htrue : ∀ i, _ := fun i => ((hJ1.scalar (Real.hasDerivAt_rpow_const (p := P.m T - 1) (Or.inl hJp.ne'))).smul
    (-P.g1 T)).mul (D1.coord_a (Var.X1 i))
  have hu : ∀ i, (X1 a i - devVec (X1 a) i) * (P.m T - 1) * J2 (X1 a) ^ (P.m T - 3) = 0 := by
    intro i
    have hr : D1 (fun (_ : Fin 6 → ℝ) a => -P.g1 T * J2 (X1 a) ^ (P.m T - 1) * a (Var.X1 i)) _ _ s a := hc.h_time (.X1 i)
    have h1 := (hr.partial_a (Var.X1 j)).unique ((htrue i).partial_a (Var.X1 j))
    have e3 : J2 (X1 a) ^ (P.m T - 1 - 1) = J2 (X1 a) ^ (P.m T - 3) * J2 (X1 a) := by
      rw [← Real.rpow_add_one hJp.ne']
      congr 1
      ring
    rw [Pi.add_apply, Pi.smul_apply, Pi.smul_apply, Pi.smul_apply, hrow j] at h1
    simp only [Par.flow, Par.htda, of_apply, Par.dX, Matrix.add_apply, Matrix.smul_apply, vecMulVec_apply, devDeriv_eq,
      smul_eq_mul, e3, Pi.smul_apply, Pi.single_apply, Var.X1.injEq, Matrix.one_apply] at h1
    have hsw : (if j = i then (1 : ℝ) else 0) = if i = j then 1 else 0 := by simp only [eq_comm]
    rw [hsw] at h1
    have h2 : P.g1 T * devVec (X1 a) j * (3 / 2) * ((X1 a i - devVec (X1 a) i) * (P.m T - 1) * J2 (X1 a) ^ (P.m T - 3)) = 0 := by
      have h3 : a (Var.X1 i) = X1 a i := rfl
      rw [h3] at h1
      have h4 : J2 (X1 a) * (3 / 2 / J2 (X1 a) * devVec (X1 a) j) = 3 / 2 * devVec (X1 a) j := by field_simp
      linear_combination h1 - X1 a i * P.g1 T * (P.m T - 1) * J2 (X1 a) ^ (P.m T - 3) * h4
    exact (mul_eq_zero.mp h2).resolve_left (mul_ne_zero (mul_ne_zero hg hj) (by norm_num))
  have h0 := hu 0
  have hpw : J2 (X1 a) ^ (P.m T - 3) ≠ 0 := (Real.rpow_pos_of_pos hJp _).ne'
  have h1 := (mul_eq_zero.mp ((mul_eq_zero.mp h0).resolve_right hpw)).resolve_right (sub_ne_zero.mpr hm)
  refine ht ?_
  have : devVec (X1 a) 0 = X1 a 0 - tr3 (X1 a) / 3 := by
    simp [devVec, tr3]
    try ring
  rw [this] at h1
  linarith

/-- **C140** the direction of flow is guarded against a hydrostatic effective stress, the hardening is not: it divides by
zero there. -/
theorem C140_undefined (s : Fin 6 → ℝ) (a : Var → ℝ) (T : ℝ) :
    (¬ defined s a ↔ devVec (dS s a) = 0) ∧ (¬ defined s a → g.v s a T = 0) := by
  have h : ¬ defined s a ↔ devVec (dS s a) = 0 := by
    rw [defined, not_not, J2_eq_zero]
  refine ⟨h, fun h' => ?_⟩
  rw [g_eq, h.mp h', dirOf, if_pos (norm2_eq_zero.mpr rfl)]

/-- **C140** the first guess of a step (the elastic stress) divides by zero for material as new under any strain that is
elastically hydrostatic, as when it is held at rest. -/
theorem C140_guess_disagreement (C : Matrix (Fin 6) (Fin 6) ℝ) (de : Fin 6 → ℝ) (h : devVec (C *ᵥ de) = 0) :
    ¬ defined (C *ᵥ de + 0) init := by
  rw [(C140_undefined _ _ 0).1]
  have : dS (C *ᵥ de + 0) init = C *ᵥ de := by
    ext i
    simp [dS, X1, X2, init]
  rw [this, h]

/-! ## Concrete cases -/

/-- Simple parameters. -/
noncomputable def simple : Par where
  D _ := 1
  n _ := 1
  a10 _ := 2
  C1 _ := 1
  C2 _ := 1
  a2 _ := 1
  g1 _ := 1
  g2 _ := 1
  m _ := 3
  br _ := 2
  bh _ := 1
  A _ := 1
  B _ := -1
  d _ := 1
  q _ := 1

/-- Uniaxial stress. -/
def uni (x : ℝ) : Fin 6 → ℝ := ![x, 0, 0, 0, 0, 0]

theorem J2_uni (x : ℝ) : J2 (uni x) = |x| := by
  rw [J2, ← Real.sqrt_sq_eq_abs]
  congr 1
  simp [dotProduct, Fin.sum_univ_succ, devVec, tr3, uni]
  ring

/-- A history with only a threshold. -/
def onlySa (x : ℝ) : Var → ℝ
  | .sa => x
  | _ => 0

theorem dS_onlySa (s : Fin 6 → ℝ) (x : ℝ) : dS s (onlySa x) = s := by
  ext i
  simp [dS, X1, X2, onlySa]

theorem simple_over (x z : ℝ) (h : 0 < x) : simple.over (uni x) (onlySa z) 0 = x - z := by
  simp [Par.over, dS_onlySa, J2_uni, abs_of_pos h, onlySa, simple]

theorem simple_y (x z : ℝ) (h : 0 < x) (hz : z < x) : simple.y (uni x) (onlySa z) 0 = x - z := by
  rw [Par.y, simple_over x z h, if_pos (by linarith)]
  simp [simple, abs_of_pos (sub_pos.mpr hz)]

theorem devVec_uni {x : ℝ} (h : 0 < x) : devVec (uni x) ≠ 0 := fun h0 => by
  have := J2_uni x
  rw [J2_eq_zero.mpr h0, abs_of_pos h] at this
  exact h.ne this

/-- Concrete case: unit rate under a stress above the threshold, with the threshold still to rise. -/
example : simple.Smooth (uni (3 / 2)) (onlySa (1 / 2)) 0 ∧ simple.y (uni (3 / 2)) (onlySa (1 / 2)) 0 = 1 := by
  have hy : simple.y (uni (3 / 2)) (onlySa (1 / 2)) 0 = 1 := by
    rw [simple_y _ _ (by norm_num) (by norm_num)]
    norm_num
  have hs : simple.sas (uni (3 / 2)) (onlySa (1 / 2)) 0 = 1 := by
    rw [Par.sas, hy, log10, Real.log_one]
    simp [simple]
  refine ⟨⟨?_, Or.inl ?_, Or.inr ⟨?_, Or.inl ⟨?_, ?_⟩⟩, ?_, ?_, Or.inr ?_⟩, hy⟩
  · rw [dS_onlySa]
    exact devVec_uni (by norm_num)
  · rw [simple_over _ _ (by norm_num)]
    norm_num
  · rw [hy, logTol]
    norm_num
  · rw [hs]
    norm_num
  · rw [hs]
    norm_num [onlySa]
  · simp [tr3, X1, onlySa]
  · simp [tr3, X2, onlySa]
  · simp [simple]

/-- Concrete case of the wrong derivative: a threshold of minus one with a target of minus two. -/
example : ∃ (P : Par) (s : Fin 6 → ℝ) (a : Var → ℝ), ¬ P.flow.CorrectAt s a 0 := by
  let P : Par := { simple with A := fun _ => -2, B := fun _ => 0 }
  have ho : P.over (uni 1) (onlySa (-1)) 0 = 2 := by
    simp [P, Par.over, dS_onlySa, J2_uni, onlySa, simple]
    norm_num
  have hy : P.y (uni 1) (onlySa (-1)) 0 = 2 := by
    rw [Par.y, ho]
    simp [P, simple]
  refine ⟨P, uni 1, onlySa (-1), C140_negative_disagreement P _ _ _ ?_ (Or.inl (by rw [ho]; norm_num)) ?_ ?_ ?_ ?_⟩
  · rw [dS_onlySa]
    exact devVec_uni one_pos
  · rw [hy, logTol]
    norm_num
  · norm_num [P, Par.sas, onlySa]
  · norm_num [onlySa]
  · norm_num [P, simple]

/-- Concrete case of the other: a backstress along one axis, as of a uniaxial test taken for its deviator. -/
example : ∃ s a, ¬ simple.flow.CorrectAt s a 0 :=
  ⟨0, fun v => match v with | .X1 j => uni 1 j | _ => 0, C140_deviatoric_disagreement _ _ _ _
    (devVec_uni one_pos) (by simp [tr3, X1, uni]) (by norm_num [simple]) (by norm_num [simple])⟩

/-- Concrete case: material as new, held at rest. -/
example : ¬ defined (((1 : Matrix (Fin 6) (Fin 6) ℝ) *ᵥ 0) + 0) init :=
  C140_guess_disagreement 1 0 (by ext i; fin_cases i <;> simp [devVec, tr3])

end Neml.Yaguchi
