import Verif.Props.WalkerSoft
import Verif.Props.Creep

/-!
# Internal variables of the Walker model: derivatives (C118)
-/

namespace Neml.Walker

open Matrix Neml.Flow Neml.Mandel Filter Topology

variable {η : Type}

/-- The state of a variable from its stress like arguments `s`, `g` and its others `a`, `adot`, `D`, `h`. -/
def VState.ofArgs (sg : Fin 6 ⊕ Fin 6 → ℝ) (ah : Fin 3 ⊕ η → ℝ) (T : ℝ) : VState η :=
  ⟨fun i => ah (.inr i), ah (.inl 0), ah (.inl 1), ah (.inl 2), fun i => sg (.inl i), fun i => sg (.inr i), T⟩

/-- The stress like arguments of a state. -/
def VState.sg (st : VState η) : Fin 6 ⊕ Fin 6 → ℝ := Sum.elim st.s st.g

/-- The other arguments of a state. -/
def VState.ah (st : VState η) : Fin 3 ⊕ η → ℝ := Sum.elim ![st.a, st.adot, st.D] st.h

/-- Spec: at a state, the six reported derivatives of a rate are its derivatives, jointly in all arguments. -/
def Rate.CorrectAt [Fintype η] (r : Rate η) (st : VState η) : Prop :=
  ∀ i, D1 (fun sg ah => r.v (VState.ofArgs sg ah st.T) i) (Sum.elim (r.ds st i) (r.dg st i))
    (Sum.elim ![r.da st i, r.dadot st i, r.dD st i] (r.dh st i)) st.sg st.ah

variable [Fintype η] [DecidableEq η]

omit [DecidableEq η] in
/-- **C118** variables with no rate. -/
theorem C118_zero (st : VState η) : (Rate.zero : Rate η).CorrectAt st := fun i =>
  (D1.const 0).congr (by ext (j | j) <;> simp [Rate.zero]) (by ext (j | j)
                                                               · fin_cases j <;> simp [Rate.zero]
                                                               · simp [Rate.zero])

/-- **C118** the isotropic hardening rate with plastic strain. -/
theorem C118_iso_p (r0 Rinf R0 r1 r2 : ℝ → ℝ) (st : VState Unit) : (walkerIso r0 Rinf R0 r1 r2).p.CorrectAt st := by
  intro i
  refine (((D1.const (Rinf st.T)).sub (D1.coord_a (Sum.inr ()))).smul (r0 st.T)).congr ?_ ?_
  · ext (j | j) <;> simp [walkerIso]
  · ext (j | j)
    · fin_cases j <;> simp [walkerIso]
    · simp [walkerIso]

/-- The odd power. -/
theorem hasDerivAt_odd_power (p d : ℝ) (h : d ≠ 0 ∨ 0 ≤ p) :
    HasDerivAt (fun d : ℝ => d * |d| ^ p) ((p + 1) * |d| ^ p) d := by
  rcases ne_or_eq d 0 with hd | hd
  · have habs : HasDerivAt (fun d : ℝ => |d|) (SignType.sign d : ℝ) d := hasDerivAt_abs hd
    have h1 := (hasDerivAt_id d).fun_mul (habs.rpow_const (p := p) (Or.inl (abs_ne_zero.mpr hd)))
    refine h1.congr_deriv ?_
    have e : |d| ^ p = |d| ^ (p - 1) * |d| := by
      rw [Real.rpow_sub_one (abs_ne_zero.mpr hd), div_mul_cancel₀ _ (abs_ne_zero.mpr hd)]
    have e2 : d * (SignType.sign d : ℝ) = |d| := by
      rcases lt_or_gt_of_ne hd with h0 | h0
      · simp [sign_neg h0, abs_of_neg h0]
      · simp [sign_pos h0, abs_of_pos h0]
    simp only [id]
    rw [e]
    linear_combination (p * |d| ^ (p - 1)) * e2
  · subst hd
    have hp : 0 ≤ p := h.resolve_left (by simp)
    rcases hp.eq_or_lt with rfl | hp
    · simp only [Real.rpow_zero, mul_one, zero_add]
      exact hasDerivAt_id' 0
    · rw [abs_zero, Real.zero_rpow hp.ne', mul_zero, hasDerivAt_iff_tendsto_slope]
      have hc : ContinuousAt (fun d : ℝ => |d| ^ p) 0 :=
        (continuous_abs.continuousAt).rpow_const (Or.inr hp.le)
      have h2 : Tendsto (fun d : ℝ => |d| ^ p) (𝓝[≠] 0) (𝓝 0) := by
        have := hc.tendsto
        simp only [abs_zero, Real.zero_rpow hp.ne'] at this
        exact this.mono_left nhdsWithin_le_nhds
      refine h2.congr' ?_
      filter_upwards [self_mem_nhdsWithin] with x hx
      simp only [slope, vsub_eq_sub, sub_zero, smul_eq_mul, abs_zero, zero_mul]
      field_simp [show x ≠ 0 from hx]

/-- **C118** the static recovery of isotropic hardening, away from its target or for an exponent of at least one. -/
theorem C118_iso_t (r0 Rinf R0 r1 r2 : ℝ → ℝ) (st : VState Unit) (h : st.h () ≠ R0 st.T ∨ 1 ≤ r2 st.T) :
    (walkerIso r0 Rinf R0 r1 r2).t.CorrectAt st := by
  intro i
  have hd : R0 st.T - st.h () ≠ 0 ∨ 0 ≤ r2 st.T - 1 := by
    rcases h with h | h
    · exact Or.inl (sub_ne_zero.mpr h.symm)
    · exact Or.inr (by linarith)
  have h1 : D1 (fun (_ : Fin 6 ⊕ Fin 6 → ℝ) (ah : Fin 3 ⊕ Unit → ℝ) => R0 st.T - ah (.inr ())) _ _ st.sg st.ah :=
    (D1.const (R0 st.T)).sub (D1.coord_a (Sum.inr ()))
  have h2 := (h1.scalar (hasDerivAt_odd_power (r2 st.T - 1) (R0 st.T - st.h ()) hd)).smul (r1 st.T)
  have e : (fun (sg : Fin 6 ⊕ Fin 6 → ℝ) (ah : Fin 3 ⊕ Unit → ℝ) =>
      (walkerIso r0 Rinf R0 r1 r2).t.v (VState.ofArgs sg ah st.T) i) =
      fun _ ah => r1 st.T * ((R0 st.T - ah (.inr ())) * |R0 st.T - ah (.inr ())| ^ (r2 st.T - 1)) := by
    funext _ ah
    simp only [walkerIso, VState.ofArgs]
    ring
  rw [e]
  refine h2.congr ?_ ?_
  · ext (j | j) <;> simp [walkerIso]
  · ext (j | j)
    · fin_cases j <;> simp [walkerIso]
    · simp [walkerIso]
      ring

/-- **C118** the drag stress rate with plastic strain. -/
theorem C118_drag_p (d0 d1 d2 Dxi : ℝ → ℝ) (D0 : ℝ) (soft : Soft) (chi : ℝ → ℝ) (st : VState Unit) :
    (walkerDrag d0 d1 d2 Dxi D0 soft chi).p.CorrectAt st := by
  intro i
  have h := (((D1.const (s1 := st.sg) (a1 := st.ah) 1).sub
    (((D1.coord_a (Sum.inr ())).sub (D1.const D0)).smul (1 / Dxi st.T))).smul (d0 st.T))
  have e : (fun (sg : Fin 6 ⊕ Fin 6 → ℝ) (ah : Fin 3 ⊕ Unit → ℝ) =>
      (walkerDrag d0 d1 d2 Dxi D0 soft chi).p.v (VState.ofArgs sg ah st.T) i) =
      fun _ ah => d0 st.T * (1 - 1 / Dxi st.T * (ah (.inr ()) - D0)) := by
    funext _ ah
    simp only [walkerDrag, VState.ofArgs]
    ring
  rw [e]
  refine h.congr ?_ ?_
  · ext (j | j) <;> simp [walkerDrag]
  · ext (j | j)
    · fin_cases j <;> simp [walkerDrag]
    · simp [walkerDrag]
      ring

/-- **C118** the static recovery of the drag stress above its initial value. -/
theorem C118_drag_t (d0 d1 d2 Dxi : ℝ → ℝ) (D0 : ℝ) (soft : Soft) (chi : ℝ → ℝ) (st : VState Unit)
    (h : D0 < st.h ()) (hs : soft.CorrectAt st.a st.T) : (walkerDrag d0 d1 d2 Dxi D0 soft chi).t.CorrectAt st := by
  intro i
  have hx : D1 (fun (_ : Fin 6 ⊕ Fin 6 → ℝ) (ah : Fin 3 ⊕ Unit → ℝ) => ah (.inr ()) - D0) _ _ st.sg st.ah :=
    (D1.coord_a (Sum.inr ())).sub (D1.const D0)
  have hpos : 0 < st.h () - D0 := sub_pos.mpr h
  have hA := (D1.coord_a (s1 := st.sg) (a1 := st.ah) (Sum.inl 0)).scalar (φ := fun a => soft.phi a st.T) hs
  have hB := hx.scalar (φ := fun x => x ^ d2 st.T) (Real.hasDerivAt_rpow_const (Or.inl hpos.ne'))
  have hC := (hA.mul hB).smul (-chi st.T * d1 st.T)
  refine (hx.congr_near (show 0 < st.ah (.inr ()) - D0 from hpos) (fun sg ah hp => ?_) hC).congr ?_ ?_
  · simp only [walkerDrag, VState.ofArgs, if_neg (not_le.mpr hp)]
    ring
  · ext (j | j) <;> simp [walkerDrag]
  · have e0 : st.ah (.inl 0) = st.a := rfl
    have e1 : st.ah (.inr ()) = st.h () := rfl
    ext (j | j)
    · fin_cases j
      · simp [walkerDrag, not_le.mpr h, e0, e1]
        ring
      · simp [walkerDrag]
      · simp [walkerDrag]
    · simp [walkerDrag, not_le.mpr h, e0, e1]
      ring

/-- **C118** (disagreement) at and below its initial value the static recovery of the drag stress is zero, but the
reported derivatives are one. -/
theorem C118_drag_t_initial (d0 d1 d2 Dxi : ℝ → ℝ) (D0 : ℝ) (soft : Soft) (chi : ℝ → ℝ) (st : VState Unit)
    (h : st.h () ≤ D0) :
    (walkerDrag d0 d1 d2 Dxi D0 soft chi).t.v st () = 0 ∧ ¬ (walkerDrag d0 d1 d2 Dxi D0 soft chi).t.CorrectAt st := by
  refine ⟨by simp [walkerDrag, h], fun hc => ?_⟩
  have h1 := ((hc ()).partial_a (Sum.inr ())).hasDerivWithinAt (s := Set.Iic (st.ah (.inr ())))
  have e1 : st.ah (.inr ()) = st.h () := rfl
  have h2 : HasDerivWithinAt (fun t => (walkerDrag d0 d1 d2 Dxi D0 soft chi).t.v
      (VState.ofArgs st.sg (Function.update st.ah (Sum.inr ()) t) st.T) ()) 0 (Set.Iic (st.ah (.inr ())))
      (st.ah (.inr ())) := by
    refine (hasDerivWithinAt_const _ _ (0 : ℝ)).congr (fun x hx => ?_) ?_
    · have : x ≤ D0 := le_trans hx h
      simp [walkerDrag, VState.ofArgs, this]
    · simp [walkerDrag, VState.ofArgs, e1, h]
  have h3 := (uniqueDiffWithinAt_Iic _).eq_deriv _ h1 h2
  simp [walkerDrag, h] at h3

/-- **C118** Frederick-Armstrong hardening. -/
theorem C118_fa (c g : ℝ → ℝ) (st : VState (Fin 6)) : (faKin c g).p.CorrectAt st ∧ (faKin c g).t.CorrectAt st := by
  refine ⟨fun i => ?_, C118_zero st⟩
  refine (((D1.coord_s (Sum.inr i)).smul (2 / 3 * c st.T)).sub ((D1.coord_a (Sum.inr i)).smul (g st.T))).congr ?_ ?_
  · ext (j | j)
    · simp [faKin]
    · simp [faKin, Pi.single_apply, Matrix.one_apply, eq_comm]
  · ext (j | j)
    · fin_cases j <;> simp [faKin]
    · simp [faKin, Pi.single_apply, Matrix.one_apply, eq_comm]

/-! ## Walker kinematic hardening -/

theorem sqrt32_sq : √(3 / 2 : ℝ) * √(3 / 2) = 3 / 2 := Real.mul_self_sqrt (by norm_num)

theorem sqrt32_pos : 0 < √(3 / 2 : ℝ) := Real.sqrt_pos.mpr (by norm_num)

theorem norm2_pos {v : Fin 6 → ℝ} (h : v ≠ 0) : 0 < norm2 v := by
  refine lt_of_le_of_ne (norm2_nonneg _) (Ne.symm fun h0 => h ?_)
  have := norm2_sq v
  rw [h0, mul_zero] at this
  have h2 := (Finset.sum_eq_zero_iff_of_nonneg fun i _ => mul_self_nonneg (v i)).mp this.symm
  exact funext fun i => mul_self_eq_zero.mp (h2 i (Finset.mem_univ i))

theorem norm2_eq_zero {v : Fin 6 → ℝ} : norm2 v = 0 ↔ v = 0 :=
  ⟨fun h => by_contra fun hv => (norm2_pos hv).ne' h, fun h => by simp [h, norm2]⟩

theorem dirOf_of_ne {d : Fin 6 → ℝ} (h : d ≠ 0) : dirOf d = fun i => √(3 / 2) * d i / norm2 d := by
  have hp := norm2_pos h
  have h2 := sqrt32_pos
  rw [dirOf, if_neg hp.ne']
  ext i
  field_simp
  rw [pow_two, sqrt32_sq]
  ring

theorem dDirOf_of_ne {d : Fin 6 → ℝ} (h : d ≠ 0) : dDirOf d =
    (√(3 / 2) / norm2 d) • (1 - vecMulVec (fun i => d i / norm2 d) (fun i => d i / norm2 d)) := by
  rw [dDirOf, if_neg (norm2_pos h).ne']

theorem dDirOf_symm (d : Fin 6 → ℝ) : (dDirOf d)ᵀ = dDirOf d := by
  unfold dDirOf
  split_ifs
  · simp
  · simp [transpose_vecMulVec]

section
variable {ι κ : Type} [Fintype ι] [DecidableEq ι] [Fintype κ] [DecidableEq κ]

/-- The flow direction has the reported derivative. -/
theorem dirOf_DV {F : (ι → ℝ) → (κ → ℝ) → Fin 6 → ℝ} {Fs : Matrix (Fin 6) ι ℝ} {Fa : Matrix (Fin 6) κ ℝ}
    {s : ι → ℝ} {a : κ → ℝ} (h : DV F Fs Fa s a) (h0 : F s a ≠ 0) :
    DV (fun s a => dirOf (F s a)) (dDirOf (F s a) * Fs) (dDirOf (F s a) * Fa) s a := by
  intro i
  have hp := norm2_pos h0
  have hn := norm2_DV h hp
  have hq := ((h i).smul (√(3 / 2))).div hn hp.ne'
  refine (hn.congr_near hp (fun s a hsa => ?_) hq).congr ?_ ?_
  · beta_reduce
    rw [dirOf_of_ne (fun h0 => by rw [h0] at hsa; simp [norm2] at hsa)]
  all_goals
    ext j
    rw [dDirOf_of_ne h0, smul_mul, Matrix.sub_mul, Matrix.one_mul]
    simp only [Pi.sub_apply, Pi.smul_apply, smul_eq_mul, Matrix.smul_apply, Matrix.sub_apply]
    rw [vecMulVec_mul, vecMulVec_apply, mulVec_transpose]
    field_simp

end

/-- The recovery direction commutes with the deviator for a deviatoric argument. -/
theorem dDir_dev_symm {d h : Fin 6 → ℝ} (hd : tr3 d = 0) (hh : tr3 h = 0) :
    h ᵥ* (dDirOf d * devProj) = (dDirOf d * devProj) *ᵥ h := by
  have key : devProj *ᵥ (dDirOf d *ᵥ h) = dDirOf d *ᵥ h := by
    apply devProj_of_tr3
    unfold dDirOf
    split_ifs with h0
    · simpa using hh
    · rw [smul_mulVec, sub_mulVec, one_mulVec, vecMulVec_mulVec]
      simp only [tr3, Pi.smul_apply, Pi.sub_apply, smul_eq_mul, MulOpposite.smul_eq_mul_unop, MulOpposite.unop_op] at *
      linear_combination (√(3 / 2) / norm2 d) * hh -
        (√(3 / 2) / norm2 d) * ((fun i => d i / norm2 d) ⬝ᵥ h) / norm2 d * hd
  rw [← mulVec_transpose, transpose_mul, devProj_symm, dDirOf_symm, ← mulVec_mulVec, key, ← mulVec_mulVec,
    devProj_of_tr3 hh]

theorem dc_deriv (k : KinPar) (T : ℝ) {adot : ℝ} (h : 0 < adot) :
    HasDerivAt (fun x => k.c x T) (k.dc adot T) adot := by
  have e : (fun x => k.c x T) =ᶠ[𝓝 adot] fun x => k.c0 T + k.c1 T * x ^ (1 / k.c2 T) := by
    filter_upwards [lt_mem_nhds h] with x hx
    simp [KinPar.c, not_le.mpr hx]
  refine HasDerivAt.congr_of_eventuallyEq ?_ e
  refine (((Real.hasDerivAt_rpow_const (p := 1 / k.c2 T) (Or.inl h.ne')).const_mul (k.c1 T)).const_add _).congr_deriv ?_
  simp only [KinPar.dc, not_le.mpr h, if_false]
  ring

theorem dL_deriv (k : KinPar) (T : ℝ) {a : ℝ} (h : 0 < a) : HasDerivAt (fun x => k.L x T) (k.dL a T) a := by
  have e : (fun x => k.L x T) =ᶠ[𝓝 a] fun x => k.l T * (k.l1 T + (1 - k.l1 T) * Real.exp (-k.l0 T * x)) := by
    filter_upwards [lt_mem_nhds h] with x hx
    simp [KinPar.L, not_le.mpr hx]
  refine HasDerivAt.congr_of_eventuallyEq ?_ e
  refine (((((hasDerivAt_id a).const_mul (-k.l0 T)).exp).const_mul (1 - k.l1 T)).const_add (k.l1 T)
    |>.const_mul (k.l T)).congr_deriv ?_
  simp only [KinPar.dL, not_le.mpr h, if_false, id]
  ring

/-- The recovery term has the reported derivatives, for a deviatoric backstress. -/
theorem b_DV (k : KinPar) (st : VState (Fin 6)) (h0 : effOne st ≠ 0) (hh : tr3 st.h = 0) :
    DV (fun sg ah => k.b (VState.ofArgs sg ah st.T)) (of fun i => Sum.elim (k.dbds st i) 0)
      (of fun i => Sum.elim 0 (k.dbdx st i)) st.sg st.ah := by
  have hd : tr3 (effOne st) = 0 := by
    have := tr3_devVec st.s
    simp only [tr3, effOne, Pi.sub_apply] at *
    linarith
  have hdev : DV (fun (sg : Fin 6 ⊕ Fin 6 → ℝ) (_ : Fin 3 ⊕ Fin 6 → ℝ) => devVec fun i => sg (.inl i))
      (of fun i => Sum.elim (devProj i) 0) 0 st.sg st.ah := by
    intro i
    have h1 : D1 (fun (sg : Fin 6 ⊕ Fin 6 → ℝ) (_ : Fin 3 ⊕ Fin 6 → ℝ) => ∑ j, devProj i j * sg (.inl j)) _ _
        st.sg st.ah := D1.sum Finset.univ fun j _ => (D1.coord_s (Sum.inl j)).smul (devProj i j)
    have e : (fun (sg : Fin 6 ⊕ Fin 6 → ℝ) (_ : Fin 3 ⊕ Fin 6 → ℝ) => devVec (fun i => sg (.inl i)) i) =
        fun sg _ => ∑ j, devProj i j * sg (.inl j) := by
      funext sg _
      rw [devVec_eq]
      rfl
    rw [e]
    refine h1.congr ?_ (by simp only [smul_zero, Finset.sum_const_zero]; rfl)
    ext (j | j) <;> simp [Finset.sum_apply, Pi.single_apply]
  have hF : DV (fun (sg : Fin 6 ⊕ Fin 6 → ℝ) (ah : Fin 3 ⊕ Fin 6 → ℝ) => effOne (VState.ofArgs sg ah st.T))
      (of fun i => Sum.elim (devProj i) 0) (of fun i => Sum.elim 0 (-(1 : Matrix (Fin 6) (Fin 6) ℝ) i)) st.sg st.ah := by
    intro i
    refine ((hdev i).sub (D1.coord_a (Sum.inr i))).congr ?_ ?_
    · simp
    · ext (j | j) <;> simp [Pi.single_apply, Matrix.one_apply, eq_comm]
  have hn := dirOf_DV hF h0
  have hh' : ∀ i, D1 (fun (_ : Fin 6 ⊕ Fin 6 → ℝ) (ah : Fin 3 ⊕ Fin 6 → ℝ) => ah (.inr i)) _ _ st.sg st.ah :=
    fun i => D1.coord_a (Sum.inr i)
  have hdot := D1.sum Finset.univ (f := fun j sg ah => dirOf (effOne (VState.ofArgs sg ah st.T)) j * ah (.inr j))
    fun j _ => (hn j).mul (hh' j)
  intro i
  have hb := ((hh' i).smul (1 - k.b0 st.T)).add (((hn i).mul hdot).smul (2 / 3 * k.b0 st.T))
  have e : (fun (sg : Fin 6 ⊕ Fin 6 → ℝ) (ah : Fin 3 ⊕ Fin 6 → ℝ) => k.b (VState.ofArgs sg ah st.T) i) =
      fun sg ah => (1 - k.b0 st.T) * ah (.inr i) + 2 / 3 * k.b0 st.T *
        (dirOf (effOne (VState.ofArgs sg ah st.T)) i *
          ∑ j, dirOf (effOne (VState.ofArgs sg ah st.T)) j * ah (.inr j)) := by
    funext sg ah
    simp only [KinPar.b, vecMulVec_mulVec, Pi.add_apply, Pi.smul_apply, smul_eq_mul,
      MulOpposite.smul_eq_mul_unop, MulOpposite.unop_op]
    rfl
  rw [e]
  have est : VState.ofArgs st.sg st.ah st.T = st := rfl
  have eh : ∀ j, st.ah (.inr j) = st.h j := fun _ => rfl
  refine hb.congr ?_ ?_
  · ext (j | j)
    · have hs := congrFun (dDir_dev_symm hd hh) j
      simp only [vecMul, dotProduct] at hs
      simp only [Pi.add_apply, Pi.smul_apply, smul_eq_mul, Finset.sum_apply, Pi.zero_apply, mul_zero, zero_add,
        add_zero, of_apply, Sum.elim_inl, est, eh, Matrix.mul_apply] at *
      simp only [KinPar.dbds, Matrix.smul_apply, Matrix.add_apply, vecMulVec_apply, smul_eq_mul, Matrix.mul_apply,
        ← hs, dotProduct]

    · simp [Matrix.mul_apply]
  · ext (j | j)
    · simp [Matrix.mul_apply]
    · have hs : ∀ j, ∑ x, st.h x * dDirOf (effOne st) x j = (dDirOf (effOne st) *ᵥ st.h) j := by
        intro j
        rw [← vecMul_transpose, dDirOf_symm]
        rfl
      simp only [Pi.add_apply, Pi.smul_apply, smul_eq_mul, Finset.sum_apply, Pi.single_apply, Sum.inr.injEq,
        of_apply, Sum.elim_inr, est, eh, Matrix.mul_apply, KinPar.dbdx, Matrix.sub_apply, Matrix.add_apply,
        Matrix.smul_apply, vecMulVec_apply, ← hs, Matrix.one_apply, dotProduct, Matrix.neg_apply, mul_neg, mul_ite,
        mul_one, mul_zero, Finset.sum_neg_distrib, Finset.sum_ite_eq, Finset.mem_univ, if_true, Finset.sum_add_distrib,
        Pi.neg_apply, Finset.sum_ite_eq']
      by_cases hij : i = j
      · subst hij; simp; ring
      · have hji : ¬ j = i := fun h => hij h.symm
        simp [hij, hji]; ring

/-- **C118** the Walker backstress rate with plastic strain, for positive plastic strain and rate, a deviatoric
backstress, and a stress deviator different from it. -/
theorem C118_kin_p (k : KinPar) (soft : Soft) (chi : ℝ → ℝ) (st : VState (Fin 6)) (ha : 0 < st.a) (hr : 0 < st.adot)
    (hL : k.L st.a st.T ≠ 0) (h0 : effOne st ≠ 0) (hh : tr3 st.h = 0) : (walkerKin k soft chi).p.CorrectAt st := by
  intro i
  have hb := b_DV k st h0 hh i
  have hc := (D1.coord_a (s1 := st.sg) (a1 := st.ah) (Sum.inl 1)).scalar (φ := fun x => k.c x st.T) (dc_deriv k st.T hr)
  have hl := (D1.coord_a (s1 := st.sg) (a1 := st.ah) (Sum.inl 0)).scalar (φ := fun x => k.L x st.T) (dL_deriv k st.T ha)
  have hg := D1.coord_s (s1 := st.sg) (a1 := st.ah) (Sum.inr i)
  have H := hc.mul ((hg.smul (2 / 3)).sub (hb.div hl hL))
  have e : (fun (sg : Fin 6 ⊕ Fin 6 → ℝ) (ah : Fin 3 ⊕ Fin 6 → ℝ) =>
      (walkerKin k soft chi).p.v (VState.ofArgs sg ah st.T) i) = fun sg ah =>
      k.c (ah (.inl 1)) st.T * (2 / 3 * sg (.inr i) - k.b (VState.ofArgs sg ah st.T) i / k.L (ah (.inl 0)) st.T) := by
    funext sg ah
    simp only [walkerKin, Pi.smul_apply, Pi.sub_apply, smul_eq_mul, VState.ofArgs]
    ring
  rw [e]
  have est : VState.ofArgs st.sg st.ah st.T = st := rfl
  have e0 : st.ah (.inl 0) = st.a := rfl
  have e1 : st.ah (.inl 1) = st.adot := rfl
  have e2 : st.sg (.inr i) = st.g i := rfl
  refine H.congr ?_ ?_
  · ext (j | j)
    · simp [walkerKin, est, e0, e1, e2]
      ring
    · simp only [walkerKin, e1, Pi.single_apply, Matrix.one_apply, Pi.add_apply, Pi.sub_apply, Pi.smul_apply, smul_eq_mul,
        Pi.zero_apply, of_apply, Sum.elim_inr, Matrix.smul_apply, Sum.inr.injEq, mul_zero, sub_zero, zero_add]
      by_cases hij : i = j
      · subst hij; simp only [if_true]; ring
      · have hji : ¬ j = i := fun h => hij h.symm
        simp only [hij, hji, if_false]; ring
  · ext (j | j)
    · fin_cases j
      · simp [walkerKin, est, e0, e1, e2]
        field_simp
      · simp [walkerKin, est, e0, e1, e2]
        ring
      · simp [walkerKin]
    · simp [walkerKin, est, e0, e1, e2]
      ring

/-- **C118** the static recovery of the Walker backstress, for a nonzero backstress and positive drag stress. -/
theorem C118_kin_t (k : KinPar) (soft : Soft) (chi : ℝ → ℝ) (st : VState (Fin 6)) (h0 : st.h ≠ 0) (hD : 0 < st.D)
    (hs : soft.CorrectAt st.a st.T) : (walkerKin k soft chi).t.CorrectAt st := by
  intro i
  have hp := norm2_pos h0
  have h32 := sqrt32_pos
  have hF : DV (fun (_ : Fin 6 ⊕ Fin 6 → ℝ) (ah : Fin 3 ⊕ Fin 6 → ℝ) j => ah (.inr j)) 0
      (of fun i => Pi.single (Sum.inr i) 1) st.sg st.ah := fun j => D1.coord_a (Sum.inr j)
  have hn := norm2_DV (s1 := st.sg) (a1 := st.ah) hF hp
  have hd := D1.coord_a (s1 := st.sg) (a1 := st.ah) (Sum.inl 2)
  have hphi := (D1.coord_a (s1 := st.sg) (a1 := st.ah) (Sum.inl 0)).scalar (φ := fun a => soft.phi a st.T) hs
  have hq := (hn.smul (√(3 / 2))).div hd hD.ne'
  have hqp : 0 < √(3 / 2) * norm2 st.h / st.D := div_pos (mul_pos h32 hp) hD
  have hpow := hq.scalar (φ := fun x => x ^ k.x1 st.T) (Real.hasDerivAt_rpow_const (Or.inl hqp.ne'))
  have hdir := (hF i).div (hn.mul (D1.const (√(3 / 2)))) (mul_pos hp h32).ne'
  have H := ((hphi.mul hpow).mul hdir).smul (-chi st.T * k.x0 st.T)
  refine ((hn.mul hd).congr_near (mul_pos hp hD) (fun sg ah hpp => ?_) H).congr ?_ ?_
  · have hn0 := norm2_nonneg (fun j => ah (.inr j))
    have hc : ¬ (norm2 (fun j => ah (.inr j)) = 0 ∨ ah (.inl 2) ≤ 0) := by
      rintro (h | h)
      · rw [h, zero_mul] at hpp; exact lt_irrefl _ hpp
      · exact absurd hpp (not_lt.mpr (mul_nonpos_of_nonneg_of_nonpos hn0 h))
    simp only [walkerKin, VState.ofArgs, if_neg hc, Pi.smul_apply, smul_eq_mul]
    ring
  · have hc : ¬ (norm2 st.h = 0 ∨ st.D ≤ 0) := by
      rintro (h | h)
      · exact hp.ne' h
      · exact absurd hD (not_lt.mpr h)
    ext (j | j) <;> simp [walkerKin]
  · have hc : ¬ (norm2 st.h = 0 ∨ st.D ≤ 0) := by
      rintro (h | h)
      · exact hp.ne' h
      · exact absurd hD (not_lt.mpr h)
    have e0 : st.ah (.inl 0) = st.a := rfl
    have e2 : st.ah (.inl 2) = st.D := rfl
    have e3 : ∀ j, st.ah (.inr j) = st.h j := fun _ => rfl
    have e4 : (fun j => st.ah (.inr j)) = st.h := rfl
    have hpw : (√(3 / 2) * norm2 st.h / st.D) ^ k.x1 st.T =
        (√(3 / 2) * norm2 st.h / st.D) ^ (k.x1 st.T - 1) * (√(3 / 2) * norm2 st.h / st.D) := by
      rw [Real.rpow_sub_one hqp.ne', div_mul_cancel₀ _ hqp.ne']
    ext (j | j)
    · fin_cases j
      · simp [walkerKin, hc, e0, e2, e3, e4, mulVec, dotProduct]
        ring
      · simp [walkerKin, mulVec, dotProduct]
      · simp [walkerKin, hc, e0, e2, e3, e4, mulVec, dotProduct]
        field_simp
    · have hm : (((of fun i => Pi.single (Sum.inr i) 1) : Matrix (Fin 6) (Fin 3 ⊕ Fin 6) ℝ)ᵀ *ᵥ
          fun i => st.h i / norm2 st.h) (.inr j) = st.h j / norm2 st.h := by
        simp [mulVec, dotProduct, Pi.single_apply]
      simp only [walkerKin, if_neg hc, e0, e2, e3, e4, Pi.smul_apply, Pi.add_apply, Pi.sub_apply, smul_eq_mul, hm,
        Sum.elim_inr, Matrix.smul_apply, Matrix.add_apply, Matrix.sub_apply, vecMulVec_apply, Matrix.one_apply,
        Pi.single_apply, Pi.zero_apply, of_apply, reduceCtorEq, if_false, Sum.inr.injEq, mul_zero, add_zero, zero_add,
        sub_zero, hpw]
      by_cases hij : i = j
      · subst hij
        simp only [if_true]
        field_simp
      · have hji : ¬ j = i := fun h => hij h.symm
        simp only [hij, hji, if_false]
        field_simp

/-- **C118** (disagreement) the saturation value of the backstress jumps: at zero plastic strain, where every material
starts, it is `l1 + 1`, but immediately after it is near `l`. -/
theorem C118_saturation_jump (k : KinPar) (T : ℝ) :
    k.L 0 T = k.l1 T + 1 ∧ Tendsto (fun a => k.L a T) (𝓝[>] 0) (𝓝 (k.l T)) ∧
    (k.l T ≠ k.l1 T + 1 → ¬ ContinuousAt (fun a => k.L a T) 0) := by
  have h0 : k.L 0 T = k.l1 T + 1 := by simp [KinPar.L]
  have h1 : Tendsto (fun a => k.L a T) (𝓝[>] 0) (𝓝 (k.l T)) := by
    have hc : Continuous fun a : ℝ => k.l T * (k.l1 T + (1 - k.l1 T) * Real.exp (-k.l0 T * a)) := by fun_prop
    have h2 := hc.continuousAt (x := 0).tendsto
    simp only [mul_zero, Real.exp_zero, mul_one, add_sub_cancel] at h2
    refine (h2.mono_left nhdsWithin_le_nhds).congr' ?_
    filter_upwards [self_mem_nhdsWithin] with x hx
    simp [KinPar.L, not_le.mpr (show 0 < x from hx)]
  refine ⟨h0, h1, fun hne hc => hne ?_⟩
  have h2 := hc.tendsto.mono_left (nhdsWithin_le_nhds (s := Set.Ioi 0))
  rw [h0] at h2
  exact tendsto_nhds_unique h1 h2

/-- Concrete case for C118: a state at which all of the hypotheses hold. -/
example :
    let st : VState (Fin 6) := ⟨![0, 0, 0, 1, 0, 0], 1, 1, 2, ![0, 0, 0, 3, 0, 0], 0, 0⟩
    let one : ℝ → ℝ := fun _ => 1
    let k : KinPar := ⟨one, one, one, one, one, one, one, one, one⟩
    (walkerKin k noSoft one).p.CorrectAt st ∧ (walkerKin k noSoft one).t.CorrectAt st := by
  intro st one k
  have hh : st.h ≠ 0 := fun h => by simpa [st] using congrFun h 3
  refine ⟨C118_kin_p k _ _ st one_pos one_pos (by norm_num [KinPar.L, st, k, one])
    (fun h => ?_) (by simp [tr3, st]), C118_kin_t k _ _ st hh two_pos (noSoft_correct _ _)⟩
  have := congrFun h 3
  simp [effOne, st, devVec] at this
  norm_num at this

end Neml.Walker
