import Verif.Props.Surface
import Verif.Props.SubstepTangent

/-!
# Properties of the flow rules (C39, C40, C81)

`RIFlow.DiffAt`, `Visco.CorrectAt` and `GenFlow.DiffAt` say that every derivative function of a flow
rule is the derivative of the function it belongs to, at one point.
-/

namespace Neml.Flow

open Matrix Neml.SmallStrain Neml.Mandel Neml.Substep

variable {ι κ μ : Type} [Fintype ι] [DecidableEq ι] [Fintype κ] [DecidableEq κ] [Fintype μ]
  [DecidableEq μ]

/-! ## Rate independent rules -/

/-- Every derivative function of a rate independent rule is right at a point. -/
structure RIFlow.DiffAt (fl : RIFlow ℝ ι κ) (s : ι → ℝ) (a : κ → ℝ) (T : ℝ) : Prop where
  f : D1 (fun s a => fl.f s a T) (fl.df_ds s a T) (fl.df_da s a T) s a
  g : DV (fun s a => fl.g s a T) (fl.dg_ds s a T) (fl.dg_da s a T) s a
  h : DV (fun s a => fl.h s a T) (fl.dh_ds s a T) (fl.dh_da s a T) s a

/-- What the Jacobian theorem C74 needs follows. -/
theorem RIFlow.DiffAt.correctAt {fl : RIFlow ℝ ι κ} {s : ι → ℝ} {a : κ → ℝ} {T : ℝ}
    (h : RIFlow.DiffAt fl s a T) : fl.CorrectAt s a T :=
  ⟨fun j => h.f.partial_s j, fun j => h.f.partial_a j, fun i j => (h.g i).partial_s j,
    fun i j => (h.g i).partial_a j, fun i j => (h.h i).partial_s j, fun i j => (h.h i).partial_a j⟩

omit [DecidableEq ι] [DecidableEq κ] in
/-- **C81** associative flow: right derivatives of surface and hardening rule give right derivatives of
the flow rule. -/
theorem C81_associative {sf : Surface ι κ} {hd : Hardening κ κ} {s : ι → ℝ} {a : κ → ℝ} {T : ℝ}
    (hs : sf.CorrectAt s (hd.q a T) T) (hh : hd.CorrectAt a T) :
    RIFlow.DiffAt (associative sf hd) s a T :=
  ⟨D1.hist hh hs.f, DV.hist hh hs.df_ds, DV.hist hh hs.df_dq⟩

omit [DecidableEq ι] [DecidableEq κ] [DecidableEq μ] in
/-- **C81** non associative hardening: the same, with the derivatives of the hardening rates. -/
theorem C81_nonAssociative {sf : Surface ι μ} {hd : NonAssoc ι κ μ} {s : ι → ℝ} {a : κ → ℝ} {T : ℝ}
    (hs : sf.CorrectAt s (hd.q a T) T) (hh : hd.toHardening.CorrectAt a T)
    (hr : hd.h.CorrectAt s a T) : RIFlow.DiffAt (nonAssociative sf hd) s a T :=
  ⟨D1.hist hh hs.f, DV.hist hh hs.df_ds, hr⟩

/-! ## Viscoplastic rules -/

/-- **C81** the power law has the right derivative at positive overstress. -/
theorem C81_gPowerLaw (n eta : ℝ → ℝ) (T : ℝ) {f : ℝ} (hf : 0 < f) (he : eta T ≠ 0) :
    HasDerivAt (fun f => (gPowerLaw n eta).g f T) ((gPowerLaw n eta).dg f T) f := by
  have h := ((hasDerivAt_id f).div_const (eta T)).rpow_const (p := n T)
    (Or.inl (div_ne_zero hf.ne' he))
  refine h.congr_deriv ?_
  simp only [gPowerLaw, id]
  ring

omit [DecidableEq ι] [DecidableEq κ] in
/-- **C81** Perzyna flow, away from the surface itself. -/
theorem C81_perzyna {sf : Surface ι κ} {hd : Hardening κ κ} {gf : GFlow} {s : ι → ℝ} {a : κ → ℝ}
    {T : ℝ} (hs : sf.CorrectAt s (hd.q a T) T) (hh : hd.CorrectAt a T)
    (hf : sf.f s (hd.q a T) T ≠ 0)
    (hg : 0 < sf.f s (hd.q a T) T → HasDerivAt (fun x => gf.g x T)
      (gf.dg (sf.f s (hd.q a T) T) T) (sf.f s (hd.q a T) T)) :
    (perzyna sf hd gf).CorrectAt s a T := by
  have hF := D1.hist hh hs.f
  refine ⟨?_, DV.hist hh hs.df_ds, Part.zero_correct _ _ _, Part.zero_correct _ _ _,
    DV.hist hh hs.df_dq, Part.zero_correct _ _ _, Part.zero_correct _ _ _⟩
  rcases lt_or_gt_of_ne hf with hn | hp
  · refine (D1.congr_near (p := fun s a => -1 * sf.f s (hd.q a T) T) (hF.smul (-1)) (by linarith)
      (fun s a h => ?_) (D1.const 0)).congr ?_ ?_
    · simp only [perzyna, if_neg (show ¬ sf.f s (hd.q a T) T > 0 by linarith)]
    · simp [perzyna, hn.le]
    · simp [perzyna, hn.le]
  · refine (D1.congr_near hF hp (fun s a h => ?_) (hF.scalar (hg hp))).congr ?_ ?_
    · simp only [perzyna, gt_iff_lt, if_pos h, abs_of_pos h]
    · ext i
      simp [perzyna, hp, abs_of_pos hp, mul_comm]
    · ext i
      simp [perzyna, hp, abs_of_pos hp, mul_comm]

omit [DecidableEq ι] [DecidableEq μ] in
/-- **C81** linear viscous flow. -/
theorem C81_linearViscous {sf : Surface ι μ} {eta : ℝ → ℝ} {s : ι → ℝ} (a : Empty → ℝ) {T : ℝ}
    (hs : sf.CorrectAt s 0 T) : (linearViscous sf eta).CorrectAt s a T := by
  have hq : DH (fun _ : Empty → ℝ => (0 : μ → ℝ)) 0 a := fun i => D1.const 0
  have hy : (fun (s : ι → ℝ) (a : Empty → ℝ) => (linearViscous sf eta).y s a T) =
      fun s _ => 3 / 2 / eta T * sf.f s 0 T := by
    funext s a
    simp only [linearViscous]
    ring
  refine ⟨?_, fun i => (D1.hist hq (hs.df_ds i)).congr rfl (Subsingleton.elim _ _),
    Part.zero_correct _ _ _, Part.zero_correct _ _ _, Part.zero_correct _ _ _,
    Part.zero_correct _ _ _, Part.zero_correct _ _ _⟩
  rw [hy]
  refine ((D1.hist hq hs.f).smul (3 / 2 / eta T)).congr ?_ (Subsingleton.elim _ _)
  ext i
  simp only [linearViscous, Pi.smul_apply, smul_eq_mul]
  ring

/-- A fluidity with the right derivative at a history value. -/
def Fluidity.CorrectAt (fl : Fluidity) (a T : ℝ) : Prop :=
  HasDerivAt (fun a => fl.eta a T) (fl.deta a T) a

/-- **C81** both fluidities have the right derivative everywhere. -/
theorem C81_fluidity (eta K0 A b : ℝ → ℝ) (a T : ℝ) :
    (constantFluidity eta).CorrectAt a T ∧ (saturatingFluidity K0 A b).CorrectAt a T := by
  refine ⟨hasDerivAt_const _ _, ?_⟩
  have h := (((((hasDerivAt_id a).const_mul (-b T)).exp).const_sub 1).const_mul (A T)).const_add (K0 T)
  refine h.congr_deriv ?_
  simp only [saturatingFluidity, id]
  ring

omit [DecidableEq ι] [DecidableEq μ] in
/-- **C81** Chaboche flow, away from the surface itself. -/
theorem C81_chabocheFlow {sf : Surface ι μ} {hd : NonAssoc ι κ μ} {fl : Fluidity} {n pre : ℝ → ℝ}
    {first : κ} {s : ι → ℝ} {a : κ → ℝ} {T : ℝ} (hs : sf.CorrectAt s (hd.q a T) T)
    (hh : hd.toHardening.CorrectAt a T) (hr : hd.h.CorrectAt s a T) (ht : hd.h_time.CorrectAt s a T)
    (hT : hd.h_temp.CorrectAt s a T) (hfl : fl.CorrectAt (a first) T) (he : fl.eta (a first) T ≠ 0)
    (hf : sf.f s (hd.q a T) T ≠ 0) : (chabocheFlow sf hd fl n pre first).CorrectAt s a T := by
  have hF := D1.hist hh hs.f
  refine ⟨?_, DV.hist hh hs.df_ds, Part.zero_correct _ _ _, Part.zero_correct _ _ _, hr, ht, hT⟩
  rcases lt_or_gt_of_ne hf with hn | hp
  · refine (D1.congr_near (p := fun s a => -1 * sf.f s (hd.q a T) T) (hF.smul (-1)) (by linarith)
      (fun s a h => ?_) (D1.const 0)).congr ?_ ?_
    · simp only [chabocheFlow, if_neg (show ¬ sf.f s (hd.q a T) T > 0 by linarith)]
    · simp [chabocheFlow, hn.le]
    · simp [chabocheFlow, hn.le]
  · have h23 : √(2 / 3 : ℝ) ≠ 0 := (Real.sqrt_pos.mpr (by norm_num)).ne'
    have hE : D1 (fun (_ : ι → ℝ) (a : κ → ℝ) => √(2 / 3) * fl.eta (a first) T) _ _ s a :=
      (D1.scalar (D1.coord_a first) hfl).smul (√(2 / 3))
    have hne : √(2 / 3) * fl.eta (a first) T ≠ 0 := mul_ne_zero h23 he
    have hQ := hF.div hE hne
    have hR := hQ.scalar (φ := fun x => √(3 / 2) * x ^ n T * pre T)
      (((Real.hasDerivAt_rpow_const (Or.inl (div_ne_zero hp.ne' hne))).const_mul
        (√(3 / 2))).mul_const (pre T))
    refine (D1.congr_near hF hp (fun s a h => ?_) hR).congr ?_ ?_
    · simp only [chabocheFlow, gt_iff_lt, if_pos h]
    · ext i
      simp only [chabocheFlow, gt_iff_lt, if_pos hp, Pi.smul_apply, Pi.sub_apply, smul_eq_mul,
        Pi.zero_apply, mul_zero, sub_zero]
      ring
    · ext i
      simp only [chabocheFlow, gt_iff_lt, if_pos hp, Pi.smul_apply, Pi.sub_apply, smul_eq_mul,
        Pi.single_apply]
      by_cases hi : i = first
      · simp only [hi, if_true]
        field_simp
        ring
      · simp only [hi, if_false]
        field_simp
        ring

/-! ## Superimposed rules -/

section super

variable {n : Nat} {α : Fin n → Type} [∀ i, Fintype (α i)] [∀ i, DecidableEq (α i)]

/-- Spread a vector on one member's history over the whole history. -/
def spread (i : Fin n) (v : α i → ℝ) : (Σ i, α i) → ℝ := fun k =>
  if h : k.1 = i then v (h ▸ k.2) else 0

theorem member_DH (a : (Σ i, α i) → ℝ) (i : Fin n) :
    DH (fun a => member a i) (Matrix.of fun j k => if k = ⟨i, j⟩ then 1 else 0) a := by
  intro j
  refine (D1.coord_a (κ := Σ i, α i) ⟨i, j⟩).congr rfl ?_
  ext k
  simp [Pi.single_apply]

theorem spread_eq (i : Fin n) (v : α i → ℝ) :
    (Matrix.of fun j (k : Σ i, α i) => if k = ⟨i, j⟩ then (1 : ℝ) else 0)ᵀ *ᵥ v = spread i v := by
  ext ⟨i', j'⟩
  simp only [mulVec, dotProduct, transpose_apply, of_apply, spread]
  by_cases h : i' = i
  · subst h
    simp
  · simp [h]

omit [DecidableEq ι] in
theorem D1.member {i : Fin n} {f : (ι → ℝ) → (α i → ℝ) → ℝ} {fs : ι → ℝ} {fa : α i → ℝ} {s : ι → ℝ}
    {a : (Σ i, α i) → ℝ} (h : D1 f fs fa s (Neml.Flow.member a i)) :
    D1 (fun s a => f s (Neml.Flow.member a i)) fs (spread i fa) s a :=
  (D1.hist (member_DH a i) h).congr rfl (spread_eq i fa)

theorem sum_spread (v : ∀ i, α i → ℝ) : (∑ i, spread i (v i)) = fun k => v k.1 k.2 := by
  ext ⟨i, j⟩
  rw [Finset.sum_apply, Finset.sum_eq_single i]
  · simp [spread]
  · intro b _ hb
    simp [spread, hb.symm]
  · simp

omit [DecidableEq ι] in
/-- The total rate has the right derivatives. -/
theorem superY_D1 {rules : ∀ i, Visco ι (α i)} {s : ι → ℝ} {a : (Σ i, α i) → ℝ} {T : ℝ}
    (h : ∀ i, D1 (fun s a => (rules i).y s a T) ((rules i).dy_ds s (member a i) T)
      ((rules i).dy_da s (member a i) T) s (member a i)) :
    D1 (fun s a => superY rules s a T) (superDyDs rules s a T) (superDyDa rules s a T) s a :=
  (D1.sum Finset.univ fun i _ => (h i).member).congr rfl (sum_spread _)

omit [DecidableEq ι] in
/-- The averaged flow direction has the right derivatives where the total rate is positive. -/
theorem superPart_correct {rules : ∀ i, Visco ι (α i)} {pt : ∀ i, Part ι (α i) ι} {s : ι → ℝ}
    {a : (Σ i, α i) → ℝ} {T : ℝ}
    (h : ∀ i, D1 (fun s a => (rules i).y s a T) ((rules i).dy_ds s (member a i) T)
      ((rules i).dy_da s (member a i) T) s (member a i))
    (hp : ∀ i, (pt i).CorrectAt s (member a i) T) (hY : 0 < superY rules s a T) :
    (superPart rules pt).CorrectAt s a T := by
  intro r
  have hYd := superY_D1 h
  have htot : D1 (fun s a => ∑ i, (pt i).v s (member a i) T r * (rules i).y s (member a i) T) _ _ s a :=
    D1.sum Finset.univ fun i _ => ((hp i r).member).mul ((h i).member)
  refine (D1.congr_near hYd hY (fun s a hs => ?_) (htot.div hYd hY.ne')).congr ?_ ?_
  · simp only [superPart, gt_iff_lt, if_pos hs]
  · ext j
    simp only [superPart, gt_iff_lt, if_pos hY, Pi.sub_apply, Pi.smul_apply, smul_eq_mul,
      Matrix.sub_apply, Matrix.smul_apply, vecMulVec_apply, Matrix.sum_apply, Matrix.add_apply,
      Finset.sum_apply, Pi.add_apply]
  · have e : (∑ i, ((rules i).y s (member a i) T • spread i ((pt i).da s (member a i) T r) +
        (pt i).v s (member a i) T r • spread i ((rules i).dy_da s (member a i) T))) =
        fun k => (rules k.1).y s (member a k.1) T * (pt k.1).da s (member a k.1) T r k.2 +
          (pt k.1).v s (member a k.1) T r * (rules k.1).dy_da s (member a k.1) T k.2 := by
      rw [← sum_spread (fun i j => (rules i).y s (member a i) T * (pt i).da s (member a i) T r j +
          (pt i).v s (member a i) T r * (rules i).dy_da s (member a i) T j)]
      refine Finset.sum_congr rfl fun i _ => ?_
      ext k
      simp only [spread, Pi.add_apply, Pi.smul_apply, smul_eq_mul]
      split_ifs <;> simp
    rw [e]
    ext k
    simp only [superPart, gt_iff_lt, if_pos hY, Pi.sub_apply, Pi.smul_apply, smul_eq_mul,
      Matrix.sub_apply, Matrix.smul_apply, vecMulVec_apply, Matrix.of_apply]

omit [DecidableEq ι] in
theorem superHist_correct {pt : ∀ i, Part ι (α i) (α i)} {s : ι → ℝ}
    {a : (Σ i, α i) → ℝ} {T : ℝ} (hp : ∀ i, (pt i).CorrectAt s (member a i) T) :
    (superHist pt).CorrectAt s a T := by
  intro k
  refine ((hp k.1 k.2).member).congr rfl ?_
  ext l
  simp only [superHist, spread, Matrix.of_apply]

omit [DecidableEq ι] in
/-- **C81** superimposed rules, where the total rate is positive. -/
theorem C81_superimposed {rules : ∀ i, Visco ι (α i)} {s : ι → ℝ} {a : (Σ i, α i) → ℝ} {T : ℝ}
    (h : ∀ i, (rules i).CorrectAt s (member a i) T) (hY : 0 < superY rules s a T) :
    (superimposed rules).CorrectAt s a T :=
  ⟨superY_D1 fun i => (h i).y, superPart_correct (fun i => (h i).y) (fun i => (h i).g) hY,
    superPart_correct (fun i => (h i).y) (fun i => (h i).g_time) hY,
    superPart_correct (fun i => (h i).y) (fun i => (h i).g_temp) hY,
    superHist_correct fun i => (h i).h, superHist_correct fun i => (h i).h_time,
    superHist_correct fun i => (h i).h_temp⟩

omit [DecidableEq ι] [∀ i, DecidableEq (α i)] [∀ i, Fintype (α i)] [Fintype ι] in
/-- **C40** the inelastic strain rate of superimposed rules is the sum of the members' rates, for
members with non-negative scalar rates and no inelastic strain proportional to time or temperature
(all the rules of the library). -/
theorem C40_strain_rates_add (rules : ∀ i, Visco ι (α i)) (s : ι → ℝ) (a : (Σ i, α i) → ℝ) (T Td : ℝ)
    (hy : ∀ i, 0 ≤ (rules i).y s (member a i) T)
    (h1 : ∀ i, (rules i).g_time = Part.zero) (h2 : ∀ i, (rules i).g_temp = Part.zero) :
    inelasticRate (superimposed rules) s a T Td =
      ∑ i, inelasticRate (rules i) s (member a i) T Td := by
  have hsum : ∀ j, (superimposed rules).y s a T * (superimposed rules).g.v s a T j =
      ∑ i, (rules i).y s (member a i) T * (rules i).g.v s (member a i) T j := by
    intro j
    simp only [superimposed, superPart]
    by_cases hY : superY rules s a T > 0
    · rw [if_pos hY, mul_div_cancel₀ _ hY.ne']
      exact Finset.sum_congr rfl fun i _ => mul_comm _ _
    · have h0 : superY rules s a T = 0 :=
        le_antisymm (not_lt.mp hY) (Finset.sum_nonneg fun i _ => hy i)
      have hz := (Finset.sum_eq_zero_iff_of_nonneg fun i _ => hy i).mp h0
      rw [h0, zero_mul]
      exact (Finset.sum_eq_zero fun i hi => by rw [hz i hi, zero_mul]).symm
  ext j
  simp only [inelasticRate, hsum, Finset.sum_apply, h1, h2]
  simp [superimposed, superPart, Part.zero, h1, h2]

omit [DecidableEq ι] [∀ i, DecidableEq (α i)] [∀ i, Fintype (α i)] in
/-- The history rate of a viscoplastic rule at given stress. -/
theorem tvp_history (el : Elastic ℝ ι) {κ : Type} (fl : Visco ι κ) (s : ι → ℝ) (a : κ → ℝ) (ed : ι → ℝ) (T Td : ℝ) (k : κ) :
    (tvp el fl).a s a ed T Td k =
      fl.h.v s a T k * fl.y s a T + fl.h_temp.v s a T k * Td + fl.h_time.v s a T k := rfl

omit [DecidableEq ι] [∀ i, DecidableEq (α i)] [∀ i, Fintype (α i)] in
/-- **C40** (partial) the history of a member evolves as on its own plus the other members' rates
times its hardening direction. Missing: that it evolves as on its own, which is false; see
`C40_history_not_own`. -/
theorem C40_history_partial (el : Elastic ℝ ι) (rules : ∀ i, Visco ι (α i)) (s : ι → ℝ)
    (a : (Σ i, α i) → ℝ) (ed : ι → ℝ) (T Td : ℝ) (i : Fin n) (j : α i) :
    (tvp el (superimposed rules)).a s a ed T Td ⟨i, j⟩ =
      (tvp el (rules i)).a s (member a i) ed T Td j +
        (∑ k, (rules k).y s (member a k) T - (rules i).y s (member a i) T) *
          (rules i).h.v s (member a i) T j := by
  rw [tvp_history, tvp_history]
  simp only [superimposed, superHist, superY]
  ring

omit [DecidableEq ι] [∀ i, DecidableEq (α i)] [∀ i, Fintype (α i)] in
/-- **C40** a member whose history does not harden with the rate, or which flows alone, does evolve as
on its own. -/
theorem C40_history_alone (el : Elastic ℝ ι) (rules : ∀ i, Visco ι (α i)) (s : ι → ℝ)
    (a : (Σ i, α i) → ℝ) (ed : ι → ℝ) (T Td : ℝ) (i : Fin n)
    (h : ∀ k, k ≠ i → (rules k).y s (member a k) T = 0) (j : α i) :
    (tvp el (superimposed rules)).a s a ed T Td ⟨i, j⟩ =
      (tvp el (rules i)).a s (member a i) ed T Td j := by
  rw [C40_history_partial, Finset.sum_eq_single i (fun k _ hk => h k hk) (by simp)]
  ring

end super

/-- **C40** (disagreement) two identical members, each with rate one and hardening with unit
direction: in superposition each history grows at twice the rate it has on its own. -/
theorem C40_history_not_own (el : Elastic ℝ Unit) (s : Unit → ℝ) (a : (Σ _ : Fin 2, Unit) → ℝ)
    (ed : Unit → ℝ) (T Td : ℝ) :
    let rule : Visco Unit Unit := ⟨fun _ _ _ => 1, 0, 0, ⟨fun _ _ _ _ => 1, 0, 0⟩, Part.zero, Part.zero,
      ⟨fun _ _ _ _ => 1, 0, 0⟩, Part.zero, Part.zero⟩
    (tvp el (superimposed fun _ : Fin 2 => rule)).a s a ed T Td ⟨0, ()⟩ = 2 ∧
      (tvp el rule).a s (member a 0) ed T Td () = 1 := by
  constructor
  · rw [tvp_history]
    simp [superimposed, superHist, superY, Part.zero]
  · rw [tvp_history]
    simp [Part.zero]

/-- **C40** (disagreement) an inelastic strain rate proportional to time is weighted by the scalar
rates and lost where these vanish, instead of being added. No rule of the library has one. -/
theorem C40_time_part_lost (s : Unit → ℝ) (a : (Σ _ : Fin 1, Unit) → ℝ) (T Td : ℝ) :
    let rule : Visco Unit Unit := ⟨fun _ _ _ => 0, 0, 0, Part.zero, ⟨fun _ _ _ _ => 1, 0, 0⟩, Part.zero,
      Part.zero, Part.zero, Part.zero⟩
    inelasticRate (superimposed fun _ : Fin 1 => rule) s a T Td () = 0 ∧
      inelasticRate rule s (member a 0) T Td () = 1 := by
  constructor <;> simp [inelasticRate, superimposed, superPart, superY, Part.zero]

/-- Concrete case for C40 and `C81_superimposed`: two members with different rates and directions,
with rates 2 and 3. -/
example (s : Unit → ℝ) (a : (Σ _ : Fin 2, Unit) → ℝ) (T Td : ℝ) :
    let rule (r d : ℝ) : Visco Unit Unit := ⟨fun _ _ _ => r, 0, 0, ⟨fun _ _ _ _ => d, 0, 0⟩, Part.zero,
      Part.zero, Part.zero, Part.zero, Part.zero⟩
    inelasticRate (superimposed fun i : Fin 2 => rule (if i = 0 then 2 else 3) (if i = 0 then 1 else 5))
      s a T Td () = 2 * 1 + 3 * 5 := by
  intro rule
  rw [C40_strain_rates_add _ _ _ _ _ (by intro i; simp only [rule]; split_ifs <;> norm_num)
    (fun _ => rfl) (fun _ => rfl)]
  simp [inelasticRate, rule, Part.zero]

/-! ## Thermo-viscoplastic rule -/

/-- Every derivative function of a general rule is right at a point, jointly in all its arguments. -/
structure GenFlow.DiffAt (fl : GenFlow ℝ ι κ) (s : ι → ℝ) (a : κ → ℝ) (e : ι → ℝ) (T Td : ℝ) :
    Prop where
  rs : DV (fun s a => fl.s s a e T Td) (fl.ds_ds s a e T Td) (fl.ds_da s a e T Td) s a
  ra : DV (fun s a => fl.a s a e T Td) (fl.da_ds s a e T Td) (fl.da_da s a e T Td) s a

theorem GenFlow.DiffAt.correctAt {fl : GenFlow ℝ ι κ} {s : ι → ℝ} {a : κ → ℝ} {e : ι → ℝ} {T Td : ℝ}
    (h : GenFlow.DiffAt fl s a e T Td) : fl.CorrectAt s a e T Td :=
  ⟨fun i j => (h.rs i).partial_s j, fun i j => (h.rs i).partial_a j, fun i j => (h.ra i).partial_s j,
    fun i j => (h.ra i).partial_a j⟩

omit [DecidableEq ι] [DecidableEq κ] in
/-- **C81** the thermo-viscoplastic rule has right derivatives wherever its viscoplastic rule has. -/
theorem C81_tvp (el : Elastic ℝ ι) {fl : Visco ι κ} {s : ι → ℝ} {a : κ → ℝ} {T : ℝ}
    (h : fl.CorrectAt s a T) (e : ι → ℝ) (Td : ℝ) : GenFlow.DiffAt (tvp el fl) s a e T Td := by
  constructor
  · have hF : DV (fun s a (i : ι) => e i - fl.y s a T * fl.g.v s a T i - Td * fl.g_temp.v s a T i -
        fl.g_time.v s a T i) (-fl.y s a T • fl.g.ds s a T - vecMulVec (fl.g.v s a T) (fl.dy_ds s a T) -
        Td • fl.g_temp.ds s a T - fl.g_time.ds s a T)
        (-fl.y s a T • fl.g.da s a T - vecMulVec (fl.g.v s a T) (fl.dy_da s a T) -
        Td • fl.g_temp.da s a T - fl.g_time.da s a T) s a := by
      intro i
      refine ((((D1.const (e i)).sub (h.y.mul (h.g i))).sub ((h.g_temp i).smul Td)).sub
        (h.g_time i)).congr ?_ ?_ <;>
      · ext j
        simp only [Pi.sub_apply, Pi.add_apply, Pi.smul_apply, smul_eq_mul, Pi.zero_apply,
          Matrix.sub_apply, Matrix.smul_apply, vecMulVec_apply]
        ring
    exact DV.mulVec (el.C T) hF
  · intro i
    refine ((((h.h i).mul h.y).add ((h.h_temp i).mul (D1.const Td))).add (h.h_time i)).congr ?_ ?_ <;>
    · ext j
      simp only [tvp, Pi.add_apply, Pi.smul_apply, smul_eq_mul, Pi.zero_apply,
        Matrix.add_apply, Matrix.smul_apply, vecMulVec_apply]
      ring

/-- **C81** the residual Jacobian of the integrator is the Jacobian wherever the viscoplastic rule has
right derivatives. -/
theorem C81_integrator_jacobian (el : Elastic ℝ ι) {fl : Visco ι κ} (ts : GITrial ℝ ι κ)
    (x : ι ⊕ κ → ℝ) (h : fl.CorrectAt (fun i => x (.inl i)) (fun i => x (.inr i)) ts.T) :
    IsJacobian (giR (tvp el fl) ts) (giJ (tvp el fl) ts x) x :=
  C74_general_integrator _ ts x (C81_tvp el h _ _).correctAt

/-- The stress and the history among the unknowns of the integrator. -/
noncomputable def splitMap : ((ι ⊕ κ → ℝ) × (ι → ℝ)) →L[ℝ] (ι → ℝ) × (κ → ℝ) :=
  LinearMap.toContinuousLinearMap
    { toFun := fun z => (fun i => z.1 (.inl i), fun i => z.1 (.inr i))
      map_add' := fun _ _ => rfl
      map_smul' := fun _ _ => rfl }

omit [DecidableEq ι] [DecidableEq κ] in
theorem splitMap_apply (z : (ι ⊕ κ → ℝ) × (ι → ℝ)) :
    splitMap z = (fun i => z.1 (.inl i), fun i => z.1 (.inr i)) := rfl

/-- **C81** the rates of the thermo-viscoplastic rule, jointly in stress, history and strain rate. -/
theorem C81_tvp_rates (el : Elastic ℝ ι) {fl : Visco ι κ} {T : ℝ} (Td : ℝ)
    {z : (ι ⊕ κ → ℝ) × (ι → ℝ)}
    (h : fl.CorrectAt (fun i => z.1 (.inl i)) (fun i => z.1 (.inr i)) T) :
    CorrectRates (tvp el fl) T Td z := by
  unfold CorrectRates
  have hd := C81_tvp el h 0 Td
  have hL := (splitMap (ι := ι) (κ := κ)).hasFDerivAt (x := z)
  rw [hasFDerivAt_pi']
  rintro (i | i)
  · have h1 : HasFDerivAt (fun p : (ι → ℝ) × (κ → ℝ) => (tvp el fl).s p.1 p.2 0 T Td i) _
      (splitMap z) := hd.rs i
    have h2 := (mv (el.C T)).hasFDerivAt (x := z.2)
    have h3 := (hasFDerivAt_pi'.mp (h2.comp z hasFDerivAt_snd) i).fun_add (h1.comp z hL)
    refine (h3.congr_of_eventuallyEq (Filter.Eventually.of_forall fun w => ?_)).congr_fderiv
      (ContinuousLinearMap.ext fun w => ?_)
    · simp only [ratesOf, tvp, Sum.elim_inl, Function.comp_apply, mv_apply, splitMap_apply,
        Pi.zero_apply]
      rw [← Pi.add_apply, ← mulVec_add]
      congr 2
      ext j
      simp only [Pi.add_apply]
      ring
    · simp [splitMap_apply, ratesDy, ratesDe, mulVec, dotProduct, tvp]
      ring
  · have h1 : HasFDerivAt (fun p : (ι → ℝ) × (κ → ℝ) => (tvp el fl).a p.1 p.2 0 T Td i) _
      (splitMap z) := hd.ra i
    refine ((h1.comp z hL).congr_of_eventuallyEq
      (Filter.Eventually.of_forall fun w => rfl)).congr_fderiv (ContinuousLinearMap.ext fun w => ?_)
    simp [splitMap_apply, ratesDy, ratesDe, mulVec, dotProduct, tvp]

/-! ## C39 -/

omit [Fintype ι] [DecidableEq ι] [DecidableEq κ] in
/-- **C39** Perzyna flow: the scalar rate is never negative; it is positive exactly when the stress is
outside the surface, for a rate function positive at positive overstress. -/
theorem C39_flows_iff (sf : Surface ι κ) (hd : Hardening κ κ) (gf : GFlow) (s : ι → ℝ) (a : κ → ℝ)
    (T : ℝ) (hg : ∀ x, 0 < x → 0 < gf.g x T) :
    0 ≤ (perzyna sf hd gf).y s a T ∧
    (0 < (perzyna sf hd gf).y s a T ↔ 0 < sf.f s (hd.q a T) T) := by
  simp only [perzyna]
  split_ifs with h
  · have := hg _ (abs_pos.mpr (ne_of_gt h))
    exact ⟨this.le, ⟨fun _ => h, fun _ => this⟩⟩
  · exact ⟨le_rfl, ⟨fun h' => absurd h' (lt_irrefl _), fun h' => absurd h' h⟩⟩

/-- **C39** the power law is such a rate function. -/
theorem C39_powerLaw_positive (n eta : ℝ → ℝ) (T : ℝ) (he : 0 < eta T) (x : ℝ) (hx : 0 < x) :
    0 < (gPowerLaw n eta).g x T := Real.rpow_pos_of_pos (div_pos hx he) _

omit [DecidableEq ι] [DecidableEq κ] in
/-- **C39** the inelastic strain rate is the scalar rate times the gradient of the surface, and no
history changes inside or on the surface. -/
theorem C39_direction (el : Elastic ℝ ι) (sf : Surface ι κ) (hd : Hardening κ κ) (gf : GFlow)
    (s : ι → ℝ) (a : κ → ℝ) (ed : ι → ℝ) (T Td : ℝ) :
    inelasticRate (perzyna sf hd gf) s a T Td =
      (perzyna sf hd gf).y s a T • sf.df_ds s (hd.q a T) T ∧
    (sf.f s (hd.q a T) T ≤ 0 → inelasticRate (perzyna sf hd gf) s a T Td = 0 ∧
      (tvp el (perzyna sf hd gf)).a s a ed T Td = 0 ∧
      (tvp el (perzyna sf hd gf)).s s a ed T Td = el.C T *ᵥ ed) := by
  refine ⟨by ext i; simp [inelasticRate, perzyna, Part.zero], fun h => ⟨?_, ?_, ?_⟩⟩
  · ext i; simp [inelasticRate, perzyna, Part.zero, not_lt.mpr h]
  · ext i; simp [tvp, perzyna, Part.zero, not_lt.mpr h]
  · simp [tvp, perzyna, Part.zero, not_lt.mpr h]

/-- **C39** without backstress the plastic work rate of a J2 material is the scalar rate times the
length of the deviator, hence non-negative. -/
theorem C39_plastic_work {eps : ℝ} (el : Elastic ℝ (Fin 6)) (he : 0 < eps) (hd : Hardening Unit Unit)
    (gf : GFlow) (s : Fin 6 → ℝ) (a : Unit → ℝ) (ed : Fin 6 → ℝ) (T Td : ℝ)
    (hg : ∀ x, 0 < x → 0 < gf.g x T) :
    0 ≤ (tvp el (perzyna (isoJ2 eps) hd gf)).work_rate s a ed T Td ∧
    (eps ≤ norm2 (devVec s) → (tvp el (perzyna (isoJ2 eps) hd gf)).work_rate s a ed T Td =
      (perzyna (isoJ2 eps) hd gf).y s a T * norm2 (devVec s)) := by
  have hw : (tvp el (perzyna (isoJ2 eps) hd gf)).work_rate s a ed T Td =
      (perzyna (isoJ2 eps) hd gf).y s a T * (s ⬝ᵥ normalize eps (devVec s)) := by
    change s ⬝ᵥ inelasticRate (perzyna (isoJ2 eps) hd gf) s a T Td = _
    rw [(C39_direction el (isoJ2 eps) hd gf s a ed T Td).1, dotProduct_smul, smul_eq_mul]
    congr 2
    change normalize eps (shifted s (expandHist _)) = _
    congr 1
    ext i
    simp [shifted, expandHist]
  have hdv : ∀ v, s ⬝ᵥ v = devVec s ⬝ᵥ v + (s 0 + s 1 + s 2) / 3 * tr3 v := by
    intro v
    simp [devVec, dotProduct, Fin.sum_univ_succ, tr3]
    ring
  have hnn : eps ≤ norm2 (devVec s) → s ⬝ᵥ normalize eps (devVec s) = norm2 (devVec s) := by
    intro h
    rw [hdv, tr3_normalize (tr3_devVec s), mul_zero, add_zero, normalize_of_le h]
    simp only [dotProduct, mul_div_assoc', ← Finset.sum_div]
    have h2 := norm2_sq (devVec s)
    simp only [dotProduct] at h2
    rw [← h2, mul_div_assoc, div_self (he.trans_le h).ne', mul_one]
  rw [hw]
  refine ⟨mul_nonneg (C39_flows_iff _ _ _ _ _ _ hg).1 ?_, fun h => by rw [hnn h]⟩
  by_cases h : eps ≤ norm2 (devVec s)
  · rw [hnn h]; exact norm2_nonneg _
  · unfold normalize
    rw [abs_of_nonneg (norm2_nonneg _), if_pos (not_le.mp h)]
    simp

end Neml.Flow
