import Verif.Model.Walker
import Verif.Props.DiffComp
import Verif.Props.Creep

/-!
# Properties of the Walker-Krempl switch (C114, C115, C116)
-/

namespace Neml.Walker

open Matrix Neml.Flow Neml.Mandel Neml.SmallStrain

variable {κ : Type}

/-- Spec: the equivalent deviatoric strain rate. -/
noncomputable def eqRate (ed : Fin 6 → ℝ) : ℝ := √(2 / 3 * (devVec ed ⬝ᵥ devVec ed))

theorem eqRate_eq (ed : Fin 6 → ℝ) : eqRate ed = √(2 / 3) * norm2 (devVec ed) := by
  rw [eqRate, Real.sqrt_mul (by norm_num)]
  rfl

/-! ## The switch factor -/

/-- **C115** the switch factor is one without switching, the equivalent strain rate over the reference rate with full
switching, one at the reference rate whatever the switch, and not negative. -/
theorem C115_kappa (lam : ℝ → ℝ) (eps0 : ℝ) (ed : Fin 6 → ℝ) (T : ℝ) (h0 : 0 < eps0) :
    (lam T = 0 → kappa lam eps0 ed T = 1) ∧
    (lam T = 1 → kappa lam eps0 ed T = eqRate ed / eps0) ∧
    (eqRate ed = eps0 → kappa lam eps0 ed T = 1) ∧
    (0 ≤ lam T → lam T ≤ 1 → 1 - lam T ≤ kappa lam eps0 ed T ∧ 0 ≤ kappa lam eps0 ed T) := by
  have e : kappa lam eps0 ed T = 1 - lam T + lam T * eqRate ed / eps0 := by rw [eqRate_eq]; rfl
  have hn : 0 ≤ eqRate ed := Real.sqrt_nonneg _
  rw [e]
  refine ⟨fun h => by rw [h]; simp, fun h => by rw [h]; simp, fun h => ?_, fun h1 h2 => ?_⟩
  · rw [h, mul_div_assoc, div_self h0.ne']; ring
  · have := div_nonneg (mul_nonneg h1 hn) h0.le
    constructor <;> linarith

/-- **C115** without switching the rule is the plain viscoplastic rule: same history rate, and same stress rate for
flow rules whose inelastic strain rate is all proportional to the scalar rate. -/
theorem C115_off [Fintype κ] (el : Elastic ℝ (Fin 6)) (fl : Visco (Fin 6) κ) (lam : ℝ → ℝ) (eps0 : ℝ) (s : Fin 6 → ℝ)
    (a : κ → ℝ) (ed : Fin 6 → ℝ) (T Td : ℝ) (h : lam T = 0) :
    (switchRule el fl lam eps0).a s a ed T Td = (tvp el fl).a s a ed T Td ∧
    (switchRule el fl lam eps0).work_rate s a ed T Td = (tvp el fl).work_rate s a ed T Td ∧
    (fl.g_time.v s a T = 0 → fl.g_temp.v s a T = 0 →
      (switchRule el fl lam eps0).s s a ed T Td = (tvp el fl).s s a ed T Td) := by
  have hk : kappa lam eps0 ed T = 1 := by simp [kappa, h]
  refine ⟨?_, ?_, fun h1 h2 => ?_⟩
  · ext i
    simp [switchRule, tvp, hk]
  · simp only [switchRule, tvp, hk, mul_one]
    rfl
  · simp [switchRule, tvp, hk, h1, h2]

theorem kappa_smul {lam : ℝ → ℝ} {eps0 : ℝ} {T : ℝ} (h : lam T = 1) {c : ℝ} (hc : 0 ≤ c) (ed : Fin 6 → ℝ) :
    kappa lam eps0 (c • ed) T = c * kappa lam eps0 ed T := by
  have e : devVec (c • ed) = c • devVec ed := by
    rw [devVec_eq, devVec_eq, mulVec_smul]
  simp only [kappa, h, e, norm2_smul, abs_of_nonneg hc]
  ring

/-- **C115** with full switching the rates are proportional to the speed of loading. -/
theorem C115_rates_homogeneous (el : Elastic ℝ (Fin 6)) (fl : Visco (Fin 6) κ) (lam : ℝ → ℝ) (eps0 : ℝ)
    (s : Fin 6 → ℝ) (a : κ → ℝ) (ed : Fin 6 → ℝ) (T Td c : ℝ) (h : lam T = 1) (hc : 0 ≤ c) :
    (switchRule el fl lam eps0).s s a (c • ed) T (c * Td) = c • (switchRule el fl lam eps0).s s a ed T Td ∧
    (switchRule el fl lam eps0).a s a (c • ed) T (c * Td) = c • (switchRule el fl lam eps0).a s a ed T Td := by
  constructor
  · simp only [switchRule, kappa_smul h hc]
    rw [← mulVec_smul]
    congr 1
    ext i
    simp only [Pi.smul_apply, smul_eq_mul]
    ring
  · ext i
    simp only [switchRule, kappa_smul h hc, Pi.smul_apply, smul_eq_mul]
    ring

/-- A path of total strain and temperature. -/
structure Load where
  e : ℕ → Fin 6 → ℝ
  T : ℕ → ℝ

/-- Spec: a sequence of stresses and histories solves the implicit equations of the general integrator at every step of
a load path run through at the given times. -/
def SolvesPath (fl : GenFlow ℝ (Fin 6) κ) (p : Load) (t : ℕ → ℝ) (s : ℕ → Fin 6 → ℝ) (h : ℕ → κ → ℝ) : Prop :=
  ∀ n, giR fl (giTrial ⟨p.e n, p.T n, t n, s n, h n, 0, 0⟩ (p.e (n + 1)) (p.T (n + 1)) (t (n + 1)))
    (Sum.elim (s (n + 1)) (h (n + 1))) = 0

/-- **C115** with full switching the response to a load path does not depend on how fast, or how unevenly, it is run
through: the same stresses and histories solve all its steps for any two increasing sequences of times. -/
theorem C115_rate_independent (el : Elastic ℝ (Fin 6)) (fl : Visco (Fin 6) κ) (lam : ℝ → ℝ) (eps0 : ℝ) (p : Load)
    (hl : ∀ n, lam (p.T (n + 1)) = 1) (t t' : ℕ → ℝ) (ht : StrictMono t) (ht' : StrictMono t') (s : ℕ → Fin 6 → ℝ)
    (h : ℕ → κ → ℝ) (H : SolvesPath (switchRule el fl lam eps0) p t s h) :
    SolvesPath (switchRule el fl lam eps0) p t' s h := by
  intro n
  have hd : 0 < t (n + 1) - t n := sub_pos.mpr (ht (Nat.lt_succ_self n))
  have hd' : 0 < t' (n + 1) - t' n := sub_pos.mpr (ht' (Nat.lt_succ_self n))
  have hn := H n
  simp only [giTrial, if_pos hd] at hn
  simp only [giTrial, if_pos hd']
  rw [← hn]
  have hc : 0 ≤ (t (n + 1) - t n) / (t' (n + 1) - t' n) := (div_pos hd hd').le
  have e1 : (fun i => (p.e (n + 1) i - p.e n i) / (t' (n + 1) - t' n)) =
      ((t (n + 1) - t n) / (t' (n + 1) - t' n)) • fun i => (p.e (n + 1) i - p.e n i) / (t (n + 1) - t n) := by
    ext i
    simp only [Pi.smul_apply, smul_eq_mul]
    field_simp
  have e2 : (p.T (n + 1) - p.T n) / (t' (n + 1) - t' n) =
      (t (n + 1) - t n) / (t' (n + 1) - t' n) * ((p.T (n + 1) - p.T n) / (t (n + 1) - t n)) := by
    field_simp
  funext i
  rcases i with i | i
  · simp only [giR, Sum.elim_inl, Sum.elim_inr, e1, e2,
      (C115_rates_homogeneous el fl lam eps0 _ _ _ _ _ _ (hl n) hc).1, Pi.smul_apply, smul_eq_mul]
    field_simp
  · simp only [giR, Sum.elim_inl, Sum.elim_inr, e1, e2,
      (C115_rates_homogeneous el fl lam eps0 _ _ _ _ _ _ (hl n) hc).2, Pi.smul_apply, smul_eq_mul]
    field_simp

/-! ## Derivatives -/

/-- The switch factor has the reported gradient. -/
theorem kappa_D1 {ι : Type} [Fintype ι] [DecidableEq ι] (lam : ℝ → ℝ) (eps0 : ℝ) (x : ι → ℝ) (ed : Fin 6 → ℝ) (T : ℝ)
    (h : devVec ed ≠ 0 ∨ lam T = 0) :
    D1 (fun (_ : ι → ℝ) e => kappa lam eps0 e T) 0 (dkappa lam eps0 ed T) x ed := by
  rcases eq_or_ne (lam T) 0 with hl | hl
  · have e : (fun (_ : ι → ℝ) e => kappa lam eps0 e T) = fun _ _ => 1 := by
      funext _ e
      simp [kappa, hl]
    rw [e]
    refine (D1.const 1).congr rfl ?_
    ext i
    simp only [dkappa, hl, zero_div, zero_mul, mul_zero]
    split_ifs <;> rfl
  · have hv : devVec ed ≠ 0 := h.resolve_right hl
    have hpos : 0 < norm2 (devVec ed) := by
      refine lt_of_le_of_ne (norm2_nonneg _) (Ne.symm fun h0 => hv ?_)
      have := norm2_sq (devVec ed)
      rw [h0, mul_zero] at this
      have h2 := (Finset.sum_eq_zero_iff_of_nonneg fun i _ => mul_self_nonneg (devVec ed i)).mp this.symm
      exact funext fun i => mul_self_eq_zero.mp (h2 i (Finset.mem_univ i))
    have hF : DV (fun (_ : ι → ℝ) (e : Fin 6 → ℝ) => devVec e) 0 devProj x ed := by
      intro i
      have h1 : D1 (fun (_ : ι → ℝ) (e : Fin 6 → ℝ) => ∑ j, devProj i j * e j) _ _ x ed :=
        D1.sum Finset.univ fun j _ => (D1.coord_a j).smul (devProj i j)
      have e : (fun (_ : ι → ℝ) (e : Fin 6 → ℝ) => devVec e i) = fun _ e => ∑ j, devProj i j * e j := by
        funext _ e
        rw [devVec_eq]
        rfl
      rw [e]
      refine h1.congr (by simp only [smul_zero, Finset.sum_const_zero]; rfl) ?_
      ext j
      simp [Finset.sum_apply, Pi.single_apply]
    have hn := norm2_DV hF hpos
    have hk := (((hn.smul (√(2 / 3))).smul (lam T)).smul eps0⁻¹).add (D1.const (1 - lam T))
    have e : (fun (_ : ι → ℝ) e => kappa lam eps0 e T) =
        fun _ e => eps0⁻¹ * (lam T * (√(2 / 3) * norm2 (devVec e))) + (1 - lam T) := by
      funext _ e
      simp only [kappa]
      ring
    rw [e]
    refine hk.congr (by simp) ?_
    have ep : (devProjᵀ *ᵥ fun i => devVec ed i / norm2 (devVec ed)) = fun i => devVec ed i / norm2 (devVec ed) := by
      rw [devProj_symm]
      apply devProj_of_tr3
      have := tr3_devVec ed
      simp only [tr3] at this ⊢
      rw [← add_div, ← add_div, this, zero_div]
    rw [ep]
    ext i
    simp only [dkappa, if_neg hpos.ne', Pi.add_apply, Pi.smul_apply, smul_eq_mul, Pi.zero_apply]
    field_simp
    ring

/-- **C114** all derivatives of the switched rule, with respect to stress, history and strain rate, are right wherever
those of the flow rule are and the strain rate is not purely volumetric (or the switch is off). -/
theorem C114_switch_rates [Fintype κ] [DecidableEq κ] (el : Elastic ℝ (Fin 6)) {fl : Visco (Fin 6) κ} (lam : ℝ → ℝ)
    (eps0 : ℝ) {T : ℝ} (Td : ℝ) {z : (Fin 6 ⊕ κ → ℝ) × (Fin 6 → ℝ)}
    (h : fl.CorrectAt (fun i => z.1 (.inl i)) (fun i => z.1 (.inr i)) T) (he : devVec z.2 ≠ 0 ∨ lam T = 0) :
    CorrectRates (switchRule el fl lam eps0) T Td z := by
  apply correctRates_of_D1
  have hk := kappa_D1 lam eps0 z.1 z.2 T he
  have hy := h.y.stack z.2
  rintro (i | i)
  · have h1 : ∀ j, D1 (fun (x : Fin 6 ⊕ κ → ℝ) (e : Fin 6 → ℝ) => e j -
        fl.y (fun i => x (.inl i)) (fun i => x (.inr i)) T * kappa lam eps0 e T *
          fl.g.v (fun i => x (.inl i)) (fun i => x (.inr i)) T j) _ _ z.1 z.2 :=
      fun j => (D1.coord_a j).sub ((hy.mul hk).mul ((h.g j).stack z.2))
    have h2 := D1.sum Finset.univ (f := fun j (x : Fin 6 ⊕ κ → ℝ) (e : Fin 6 → ℝ) => el.C T i j * (e j -
        fl.y (fun i => x (.inl i)) (fun i => x (.inr i)) T * kappa lam eps0 e T *
          fl.g.v (fun i => x (.inl i)) (fun i => x (.inr i)) T j)) fun j _ => (h1 j).smul (el.C T i j)
    refine D1.congr (f := fun x e => ratesOf (switchRule el fl lam eps0) T Td (x, e) (Sum.inl i)) h2 ?_ ?_
    · ext (j | j)
      · simp only [ratesDy, switchRule, fromBlocks_apply₁₁, Matrix.mul_apply, Finset.sum_apply, Pi.smul_apply,
          Pi.sub_apply, Pi.add_apply, Pi.zero_apply, smul_eq_mul, Sum.elim_inl, Matrix.sub_apply, Matrix.smul_apply,
          vecMulVec_apply]
        refine Finset.sum_congr rfl fun k _ => ?_
        ring
      · simp only [ratesDy, switchRule, fromBlocks_apply₁₂, Matrix.mul_apply, Finset.sum_apply, Pi.smul_apply,
          Pi.sub_apply, Pi.add_apply, Pi.zero_apply, smul_eq_mul, Sum.elim_inr, Matrix.sub_apply, Matrix.smul_apply,
          vecMulVec_apply]
        refine Finset.sum_congr rfl fun k _ => ?_
        ring
    · ext j
      simp only [ratesDe, switchRule, of_apply, Sum.elim_inl, Matrix.mul_apply, Finset.sum_apply, Pi.smul_apply,
        Pi.sub_apply, Pi.add_apply, Pi.zero_apply, smul_eq_mul, Matrix.sub_apply, Matrix.one_apply, Pi.single_apply,
        vecMulVec_apply]
      refine Finset.sum_congr rfl fun k _ => ?_
      rcases eq_or_ne k j with rfl | hj
      · simp only [if_true]; ring
      · simp only [hj, hj.symm, if_false]; ring
  · have h1 : D1 (fun (x : Fin 6 ⊕ κ → ℝ) (e : Fin 6 → ℝ) =>
        fl.h.v (fun i => x (.inl i)) (fun i => x (.inr i)) T i *
          (fl.y (fun i => x (.inl i)) (fun i => x (.inr i)) T * kappa lam eps0 e T) +
        fl.h_temp.v (fun i => x (.inl i)) (fun i => x (.inr i)) T i * Td +
        fl.h_time.v (fun i => x (.inl i)) (fun i => x (.inr i)) T i * kappa lam eps0 e T) _ _ z.1 z.2 :=
      ((((h.h i).stack z.2).mul (hy.mul hk)).add (((h.h_temp i).stack z.2).mul (D1.const Td))).add
        (((h.h_time i).stack z.2).mul hk)
    refine D1.congr (f := fun x e => ratesOf (switchRule el fl lam eps0) T Td (x, e) (Sum.inr i)) h1 ?_ ?_
    · ext (j | j)
      · simp only [ratesDy, switchRule, fromBlocks_apply₂₁, Pi.smul_apply,
          Pi.add_apply, Pi.zero_apply, smul_eq_mul, Sum.elim_inl, Matrix.add_apply, Matrix.smul_apply,
          vecMulVec_apply]
        ring
      · simp only [ratesDy, switchRule, fromBlocks_apply₂₂, Pi.smul_apply,
          Pi.add_apply, Pi.zero_apply, smul_eq_mul, Sum.elim_inr, Matrix.add_apply, Matrix.smul_apply,
          vecMulVec_apply]
        ring
    · ext j
      simp only [ratesDe, switchRule, of_apply, Sum.elim_inr, Pi.smul_apply, Pi.add_apply, Pi.zero_apply,
        smul_eq_mul, Matrix.add_apply, vecMulVec_apply]
      ring

/-! ## Work -/

/-- **C116** for an inelastic strain rate all proportional to the scalar rate, the reported plastic work rate is the
stress times the part of the strain rate that is not elastic. -/
theorem C116_work (el : Elastic ℝ (Fin 6)) (fl : Visco (Fin 6) κ) (lam : ℝ → ℝ) (eps0 : ℝ) (s : Fin 6 → ℝ) (a : κ → ℝ)
    (ed : Fin 6 → ℝ) (T Td : ℝ) (hSC : el.S T * el.C T = 1) (h1 : fl.g_time.v s a T = 0)
    (h2 : fl.g_temp.v s a T = 0) :
    (switchRule el fl lam eps0).work_rate s a ed T Td =
      s ⬝ᵥ (ed - el.S T *ᵥ (switchRule el fl lam eps0).s s a ed T Td) := by
  simp only [switchRule, h1, h2, mulVec_mulVec, hSC, one_mulVec]
  congr 1
  ext i
  simp

/-- **C116** (disagreement) the work rate counts inelastic strain rates with time and with temperature that the stress
rate leaves out, so for rules that have them the two disagree. -/
theorem C116_time_part : ∃ (el : Elastic ℝ (Fin 6)) (fl : Visco (Fin 6) Unit) (s : Fin 6 → ℝ) (a : Unit → ℝ)
    (ed : Fin 6 → ℝ), el.S 0 * el.C 0 = 1 ∧
    (switchRule el fl (fun _ => 0) 1).work_rate s a ed 0 0 ≠
      s ⬝ᵥ (ed - el.S 0 *ᵥ (switchRule el fl (fun _ => 0) 1).s s a ed 0 0) := by
  refine ⟨⟨fun _ => 1, fun _ => 1⟩, ⟨fun _ _ _ => 0, fun _ _ _ => 0, fun _ _ _ => 0, Part.zero,
    ⟨fun _ _ _ _ => 1, fun _ _ _ => 0, fun _ _ _ => 0⟩, Part.zero, Part.zero, Part.zero, Part.zero⟩,
    ![1, 0, 0, 0, 0, 0], 0, 0, by simp, ?_⟩
  simp [switchRule, Part.zero, dotProduct, Fin.sum_univ_succ]

/-! ## Concrete cases -/

/-- Concrete case for C114-C116: unit elasticity, a linear flow rule with one history variable. -/
noncomputable def sampleRule : Visco (Fin 6) Unit :=
  ⟨fun s _ _ => s 0, fun _ _ _ => Pi.single 0 1, fun _ _ _ => 0, ⟨fun _ _ _ => Pi.single 0 1, 0, 0⟩, Part.zero,
    Part.zero, ⟨fun _ _ _ _ => 1, 0, 0⟩, Part.zero, Part.zero⟩

theorem sampleRule_correct (s : Fin 6 → ℝ) (a : Unit → ℝ) (T : ℝ) : sampleRule.CorrectAt s a T :=
  ⟨D1.coord_s 0, fun _ => D1.const _, Part.zero_correct _ _ _, Part.zero_correct _ _ _, fun _ => D1.const _,
    Part.zero_correct _ _ _, Part.zero_correct _ _ _⟩

example : devVec ![1, 0, 0, 0, 0, 0] ≠ 0 ∧ CorrectRates
    (switchRule ⟨fun _ => 1, fun _ => 1⟩ sampleRule (fun _ => 1 / 2) 1) 0 0
    (Sum.elim ![3, 0, 0, 0, 0, 0] 0, ![1, 0, 0, 0, 0, 0]) := by
  have h : devVec ![1, 0, 0, 0, 0, 0] ≠ 0 := by
    intro h0
    have := congrFun h0 1
    simp [devVec] at this
  exact ⟨h, C114_switch_rates _ _ _ _ (sampleRule_correct _ _ _) (Or.inl h)⟩

example : SolvesPath (κ := Unit) (switchRule ⟨fun _ => 1, fun _ => 1⟩ sampleRule (fun _ => 1) 1)
    ⟨fun n => ![n, n, n, 0, 0, 0], fun _ => 0⟩ (fun n => n) (fun n => ![n, n, n, 0, 0, 0]) (fun _ => 0) := by
  have hd : devVec ![1, 1, 1, 0, 0, 0] = 0 := by
    ext i; fin_cases i <;> simp [devVec] <;> norm_num
  intro n
  have hdt : (0 : ℝ) < ((n + 1 : ℕ) : ℝ) - n := by push_cast; linarith
  have he : (fun i => ((![((n + 1 : ℕ) : ℝ), ((n + 1 : ℕ) : ℝ), ((n + 1 : ℕ) : ℝ), 0, 0, 0] : Fin 6 → ℝ) i -
      (![(n : ℝ), n, n, 0, 0, 0] : Fin 6 → ℝ) i) / (((n + 1 : ℕ) : ℝ) - n)) = ![1, 1, 1, 0, 0, 0] := by
    ext i; fin_cases i <;> simp
  have hk : kappa (fun _ => 1) 1 ![1, 1, 1, 0, 0, 0] 0 = 0 := by
    simp [kappa, hd, norm2]
  simp only [giTrial, if_pos hdt, he]
  funext i
  rcases i with i | i
  · fin_cases i <;> simp [giR, switchRule, hk]
  · simp [giR, switchRule, hk, sampleRule, Part.zero]

end Neml.Walker
