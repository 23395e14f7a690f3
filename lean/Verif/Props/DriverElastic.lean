import Verif.Props.Driver
import Mathlib.LinearAlgebra.Matrix.ToLinearEquiv

/-!
# The driver's steps with a linear elastic material

Every step answers, so the statements about the driver and its tests are not empty. -/

namespace Neml.Driver

open Matrix Neml.PySolve Neml.Uniaxial

variable {H : Type}

/-- The stress is a matrix times the mechanical strain, and the tangent is this matrix. Store, energies and thermal
expansion are arbitrary. -/
def IsElastic (m : Model3 H) (C : Matrix (Fin 6) (Fin 6) ℝ) : Prop :=
  ∀ i, ∃ h u p, m.update i = some ⟨C *ᵥ i.e1, h, C, u, p⟩

theorem det_ne_zero_of_ker {n : ℕ} (M : Matrix (Fin n) (Fin n) ℝ) (h : ∀ x, M *ᵥ x = 0 → x = 0) : M.det ≠ 0 := by
  intro hd
  obtain ⟨v, hv, he⟩ := Matrix.exists_mulVec_eq_zero_iff.2 hd
  exact hv (h v he)

theorem solveTry_linear {n : ℕ} (d : Driver H) (hr : 0 ≤ d.rtol) (ha : 0 ≤ d.atol) (hm : 0 < d.miter)
    (rj : (Fin n → ℝ) → Option ((Fin n → ℝ) × Matrix (Fin n) (Fin n) ℝ)) (M : Matrix (Fin n) (Fin n) ℝ) (hM : M.det ≠ 0)
    (b : Fin n → ℝ) (hrj : ∀ x, rj x = some (M *ᵥ x - b, M)) (x0 : Fin n → ℝ) (extra : List (Fin n → ℝ)) :
    ∃ x, d.solveTry rj x0 extra = some x := by
  obtain ⟨x, h, -⟩ := C112_linear M hM b x0 d.rtol d.atol hr ha d.miter hm
  refine ⟨x, C112_first rj _ _ _ _ _ _ _ ?_⟩
  simpa only [hrj, Option.map_some] using h

theorem strainStep_elastic (d : Driver H) (C : Matrix (Fin 6) (Fin 6) ℝ) (hm : IsElastic d.model C) (e : Fin 6 → ℝ)
    (t T : ℝ) : ∃ d', d.strainStep e t T = some d' ∧ d'.stress.last = C *ᵥ (e - d.thermalNext T) := by
  obtain ⟨h, u, p, hc⟩ := hm ⟨e - d.thermalNext T, d.mech.last, T, d.T.last, t, d.t.last, d.stress.last,
    d.stored.last, d.u.last, d.p.last⟩
  refine ⟨_, by rw [Driver.strainStep, Driver.call, hc]; rfl, rfl⟩

/-- **C71.** With a linear elastic material with a regular stiffness every stress controlled step answers. -/
theorem C71_elastic_stress (d : Driver H) (hr : 0 ≤ d.rtol) (ha : 0 ≤ d.atol) (hi : 0 < d.miter)
    (C : Matrix (Fin 6) (Fin 6) ℝ) (hm : IsElastic d.model C) (hC : C.det ≠ 0) (s1 : Fin 6 → ℝ) (t1 T1 : ℝ) :
    ∃ d', d.stressStep s1 t1 T1 = some d' := by
  have hrj : ∀ e, d.stressRJ s1 t1 T1 e = some (C *ᵥ e - (C *ᵥ d.thermalNext T1 + s1), C) := by
    intro e
    obtain ⟨h, u, p, hc⟩ := hm ⟨e - d.thermalNext T1, d.mech.last, T1, d.T.last, t1, d.t.last, d.stress.last,
      d.stored.last, d.u.last, d.p.last⟩
    rw [Driver.stressRJ, Driver.call, hc]
    simp only [Option.map_some, mulVec_sub, sub_sub]
  unfold Driver.stressStep
  extract_lets extra
  obtain ⟨x, hx⟩ := solveTry_linear d hr ha hi _ C hC _ hrj d.strain.last extra
  rw [hx]
  obtain ⟨d', h, -⟩ := strainStep_elastic d C hm x t1 T1
  exact ⟨d', h⟩

open Classical in
/-- The matrix of a rate controlled step with an elastic material. -/
noncomputable def erateMat (C : Matrix (Fin 6) (Fin 6) ℝ) (n : Fin 6 → ℝ) (dt : ℝ) : Matrix (Fin 7) (Fin 7) ℝ :=
  of fun i j => Fin.snoc (α := fun _ => ℝ) (fun k : Fin 6 => Fin.cases (-n k) (fun l => C k l) j)
    (Fin.cases 0 (fun l => n l / dt) j) i

theorem erateMat_row (C : Matrix (Fin 6) (Fin 6) ℝ) (n : Fin 6 → ℝ) (dt : ℝ) (x : Fin 7 → ℝ) (k : Fin 6) :
    (erateMat C n dt *ᵥ x) k.castSucc = (C *ᵥ fun l => x l.succ) k - n k * x 0 := by
  simp only [mulVec, dotProduct, erateMat, of_apply, Fin.snoc_castSucc]
  rw [Fin.sum_univ_succ]
  simp only [Fin.cases_zero, Fin.cases_succ]
  ring

theorem erateMat_last (C : Matrix (Fin 6) (Fin 6) ℝ) (n : Fin 6 → ℝ) (dt : ℝ) (x : Fin 7 → ℝ) :
    (erateMat C n dt *ᵥ x) (Fin.last 6) = (fun l => x l.succ) ⬝ᵥ n / dt := by
  simp only [mulVec, dotProduct, erateMat, of_apply, Fin.snoc_last]
  rw [Fin.sum_univ_succ]
  simp only [Fin.cases_zero, Fin.cases_succ, zero_mul, zero_add]
  rw [div_eq_mul_inv, Finset.sum_mul]
  exact Finset.sum_congr rfl fun l _ => by ring

theorem erateMat_det (C : Matrix (Fin 6) (Fin 6) ℝ) (hC : C.det ≠ 0) (n : Fin 6 → ℝ) (hn : n ⬝ᵥ C⁻¹ *ᵥ n ≠ 0) (dt : ℝ)
    (hdt : dt ≠ 0) : (erateMat C n dt).det ≠ 0 := by
  refine det_ne_zero_of_ker _ fun x hx => ?_
  have h1 : (C *ᵥ fun l => x l.succ) = x 0 • n := by
    funext k
    have := congrFun hx k.castSucc
    rw [erateMat_row, Pi.zero_apply] at this
    simp only [Pi.smul_apply, smul_eq_mul]
    linarith
  have h2 : (fun l => x l.succ) ⬝ᵥ n = 0 := by
    have := congrFun hx (Fin.last 6)
    rw [erateMat_last, Pi.zero_apply, div_eq_zero_iff] at this
    exact this.resolve_right hdt
  have h3 : (fun l => x l.succ) = x 0 • (C⁻¹ *ᵥ n) := by
    rw [← mulVec_smul, ← h1, mulVec_mulVec, nonsing_inv_mul _ (Ne.isUnit hC), one_mulVec]
  have h4 : x 0 = 0 := by
    rw [h3, smul_dotProduct, smul_eq_mul, dotProduct_comm, mul_eq_zero] at h2
    exact h2.resolve_right hn
  funext i
  refine Fin.cases h4 (fun k => ?_) i
  have := congrFun h3 k
  rw [h4] at this
  simpa using this

/-- **C71.** With a linear elastic material with a regular stiffness every rate controlled step over some time answers, if
the compliance along the direction is not zero. -/
theorem C71_elastic_erate (d : Driver H) (hr : 0 ≤ d.rtol) (ha : 0 ≤ d.atol) (hi : 0 < d.miter)
    (C : Matrix (Fin 6) (Fin 6) ℝ) (hm : IsElastic d.model C) (hC : C.det ≠ 0) (sdir : Fin 6 → ℝ)
    (hn : sdir ⬝ᵥ C⁻¹ *ᵥ sdir ≠ 0) (erate t1 T1 : ℝ) (ht : t1 ≠ d.t.last) (eg : Option (Fin 6 → ℝ)) (ag : Option ℝ) :
    ∃ q, d.erateStep sdir erate t1 T1 eg ag = some q := by
  have hs : norm2 sdir ≠ 0 := fun h => hn (by rw [norm2_eq_zero.1 h]; simp)
  have hdt : t1 - d.t.last ≠ 0 := sub_ne_zero.2 ht
  have hu : unit sdir ⬝ᵥ C⁻¹ *ᵥ unit sdir ≠ 0 := by
    rw [unit, mulVec_smul, dotProduct_smul, smul_dotProduct]
    exact mul_ne_zero (inv_ne_zero hs) (mul_ne_zero (inv_ne_zero hs) hn)
  have hrj : ∀ x, d.erateRJ (unit sdir) erate t1 T1 x =
      some (erateMat C (unit sdir) (t1 - d.t.last) *ᵥ x - Fin.snoc (α := fun _ => ℝ)
        (fun k => d.stress.last k - (C *ᵥ (d.strain.last - d.thermalNext T1)) k) erate,
        erateMat C (unit sdir) (t1 - d.t.last)) := by
    intro x
    obtain ⟨h, u, p, hc⟩ := hm ⟨d.strain.last + (fun k => x k.succ) - d.thermalNext T1, d.mech.last, T1, d.T.last, t1,
      d.t.last, d.stress.last, d.stored.last, d.u.last, d.p.last⟩
    unfold Driver.erateRJ
    rw [if_neg hdt, Driver.call, hc]
    simp only [Option.map_some, Option.some.injEq, Prod.mk.injEq]
    refine ⟨?_, by unfold erateMat; congr⟩
    funext i
    refine Fin.lastCases ?_ (fun k => ?_) i
    · rw [Fin.snoc_last, Pi.sub_apply, erateMat_last, Fin.snoc_last]
    · rw [Fin.snoc_castSucc, Pi.sub_apply, erateMat_row, Fin.snoc_castSucc, add_sub_right_comm, mulVec_add, Pi.add_apply]
      ring
  unfold Driver.erateStep
  rw [if_neg hs]
  obtain ⟨x, hx⟩ := solveTry_linear d hr ha hi _ _ (erateMat_det C hC _ hu _ hdt) _ hrj
    (Fin.cons (ag.getD 1) (eg.getD ((1 / 10000 : ℝ) • unit sdir))) []
  simp only [hx]
  obtain ⟨d', h, -⟩ := strainStep_elastic d C hm (d.strain.last + fun k => x k.succ) t1 T1
  rw [h]
  exact ⟨_, rfl⟩

/-- **C71.** The same for steps given by a strain increment. -/
theorem C71_elastic_einc (d : Driver H) (hr : 0 ≤ d.rtol) (ha : 0 ≤ d.atol) (hi : 0 < d.miter)
    (C : Matrix (Fin 6) (Fin 6) ℝ) (hm : IsElastic d.model C) (hC : C.det ≠ 0) (sdir : Fin 6 → ℝ)
    (hn : sdir ⬝ᵥ C⁻¹ *ᵥ sdir ≠ 0) (erate einc T1 : ℝ) (he : erate ≠ 0) (hq : einc ≠ 0) (eg : Option (Fin 6 → ℝ))
    (ag : Option ℝ) : ∃ q, d.erateEincStep sdir erate einc T1 eg ag = some q := by
  rw [Driver.erateEincStep, if_neg he]
  exact C71_elastic_erate d hr ha hi C hm hC sdir hn erate _ T1
    (by simpa using div_ne_zero hq he) eg ag

/-- The identity as stiffness, with a store that counts the steps. -/
def counter : Model3 ℕ := ⟨fun i => some ⟨i.e1, i.h0 + 1, 1, 0, 0⟩, fun _ => 0, 0⟩

theorem counter_elastic : IsElastic counter 1 := fun i => ⟨_, _, _, by rw [one_mulVec]; rfl⟩

example : ∃ q, (Driver.new counter 0 0 25 0 300 false).erateEincStep ![1, 0, 0, 0, 0, 0] (1 / 1000) (1 / 100) 300 none none =
    some q :=
  C71_elastic_einc _ le_rfl le_rfl (by norm_num [Driver.new]) 1 counter_elastic (by simp) _
    (by simp [dotProduct, Fin.sum_univ_six]) _ _ _ (by norm_num) (by norm_num) _ _

end Neml.Driver
