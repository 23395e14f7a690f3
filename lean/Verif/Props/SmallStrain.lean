import Verif.Model.SmallStrain
import Verif.Props.Substep
import Mathlib.Tactic.Ring
import Mathlib.Tactic.Linarith
import Mathlib.Tactic.FieldSimp
import Mathlib.Tactic.NoncommRing
import Mathlib.Tactic.Abel
import Mathlib.Algebra.BigOperators.Field
import Mathlib.LinearAlgebra.Matrix.Notation
import Mathlib.LinearAlgebra.Matrix.NonsingularInverse

/-!
# C23 to C27: small strain models
-/

namespace Neml.SmallStrain

open Matrix

variable {K : Type} [Field K] {ι κ : Type} [Fintype ι] [DecidableEq ι] [Fintype κ] [DecidableEq κ]

theorem updateStep_elastic {H P τ : Type} [Fintype P] [DecidableEq P] (m : Integrator K ι H P τ)
    (x : Substep.Point K (ι → K) (ι → K) H) (e1 : ι → K) (T1 t1 : K)
    (h : m.elasticStep (m.setup x e1 T1 t1) x e1 T1 t1) :
    ∃ inc, updateStep m x e1 T1 t1 = some inc ∧ inc.s = m.el.C T1 *ᵥ (e1 - x.e) + x.s ∧
      inc.h = x.h ∧
      (inc.u, inc.p) = m.work (m.setup x e1 T1 t1) x e1 T1 t1 (m.el.C T1 *ᵥ (e1 - x.e) + x.s) x.h := by
  unfold updateStep
  simp only
  rw [if_pos h]
  exact ⟨_, rfl, rfl, rfl, rfl⟩

theorem updateStep_plastic {H P τ : Type} [Fintype P] [DecidableEq P] (m : Integrator K ι H P τ)
    (x : Substep.Point K (ι → K) (ι → K) H) (e1 : ι → K) (T1 t1 : K)
    (h : ¬ m.elasticStep (m.setup x e1 T1 t1) x e1 T1 t1) (inc : Substep.Inc K (ι → K) H P ι)
    (hinc : updateStep m x e1 T1 t1 = some inc) :
    ∃ z J, m.solve (m.setup x e1 T1 t1) = some (z, J) ∧ m.inv J = some inc.A ∧
      (inc.s, inc.h) = m.internal z ∧ inc.E = m.strainPartial (m.setup x e1 T1 t1) inc.s inc.h ∧
      (inc.u, inc.p) = m.work (m.setup x e1 T1 t1) x e1 T1 t1 inc.s inc.h := by
  unfold updateStep at hinc
  simp only at hinc
  rw [if_neg h] at hinc
  cases hs : m.solve (m.setup x e1 T1 t1) with
  | none => rw [hs] at hinc; simp at hinc
  | some zJ =>
    obtain ⟨z, J⟩ := zJ
    rw [hs] at hinc
    simp only at hinc
    cases hi : m.inv J with
    | none => rw [hi] at hinc; simp at hinc
    | some A =>
      rw [hi] at hinc
      simp only [Option.some.injEq] at hinc
      rw [← hinc]
      exact ⟨z, J, rfl, hi, rfl, rfl, rfl⟩

/-! ## C23: elastic energy -/

/-- Run the elastic model along a strain path at constant temperature: state is (strain, stress,
energy, work). -/
def elasticRun (el : Elastic K ι) (T : K) :
    List (ι → K) → (ι → K) × (ι → K) × K × K → (ι → K) × (ι → K) × K × K
  | [], st => st
  | e :: path, (e0, s0, u0, p0) =>
    let r := elasticUpdate el e e0 T s0 u0 p0
    elasticRun el T path (e, r.1, r.2.2.1, r.2.2.2)

/-- Half the stress-strain product of the elastic state at strain `e`. -/
def storedEnergy (el : Elastic K ι) (T : K) (e : ι → K) : K := (el.C T *ᵥ e) ⬝ᵥ e / 2

theorem sym_dot {C : Matrix ι ι K} (h : Cᵀ = C) (a b : ι → K) : (C *ᵥ a) ⬝ᵥ b = (C *ᵥ b) ⬝ᵥ a := by
  rw [dotProduct_comm, dotProduct_mulVec, ← mulVec_transpose, h]

/-- C23. Along any strain path at constant temperature the stress is the elastic stress of the
current strain, the energy differs from the start by the difference of the stored energies,
and the dissipated work is unchanged. -/
theorem C23_energy (h2 : (2 : K) ≠ 0) (el : Elastic K ι) (T : K) (hsym : (el.C T)ᵀ = el.C T)
    (path : List (ι → K)) (e0 : ι → K) (u0 p0 : K) :
    elasticRun el T path (e0, el.C T *ᵥ e0, u0, p0) =
      (path.getLastD e0, el.C T *ᵥ path.getLastD e0,
       u0 + storedEnergy el T (path.getLastD e0) - storedEnergy el T e0, p0) := by
  induction path generalizing e0 u0 with
  | nil => simp [elasticRun]
  | cons e path ih =>
    simp only [elasticRun, elasticUpdate]
    rw [ih]
    have hl : (e :: path).getLastD e0 = path.getLastD e := by
      cases path <;> simp [List.getLastD]
    have hstep : u0 + (fun i => ((el.C T *ᵥ e) i + (el.C T *ᵥ e0) i) / 2) ⬝ᵥ (e - e0) =
        u0 + storedEnergy el T e - storedEnergy el T e0 := by
      have h1 : (fun i => ((el.C T *ᵥ e) i + (el.C T *ᵥ e0) i) / 2) =
          (2 : K)⁻¹ • (el.C T *ᵥ e + el.C T *ᵥ e0) := by
        funext i; simp only [Pi.smul_apply, Pi.add_apply, smul_eq_mul]; rw [div_eq_inv_mul]
      rw [h1, smul_dotProduct, add_dotProduct, dotProduct_sub, dotProduct_sub,
        sym_dot hsym e e0, smul_eq_mul]
      unfold storedEnergy
      field_simp
      ring
    rw [hl, hstep]
    simp only [Prod.mk.injEq, true_and, and_true]
    ring

/-- C23. A closed path returns no net energy and no dissipation. -/
theorem C23_closed_path (h2 : (2 : K) ≠ 0) (el : Elastic K ι) (T : K)
    (hsym : (el.C T)ᵀ = el.C T) (path : List (ι → K)) (e0 : ι → K) (u0 p0 : K)
    (hclosed : path.getLastD e0 = e0) :
    elasticRun el T path (e0, el.C T *ᵥ e0, u0, p0) = (e0, el.C T *ᵥ e0, u0, p0) := by
  rw [C23_energy h2 el T hsym, hclosed]
  simp

/-- Concrete case: a triangle in strain space with a coupled stiffness. -/
example : elasticRun (ι := Fin 2) (K := ℚ) ⟨fun _ => !![2, 1; 1, 3], fun _ => 0⟩ 0
    [![1, 0], ![1, 5], ![0, 0]] (![0, 0], !![2, 1; 1, 3] *ᵥ ![0, 0], 7, 4) =
    (![0, 0], !![2, 1; 1, 3] *ᵥ ![0, 0], 7, 4) :=
  C23_closed_path (by norm_num) ⟨fun _ => !![2, 1; 1, 3], fun _ => 0⟩ 0
    (by ext i j; fin_cases i <;> fin_cases j <;> rfl) _ _ _ _ rfl

/-! ## C24: elastic steps -/

/-- The elastic stress at the end of a step whose plastic strain stays what it was: the
stiffness at the new temperature applied to the total strain minus the old plastic strain,
itself the old strain minus the old elastic strain. -/
def trialStress {H : Type} (el : Elastic K ι) (x : Substep.Point K (ι → K) (ι → K) H)
    (e1 : ι → K) (T1 : K) : ι → K :=
  el.C T1 *ᵥ (e1 - (x.e - el.S x.T *ᵥ x.s))

section ordered
variable [LinearOrder K]

/-- C24. At constant temperature, a rate independent step whose trial state is not outside the
yield surface returns the trial stress, the old history, no dissipation and the trapezoidal
energy. Missing for the full claim: temperature changes, where it is false
(`C24_nonisothermal_fails`). -/
theorem C24_elastic_step_partial (el : Elastic K ι) (fl : RIFlow K ι κ) (solve inv)
    (x : Substep.Point K (ι → K) (ι → K) (κ → K)) (e1 : ι → K) (t1 : K)
    (hCS : el.C x.T * el.S x.T = 1)
    (hin : fl.f (trialStress el x e1 x.T) x.h x.T ≤ 0) :
    ∃ inc, updateStep (rateIndependent el fl solve inv) x e1 x.T t1 = some inc ∧
      inc.s = trialStress el x e1 x.T ∧ inc.h = x.h ∧ inc.p = x.p ∧
      inc.u = x.u + (inc.s + x.s) ⬝ᵥ (e1 - x.e) / 2 := by
  have hstr : (riTrial el x e1 x.T).str = trialStress el x e1 x.T := rfl
  have htr : trialStress el x e1 x.T = fun i => (el.C x.T *ᵥ (e1 - x.e)) i + x.s i := by
    funext i
    unfold trialStress
    have : e1 - (x.e - el.S x.T *ᵥ x.s) = (e1 - x.e) + el.S x.T *ᵥ x.s := by abel
    rw [this, mulVec_add, mulVec_mulVec, hCS, one_mulVec]
    rfl
  have hSC : el.S x.T * el.C x.T = 1 := mul_eq_one_comm.mp hCS
  obtain ⟨inc, h1, h3, h4, h5⟩ := updateStep_elastic (rateIndependent el fl solve inv) x e1 x.T t1 hin
  have htr' : trialStress el x e1 x.T = el.C x.T *ᵥ (e1 - x.e) + x.s := htr
  simp only [rateIndependent, ripWork, Prod.mk.injEq] at h3 h5
  refine ⟨inc, h1, h3.trans htr'.symm, h4, ?_, ?_⟩
  · rw [h5.2]
    have hdp : (fun i => e1 i - (el.S x.T *ᵥ (el.C x.T *ᵥ (e1 - x.e) + x.s)) i -
        (riTrial el x e1 x.T).ep i) = 0 := by
      rw [mulVec_add, mulVec_mulVec, hSC, one_mulVec]
      funext i
      simp only [riTrial, Pi.add_apply, Pi.sub_apply, Pi.zero_apply]
      ring
    rw [hdp, dotProduct_zero]
    simp
  · rw [h5.1, h3]
    rfl

end ordered

/-- C24, negation for temperature changes. One strain component, stiffness 1 at temperature 0 and
2 at temperature 1, stress 1, no strain increment, a yield surface that is never reached: the
update returns the old stress 1 although the elastic strain is unchanged and the trial stress
is 2. -/
theorem C24_nonisothermal_fails :
    ∃ (el : Elastic ℚ Unit) (fl : RIFlow ℚ Unit Empty)
      (x : Substep.Point ℚ (Unit → ℚ) (Unit → ℚ) (Empty → ℚ)) (e1 : Unit → ℚ) (T1 t1 : ℚ),
      (∀ T, 0 ≤ T → el.C T * el.S T = 1) ∧ 0 ≤ x.T ∧ 0 ≤ T1 ∧
      fl.f (trialStress el x e1 T1) x.h T1 ≤ 0 ∧
      ∀ solve inv inc, updateStep (rateIndependent el fl solve inv) x e1 T1 t1 = some inc →
        inc.s ≠ trialStress el x e1 T1 := by
  refine ⟨⟨fun T => Matrix.of fun _ _ => 1 + T, fun T => Matrix.of fun _ _ => (1 + T)⁻¹⟩,
    ⟨fun _ _ _ => -1, 0, 0, 0, 0, 0, 0, 0, 0⟩, ⟨fun _ => 1, 0, 0, fun _ => 1, Empty.elim, 0, 0⟩,
    fun _ => 1, 1, 1, ?_, le_refl _, by norm_num, by norm_num, ?_⟩
  · intro T hT
    ext i j
    have : (1 + T) ≠ 0 := by linarith
    simp [Matrix.mul_apply, this]
  · intro solve inv inc h hs
    obtain ⟨inc', h1, h3, _⟩ := updateStep_elastic (rateIndependent (K := ℚ) (ι := Unit) (κ := Empty)
      ⟨fun T => Matrix.of fun _ _ => 1 + T, fun T => Matrix.of fun _ _ => (1 + T)⁻¹⟩
      ⟨fun _ _ _ => -1, 0, 0, 0, 0, 0, 0, 0, 0⟩ solve inv)
      ⟨fun _ => 1, 0, 0, fun _ => 1, Empty.elim, 0, 0⟩ (fun _ => 1) 1 1
      (by simp only [rateIndependent]; norm_num)
    rw [h1, Option.some.injEq] at h
    rw [← h, h3] at hs
    have := congrFun hs ()
    simp [trialStress, mulVec, dotProduct, rateIndependent] at this

/-- Concrete case for `C24_elastic_step_partial`. -/
example : ∃ inc : Substep.Inc ℚ (Unit → ℚ) (Unit → ℚ) (RIx Unit Unit) Unit, updateStep
    (rateIndependent (K := ℚ) (ι := Unit) (κ := Unit)
      ⟨fun _ => Matrix.of fun _ _ => 2, fun _ => Matrix.of fun _ _ => 1 / 2⟩
      ⟨fun s h _ => s () + h () - 10, 0, 0, 0, 0, 0, 0, 0, 0⟩ (fun _ => none) (fun _ => none))
    ⟨fun _ => 1, 0, 0, fun _ => 1, fun _ => 3, 0, 0⟩ (fun _ => 3) 0 1 = some inc ∧
      inc.s = fun _ => 5 := by
  obtain ⟨inc, h1, h2, _⟩ := C24_elastic_step_partial (K := ℚ) (ι := Unit) (κ := Unit)
    ⟨fun _ => Matrix.of fun _ _ => 2, fun _ => Matrix.of fun _ _ => 1 / 2⟩
    ⟨fun s h _ => s () + h () - 10, 0, 0, 0, 0, 0, 0, 0, 0⟩ (fun _ => none) (fun _ => none)
    ⟨fun _ => 1, 0, 0, fun _ => 1, fun _ => 3, 0, 0⟩ (fun _ => 3) 1
    (by ext; simp [Matrix.mul_apply]) (by simp [trialStress, mulVec, dotProduct]; norm_num)
  refine ⟨inc, h1, ?_⟩
  rw [h2]
  funext
  simp [trialStress, mulVec, dotProduct]; norm_num

/-! ## C25: perfect plasticity -/

section pp
variable [LinearOrder K]

/-- C25. When the trial stress of the perfectly plastic model is outside the yield surface and the
solver returns an exact solution, the stress is on the yield surface, the total strain is
elastic strain plus old plastic strain plus a multiple of the surface normal, and the
dissipated work grows by the average stress times that plastic increment. -/
theorem C25_on_surface (el : Elastic K ι) (sf : PPSurface K ι) (ys : K → K) (solve inv)
    (hsolve : ∀ ts z J, solve ts = some (z, J) → ppR sf ts z = 0)
    (x : Substep.Point K (ι → K) (ι → K) Unit) (e1 : ι → K) (T1 t1 : K)
    (hSC : el.S T1 * el.C T1 = 1)
    (hout : 0 < sf.f (fun i => x.s i + (el.C T1 *ᵥ (e1 - x.e)) i) (-ys T1) T1)
    (inc) (h : updateStep (perfectPlasticity el sf ys solve inv) x e1 T1 t1 = some inc) :
    sf.f inc.s (-ys T1) T1 = 0 ∧
    ∃ dg : K, e1 = el.S T1 *ᵥ inc.s + (x.e - el.S x.T *ᵥ x.s) + dg • sf.df inc.s (-ys T1) T1 ∧
      inc.p = x.p + dg * ((inc.s + x.s) ⬝ᵥ sf.df inc.s (-ys T1) T1) / 2 := by
  obtain ⟨z, J, hs, _, hsh, _, hup⟩ := updateStep_plastic (perfectPlasticity el sf ys solve inv)
    x e1 T1 t1 (not_le.mpr hout) inc h
  simp only [perfectPlasticity, ripWork, Prod.mk.injEq, and_true] at hs hsh hup
  have hR := hsolve _ _ _ hs
  have hf : sf.f (fun i => z (.inl i)) (-ys T1) T1 = 0 := by
    have := congrFun hR (.inr ())
    simpa [ppR, ppTrial] using this
  set df := sf.df (fun i => z (.inl i)) (-ys T1) T1 with hdf
  have h1 : (fun i => z (.inl i)) =
      el.C T1 *ᵥ (e1 - (x.e - el.S x.T *ᵥ x.s) - z (.inr ()) • df) := by
    funext i
    have := congrFun hR (.inl i)
    simp only [ppR, ppTrial, Sum.elim_inl, Pi.zero_apply, sub_eq_zero] at this
    rw [this]
    congr 1
    congr 1
    funext j
    simp only [Pi.sub_apply, Pi.smul_apply, smul_eq_mul, hdf]
    ring
  have h3 : el.S T1 *ᵥ (fun i => z (.inl i)) =
      e1 - (x.e - el.S x.T *ᵥ x.s) - z (.inr ()) • df := by
    conv_lhs => rw [h1]
    rw [mulVec_mulVec, hSC, one_mulVec]
  have hdp : (fun i => e1 i - (el.S T1 *ᵥ (fun i => z (.inl i))) i -
      (ppTrial el ys x e1 T1).ep i) = z (.inr ()) • df := by
    rw [h3]
    funext i
    simp only [ppTrial, Pi.sub_apply, Pi.smul_apply, smul_eq_mul]
    ring
  refine ⟨by rw [hsh]; exact hf, z (.inr ()), ?_, ?_⟩
  · rw [hsh, h3]
    abel
  · rw [hup.2, hsh]
    rw [hdp, dotProduct_smul, smul_eq_mul]
    rfl

/-- C25. At constant temperature the trial stress exceeds the returned stress by a multiple of
the stiffness applied to the surface normal. -/
theorem C25_return_direction (el : Elastic K ι) (sf : PPSurface K ι) (ys : K → K) (solve inv)
    (hsolve : ∀ ts z J, solve ts = some (z, J) → ppR sf ts z = 0)
    (x : Substep.Point K (ι → K) (ι → K) Unit) (e1 : ι → K) (t1 : K)
    (hSC : el.S x.T * el.C x.T = 1)
    (hout : 0 < sf.f (fun i => x.s i + (el.C x.T *ᵥ (e1 - x.e)) i) (-ys x.T) x.T)
    (inc) (h : updateStep (perfectPlasticity el sf ys solve inv) x e1 x.T t1 = some inc) :
    ∃ dg : K, x.s + el.C x.T *ᵥ (e1 - x.e) =
      inc.s + dg • (el.C x.T *ᵥ sf.df inc.s (-ys x.T) x.T) := by
  obtain ⟨_, dg, he, _⟩ := C25_on_surface el sf ys solve inv hsolve x e1 x.T t1 hSC hout inc h
  have hCS : el.C x.T * el.S x.T = 1 := mul_eq_one_comm.mp hSC
  refine ⟨dg, ?_⟩
  have : e1 - x.e = el.S x.T *ᵥ inc.s - el.S x.T *ᵥ x.s + dg • sf.df inc.s (-ys x.T) x.T := by
    conv_lhs => rw [he]
    abel
  rw [this, mulVec_add, mulVec_sub, mulVec_mulVec, mulVec_mulVec, hCS, one_mulVec, one_mulVec,
    mulVec_smul]
  abel

end pp

/-- A linear surface `s0 - ys` on two stress components, and its exact return mapping for unit
stiffness: a concrete case for C25, with a solver that meets the hypothesis. -/
def linSurface : PPSurface ℚ (Fin 2) where
  f s q _ := s 0 + q
  df _ _ _ := ![1, 0]
  ddf _ _ _ := 0

/-- Exact solution of the return mapping for `linSurface` with unit stiffness. -/
def linSolve (ts : PPTrial ℚ (Fin 2)) :
    Option ((Fin 2 ⊕ Unit → ℚ) × Matrix (Fin 2 ⊕ Unit) (Fin 2 ⊕ Unit) ℚ) :=
  if ts.C = 1 then
    let z := Sum.elim ![-ts.ys, ts.e1 1 - ts.ep 1] (fun _ : Unit => ts.e1 0 - ts.ep 0 + ts.ys)
    some (z, ppJ linSurface ts z)
  else none

theorem linSolve_exact (ts z J) (h : linSolve ts = some (z, J)) : ppR linSurface ts z = 0 := by
  unfold linSolve at h
  split_ifs at h with hC
  simp only [Option.some.injEq, Prod.mk.injEq] at h
  obtain ⟨h1, _⟩ := h
  rw [← h1]
  funext a
  rcases a with i | u
  · fin_cases i
    · simp [ppR, hC, linSurface]
    · simp [ppR, hC, linSurface]
  · simp [ppR, linSurface]

/-- C25 on the linear surface: from stress (1, 0), a strain increment (3, 4) at yield stress 2 gives
stress (2, 4). -/
example : ∃ inc, updateStep (perfectPlasticity (K := ℚ) ⟨fun _ => 1, fun _ => 1⟩ linSurface
    (fun _ => 2) linSolve (fun _ => some 0)) ⟨0, 0, 0, ![1, 0], (), 0, 0⟩ ![3, 4] 0 1 = some inc ∧
    inc.s = ![2, 4] ∧ inc.p = 3 := by
  have hne : ¬ ((perfectPlasticity (K := ℚ) ⟨fun _ => 1, fun _ => 1⟩ linSurface
    (fun _ => 2) linSolve (fun _ => some 0)).elasticStep ((perfectPlasticity (K := ℚ)
      ⟨fun _ => 1, fun _ => 1⟩ linSurface
    (fun _ => 2) linSolve (fun _ => some 0)).setup ⟨0, 0, 0, ![1, 0], (), 0, 0⟩ ![3, 4] 0 1)
      ⟨0, 0, 0, ![1, 0], (), 0, 0⟩ ![3, 4] 0 1) := by
    simp [perfectPlasticity, ppTrial, linSurface]; norm_num
  unfold updateStep
  simp only
  rw [if_neg hne]
  simp only [perfectPlasticity, linSolve, ppTrial, if_true]
  refine ⟨_, rfl, ?_, ?_⟩
  · funext i; fin_cases i <;> simp
  · simp [ripWork, dotProduct, Fin.sum_univ_two]; norm_num

/-! ## C26: regime model -/

/-- C26. If the `i`-th bound exceeds the activation energy and no earlier one does, the `i`-th
model is used. -/
theorem C26_first_bound {M : Type} (gs : List ℝ) (models : List M) (g : ℝ) (i : Nat)
    (hi : i < gs.length) (hb : g < gs[i]) (hfirst : ∀ j (hj : j < i), gs[j] ≤ g) :
    kmPick gs models g = models[i]? := by
  have : gs.findIdx? (fun b => decide (g < b)) = some i := by
    rw [List.findIdx?_eq_some_iff_getElem]
    exact ⟨hi, by simpa using hb, fun j hj => by simpa using hfirst j hj⟩
  unfold kmPick
  rw [this]

/-- C26. If no bound exceeds the activation energy the last model is used. -/
theorem C26_last {M : Type} (gs : List ℝ) (models : List M) (g : ℝ) (h : ∀ b ∈ gs, b ≤ g) :
    kmPick gs models g = models.getLast? := by
  have : gs.findIdx? (fun b => decide (g < b)) = none := by
    rw [List.findIdx?_eq_none_iff]
    intro b hb; simpa using h b hb
  unfold kmPick
  rw [this]

/-- C26. With one more model than bounds, some member model is always chosen; the update is
that member's update on the shared state, so nothing is translated when the regime changes. -/
theorem C26_always_one {M : Type} (gs : List ℝ) (models : List M) (g : ℝ)
    (hlen : models.length = gs.length + 1) :
    ∃ m ∈ models, kmPick gs models g = some m := by
  by_cases h : ∀ b ∈ gs, b ≤ g
  · rw [C26_last gs models g h]
    have hne : models ≠ [] := by intro h0; rw [h0] at hlen; simp at hlen
    exact ⟨_, List.getLast_mem hne, List.getLast?_eq_some_getLast hne⟩
  · push Not at h
    obtain ⟨b, hb, hgb⟩ := h
    cases hf : gs.findIdx? (fun b => decide (g < b)) with
    | none =>
      rw [List.findIdx?_eq_none_iff] at hf
      simpa [not_lt.mpr hgb.le] using absurd hgb (by simpa using hf b hb)
    | some i =>
      rw [List.findIdx?_eq_some_iff_getElem] at hf
      obtain ⟨hi, h1, h2⟩ := hf
      rw [C26_first_bound gs models g i hi (by simpa using h1)
        (fun j hj => by simpa using h2 j hj)]
      have hi' : i < models.length := by omega
      exact ⟨models[i], List.getElem_mem hi', List.getElem?_eq_getElem hi'⟩

/-- C26. With increasing bounds the chosen regime is monotone in the activation energy: a larger
energy never selects an earlier regime. -/
theorem C26_monotone (gs : List ℝ) (g g' : ℝ) (hg : g ≤ g') :
    gs.findIdx (fun b => decide (g < b)) ≤ gs.findIdx (fun b => decide (g' < b)) := by
  induction gs with
  | nil => simp
  | cons b gs ih =>
    rw [List.findIdx_cons, List.findIdx_cons]
    by_cases h : g < b
    · simp [h]
    · have h' : ¬ g' < b := by linarith
      simp [h, h', ih]

/-- The number of models is not checked: with as many bounds as there are models plus one, the
choice can be out of range. -/
theorem C26_bad_lengths : ∃ (gs : List ℝ) (models : List Nat) (g : ℝ), kmPick gs models g = none := by
  refine ⟨[0, 2], [7], 1, ?_⟩
  have := C26_first_bound [0, 2] [7] 1 1 (by simp) (by norm_num)
    (fun j hj => by obtain rfl : j = 0 := by omega
                    norm_num)
  rw [this]; rfl

/-- C26. Faster straining (the same strain increment in a shorter time) lowers the activation
energy, for positive temperature and material constants. -/
theorem C26_rate (kboltz b eps0 mu T1 dt dt' : ℝ) (e1 e0 : Fin 6 → ℝ)
    (hk : 0 < kboltz) (hb : 0 < b) (he : 0 < eps0) (hmu : 0 < mu) (hT : 0 < T1)
    (hdt : 0 < dt') (hlt : dt' < dt) (hne : e1 ≠ e0) :
    kmEnergy kboltz b eps0 mu T1 dt' e1 e0 < kmEnergy kboltz b eps0 mu T1 dt e1 e0 := by
  have hpos : 0 < ∑ i, (e1 i - e0 i) * (e1 i - e0 i) := by
    obtain ⟨k, hk⟩ := Function.ne_iff.mp hne
    refine lt_of_lt_of_le ?_ (Finset.single_le_sum
      (f := fun i => (e1 i - e0 i) * (e1 i - e0 i)) (fun i _ => mul_self_nonneg _) (Finset.mem_univ k))
    exact mul_self_pos.mpr (sub_ne_zero.mpr hk)
  have hrate : ∀ d : ℝ, 0 < d → Real.sqrt (∑ i, (e1 i - e0 i) / d * ((e1 i - e0 i) / d)) =
      Real.sqrt (∑ i, (e1 i - e0 i) * (e1 i - e0 i)) / d := by
    intro d hd
    have : ∑ i, (e1 i - e0 i) / d * ((e1 i - e0 i) / d) =
        (∑ i, (e1 i - e0 i) * (e1 i - e0 i)) / d ^ 2 := by
      rw [Finset.sum_div]
      refine Finset.sum_congr rfl fun i _ => ?_
      field_simp
    rw [this, Real.sqrt_div' _ (by positivity), Real.sqrt_sq hd.le]
  have hd : 0 < dt := hdt.trans hlt
  simp only [kmEnergy]
  rw [hrate dt hd, hrate dt' hdt]
  have hN := Real.sqrt_pos.mpr hpos
  have h23 : 0 < Real.sqrt (2 / 3) := Real.sqrt_pos.mpr (by norm_num)
  have hb3 : 0 < b ^ (3 : ℝ) := Real.rpow_pos_of_pos hb 3
  refine mul_lt_mul_of_pos_left ?_ (by positivity)
  refine Real.log_lt_log (by positivity) ?_
  refine div_lt_div_of_pos_left he (by positivity) ?_
  refine mul_lt_mul_of_pos_left ?_ h23
  exact div_lt_div_of_pos_left hN hdt hlt

/-- Concrete case for C26: three regimes. -/
example : kmPick [1, 2] ["a", "b", "c"] 1 = some "b" ∧ kmPick [1, 2] ["a", "b", "c"] 0 = some "a" ∧
    kmPick [1, 2] ["a", "b", "c"] 2 = some "c" := by
  refine ⟨?_, ?_, ?_⟩
  · rw [C26_first_bound _ _ _ 1 (by simp) (by norm_num)
      (fun j hj => by obtain rfl : j = 0 := by omega
                      norm_num)]
    rfl
  · rw [C26_first_bound _ _ _ 0 (by simp) (by norm_num) (fun j hj => by omega)]; rfl
  · rw [C26_last _ _ _ (by norm_num)]; rfl

/-! ## C27: creep plus plasticity tangent -/

/-- C27. Whenever the tangent is returned it is the series tangent `T`: the stress increment
responds to a strain increment of which the creep compliance takes its share,
`T = A (1 - B T)`. This includes singular `A`. -/
theorem C27_series (inv : Matrix ι ι K → Option (Matrix ι ι K))
    (hinv : ∀ M N, inv M = some N → M * N = 1) (A B T : Matrix ι ι K)
    (h : cpTangent inv A B = some T) : T = A * (1 - B * T) := by
  unfold cpTangent at h
  cases hi : inv (A * B + 1) with
  | none => rw [hi] at h; simp at h
  | some C =>
    rw [hi] at h
    simp only [Option.some.injEq] at h
    have h1 := hinv _ _ hi
    have h2 : C * (A * B + 1) = 1 := mul_eq_one_comm.mp h1
    -- T = C * A
    have hT : T = C * A := by
      rw [← h]
      have : A * (B * (C * A)) = (A * B + 1) * C * A - C * A := by noncomm_ring
      rw [this, h1, one_mul]
      abel
    have : C * A + A * B * (C * A) = A := by
      have : C * A + A * B * (C * A) = (A * B + 1) * C * A := by noncomm_ring
      rw [this, h1, one_mul]
    rw [mul_sub, mul_one, hT, ← mul_assoc A B]
    exact eq_sub_of_add_eq this

/-- C27. If the plastic tangent `A` is invertible with inverse `A'`, the tangent is the inverse of
`A' + B`. -/
theorem C27_inverse_of_sum (inv : Matrix ι ι K → Option (Matrix ι ι K))
    (hinv : ∀ M N, inv M = some N → M * N = 1) (A A' B T : Matrix ι ι K) (hA : A' * A = 1)
    (h : cpTangent inv A B = some T) : (A' + B) * T = 1 ∧ T * (A' + B) = 1 := by
  have h1 := C27_series inv hinv A B T h
  have h2 : (A' + B) * T = 1 := by
    have : A' * T = 1 - B * T := by
      conv_lhs => rw [h1]
      rw [← mul_assoc, hA, one_mul]
    rw [add_mul, this]
    abel
  exact ⟨h2, mul_eq_one_comm.mp h2⟩

/-- C27. If `A⁻¹ + B` is invertible and `invert_mat` finds the inverse of every invertible matrix, the
tangent is returned. -/
theorem C27_returns (inv : Matrix ι ι K → Option (Matrix ι ι K))
    (hinv : ∀ M N : Matrix ι ι K, M * N = 1 → inv M = some N) (A A' B D : Matrix ι ι K)
    (hA : A * A' = 1) (hD : (A' + B) * D = 1) : ∃ T, cpTangent inv A B = some T := by
  have h1 : (A * B + 1) * (D * A') = 1 := by
    have : A * B + 1 = A * (A' + B) := by rw [mul_add, hA]; abel
    rw [this]
    have : A * (A' + B) * (D * A') = A * ((A' + B) * D) * A' := by noncomm_ring
    rw [this, hD, mul_one, hA]
  unfold cpTangent
  rw [hinv _ _ h1]
  exact ⟨_, rfl⟩

/-- Concrete case: a singular (perfectly plastic) tangent and a creep compliance. -/
example : ∃ T, cpTangent (K := ℚ) (ι := Fin 2) (fun M => if M = !![2, 0; 0, 1] then
      some !![1 / 2, 0; 0, 1] else none) !![1, 0; 0, 0] !![1, 0; 0, 1] = some T ∧
      T = !![1 / 2, 0; 0, 0] := by
  have h : (!![1, 0; 0, 0] * !![1, 0; 0, 1] + 1 : Matrix (Fin 2) (Fin 2) ℚ) = !![2, 0; 0, 1] := by
    ext i j; fin_cases i <;> fin_cases j <;> simp; norm_num
  refine ⟨_, ?_, rfl⟩
  unfold cpTangent
  rw [h]
  simp only [if_true, Option.some.injEq]
  ext i j; fin_cases i <;> fin_cases j <;> simp; norm_num

end Neml.SmallStrain
