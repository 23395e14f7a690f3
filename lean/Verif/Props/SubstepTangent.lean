import Verif.Props.SmallStrainTangent
import Mathlib.Analysis.Calculus.FDeriv.Comp
import Mathlib.Analysis.Calculus.FDeriv.Linear
import Mathlib.Analysis.Calculus.FDeriv.Congr
import Mathlib.Analysis.Calculus.FDeriv.Mul
import Mathlib.Tactic.Module

/-!
# C21: the tangent accumulated over substeps
-/

namespace Neml.SmallStrain

open Matrix Substep

variable {ι κ P : Type} [Fintype ι] [DecidableEq ι] [Fintype κ] [DecidableEq κ]
  [Fintype P] [DecidableEq P]

/-- Multiplication by a matrix as a continuous linear map. -/
noncomputable def mv {P Q : Type} [Fintype P] [Fintype Q] (M : Matrix P Q ℝ) :
    (Q → ℝ) →L[ℝ] (P → ℝ) := LinearMap.toContinuousLinearMap (Matrix.mulVecLin M)

omit [DecidableEq P] in
@[simp] theorem mv_apply {Q : Type} [Fintype Q] (M : Matrix P Q ℝ) (v : Q → ℝ) :
    mv M v = M *ᵥ v := rfl

/-! ## Specification -/

/-- The unknowns (stress and history) of a point. -/
def unknowns (s : ι → ℝ) (h : κ → ℝ) : ι ⊕ κ → ℝ := Sum.elim s h

/-- A family of substep maps: temperature and time at the start and end of the substep, then
(unknowns at the start, strain increment) to unknowns at the end. -/
abbrev StepMap (ι κ : Type) :=
  ℝ → ℝ → ℝ → ℝ → (ι ⊕ κ → ℝ) × (ι → ℝ) → (ι ⊕ κ → ℝ)

/-- The unknowns at the end of a schedule of substeps as a function of the end-of-step strain `e`.
The schedule is the list of the fractions of the step reached, latest first. -/
noncomputable def runSchedule (F : StepMap ι κ) (a : Args ℝ (ι → ℝ) (ι → ℝ) (κ → ℝ)) :
    List ℝ → (ι → ℝ) → (ι ⊕ κ → ℝ)
  | [], _ => unknowns a.start.s a.start.h
  | l' :: ls, e =>
    let l := ls.headD 0
    F (tempAt a l) (timeAt a l) (tempAt a l') (timeAt a l')
      (runSchedule F a ls e, (l' - l) • (e - a.start.e))

/-- The base model's increments are values of the maps `F`, and the matrices `A`, `E` it returns
are the sensitivities of `F`: a change `dy` of the old unknowns and `dd` of the strain increment
changes the new unknowns by `A (dy + E dd)`. -/
def Sensitive (base : Base ℝ (ι → ℝ) (ι → ℝ) (κ → ℝ) (ι ⊕ κ) ι) (F : StepMap ι κ) : Prop :=
  ∀ x e T t inc, base x e T t = some inc →
    unknowns inc.s inc.h = F x.T x.t T t (unknowns x.s x.h, e - x.e) ∧
    HasFDerivAt (F x.T x.t T t)
      ((mv inc.A).comp (ContinuousLinearMap.fst ℝ _ _ + (mv inc.E).comp (ContinuousLinearMap.snd ℝ _ _)))
      (unknowns x.s x.h, e - x.e)

/-! ## The chain rule -/

theorem chain_run {base : Base ℝ (ι → ℝ) (ι → ℝ) (κ → ℝ) (ι ⊕ κ) ι} {F : StepMap ι κ}
    (hF : Sensitive base F) {a : Args ℝ (ι → ℝ) (ι → ℝ) (κ → ℝ)} {k : Nat} {l : ℝ}
    {x : Point ℝ (ι → ℝ) (ι → ℝ) (κ → ℝ)} {D : Matrix (ι ⊕ κ) ι ℝ} (h : Chain base a k l x D) :
    x.e = strainAt a l ∧ x.T = tempAt a l ∧ x.t = timeAt a l ∧
    ∃ ls : List ℝ, ls.length = k ∧ ls.headD 0 = l ∧
      runSchedule F a ls a.e1 = unknowns x.s x.h ∧
      HasFDerivAt (runSchedule F a ls) (mv D) a.e1 := by
  induction h with
  | start =>
    refine ⟨by simp [strainAt], by simp [tempAt], by simp [timeAt], [], rfl, rfl, rfl, ?_⟩
    have : mv (0 : Matrix (ι ⊕ κ) ι ℝ) = 0 := by ext v; simp
    rw [this]
    exact hasFDerivAt_const _ _
  | @next k l x D l' inc _ hlt hle hbase ih =>
    obtain ⟨he, hT, ht, ls, hlen, hhead, hrun, hder⟩ := ih
    refine ⟨rfl, rfl, rfl, l' :: ls, by simp [hlen], rfl, ?_, ?_⟩
    · obtain ⟨h1, _⟩ := hF _ _ _ _ _ hbase
      simp only [runSchedule, hhead]
      rw [hrun, h1, hT, ht]
      congr 2
      rw [he]; simp only [strainAt]; module
    · obtain ⟨_, h2⟩ := hF _ _ _ _ _ hbase
      have hde : strainAt a l' - x.e = (l' - l) • (a.e1 - a.start.e) := by
        rw [he]; simp only [strainAt]; module
      rw [hde, ← hrun, hT, ht] at h2
      have hin : HasFDerivAt (fun e : ι → ℝ => (runSchedule F a ls e, (l' - l) • (e - a.start.e)))
          ((mv D).prod ((l' - l) • ContinuousLinearMap.id ℝ (ι → ℝ))) a.e1 :=
        hder.prodMk (((hasFDerivAt_id _).sub_const _).fun_const_smul _)
      have hcomp := h2.comp a.e1 hin
      have hfun : runSchedule F a (l' :: ls) = F (tempAt a l) (timeAt a l) (tempAt a l') (timeAt a l')
          ∘ fun e : ι → ℝ => (runSchedule F a ls e, (l' - l) • (e - a.start.e)) := by
        funext e
        simp only [runSchedule, hhead, Function.comp]
      rw [hfun]
      refine hcomp.congr_fderiv ?_
      ext v : 1
      simp [Matrix.mulVec_add, Matrix.add_mulVec, Matrix.mulVec_mulVec, Matrix.mul_add, Matrix.smul_mulVec,
        Matrix.mulVec_smul]

/-- C21 (the chain rule part). If the per-substep sensitivities the base model returns are right, then
after a successful update the accumulated matrix is the derivative, with respect to the
end-of-step strain, of the unknowns at the end of the schedule of accepted substeps (with the
schedule held fixed), and the schedule ends at the full step. Missing for the full claim: that
the base models return the right sensitivities; see `C21_general_integrator` (they do) and
`C21_perfect_plasticity_fails` (they do not). -/
theorem C21_chain_rule_partial {base : Base ℝ (ι → ℝ) (ι → ℝ) (κ → ℝ) (ι ⊕ κ) ι} {F : StepMap ι κ}
    (hF : Sensitive base F) {m : Int} (hm : 0 ≤ m) {force : Bool}
    {a : Args ℝ (ι → ℝ) (ι → ℝ) (κ → ℝ)} (fuel : Nat)
    (st : St ℝ (ι → ℝ) (ι → ℝ) (κ → ℝ) (ι ⊕ κ) ι)
    (h : update base m force a fuel = some (some st)) :
    ∃ ls D inc, ls.headD 0 = 1 ∧ st.Anew = some D ∧ st.out = some inc ∧
      runSchedule F a ls a.e1 = unknowns inc.s inc.h ∧
      HasFDerivAt (runSchedule F a ls) (mv D) a.e1 := by
  obtain ⟨k, x, D, inc, hch, _, _, _, _, _, hout, hs, hh, _, _, hA⟩ := C19_covers_step hm fuel st h
  obtain ⟨_, _, _, ls, _, hhead, hrun, hder⟩ := chain_run hF hch
  exact ⟨ls, D, inc, hhead, hA, hout, by rw [hrun, hs, hh], hder⟩

/-- Concrete case for `C21_chain_rule_partial`: a base model with stiffness 3 whose history follows the
strain, and fails for long increments. -/
example : Sensitive (ι := Unit) (κ := Unit)
    (fun x e _ _ => if 1 < e () - x.e () then none else
      some ⟨fun _ => x.s () + 3 * (e () - x.e ()), fun _ => x.h () + (e () - x.e ()), 1,
        of fun a _ => Sum.elim (fun _ => 3) (fun _ => 1) a, 0, 0⟩)
    (fun _ _ _ _ w => w.1 + mv (of fun a _ => Sum.elim (fun _ => 3) (fun _ => 1) a) w.2) := by
  intro x e T t inc h
  simp only at h
  split_ifs at h
  simp only [Option.some.injEq] at h
  subst h
  refine ⟨?_, ?_⟩
  · funext a
    rcases a with i | i <;> simp [unknowns, mulVec, dotProduct]
  · refine HasFDerivAt.congr_fderiv (hasFDerivAt_fst.add
      ((ContinuousLinearMap.hasFDerivAt _).comp _ hasFDerivAt_snd)) ?_
    refine ContinuousLinearMap.ext fun v => ?_
    simp

/-! ## The general integrator returns the right sensitivities -/

/-- Rates of a general flow rule as one function of (unknowns, strain rate). -/
def ratesOf (fl : GenFlow ℝ ι κ) (T Td : ℝ) (z : (ι ⊕ κ → ℝ) × (ι → ℝ)) : ι ⊕ κ → ℝ :=
  Sum.elim (fl.s (fun i => z.1 (.inl i)) (fun i => z.1 (.inr i)) z.2 T Td)
    (fl.a (fun i => z.1 (.inl i)) (fun i => z.1 (.inr i)) z.2 T Td)

/-- The flow rule's derivative matrices with respect to the unknowns. -/
def ratesDy (fl : GenFlow ℝ ι κ) (T Td : ℝ) (z : (ι ⊕ κ → ℝ) × (ι → ℝ)) :
    Matrix (ι ⊕ κ) (ι ⊕ κ) ℝ :=
  let s := fun i => z.1 (.inl i)
  let h := fun i => z.1 (.inr i)
  fromBlocks (fl.ds_ds s h z.2 T Td) (fl.ds_da s h z.2 T Td) (fl.da_ds s h z.2 T Td)
    (fl.da_da s h z.2 T Td)

/-- The flow rule's derivative matrices with respect to the strain rate. -/
def ratesDe (fl : GenFlow ℝ ι κ) (T Td : ℝ) (z : (ι ⊕ κ → ℝ) × (ι → ℝ)) : Matrix (ι ⊕ κ) ι ℝ :=
  let s := fun i => z.1 (.inl i)
  let h := fun i => z.1 (.inr i)
  of fun a j => Sum.elim (fun i => fl.ds_de s h z.2 T Td i j) (fun i => fl.da_de s h z.2 T Td i j) a

/-- The derivative matrices of the flow rule are the derivatives of the rates at the point `z`. -/
def CorrectRates (fl : GenFlow ℝ ι κ) (T Td : ℝ) (z : (ι ⊕ κ → ℝ) × (ι → ℝ)) : Prop :=
  HasFDerivAt (ratesOf fl T Td)
    ((mv (ratesDy fl T Td z)).comp (ContinuousLinearMap.fst ℝ _ _) +
      (mv (ratesDe fl T Td z)).comp (ContinuousLinearMap.snd ℝ _ _)) z

/-- Implicit differentiation: if `y ↦ Y y d` solves `Y = y + dt * r (Y, d/dt)` and is
differentiable, its derivative is `A (dy + E dd)` with `A` the inverse of `1 - dt r_y` and `E`
the strain rate derivative. -/
theorem implicit_sensitivity (r : (P → ℝ) × (ι → ℝ) → (P → ℝ)) (dt : ℝ) (hdt : dt ≠ 0)
    (Y : (P → ℝ) × (ι → ℝ) → (P → ℝ)) (z : (P → ℝ) × (ι → ℝ))
    (hsol : ∀ w, Y w = w.1 + dt • r (Y w, dt⁻¹ • w.2))
    (hY : DifferentiableAt ℝ Y z) (Ry : Matrix P P ℝ) (Re : Matrix P ι ℝ)
    (hr : HasFDerivAt r ((mv Ry).comp (ContinuousLinearMap.fst ℝ _ _) +
      (mv Re).comp (ContinuousLinearMap.snd ℝ _ _)) (Y z, dt⁻¹ • z.2))
    (A : Matrix P P ℝ) (hA : A * (1 - dt • Ry) = 1) :
    HasFDerivAt Y ((mv A).comp (ContinuousLinearMap.fst ℝ _ _ +
      (mv Re).comp (ContinuousLinearMap.snd ℝ _ _))) z := by
  obtain ⟨L, hL⟩ := hY
  have hin : HasFDerivAt (fun w : (P → ℝ) × (ι → ℝ) => (Y w, dt⁻¹ • w.2))
      (L.prod (dt⁻¹ • ContinuousLinearMap.snd ℝ (P → ℝ) (ι → ℝ))) z :=
    hL.prodMk (hasFDerivAt_snd.fun_const_smul _)
  have hrc := hr.comp z hin
  have hrhs : HasFDerivAt (fun w : (P → ℝ) × (ι → ℝ) => w.1 + dt • r (Y w, dt⁻¹ • w.2))
      (ContinuousLinearMap.fst ℝ _ _ + dt • (((mv Ry).comp (ContinuousLinearMap.fst ℝ _ _) +
      (mv Re).comp (ContinuousLinearMap.snd ℝ _ _)).comp
        (L.prod (dt⁻¹ • ContinuousLinearMap.snd ℝ (P → ℝ) (ι → ℝ))))) z :=
    hasFDerivAt_fst.add (hrc.const_smul dt)
  have hYeq : Y = fun w => w.1 + dt • r (Y w, dt⁻¹ • w.2) := funext hsol
  have hL2 := hL
  rw [hYeq] at hL2
  have hLeq := hL2.unique hrhs
  refine hL.congr_fderiv ?_
  refine ContinuousLinearMap.ext fun v => ?_
  have h1 : L v = v.1 + dt • (Ry *ᵥ L v + Re *ᵥ (dt⁻¹ • v.2)) := by
    conv_lhs => rw [hLeq]
    simp [mulVec_smul]
  have h2 : (1 - dt • Ry) *ᵥ L v = v.1 + Re *ᵥ v.2 := by
    rw [sub_mulVec, one_mulVec, smul_mulVec]
    conv_lhs => rw [h1]
    rw [mulVec_smul, smul_add, smul_smul, mul_inv_cancel₀ hdt, one_smul]
    have : Ry *ᵥ L v = Ry *ᵥ (v.1 + dt • (Ry *ᵥ L v + Re *ᵥ (dt⁻¹ • v.2))) := by
      conv_lhs => rw [h1]
    rw [mulVec_smul, smul_add, smul_smul, mul_inv_cancel₀ hdt, one_smul] at this
    rw [← this]
    abel
  have h3 : L v = A *ᵥ (v.1 + Re *ᵥ v.2) := by
    rw [← h2, mulVec_mulVec, hA, one_mulVec]
  rw [h3]
  simp [mulVec_add]

/-- C21, general integrator. Suppose the flow rule's derivatives are right, every nonlinear solve is
exact and returns the Jacobian at the solution, the matrix inverse is right, the solution depends
differentiably on the old state and the strain increment, and every substep is longer than the
elastic threshold (`hdt`). Then the increments of the general integrator have the sensitivities
`C21_chain_rule_partial` needs. -/
theorem C21_general_integrator (el : Elastic ℝ ι) (fl : GenFlow ℝ ι κ) (eps : ℝ) (heps : 0 < eps)
    (solve inv)
    (hinv : ∀ M N, inv M = some N → N * M = 1)
    (F : StepMap ι κ)
    (hFsol : ∀ T0 t0 T1 t1 w, eps ≤ t1 - t0 → F T0 t0 T1 t1 w = w.1 + (t1 - t0) •
      ratesOf fl T1 ((T1 - T0) / (t1 - t0)) (F T0 t0 T1 t1 w, (t1 - t0)⁻¹ • w.2))
    (hFdiff : ∀ T0 t0 T1 t1, eps ≤ t1 - t0 → Differentiable ℝ (F T0 t0 T1 t1))
    (hsolve : ∀ ts z J, solve ts = some (z, J) → J = giJ fl ts z)
    (hunique : ∀ x e1 T1 t1 z J, eps ≤ t1 - x.t → solve (giTrial x e1 T1 t1) = some (z, J) →
      z = F x.T x.t T1 t1 (unknowns x.s x.h, e1 - x.e))
    (x : Point ℝ (ι → ℝ) (ι → ℝ) (κ → ℝ)) (e1 : ι → ℝ) (T1 t1 : ℝ) (hdt : eps ≤ t1 - x.t)
    (hfl : CorrectRates fl T1 ((T1 - x.T) / (t1 - x.t))
      (F x.T x.t T1 t1 (unknowns x.s x.h, e1 - x.e), (t1 - x.t)⁻¹ • (e1 - x.e)))
    (inc) (h : updateStep (generalIntegrator el fl eps solve inv) x e1 T1 t1 = some inc) :
    unknowns inc.s inc.h = F x.T x.t T1 t1 (unknowns x.s x.h, e1 - x.e) ∧
    HasFDerivAt (F x.T x.t T1 t1)
      ((mv inc.A).comp (ContinuousLinearMap.fst ℝ _ _ + (mv inc.E).comp (ContinuousLinearMap.snd ℝ _ _)))
      (unknowns x.s x.h, e1 - x.e) := by
  have hpos : 0 < t1 - x.t := heps.trans_le hdt
  obtain ⟨z, J, hs, hi, hsh, hE, _⟩ := updateStep_plastic (generalIntegrator el fl eps solve inv)
    x e1 T1 t1 (not_lt.mpr hdt) inc h
  simp only [generalIntegrator, Prod.mk.injEq] at hs hi hsh hE
  have hz := hunique _ _ _ _ _ _ hdt hs
  have hunk : unknowns inc.s inc.h = z := by
    rw [hsh.1, hsh.2]
    funext a
    rcases a with i | i <;> rfl
  refine ⟨hunk.trans hz, ?_⟩
  have hts : giTrial x e1 T1 t1 = ⟨fun i => (e1 i - x.e i) / (t1 - x.t), (T1 - x.T) / (t1 - x.t),
      t1 - x.t, T1, x.s, x.h⟩ := by
    unfold giTrial; simp only; rw [if_pos hpos]
  have hed : (fun i => (e1 i - x.e i) / (t1 - x.t)) = (t1 - x.t)⁻¹ • (e1 - x.e) := by
    funext i; simp [div_eq_inv_mul]
  have hJ := hsolve _ _ _ hs
  rw [hts] at hJ
  have hJ' : J = 1 - (t1 - x.t) • ratesDy fl T1 ((T1 - x.T) / (t1 - x.t))
      (z, (t1 - x.t)⁻¹ • (e1 - x.e)) := by
    rw [hJ]
    ext a b
    rcases a with i | i <;> rcases b with j | j <;>
      simp [giJ, ratesDy, hed, Matrix.one_apply] <;> ring
  have hE' : inc.E = ratesDe fl T1 ((T1 - x.T) / (t1 - x.t))
      (z, (t1 - x.t)⁻¹ • (e1 - x.e)) := by
    rw [hE, hts, hsh.1, hsh.2]
    ext a b
    rcases a with i | i <;> simp [giStrainPartial, ratesDe, hed]
  have hA := hinv _ _ hi
  rw [hJ'] at hA
  rw [hE']
  have := implicit_sensitivity (P := ι ⊕ κ) (ratesOf fl T1 ((T1 - x.T) / (t1 - x.t))) (t1 - x.t)
    hpos.ne' (F x.T x.t T1 t1) (unknowns x.s x.h, e1 - x.e)
    (fun w => hFsol x.T x.t T1 t1 w hdt) (hFdiff _ _ _ _ hdt _)
    (ratesDy fl T1 ((T1 - x.T) / (t1 - x.t)) (z, (t1 - x.t)⁻¹ • (e1 - x.e)))
    (ratesDe fl T1 ((T1 - x.T) / (t1 - x.t)) (z, (t1 - x.t)⁻¹ • (e1 - x.e)))
    (by unfold CorrectRates at hfl; rw [← hz] at hfl ⊢; exact hfl) inc.A hA
  exact this

/-- Concrete case for `C21_general_integrator`: unit stiffness and no inelastic flow, step map
`y + d`. -/
example (x : Point ℝ (Unit → ℝ) (Unit → ℝ) (Empty → ℝ)) (e1 : Unit → ℝ) (T1 t1 : ℝ)
    (hdt : 1 ≤ t1 - x.t) (inc)
    (h : updateStep (generalIntegrator (κ := Empty) ⟨fun _ => 1, fun _ => 1⟩
      ⟨fun _ _ e _ _ => e, 0, 0, fun _ _ _ _ _ => 1, fun _ _ _ _ _ => Empty.elim, 0, 0, 0, 0⟩ 1
      (fun ts => some (Sum.elim (fun i => ts.s0 i + ts.edot i * ts.dt) Empty.elim, 1))
      (fun M => if M = 1 then some 1 else none)) x e1 T1 t1 = some inc) :
    HasFDerivAt (fun w : (Unit ⊕ Empty → ℝ) × (Unit → ℝ) => w.1 + Sum.elim w.2 Empty.elim)
      ((mv inc.A).comp (ContinuousLinearMap.fst ℝ _ _ + (mv inc.E).comp (ContinuousLinearMap.snd ℝ _ _)))
      (unknowns x.s x.h, e1 - x.e) := by
  have hlin : ∀ w : (Unit ⊕ Empty → ℝ) × (Unit → ℝ), (Sum.elim w.2 Empty.elim : Unit ⊕ Empty → ℝ) =
      (mv (of fun _ _ => (1 : ℝ)) : (Unit → ℝ) →L[ℝ] (Unit ⊕ Empty → ℝ)) w.2 := by
    intro w; funext a
    rcases a with i | i
    · simp [mulVec, dotProduct]
    · exact i.elim
  refine (C21_general_integrator (κ := Empty) ⟨fun _ => 1, fun _ => 1⟩
    ⟨fun _ _ e _ _ => e, 0, 0, fun _ _ _ _ _ => 1, fun _ _ _ _ _ => Empty.elim, 0, 0, 0, 0⟩ 1
    one_pos _ _ ?_ (fun _ _ _ _ w => w.1 + Sum.elim w.2 Empty.elim) ?_ ?_ ?_ ?_ x e1 T1 t1 hdt
    (?_ : CorrectRates _ _ _ _) inc h).2
  · intro M N hMN
    split_ifs at hMN with hM
    simp only [Option.some.injEq] at hMN
    rw [hM, ← hMN, one_mul]
  · intro T0 t0 T1 t1 w hle
    have hne : t1 - t0 ≠ 0 := by linarith
    funext a
    rcases a with i | i
    · simp [ratesOf, hne]
    · exact i.elim
  · intro T0 t0 T1 t1 _
    simp only [hlin]
    exact differentiable_fst.add ((ContinuousLinearMap.differentiable _).comp differentiable_snd)
  · intro ts z J hs
    simp only [Option.some.injEq, Prod.mk.injEq] at hs
    rw [← hs.2]
    ext a b
    rcases a with i | i
    · rcases b with j | j
      · simp [giJ]
      · exact j.elim
    · exact i.elim
  · intro x e1 T1 t1 z J hle hs
    simp only [Option.some.injEq, Prod.mk.injEq] at hs
    rw [← hs.1]
    funext a
    rcases a with i | i
    · unfold giTrial
      simp only
      rw [if_pos (by linarith)]
      have hne : t1 - x.t ≠ 0 := by linarith
      simp [unknowns, hne]
    · exact i.elim
  · unfold CorrectRates
    have : ratesOf (κ := Empty) (ι := Unit) ⟨fun _ _ e _ _ => e, 0, 0, fun _ _ _ _ _ => 1,
        fun _ _ _ _ _ => Empty.elim, 0, 0, 0, 0⟩ T1 ((T1 - x.T) / (t1 - x.t)) = fun w : (Unit ⊕ Empty → ℝ) × (Unit → ℝ) =>
        (mv (of fun _ _ => (1 : ℝ)) : (Unit → ℝ) →L[ℝ] (Unit ⊕ Empty → ℝ)) w.2 := by
      funext w; rw [← hlin]; rfl
    rw [this]
    refine HasFDerivAt.congr_fderiv ((ContinuousLinearMap.hasFDerivAt _).comp _ hasFDerivAt_snd) ?_
    refine ContinuousLinearMap.ext fun v => ?_
    funext a
    rcases a with i | i
    · simp [mulVec, dotProduct, ratesDy, ratesDe]
    · exact i.elim

/-! ## Perfect plasticity does not -/

section body
variable {V S H Q : Type} [AddCommGroup V] [Module ℝ V] {base : Base ℝ V S H P Q} {m : Int}
  {force : Bool} {a : Args ℝ V S H} {st : St ℝ V S H P Q} {inc : Inc ℝ S H P Q}

omit [DecidableEq P] in
theorem body_forced (hb : base st.past (strainAt a (((st.cs + st.cm : Nat) : ℝ) / (tf m : ℝ)))
      (tempAt a (((st.cs + st.cm : Nat) : ℝ) / (tf m : ℝ)))
      (timeAt a (((st.cs + st.cm : Nat) : ℝ) / (tf m : ℝ))) = some inc)
    (hf : force = true ∧ st.nd < m) : body base m force a st =
      some { st with nd := st.nd + 1, cm := st.cm / 2, out := some inc, calls := st.calls + 1 } := by
  unfold strainAt tempAt timeAt at hb
  simp only [body]
  rw [hb]
  simp only
  rw [if_pos hf]

omit [DecidableEq P] in
theorem body_accept (hb : base st.past (strainAt a (((st.cs + st.cm : Nat) : ℝ) / (tf m : ℝ)))
      (tempAt a (((st.cs + st.cm : Nat) : ℝ) / (tf m : ℝ)))
      (timeAt a (((st.cs + st.cm : Nat) : ℝ) / (tf m : ℝ))) = some inc)
    (hf : ¬ (force = true ∧ st.nd < m)) : body base m force a st =
      some ⟨st.nd, st.cm, st.cs + st.cm,
        ⟨strainAt a (((st.cs + st.cm : Nat) : ℝ) / (tf m : ℝ)),
          tempAt a (((st.cs + st.cm : Nat) : ℝ) / (tf m : ℝ)),
          timeAt a (((st.cs + st.cm : Nat) : ℝ) / (tf m : ℝ)), inc.s, inc.h, inc.u, inc.p⟩,
        inc.A * (st.Aold + ((st.cm : ℝ) / (tf m : ℝ)) • inc.E),
        some (inc.A * (st.Aold + ((st.cm : ℝ) / (tf m : ℝ)) • inc.E)), some inc, st.calls + 1⟩ := by
  unfold strainAt tempAt timeAt at *
  simp only [body]
  rw [hb]
  simp only
  rw [if_neg hf]

end body

/-- One stress component, yield at `s = 1`. -/
def ppOne : PPSurface ℝ Unit where
  f s q _ := s () + q
  df _ _ _ _ := 1
  ddf _ _ _ := 0

/-- Exact solution of its return mapping for unit stiffness. -/
noncomputable def ppOneSolve (ts : PPTrial ℝ Unit) :
    Option ((Unit ⊕ Unit → ℝ) × Matrix (Unit ⊕ Unit) (Unit ⊕ Unit) ℝ) :=
  let z : Unit ⊕ Unit → ℝ := Sum.elim (fun _ => -ts.ys) (fun _ => ts.e1 () - ts.ep () + ts.ys)
  some (z, ppJ ppOne ts z)

/-- The inverse of the (constant) Jacobian. -/
def ppOneInv : Matrix (Unit ⊕ Unit) (Unit ⊕ Unit) ℝ :=
  fromBlocks (of fun _ _ => 0) (of fun _ _ => 1) (of fun _ _ => 1) (of fun _ _ => -1)

open Classical in
/-- Matrix inversion, right on every matrix for which it returns. -/
noncomputable def ppOneInvert (M : Matrix (Unit ⊕ Unit) (Unit ⊕ Unit) ℝ) :
    Option (Matrix (Unit ⊕ Unit) (Unit ⊕ Unit) ℝ) :=
  if M * ppOneInv = 1 then some ppOneInv else none

/-- The perfectly plastic model: unit stiffness, `ppOne`, yield stress 1. -/
noncomputable def ppOneModel : Base ℝ (Unit → ℝ) (Unit → ℝ) Unit (Unit ⊕ Unit) Unit :=
  updateStep (perfectPlasticity ⟨fun _ => 1, fun _ => 1⟩ ppOne (fun _ => 1) ppOneSolve ppOneInvert)

theorem ppOne_exact (ts z J) (hC : ts.C = 1) (h : ppOneSolve ts = some (z, J)) :
    ppR ppOne ts z = 0 ∧ J = ppJ ppOne ts z := by
  simp only [ppOneSolve, Option.some.injEq, Prod.mk.injEq] at h
  obtain ⟨h1, h2⟩ := h
  subst h1
  refine ⟨?_, h2.symm⟩
  funext a
  rcases a with i | i <;> simp [ppR, ppOne, hC]

theorem ppOne_plastic (x : Point ℝ (Unit → ℝ) (Unit → ℝ) Unit) (e1 : Unit → ℝ) (T1 t1 : ℝ)
    (hs : x.s () = 1) (he : x.e () < e1 ()) :
    ∃ inc, ppOneModel x e1 T1 t1 = some inc ∧ inc.s = (fun _ => 1) ∧ inc.A = ppOneInv ∧
      inc.E = of fun a _ => Sum.elim (fun _ => 1) (fun _ => 0) a := by
  have hne : ¬ (perfectPlasticity (K := ℝ) ⟨fun _ => 1, fun _ => 1⟩ ppOne (fun _ => 1) ppOneSolve
      ppOneInvert).elasticStep ((perfectPlasticity (K := ℝ) ⟨fun _ => 1, fun _ => 1⟩ ppOne (fun _ => 1)
        ppOneSolve ppOneInvert).setup x e1 T1 t1) x e1 T1 t1 := by
    simp [perfectPlasticity, ppTrial, ppOne, hs, he]
  unfold ppOneModel updateStep
  simp only
  rw [if_neg hne]
  have hinv : ∀ ts z, ts.C = 1 → ppOneInvert (ppJ ppOne ts z) = some ppOneInv := by
    intro ts z hC
    unfold ppOneInvert
    rw [if_pos]
    ext a b
    rcases a with i | i <;> rcases b with j | j <;>
      simp [ppJ, ppOneInv, ppOne, hC, Matrix.mul_apply]
  simp only [perfectPlasticity, ppOneSolve]
  rw [hinv _ _ rfl]
  refine ⟨_, rfl, ?_, rfl, ?_⟩
  · funext i; simp [ppTrial]
  · ext a j
    rcases a with i | i <;> simp [ppStrainPartial, ppTrial]

/-- C21, negation for perfect plasticity (the same happens in the rate independent model). The model
above, started on its yield surface and strained by any positive `e` in two forced half steps,
returns the stress 1, whatever `e` is; so the derivative of the stress with respect to the strain
is 0. The returned tangent is 1/2. The row of the consistency parameter of the first substep's
sensitivity is fed into the consistency equation of the second. -/
theorem C21_perfect_plasticity_fails (e : ℝ) (he : 0 < e) :
    ∃ st inc D, update ppOneModel 1 true ⟨⟨0, 0, 0, fun _ => 1, (), 0, 0⟩, fun _ => e, 0, 1⟩ 3 =
      some (some st) ∧ st.out = some inc ∧ inc.s = (fun _ => 1) ∧ st.Anew = some D ∧
      D (.inl ()) () = 1 / 2 := by
  have htf : tf 1 = 2 := by decide
  set a : Args ℝ (Unit → ℝ) (Unit → ℝ) Unit := ⟨⟨0, 0, 0, fun _ => 1, (), 0, 0⟩, fun _ => e, 0, 1⟩
    with ha
  obtain ⟨i0, h0, _⟩ := ppOne_plastic a.start (strainAt a (((0 + 2 : Nat) : ℝ) / (tf 1 : ℝ)))
    (tempAt a (((0 + 2 : Nat) : ℝ) / (tf 1 : ℝ))) (timeAt a (((0 + 2 : Nat) : ℝ) / (tf 1 : ℝ))) rfl
    (by simp [ha, strainAt, he, htf])
  obtain ⟨i1, h1, hs1, hA1, hE1⟩ := ppOne_plastic a.start
    (strainAt a (((0 + 1 : Nat) : ℝ) / (tf 1 : ℝ)))
    (tempAt a (((0 + 1 : Nat) : ℝ) / (tf 1 : ℝ))) (timeAt a (((0 + 1 : Nat) : ℝ) / (tf 1 : ℝ))) rfl
    (by simp [ha, strainAt, he, htf])
  obtain ⟨i2, h2, hs2, hA2, hE2⟩ := ppOne_plastic
    ⟨strainAt a (((0 + 1 : Nat) : ℝ) / (tf 1 : ℝ)), tempAt a (((0 + 1 : Nat) : ℝ) / (tf 1 : ℝ)),
      timeAt a (((0 + 1 : Nat) : ℝ) / (tf 1 : ℝ)), i1.s, i1.h, i1.u, i1.p⟩
    (strainAt a (((1 + 1 : Nat) : ℝ) / (tf 1 : ℝ)))
    (tempAt a (((1 + 1 : Nat) : ℝ) / (tf 1 : ℝ))) (timeAt a (((1 + 1 : Nat) : ℝ) / (tf 1 : ℝ)))
    (by simp [hs1]) (by simp [ha, strainAt, htf]; linarith)
  have b0 := body_forced (base := ppOneModel) (m := 1) (force := true) (a := a)
    (st := ⟨0, 2, 0, a.start, 0, none, none, 0⟩) h0 ⟨rfl, by norm_num⟩
  have b1 := body_accept (base := ppOneModel) (m := 1) (force := true) (a := a)
    (st := ⟨1, 1, 0, a.start, 0, none, some i0, 1⟩) h1 (by simp)
  have b2 := body_accept (base := ppOneModel) (m := 1) (force := true) (a := a)
    (st := ⟨1, 1, 1, ⟨strainAt a (((0 + 1 : Nat) : ℝ) / (tf 1 : ℝ)),
      tempAt a (((0 + 1 : Nat) : ℝ) / (tf 1 : ℝ)),
      timeAt a (((0 + 1 : Nat) : ℝ) / (tf 1 : ℝ)), i1.s, i1.h, i1.u, i1.p⟩,
      i1.A * (0 + (((1 : Nat) : ℝ) / (tf 1 : ℝ)) • i1.E),
      some (i1.A * (0 + (((1 : Nat) : ℝ) / (tf 1 : ℝ)) • i1.E)), some i1, 2⟩) h2 (by simp)
  have key : ∀ st3, body ppOneModel 1 true a
      ⟨1, 1, 1, ⟨strainAt a (((0 + 1 : Nat) : ℝ) / (tf 1 : ℝ)),
      tempAt a (((0 + 1 : Nat) : ℝ) / (tf 1 : ℝ)),
      timeAt a (((0 + 1 : Nat) : ℝ) / (tf 1 : ℝ)), i1.s, i1.h, i1.u, i1.p⟩,
      i1.A * (0 + (((1 : Nat) : ℝ) / (tf 1 : ℝ)) • i1.E),
      some (i1.A * (0 + (((1 : Nat) : ℝ) / (tf 1 : ℝ)) • i1.E)), some i1, 2⟩ = some st3 →
      st3.cs = 2 → update ppOneModel 1 true a 3 = some (some st3) := by
    intro st3 hst3 hcs
    unfold update
    rw [show initSt 1 a = (⟨0, 2, 0, a.start, 0, none, none, 0⟩ :
      St ℝ (Unit → ℝ) (Unit → ℝ) Unit (Unit ⊕ Unit) Unit) by simp [initSt, htf]]
    rw [loop, if_pos (by simp [htf]), b0]
    simp only
    rw [loop, if_pos (by simp [htf])]
    have b1' : body ppOneModel 1 true a ⟨0 + 1, 2 / 2, 0, a.start, 0, none, some i0, 0 + 1⟩ = _ := b1
    rw [b1']
    simp only
    rw [loop, if_pos (by simp [htf])]
    have h3 : body ppOneModel 1 true a ⟨1, 1, 0 + 1, ⟨strainAt a (((0 + 1 : Nat) : ℝ) / (tf 1 : ℝ)),
      tempAt a (((0 + 1 : Nat) : ℝ) / (tf 1 : ℝ)),
      timeAt a (((0 + 1 : Nat) : ℝ) / (tf 1 : ℝ)), i1.s, i1.h, i1.u, i1.p⟩,
      i1.A * (0 + (((1 : Nat) : ℝ) / (tf 1 : ℝ)) • i1.E),
      some (i1.A * (0 + (((1 : Nat) : ℝ) / (tf 1 : ℝ)) • i1.E)), some i1, 1 + 1⟩ = some st3 := hst3
    rw [h3]
    simp only
    rw [loop, if_neg (by rw [hcs, htf]; exact lt_irrefl _)]
  refine ⟨_, i2, _, key _ b2 rfl, rfl, hs2, rfl, ?_⟩
  rw [hA1, hA2, hE1, hE2, htf]
  simp [ppOneInv, Matrix.mul_apply]

end Neml.SmallStrain
