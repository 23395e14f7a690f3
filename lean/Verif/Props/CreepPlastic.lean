import Verif.Props.SmallStrain
import Mathlib.Analysis.Calculus.Deriv.Basic
import Mathlib.Analysis.Calculus.Deriv.Add
import Mathlib.Analysis.Calculus.Deriv.Mul
import Mathlib.Analysis.Calculus.Deriv.Comp
import Mathlib.Analysis.Calculus.Deriv.Pi
import Mathlib.Analysis.Calculus.Deriv.Prod
import Mathlib.Analysis.Calculus.FDeriv.Comp
import Mathlib.Analysis.Calculus.FDeriv.Add
import Mathlib.Analysis.Normed.Module.FiniteDimension
import Mathlib.LinearAlgebra.Matrix.ToLin

/-!
# C75: creep and plasticity act in series

Specification: over a whole strain path there is a sequence of creep strains, each the creep model's
update of the one before at the returned stress, which added to the stored elastic-plastic strains
gives the total strains; the plastic model is driven by the stored strains alone.
-/

namespace Neml.SmallStrain

open Matrix

variable {K : Type} [Field K] {ι : Type} [Fintype ι] [DecidableEq ι] {H : Type}

/-- The nonlinear solver solved the equations exactly: the residual is zero. -/
def CPSolves (pl : Model K ι H) (cr : Creep K ι) (scale : K)
    (solve : (e1 e0 ep s0 : ι → K) → H → Option (ι → K)) : Prop :=
  ∀ e1 e0 ep s0 h0 x, solve e1 e0 ep s0 h0 = some x →
    ∃ J, cpRJ pl cr scale e1 e0 ep s0 h0 x = some (0, J)

/-- The stress a model returns does not depend on the energies handed in. -/
def StressOnly (pl : Model K ι H) : Prop :=
  ∀ e1 e0 s0 h0 u p u' p', (pl e1 e0 s0 h0 u p).map (fun r => r.s) =
    (pl e1 e0 s0 h0 u' p').map (fun r => r.s)

/-- C75, one step: the stored strain drives the plastic model, the creep model is updated at the
same stress, and the two strains add to the total strain. -/
theorem C75_step (pl : Model K ι H) (cr : Creep K ι) (scale : K) (hsc : scale ≠ 0)
    (hpl : StressOnly pl) (solve) (inv) (hs : CPSolves pl cr scale solve)
    (e1 e0 s0 : ι → K) (h0 : (ι → K) × H) (u0 p0 : K) (r)
    (h : cpUpdate pl cr solve inv e1 e0 s0 h0 u0 p0 = some r) :
    ∃ up cnew B, pl r.h.1 h0.1 s0 h0.2 u0 p0 = some up ∧ up.s = r.s ∧ up.h = r.h.2 ∧
      cr r.s (e0 - h0.1) = some (cnew, B) ∧ r.h.1 + cnew = e1 ∧
      cpTangent inv up.A B = some r.A ∧
      r.u = u0 + (r.s + s0) ⬝ᵥ (e1 - e0) / 2 ∧
      r.p = up.p + (r.s + s0) ⬝ᵥ (cnew - (e0 - h0.1)) / 2 := by
  rcases hx : solve e1 e0 h0.1 s0 h0.2 with _ | x <;> simp only [cpUpdate, hx] at h
  · cases h
  rcases hp : pl x h0.1 s0 h0.2 u0 p0 with _ | up <;> simp only [hp] at h
  · cases h
  rcases hc : cr up.s (e0 - h0.1) with _ | ⟨cnew, B⟩ <;> simp only [hc] at h
  · cases h
  rcases ht : cpTangent inv up.A B with _ | A <;> simp only [ht] at h
  · cases h
  cases h
  refine ⟨up, cnew, B, hp, rfl, rfl, hc, ?_, ht, rfl, rfl⟩
  obtain ⟨J, hJ⟩ := hs _ _ _ _ _ _ hx
  have hst := hpl x h0.1 s0 h0.2 u0 p0 0 0
  rw [hp] at hst
  rcases hp0 : pl x h0.1 s0 h0.2 0 0 with _ | up0 <;> simp only [cpRJ, hp0] at hJ
  · cases hJ
  rw [hp0] at hst
  simp only [Option.map_some, Option.some.injEq] at hst
  rw [← hst, hc] at hJ
  have hJ1 := congrArg Prod.fst (Option.some.inj hJ)
  funext i
  have := congrFun hJ1 i
  simp only [Pi.zero_apply, mul_eq_zero, hsc, or_false] at this
  simp only [Pi.add_apply]
  exact sub_eq_zero.mp this

/-- A run of the combined model through strains `es`: the sequence of results. -/
def cpRun (m : Model K ι ((ι → K) × H)) : (e0 s0 : ι → K) → (ι → K) × H → K → K → List (ι → K) →
    Option (List (Update K ι ((ι → K) × H)))
  | _, _, _, _, _, [] => some []
  | e0, s0, h0, u0, p0, e1 :: es =>
    match m e1 e0 s0 h0 u0 p0 with
    | none => none
    | some r => (cpRun m e1 r.s r.h r.u r.p es).map (r :: ·)

/-- The specification of a run: plastic strain path, creep strain path, same stresses. -/
def Series (pl : Model K ι H) (cr : Creep K ι) : (ep c s : ι → K) → H →
    List (ι → K) → List (Update K ι ((ι → K) × H)) → Prop
  | _, _, _, _, [], [] => True
  | ep, c, s, h, e1 :: es, r :: rs =>
    (∃ u p up, pl r.h.1 ep s h u p = some up ∧ up.s = r.s ∧ up.h = r.h.2) ∧
    ∃ c1 B, cr r.s c = some (c1, B) ∧ r.h.1 + c1 = e1 ∧ Series pl cr r.h.1 c1 r.s r.h.2 es rs
  | _, _, _, _, _, _ => False

/-- C75, whole paths: along every strain path the model is the plastic model and the creep model in
series. The creep strain the code recomputes as total minus stored strain is the creep strain the
creep model last returned. -/
theorem C75_path (pl : Model K ι H) (cr : Creep K ι) (scale : K) (hsc : scale ≠ 0)
    (hpl : StressOnly pl) (solve) (inv) (hs : CPSolves pl cr scale solve) (es : List (ι → K))
    (e0 s0 : ι → K) (h0 : (ι → K) × H) (u0 p0 : K) (rs)
    (h : cpRun (cpUpdate pl cr solve inv) e0 s0 h0 u0 p0 es = some rs) :
    Series pl cr h0.1 (e0 - h0.1) s0 h0.2 es rs := by
  induction es generalizing e0 s0 h0 u0 p0 rs with
  | nil => simp only [cpRun, Option.some.injEq] at h; subst h; trivial
  | cons e1 es ih =>
    simp only [cpRun] at h
    split at h
    · cases h
    · rename_i r hr
      obtain ⟨rs', hrs', rfl⟩ := Option.map_eq_some_iff.mp h
      obtain ⟨up, cnew, B, a1, a2, a3, a4, a5, -⟩ :=
        C75_step pl cr scale hsc hpl solve inv hs _ _ _ _ _ _ _ hr
      refine ⟨⟨u0, p0, up, a1, a2, a3⟩, cnew, B, a4, a5, ?_⟩
      have := ih e1 r.s r.h r.u r.p rs' hrs'
      have hc : e1 - r.h.1 = cnew := by rw [← a5]; simp
      rwa [hc] at this

/-! ## The Jacobian and the tangent -/

/-- The linear map of a matrix. -/
noncomputable def lin (A : Matrix ι ι ℝ) : (ι → ℝ) →L[ℝ] (ι → ℝ) :=
  LinearMap.toContinuousLinearMap A.mulVecLin

@[simp] theorem lin_apply (A : Matrix ι ι ℝ) (v : ι → ℝ) : lin A v = A *ᵥ v := rfl

/-- C75, Jacobian: if the plastic tangent and the creep compliance are the derivatives of the
plastic stress and of the creep strain, the matrix handed to the solver is the derivative of the
residual. -/
theorem C75_jacobian (pl : Model ℝ ι H) (cr : Creep ℝ ι) (scale : ℝ) (e1 e0 ep s0 x : ι → ℝ)
    (h0 : H) (up : (ι → ℝ) → Update ℝ ι H) (c : (ι → ℝ) → ι → ℝ) (B : (ι → ℝ) → Matrix ι ι ℝ)
    (hup : ∀ᶠ x' in nhds x, pl x' ep s0 h0 0 0 = some (up x'))
    (hcr : ∀ᶠ s in nhds (up x).s, cr s (e0 - ep) = some (c s, B s))
    (hA : HasFDerivAt (fun x' => (up x').s) (lin (up x).A) x)
    (hB : HasFDerivAt c (lin (B (up x).s)) (up x).s) :
    ∃ (R : (ι → ℝ) → ι → ℝ) (J : (ι → ℝ) → Matrix ι ι ℝ),
      (∀ᶠ x' in nhds x, cpRJ pl cr scale e1 e0 ep s0 h0 x' = some (R x', J x')) ∧
      HasFDerivAt R (lin (J x)) x := by
  refine ⟨fun x' i => (x' i + c (up x').s i - e1 i) * scale,
    fun x' => of fun i j => ((B (up x').s * (up x').A) i j + if i = j then 1 else 0) * scale,
    ?_, ?_⟩
  · filter_upwards [hup, hA.continuousAt.eventually hcr] with x' h1 h2
    simp only [cpRJ, h1, h2]
    rfl
  · have h1 := (((hasFDerivAt_id x).add (hB.comp x hA)).sub_const e1).const_smul scale
    refine (h1.congr_fderiv ?_).congr_of_eventuallyEq (Filter.Eventually.of_forall fun x' => ?_)
    · refine ContinuousLinearMap.ext fun v => ?_
      funext i
      have e : (∑ j, ((B (up x).s * (up x).A) i j + if i = j then 1 else 0) * scale * v j) =
          scale * (v i + ((B (up x).s * (up x).A) *ᵥ v) i) := by
        simp only [mulVec, dotProduct, add_mul, Finset.sum_add_distrib, mul_add, ite_mul, zero_mul,
          one_mul, Finset.sum_ite_eq, Finset.mem_univ, if_true]
        rw [Finset.mul_sum, add_comm]
        congr 1
        exact Finset.sum_congr rfl fun j _ => by ring
      simp only [ContinuousLinearMap.smul_apply, ContinuousLinearMap.add_apply,
        ContinuousLinearMap.comp_apply, lin_apply, mulVec_mulVec, Pi.smul_apply, Pi.add_apply,
        ContinuousLinearMap.id_apply, smul_eq_mul]
      simp only [mulVec, dotProduct, of_apply] at e ⊢
      rw [e]
    · funext i
      simp [mul_comm]

/-- C75, tangent: along any differentiable strain path, the returned tangent maps the strain rate to
the stress rate. -/
theorem C75_tangent (pl : Model ℝ ι H) (cr : Creep ℝ ι) (scale : ℝ) (hsc : scale ≠ 0)
    (hpl : StressOnly pl) (solve) (inv) (hs : CPSolves pl cr scale solve)
    (hinv : ∀ M N, inv M = some N → M * N = 1)
    (e : ℝ → ι → ℝ) (e' : ι → ℝ) (t0 : ℝ) (e0 s0 : ι → ℝ) (h0 : (ι → ℝ) × H) (u0 p0 : ℝ)
    (r : ℝ → Update ℝ ι ((ι → ℝ) × H))
    (hr : ∀ᶠ t in nhds t0, cpUpdate pl cr solve inv (e t) e0 s0 h0 u0 p0 = some (r t))
    (he : HasDerivAt e e' t0) (x' : ι → ℝ) (hx : HasDerivAt (fun t => (r t).h.1) x' t0)
    (up : (ι → ℝ) → Update ℝ ι H) (c : (ι → ℝ) → ι → ℝ) (B : (ι → ℝ) → Matrix ι ι ℝ)
    (hup : ∀ x, pl x h0.1 s0 h0.2 u0 p0 = some (up x))
    (hcr : ∀ s, cr s (e0 - h0.1) = some (c s, B s))
    (hA : ∀ x, HasFDerivAt (fun x' => (up x').s) (lin (up x).A) x)
    (hB : ∀ s, HasFDerivAt c (lin (B s)) s) :
    HasDerivAt (fun t => (r t).s) ((r t0).A *ᵥ e') t0 := by
  have step := fun t (ht : cpUpdate pl cr solve inv (e t) e0 s0 h0 u0 p0 = some (r t)) =>
    C75_step pl cr scale hsc hpl solve inv hs _ _ _ _ _ _ _ ht
  have hst : ∀ᶠ t in nhds t0, (r t).s = (up (r t).h.1).s := by
    filter_upwards [hr] with t ht
    obtain ⟨up1, c1, B1, a1, a2, -⟩ := step t ht
    rw [hup] at a1
    cases a1
    exact a2.symm
  have hsum : ∀ᶠ t in nhds t0, (r t).h.1 + c (up (r t).h.1).s = e t := by
    filter_upwards [hr, hst] with t ht h2
    obtain ⟨up1, c1, B1, a1, a2, a3, a4, a5, -⟩ := step t ht
    rw [hcr] at a4
    cases a4
    rw [← h2]; exact a5
  have hs' : HasDerivAt (fun t => (up (r t).h.1).s) ((up (r t0).h.1).A *ᵥ x') t0 :=
    HasFDerivAt.comp_hasDerivAt (f := fun t => (r t).h.1) (l := fun x' => (up x').s) t0
      (hA (r t0).h.1) hx
  have hc' : HasDerivAt (fun t => c (up (r t).h.1).s)
      (B (up (r t0).h.1).s *ᵥ ((up (r t0).h.1).A *ᵥ x')) t0 :=
    HasFDerivAt.comp_hasDerivAt (f := fun t => (up (r t).h.1).s) t0 (hB (up (r t0).h.1).s) hs'
  have hlin := ((hx.add hc').congr_of_eventuallyEq
    (f₁ := e) (hsum.mono fun t h => h.symm)).unique he
  obtain ⟨up1, c1, B1, a1, a2, a3, a4, a5, a6, -⟩ := step t0 hr.self_of_nhds
  rw [hup] at a1
  cases a1
  rw [← a2, hcr] at a4
  cases a4
  have hT := C27_series inv hinv _ _ _ a6
  set A := (up (r t0).h.1).A
  set B0 := B (up (r t0).h.1).s
  set T := (r t0).A
  have key : T *ᵥ e' = A *ᵥ x' := by
    -- T = A (1 - B T), e' = x' + B A x'; (1 + A B) is regular
    have h1 : (1 + A * B0) * T = A := by
      have : A * (1 - B0 * T) = A - A * B0 * T := by noncomm_ring
      rw [this] at hT
      rw [add_mul, one_mul]
      conv_lhs => enter [1]; rw [hT]
      abel
    have h2 : (1 + A * B0) *ᵥ (T *ᵥ e') = (1 + A * B0) *ᵥ (A *ᵥ x') := by
      rw [mulVec_mulVec, h1, ← hlin, mulVec_add, add_mulVec, one_mulVec]
      simp only [mulVec_mulVec, Matrix.mul_assoc]
    rcases hC : inv (A * B0 + 1) with _ | C <;> simp only [cpTangent, hC] at a6
    · cases a6
    have h3 : C * (1 + A * B0) = 1 := by
      rw [add_comm]; exact mul_eq_one_comm.mp (hinv _ _ hC)
    have h4 : ∀ v, C *ᵥ ((1 + A * B0) *ᵥ v) = v := fun v => by
      rw [mulVec_mulVec, h3, one_mulVec]
    rw [← h4 (T *ᵥ e'), h2, h4]
  rw [key]
  exact hs'.congr_of_eventuallyEq hst

/-! ### A case meeting the hypotheses: an elastic spring of stiffness 2 and a dashpot -/

/-- Spring of stiffness 2. -/
def spring : Model ℝ (Fin 1) Unit := fun e1 _ _ h u p => some ⟨(2 : ℝ) • e1, h, (2 : ℝ) • 1, u, p⟩

/-- Dashpot: the creep strain grows by the stress. -/
def dashpot : Creep ℝ (Fin 1) := fun s c => some (c + s, 1)

/-- The exact solution of `x + c + 2 x = e1`. -/
noncomputable def maxwellSolve (e1 e0 ep _s0 : Fin 1 → ℝ) (_ : Unit) : Option (Fin 1 → ℝ) :=
  some ((1 / 3 : ℝ) • (e1 - (e0 - ep)))

theorem maxwell_solves : CPSolves spring dashpot 1 maxwellSolve := by
  intro e1 e0 ep s0 h0 x hx
  cases hx
  refine ⟨fun i j => (((1 : Matrix (Fin 1) (Fin 1) ℝ) * ((2 : ℝ) • 1 : Matrix (Fin 1) (Fin 1) ℝ)) i j +
    if i = j then 1 else 0) * 1, ?_⟩
  simp only [cpRJ, spring, dashpot]
  congr 2
  funext i
  simp only [Pi.smul_apply, Pi.add_apply, Pi.sub_apply, smul_eq_mul, Pi.zero_apply]
  ring

theorem spring_stressOnly : StressOnly spring := fun _ _ _ _ _ _ _ _ => rfl

/-- Load to strain 3 and hold: the creep strain after the hold is what the dashpot gives. -/
example : ∃ rs, cpRun (cpUpdate spring dashpot maxwellSolve (fun _ => some ((1 / 3 : ℝ) • 1)))
      0 0 (0, ()) 0 0 [![3], ![3]] = some rs ∧
      Series spring dashpot 0 (0 - 0) 0 () [![3], ![3]] rs := by
  have : ∃ rs, cpRun (cpUpdate spring dashpot maxwellSolve (fun _ => some ((1 / 3 : ℝ) • 1)))
      0 0 (0, ()) 0 0 [![3], ![3]] = some rs := by
    simp only [cpRun, cpUpdate, maxwellSolve, spring, dashpot, cpTangent, Option.map_some]
    exact ⟨_, rfl⟩
  obtain ⟨rs, h⟩ := this
  exact ⟨rs, h, C75_path spring dashpot 1 one_ne_zero spring_stressOnly _ _ maxwell_solves _ _ _ _
    _ _ _ h⟩

/-- The tangent theorem applied to the same material. -/
example : HasDerivAt (fun t : ℝ => (2 : ℝ) • ((1 / 3 : ℝ) • (![t] - (0 - 0) : Fin 1 → ℝ)))
    ((((2 : ℝ) • 1 : Matrix (Fin 1) (Fin 1) ℝ) - ((2 : ℝ) • 1) * (1 * (((1 / 3 : ℝ) • 1) * ((2 : ℝ) • 1))))
      *ᵥ ![1]) 0 := by
  have hlin : HasDerivAt (fun t : ℝ => (![t] : Fin 1 → ℝ)) ![1] 0 := by
    rw [hasDerivAt_pi]
    intro i
    fin_cases i
    exact hasDerivAt_id _
  refine C75_tangent spring dashpot 1 one_ne_zero spring_stressOnly maxwellSolve
    (fun M => if M = (3 : ℝ) • 1 then some ((1 / 3 : ℝ) • 1) else none) maxwell_solves ?_
    (fun t => ![t]) ![1] 0 0 0 (0, ()) 0 0
    (fun t => ⟨(2 : ℝ) • ((1 / 3 : ℝ) • (![t] - (0 - 0))), ((1 / 3 : ℝ) • (![t] - (0 - 0)), ()),
      _, 0 + (fun i => ((2 : ℝ) • ((1 / 3 : ℝ) • (![t] - (0 - 0)))) i + (0 : Fin 1 → ℝ) i) ⬝ᵥ
        (![t] - 0) / 2,
      0 + (fun i => ((2 : ℝ) • ((1 / 3 : ℝ) • (![t] - (0 - 0)))) i + (0 : Fin 1 → ℝ) i) ⬝ᵥ
        (0 - 0 + (2 : ℝ) • ((1 / 3 : ℝ) • (![t] - (0 - 0))) - (0 - 0)) / 2⟩) (Filter.Eventually.of_forall fun t => ?_) hlin ((1 / 3 : ℝ) • ![1])
    (by simpa using hlin.fun_const_smul (1 / 3 : ℝ))
    (fun x => ⟨(2 : ℝ) • x, (), (2 : ℝ) • 1, 0, 0⟩) (fun s => 0 - 0 + s) (fun _ => 1)
    (fun _ => rfl) (fun _ => rfl) (fun x => ?_) (fun s => ?_)
  · intro M N h
    split_ifs at h with hM
    cases h
    rw [hM, smul_mul_smul_comm, mul_one]
    norm_num
  · have : ((2 : ℝ) • 1 * 1 + 1 : Matrix (Fin 1) (Fin 1) ℝ) = (3 : ℝ) • 1 := by
      ext i j; fin_cases i; fin_cases j; norm_num
    simp only [cpUpdate, maxwellSolve, spring, dashpot, cpTangent, this, if_true]
  · have h1 : lin ((2 : ℝ) • 1 : Matrix (Fin 1) (Fin 1) ℝ) = (2 : ℝ) • ContinuousLinearMap.id ℝ _ := by
      refine ContinuousLinearMap.ext fun v => ?_
      ext i; fin_cases i; simp [lin_apply, mulVec, dotProduct]
    rw [h1]
    exact (hasFDerivAt_id x).fun_const_smul 2
  · have h1 : lin (1 : Matrix (Fin 1) (Fin 1) ℝ) = ContinuousLinearMap.id ℝ _ := by
      refine ContinuousLinearMap.ext fun v => ?_
      simp [lin_apply]
    rw [h1]
    exact (hasFDerivAt_id s).const_add _

end Neml.SmallStrain
