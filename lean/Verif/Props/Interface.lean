import Verif.Model.Interface
import Mathlib.Analysis.Calculus.Deriv.Prod
import Mathlib.Analysis.Calculus.FDeriv.Comp
import Mathlib.Analysis.Calculus.Deriv.Comp
import Mathlib.Analysis.Calculus.Deriv.Mul
import Mathlib.Topology.Algebra.Module.FiniteDimension

/-!
# C157: the status of the C interface, and C158: the Abaqus user material
-/

namespace Neml.Interface

open Matrix Neml.Mandel

/-! ## C157 -/

/-- The calls on an existing model. -/
def Call.onModel : Call → Bool
  | .create _ | .destroy _ => false
  | _ => true

theorem status_onModel {c : Call} (h : c.onModel = true) (ier : ℤ) : status ier c = if c.ok then ier else -1 := by
  cases c <;> simp_all [Call.onModel, status, Call.ok] <;> rfl

theorem after_onModel {l : List Call} (h : ∀ c ∈ l, c.onModel = true) (ier : ℤ) :
    statusAfter ier l = if ∀ c ∈ l, c.ok = true then ier else -1 := by
  induction l generalizing ier with
  | nil => simp [statusAfter]
  | cons c l ih =>
    have e : statusAfter ier (c :: l) = statusAfter (status ier c) l := rfl
    rw [e, ih (fun d hd => h d (by simp [hd])), status_onModel (h c (by simp))]
    cases hc : c.ok
    · simp [hc]
    · simp [hc]

/-- A failure is never missed: whatever went before, a call that fails leaves -1. After loading a model the status is 0
exactly as long as no call on it has failed, and loading and destroying report their own outcome. -/
theorem C157_status_partial (ier : ℤ) (l : List Call) (c : Call) :
    (c.ok = false → statusAfter ier (l ++ [c]) = -1) ∧
      (c.onModel = false → (statusAfter ier (l ++ [c]) = 0 ↔ c.ok = true)) ∧
      ∀ l', (∀ d ∈ l', d.onModel = true) →
        (statusAfter ier (l ++ Call.create true :: l') = 0 ↔ ∀ d ∈ l', d.ok = true) := by
  refine ⟨?_, ?_, ?_⟩
  · intro h
    rw [statusAfter, List.foldl_append]
    cases c <;> simp_all [Call.ok, status]
  · intro h
    rw [statusAfter, List.foldl_append]
    cases c <;> simp_all [Call.ok, status, Call.onModel]
  · intro l' h
    have e : statusAfter ier (l ++ Call.create true :: l') = statusAfter 0 l' := by
      simp [statusAfter, List.foldl_append, status]
    rw [e, after_onModel h]
    split_ifs with hc
    · exact ⟨fun _ => hc, fun _ => rfl⟩
    · exact ⟨fun h => absurd h (by norm_num), fun h => absurd h hc⟩

/-- A load, a first state and two updates. -/
example : ∀ d ∈ [Call.initStore true, .update true, .update false], d.onModel = true := by simp [Call.onModel]

/-- The status of a call on a model is not that of the call: success leaves what was there. After a failed update every
later update of the same model that succeeds is still reported as failed, and a status variable that was never set stays
so. -/
theorem C157_sticky_disagreement :
    (∀ ier l l', (∀ d ∈ l', d.onModel = true ∧ d.ok = true) →
      statusAfter ier (l ++ Call.update false :: l') = -1) ∧
      ∀ ier, statusAfter ier [.initStore true, .update true, .elasticStrains true] = ier := by
  constructor
  · intro ier l l' h
    have e : statusAfter ier (l ++ Call.update false :: l') = statusAfter (-1) l' := by
      simp [statusAfter, List.foldl_append, status]
    rw [e, after_onModel fun d hd => (h d hd).1]
    simp
  · intro ier
    simp [statusAfter, status]

/-- The size of the history cannot be mistaken for a failure. The thermal expansion can: a failed evaluation gives the
same answer as a coefficient of -1. -/
theorem C157_value_disagreement : (∀ r, nstore r = -1 ↔ r = none) ∧ alpha none = alpha (some (-1)) := by
  constructor
  · intro r
    cases r with
    | none => simp [nstore]
    | some n =>
      simp only [nstore, Option.map_some, Option.getD_some]
      constructor
      · intro h
        have : (n : ℤ) = -1 := h
        omega
      · intro h; cases h
  · rfl

/-! ## C158 -/

/-- Abaqus writes stresses as 11, 22, 33, 12, 13, 23. -/
def abaqusStress (S : Matrix (Fin 3) (Fin 3) ℝ) : Fin 6 → ℝ := ![S 0 0, S 1 1, S 2 2, S 0 1, S 0 2, S 1 2]

/-- Abaqus writes strains in the same order, with twice the shear. -/
def abaqusStrain (E : Matrix (Fin 3) (Fin 3) ℝ) : Fin 6 → ℝ :=
  ![E 0 0, E 1 1, E 2 2, 2 * E 0 1, 2 * E 0 2, 2 * E 1 2]

theorem vec6 {u v : Fin 6 → ℝ} (h0 : u 0 = v 0) (h1 : u 1 = v 1) (h2 : u 2 = v 2) (h3 : u 3 = v 3) (h4 : u 4 = v 4)
    (h5 : u 5 = v 5) : u = v := by
  ext i
  fin_cases i
  exacts [h0, h1, h2, h3, h4, h5]

theorem bconvertv_eq (v : Fin 6 → ℝ) (m res : Fin 6 → ℝ) :
    bconvertv v imap m res = fun I => v (imap I) / m I := by
  ext I
  fin_cases I <;> simp [bconvertv, List.finRange_succ, imap, Function.update]

theorem bconvertt_eq (A : Matrix (Fin 6) (Fin 6) ℝ) (m m' : Fin 6 → ℝ) (res : Matrix (Fin 6) (Fin 6) ℝ) :
    bconvertt A imap m m' res = of fun I J => A (imap I) (imap J) / (m I * m' J) := by
  ext I J
  fin_cases I <;> fin_cases J <;>
    simp [bconvertt, List.finRange_succ, imap, Function.update, updateRow_apply]

theorem imap_imap (i : Fin 6) : imap (imap i) = i := by
  fin_cases i <;> rfl

theorem smult_pos (i : Fin 6) : 0 < smult i := by
  fin_cases i <;> simp [smult]

theorem emult_pos (i : Fin 6) : 0 < emult i := by
  fin_cases i <;> simp [emult]

theorem smult_imap (i : Fin 6) : smult (imap i) = smult i := by
  fin_cases i <;> simp [smult, imap]

theorem emult_imap (i : Fin 6) : emult (imap i) = emult i := by
  fin_cases i <;> simp [emult, imap]

theorem mult_mult (i : Fin 6) : smult i * emult i = 1 := by
  have h : √(2 : ℝ) * √2 = 2 := Real.mul_self_sqrt (by norm_num)
  fin_cases i <;> simp [smult, emult] <;> linarith

/-- Stresses and strains of Abaqus become those of the library and back: the conversions carry the components of one
tensor to those of the same tensor, each is the inverse of the other, and the work is the same. -/
theorem C158_conversion (S E : Matrix (Fin 3) (Fin 3) ℝ) (v res : Fin 6 → ℝ) :
    convertv (abaqusStress S) imap smult = sym S ∧ convertv (abaqusStrain E) imap emult = sym E ∧
      bconvertv (sym S) imap smult res = abaqusStress S ∧
      convertv (bconvertv v imap smult res) imap smult = v ∧ bconvertv (convertv v imap smult) imap smult res = v ∧
      ∀ w, convertv v imap smult ⬝ᵥ convertv w imap emult = v ⬝ᵥ w := by
  have h : √(2 : ℝ) * √2 = 2 := Real.mul_self_sqrt (by norm_num)
  have h0 : √(2 : ℝ) ≠ 0 := by positivity
  refine ⟨?_, ?_, ?_, ?_, ?_, ?_⟩
  · apply vec6 <;> simp [convertv, abaqusStress, imap, smult, sym] <;> ring
  · apply vec6 <;> simp [convertv, abaqusStrain, imap, emult, sym] <;> ring
  · rw [bconvertv_eq]
    apply vec6 <;> simp [abaqusStress, imap, smult, sym]
  · rw [bconvertv_eq]
    ext i
    simp only [convertv, imap_imap, smult_imap]
    have := smult_pos i
    field_simp
  · rw [bconvertv_eq]
    ext i
    simp only [convertv, imap_imap, smult_imap]
    have := smult_pos i
    field_simp
  · intro w
    have e : convertv v imap smult ⬝ᵥ convertv w imap emult = ∑ i, v (imap i) * w (imap i) := by
      refine Finset.sum_congr rfl fun i _ => ?_
      simp only [convertv]
      linear_combination (v (imap i) * w (imap i)) * mult_mult i
    rw [e]
    simp [Fin.sum_univ_succ, dotProduct, imap]
    ring

/-- One call after another: what an update returned is what the next update starts from. A failed update changes
nothing but the request for a smaller step. -/
theorem C158_chain {n : ℕ} {M : Type} (m : M) (update : M → Step n → Option (Out n)) (g : Given) (a : Aba n)
    (alive : ℕ) :
    (∀ o, update m (arguments g a) = some o → ∃ a', umat (some m) update g a alive = some (a', alive) ∧
      a'.pnewdt = a.pnewdt ∧ ∀ g', (arguments g' a').sOld = o.s ∧ (arguments g' a').hOld = o.h ∧
        (arguments g' a').uOld = o.u ∧ (arguments g' a').pOld = o.p) ∧
      (update m (arguments g a) = none → ∃ a' k, umat (some m) update g a alive = some (a', k) ∧
        a'.pnewdt = 1 / 2 ∧ arguments g a' = arguments g a ∧ a'.ddsdde = a.ddsdde) ∧
      umat (none : Option M) update g a alive = none := by
  refine ⟨?_, ?_, rfl⟩
  · intro o h
    refine ⟨results a o, by simp [umat, h], rfl, fun g' => ⟨?_, rfl, ?_, rfl⟩⟩
    · exact (C158_conversion 0 0 o.s a.stress).2.2.2.1
    · simp [arguments, results]
  · intro h
    refine ⟨{ a with pnewdt := 0.5 }, alive + 1, by simp [umat, h], by norm_num, rfl, rfl⟩

/-- The stress of Abaqus as a function of its strain. -/
noncomputable def abaqusMap (f : (Fin 6 → ℝ) → Fin 6 → ℝ) (stran : Fin 6 → ℝ) : Fin 6 → ℝ :=
  bconvertv (f (convertv stran imap emult)) imap smult 0

theorem abaqus_deriv {f : (Fin 6 → ℝ) → Fin 6 → ℝ} {A : Matrix (Fin 6) (Fin 6) ℝ} {x : Fin 6 → ℝ}
    (hf : HasFDerivAt f (LinearMap.toContinuousLinearMap A.mulVecLin) (convertv x imap emult)) (J I : Fin 6) :
    HasDerivAt (fun t : ℝ => abaqusMap f (x + t • Pi.single J 1) I) (A (imap I) (imap J) * emult J / smult I) 0 := by
  have e1 : ∀ t : ℝ, convertv (x + t • Pi.single J 1) imap emult =
      convertv x imap emult + t • (emult J • Pi.single (imap J) (1 : ℝ)) := by
    intro t
    ext i
    simp only [convertv, Pi.add_apply, Pi.smul_apply, smul_eq_mul, add_mul]
    congr 1
    by_cases h : imap i = J
    · subst h
      rw [imap_imap, emult_imap]
      simp
    · have h' : i ≠ imap J := fun e => h (by rw [e, imap_imap])
      simp [h, h']
  have h1 : HasDerivAt (fun t : ℝ => convertv x imap emult + t • (emult J • Pi.single (imap J) (1 : ℝ)))
      (emult J • Pi.single (imap J) (1 : ℝ)) 0 := by
    have := ((hasDerivAt_id (0 : ℝ)).smul_const (emult J • Pi.single (imap J) (1 : ℝ))).const_add (convertv x imap emult)
    exact HasDerivAt.congr_deriv this (one_smul _ _)
  have hf' : HasFDerivAt f (LinearMap.toContinuousLinearMap A.mulVecLin)
      (convertv x imap emult + (0 : ℝ) • (emult J • Pi.single (imap J) (1 : ℝ))) := by simpa using hf
  have h2 := hf'.comp_hasDerivAt 0 h1
  have h3 := hasDerivAt_pi.mp h2 (imap I)
  have h4 := h3.div_const (smult I)
  refine (h4.congr_deriv ?_).congr_of_eventuallyEq (Filter.Eventually.of_forall fun t => ?_)
  · simp [mulVec_smul, mulVec_single_one]
    ring
  · simp only [abaqusMap, bconvertv_eq, e1, Function.comp_apply]

/-- The stiffness returned to Abaqus is the derivative of its stress in the columns of the normal strains. In the columns
of the shear strains it is twice the derivative. -/
theorem C158_tangent_disagreement {f : (Fin 6 → ℝ) → Fin 6 → ℝ} {n : ℕ} (a : Aba n) (o : Out n) {x : Fin 6 → ℝ}
    (hf : HasFDerivAt f (LinearMap.toContinuousLinearMap o.A.mulVecLin) (convertv x imap emult)) (I J : Fin 6) :
    HasDerivAt (fun t : ℝ => abaqusMap f (x + t • Pi.single J 1) I)
      (if J < 3 then (results a o).ddsdde I J else (results a o).ddsdde I J / 2) 0 := by
  refine (abaqus_deriv hf J I).congr_deriv ?_
  have e : (results a o).ddsdde = of fun I J => o.A (imap I) (imap J) / (smult I * emult J) := by
    simp only [results, transpose_transpose, bconvertt_eq]
  have h2 : √(2 : ℝ) * √2 = 2 := Real.mul_self_sqrt (by norm_num)
  have hp := smult_pos I
  have hq := emult_pos J
  rw [e]
  have key : emult J * emult J = if J < 3 then 1 else 1 / 2 := by
    fin_cases J <;> simp [emult] <;> (try rw [if_neg (by decide)]) <;> linarith
  simp only [of_apply]
  split_ifs at key ⊢
  · rw [div_eq_div_iff hp.ne' (mul_pos hp hq).ne']
    linear_combination (o.A (imap I) (imap J) * smult I) * key
  · rw [div_div, div_eq_div_iff hp.ne' (by positivity)]
    linear_combination (2 * o.A (imap I) (imap J) * smult I) * key

/-- Linear elasticity. -/
example (A : Matrix (Fin 6) (Fin 6) ℝ) (x : Fin 6 → ℝ) :
    HasFDerivAt (fun e => A *ᵥ e) (LinearMap.toContinuousLinearMap A.mulVecLin) (convertv x imap emult) :=
  (LinearMap.toContinuousLinearMap A.mulVecLin).hasFDerivAt

/-- Linear elasticity with shear modulus 80: the entry for the first shear is 160, while the stress grows by 80. -/
theorem C158_shear_disagreement {n : ℕ} (a : Aba n) (h : Fin n → ℝ) (u p : ℝ) (s : Fin 6 → ℝ) :
    (results a ⟨s, h, (160 : ℝ) • 1, u, p⟩).ddsdde 3 3 = 160 ∧
      ∀ t : ℝ, abaqusMap (fun e => (160 : ℝ) • e) (t • Pi.single 3 1) 3 = 80 * t := by
  have h2 : √(2 : ℝ) * √2 = 2 := Real.mul_self_sqrt (by norm_num)
  have h0 : √(2 : ℝ) ≠ 0 := by positivity
  constructor
  · simp only [results, transpose_transpose, bconvertt_eq, of_apply]
    have : smult 3 * emult 3 = 1 := mult_mult 3
    rw [this]
    simp [imap]
  · intro t
    rw [abaqusMap, bconvertv_eq]
    simp [convertv, imap, emult, smult]
    field_simp
    ring

/-- Every failed update leaves a model behind that is never destroyed: after a sequence of calls there are as many more
models as there were failures. -/
theorem C158_leak_disagreement {n : ℕ} {M : Type} (m : M) (update : M → Step n → Option (Out n))
    (l : List (Given × Aba n)) (alive : ℕ) :
    umats (some m) update l alive =
      some (alive + (l.filter fun c => (update m (arguments c.1 c.2)).isNone).length) := by
  induction l generalizing alive with
  | nil => rfl
  | cons c l ih =>
    obtain ⟨g, a⟩ := c
    cases h : update m (arguments g a) with
    | none =>
      simp only [umats, umat, Option.map_some, h, Option.bind_some, ih, List.filter_cons, Option.isNone_none, if_true,
        List.length_cons]
      congr 1
      omega
    | some o =>
      simp only [umats, umat, Option.map_some, h, Option.bind_some, ih, List.filter_cons, Option.isNone_some]
      congr 1

end Neml.Interface
