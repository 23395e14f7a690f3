import Verif.Model.PySolve
import Mathlib.Analysis.Calculus.Deriv.Slope
import Mathlib.Analysis.Calculus.Deriv.Add
import Mathlib.Analysis.Calculus.Deriv.Mul
import Mathlib.Analysis.Calculus.Deriv.Pow
import Mathlib.Analysis.SpecificLimits.Basic
import Mathlib.LinearAlgebra.Matrix.Notation

/-!
# C112: the Python solvers answer only with converged points

The statements are about the residual function the caller supplied: what it returns at the answer, how often it
is called, and that the line search ends. -/

namespace Neml.PySolve

open Matrix

variable {σ X R J : Type} {n : Nat}

/-! ## The answer -/

theorem done_iff (rtol atol nR0 nR : ℝ) : Done rtol atol nR0 nR ↔ nR ≤ rtol * nR0 ∨ nR ≤ atol := by
  unfold Done; rw [not_and_or, not_lt, not_lt]

theorem loop_answer (it : Iter σ X R J) (rtol atol nR0 : ℝ) (k : Nat) (s : σ) (x : X) (r : R) (j : J) (x' : X)
    (s' : σ) (h : loop it rtol atol nR0 k s x r j = some (x', s')) (h0 : ∃ s0, it.rj s0 x = some (r, j, s)) :
    ∃ s0 r' j', it.rj s0 x' = some (r', j', s') ∧ (it.size r' ≤ rtol * nR0 ∨ it.size r' ≤ atol) := by
  induction k generalizing s x r j with
  | zero =>
    rw [loop] at h
    split_ifs at h with hd
    obtain ⟨s0, e⟩ := h0
    simp only [Option.some.injEq, Prod.mk.injEq] at h
    exact ⟨s0, r, j, by rw [← h.1, ← h.2, e], (done_iff _ _ _ _).1 hd⟩
  | succ k ih =>
    rw [loop] at h
    split_ifs at h with hd
    · obtain ⟨s0, e⟩ := h0
      simp only [Option.some.injEq, Prod.mk.injEq] at h
      exact ⟨s0, r, j, by rw [← h.1, ← h.2, e], (done_iff _ _ _ _).1 hd⟩
    · split at h
      · cases h
      · rename_i x1 s1 e1
        split at h
        · cases h
        · rename_i r2 j2 s2 e2
          exact ih _ _ _ _ h ⟨_, e2⟩

/-- **C112.** A solver that answers has evaluated the residual at its answer last, so what the evaluation left
behind belongs to the answer; and the residual there is within the relative or the absolute tolerance. -/
theorem C112_answer (it : Iter σ X R J) (rtol atol : ℝ) (miter : Nat) (s : σ) (x0 x : X) (s' : σ)
    (h : solve it rtol atol miter s x0 = some (x, s')) :
    ∃ r0 j0 s1, it.rj s x0 = some (r0, j0, s1) ∧ ∃ s0 r j, it.rj s0 x = some (r, j, s') ∧
      (it.size r ≤ rtol * it.size r0 ∨ it.size r ≤ atol) := by
  unfold solve at h
  split at h
  · cases h
  · rename_i r j s1 e
    exact ⟨r, j, s1, e, loop_answer it rtol atol _ miter s1 x0 r j x s' h ⟨s, e⟩⟩

/-- **C112.** The same for the solver that keeps the Jacobian of the guess. -/
theorem C112_quasi (rj : VecRJ σ n) (rtol atol : ℝ) (miter : Nat) (s : σ) (x0 x : Fin n → ℝ) (s' : σ)
    (h : quasiNewton rj rtol atol miter s x0 = some (x, s')) :
    ∃ r0 j0 s1, rj s x0 = some (r0, j0, s1) ∧ ∃ s0 r j, rj s0 x = some (r, j, s') ∧
      (norm2 r ≤ rtol * norm2 r0 ∨ norm2 r ≤ atol) := by
  unfold quasiNewton at h
  split at h
  · cases h
  · rename_i r j s1 e
    exact ⟨r, j, s1, e, loop_answer (quasi rj j) rtol atol _ miter s1 x0 r j x s' h ⟨s, e⟩⟩

theorem quasi_loop (rj rj' : VecRJ σ n)
    (hr : ∀ s x, (rj s x).map (fun p => (p.1, p.2.2)) = (rj' s x).map fun p => (p.1, p.2.2))
    (j0 : Matrix (Fin n) (Fin n) ℝ) (rtol atol nR0 : ℝ) (k : Nat) (s : σ) (x r : Fin n → ℝ)
    (j j' : Matrix (Fin n) (Fin n) ℝ) :
    loop (quasi rj j0) rtol atol nR0 k s x r j = loop (quasi rj' j0) rtol atol nR0 k s x r j' := by
  induction k generalizing s x r j j' with
  | zero => rfl
  | succ k ih =>
    rw [loop, loop]
    refine congrArg (fun y => @ite _ (Done rtol atol nR0 (norm2 r)) (Classical.propDecidable _) (some (x, s)) y) ?_
    have e : (quasi rj' j0).next s x r j' = (quasi rj j0).next s x r j := rfl
    rw [e]
    rcases (quasi rj j0).next s x r j with _ | ⟨x', s1⟩
    · rfl
    · have h := hr s1 x'
      have e1 : (quasi rj j0).rj s1 x' = rj s1 x' := rfl
      have e2 : (quasi rj' j0).rj s1 x' = rj' s1 x' := rfl
      simp only [e1, e2]
      rcases h1 : rj s1 x' with _ | ⟨r1, j1, s2⟩ <;> rcases h2 : rj' s1 x' with _ | ⟨r2, j2, s3⟩ <;>
        rw [h1, h2] at h
      · cases h
      · cases h
      · cases h
        exact ih _ _ _ _ _

/-- **C112.** The solver that keeps the Jacobian of the guess uses no other: two functions with the same residuals
and the same Jacobian at the guess give the same answer, whatever their Jacobians are elsewhere. -/
theorem C112_quasi_first (rj rj' : VecRJ σ n)
    (hr : ∀ s x, (rj s x).map (fun p => (p.1, p.2.2)) = (rj' s x).map fun p => (p.1, p.2.2))
    (rtol atol : ℝ) (miter : Nat) (s : σ) (x0 : Fin n → ℝ) (h0 : rj s x0 = rj' s x0) :
    quasiNewton rj rtol atol miter s x0 = quasiNewton rj' rtol atol miter s x0 := by
  unfold quasiNewton
  rw [h0]
  rcases rj' s x0 with _ | ⟨r, j, s1⟩
  · rfl
  · exact quasi_loop rj rj' hr j rtol atol _ miter s1 x0 r j j

/-- Two functions with the residual of the identity; the second has no useful Jacobian away from the guess. -/
example (rtol atol : ℝ) (miter : Nat) :
    quasiNewton (σ := Unit) (n := 1) (fun _ x => some (x, 1, ())) rtol atol miter () 1 =
      quasiNewton (fun _ x => some (x, open Classical in if x = 1 then 1 else 0, ())) rtol atol miter () 1 :=
  C112_quasi_first (fun _ x => some (x, 1, ())) (fun _ x => some (x, open Classical in if x = 1 then 1 else 0, ()))
    (fun _ _ => rfl) rtol atol miter () 1 (by simp)

/-- **C112.** With the factor `q` a step of the scalar solver leaves `1 - q` of the residual of a linear equation. -/
theorem C112_scalar_factor (a b x q : ℝ) (ha : a ≠ 0) (rj : σ → ℝ → Option (ℝ × ℝ × σ)) (s : σ) :
    ∃ x', (scalar rj (some q)).next s x (a * x - b) a = some (x', s) ∧
      a * x' - b = (1 - q) * (a * x - b) := by
  refine ⟨x + q * (-(a * x - b) / a), ?_, by field_simp; ring⟩
  simp only [scalar, if_neg ha]

theorem norm2_nonneg (v : Fin n → ℝ) : 0 ≤ norm2 v := Real.sqrt_nonneg _

theorem norm2_sq (v : Fin n → ℝ) : norm2 v ^ 2 = ∑ i, v i ^ 2 :=
  Real.sq_sqrt (Finset.sum_nonneg fun i _ => sq_nonneg (v i))

theorem norm2_eq_zero {v : Fin n → ℝ} : norm2 v = 0 ↔ v = 0 := by
  constructor
  · intro h
    have h2 := norm2_sq v
    rw [h, zero_pow two_ne_zero] at h2
    funext i
    exact pow_eq_zero_iff two_ne_zero |>.1
      ((Finset.sum_eq_zero_iff_of_nonneg fun i _ => sq_nonneg (v i)).1 h2.symm i (Finset.mem_univ i))
  · rintro rfl; simp [norm2]

theorem norm2_smul (c : ℝ) (v : Fin n → ℝ) : norm2 (c • v) = |c| * norm2 v := by
  unfold norm2
  rw [← Real.sqrt_sq_eq_abs, ← Real.sqrt_mul (sq_nonneg c), Finset.mul_sum]
  congr 1
  exact Finset.sum_congr rfl fun i _ => by simp only [Pi.smul_apply, smul_eq_mul]; ring

/-- **C112.** With zero tolerances the answer is a root. -/
theorem C112_root (rj : VecRJ σ n) (miter : Nat) (s : σ) (x0 x : Fin n → ℝ) (s' : σ)
    (h : newton rj 0 0 miter s x0 = some (x, s')) : ∃ s0 j, rj s0 x = some (0, j, s') := by
  obtain ⟨r0, j0, s1, -, s0, r, j, e, hr⟩ := C112_answer (plain rj) 0 0 miter s x0 x s' h
  have : norm2 r ≤ 0 := by
    rcases hr with hr | hr
    · simpa [plain] using hr
    · exact hr
  rw [norm2_eq_zero.1 (le_antisymm this (norm2_nonneg r))] at e
  exact ⟨s0, j, e⟩

/-! ## How often the residual is evaluated -/

theorem loop_calls (f : X → Option (R × J)) (size : R → ℝ) (nx : X → R → J → Option X) (rtol atol nR0 : ℝ)
    (k m : Nat) (x : X) (r : R) (j : J) (x' : X) (m' : Nat)
    (h : loop ⟨fun m x => (f x).map fun p => (p.1, p.2, m + 1), size, fun m x r j => (nx x r j).map fun y => (y, m)⟩
      rtol atol nR0 k m x r j = some (x', m')) : m' ≤ m + k := by
  induction k generalizing m x r j with
  | zero =>
    rw [loop] at h
    split_ifs at h
    simp only [Option.some.injEq, Prod.mk.injEq] at h
    omega
  | succ k ih =>
    rw [loop] at h
    split_ifs at h
    · simp only [Option.some.injEq, Prod.mk.injEq] at h
      omega
    · split at h
      · cases h
      · rename_i x1 s1 e1
        simp only [Option.map_eq_some_iff, Prod.mk.injEq] at e1
        obtain ⟨y, -, -, rfl⟩ := e1
        split at h
        · cases h
        · rename_i r2 j2 s2 e2
          simp only [Option.map_eq_some_iff, Prod.mk.injEq] at e2
          obtain ⟨p, -, -, -, rfl⟩ := e2
          have := ih _ _ _ _ h
          omega

/-- **C112.** A solver that answers has evaluated the residual at most `miter + 1` times. (The residual function
counts its calls in what it leaves behind.) -/
theorem C112_calls (f : X → Option (R × J)) (size : R → ℝ) (nx : X → R → J → Option X) (rtol atol : ℝ)
    (miter m m' : Nat) (x0 x : X)
    (h : solve ⟨fun m x => (f x).map fun p => (p.1, p.2, m + 1), size, fun m x r j => (nx x r j).map fun y => (y, m)⟩
      rtol atol miter m x0 = some (x, m')) : m' ≤ m + miter + 1 := by
  unfold solve at h
  split at h
  · cases h
  · rename_i r j s1 e
    simp only [Option.map_eq_some_iff, Prod.mk.injEq] at e
    obtain ⟨p, -, -, -, rfl⟩ := e
    have := loop_calls f size nx rtol atol _ miter _ _ _ _ _ _ h
    omega

/-! ## Linear problems -/

theorem linSolve_some {A : Matrix (Fin n) (Fin n) ℝ} (hA : A.det ≠ 0) (b : Fin n → ℝ) :
    linSolve A b = some (A⁻¹ *ᵥ b) := if_neg hA

theorem linSolve_spec {A : Matrix (Fin n) (Fin n) ℝ} {b a : Fin n → ℝ} (h : linSolve A b = some a) :
    A.det ≠ 0 ∧ A *ᵥ a = b := by
  unfold linSolve at h
  split_ifs at h with hA
  simp only [Option.some.injEq] at h
  refine ⟨hA, ?_⟩
  rw [← h, mulVec_mulVec, mul_nonsing_inv _ (Ne.isUnit hA), one_mulVec]

/-- **C112.** On a linear problem with a regular matrix and at least one iteration allowed, Newton's method
answers, either with its guess or with the exact solution. -/
theorem C112_linear (A : Matrix (Fin n) (Fin n) ℝ) (hA : A.det ≠ 0) (b x0 : Fin n → ℝ) (rtol atol : ℝ)
    (hr : 0 ≤ rtol) (ha : 0 ≤ atol) (miter : Nat) (hm : 0 < miter) :
    ∃ x, newton (σ := Unit) (fun _ x => some (A *ᵥ x - b, A, ())) rtol atol miter () x0 = some (x, ()) ∧
      (x = x0 ∨ A *ᵥ x = b) := by
  obtain ⟨k, rfl⟩ := Nat.exists_eq_succ_of_ne_zero hm.ne'
  have hsol : A *ᵥ (x0 - A⁻¹ *ᵥ (A *ᵥ x0 - b)) = b := by
    rw [mulVec_sub, mulVec_mulVec, mul_nonsing_inv _ (Ne.isUnit hA), one_mulVec]
    exact sub_sub_cancel _ _
  unfold newton solve
  simp only [plain]
  rw [loop]
  by_cases hd : Done rtol atol (norm2 (A *ᵥ x0 - b)) (norm2 (A *ᵥ x0 - b))
  · exact ⟨x0, by rw [if_pos hd], Or.inl rfl⟩
  · refine ⟨_, ?_, Or.inr hsol⟩
    rw [if_neg hd]
    simp only [linSolve_some hA, Option.map_some]
    rw [hsol, sub_self]
    have : Done rtol atol (norm2 (A *ᵥ x0 - b)) (norm2 (0 : Fin n → ℝ)) := by
      rw [done_iff, norm2_eq_zero.2 rfl]; exact Or.inr ha
    cases k <;> simp only [loop, this, if_true]

/-- **C112.** The scalar solver solves a linear equation exactly in one iteration. -/
theorem C112_scalar_linear (a b x0 : ℝ) (ha : a ≠ 0) (rtol atol : ℝ) (hat : 0 ≤ atol) (miter : Nat) (hm : 0 < miter) :
    ∃ x, solve (scalar (σ := Unit) (fun _ x => some (a * x - b, a, ())) none) rtol atol miter () x0 = some (x, ()) ∧
      (x = x0 ∨ a * x = b) := by
  obtain ⟨k, rfl⟩ := Nat.exists_eq_succ_of_ne_zero hm.ne'
  have hsol : a * (x0 - (a * x0 - b) / a) = b := by field_simp; ring
  unfold solve
  simp only [scalar]
  rw [loop]
  by_cases hd : Done rtol atol |a * x0 - b| |a * x0 - b|
  · exact ⟨x0, by rw [if_pos hd], Or.inl rfl⟩
  · refine ⟨_, ?_, Or.inr hsol⟩
    rw [if_neg hd]
    simp only [if_neg ha]
    rw [hsol, sub_self]
    have : Done rtol atol |a * x0 - b| |(0 : ℝ)| := by rw [done_iff, abs_zero]; exact Or.inr hat
    cases k <;> simp only [loop, this, if_true]

/-- **C112.** The solver given the action of the inverse solves a linear problem exactly in one iteration. -/
theorem C112_precalc_linear (A : Matrix (Fin n) (Fin n) ℝ) (inv : (Fin n → ℝ) → Fin n → ℝ)
    (hinv : ∀ v, A *ᵥ inv v = v) (b x0 : Fin n → ℝ) (rtol atol : ℝ) (ha : 0 ≤ atol) (miter : Nat) (hm : 0 < miter) :
    ∃ x, solve (precalc (σ := Unit) (fun _ x => some (A *ᵥ x - b, inv, ()))) rtol atol miter () x0 = some (x, ()) ∧
      (x = x0 ∨ A *ᵥ x = b) := by
  obtain ⟨k, rfl⟩ := Nat.exists_eq_succ_of_ne_zero hm.ne'
  have hsol : A *ᵥ (x0 - inv (A *ᵥ x0 - b)) = b := by
    rw [mulVec_sub, hinv]
    exact sub_sub_cancel _ _
  unfold solve
  simp only [precalc]
  rw [loop]
  by_cases hd : Done rtol atol (norm2 (A *ᵥ x0 - b)) (norm2 (A *ᵥ x0 - b))
  · exact ⟨x0, by rw [if_pos hd], Or.inl rfl⟩
  · refine ⟨_, ?_, Or.inr hsol⟩
    rw [if_neg hd]
    simp only
    rw [hsol, sub_self]
    have : Done rtol atol (norm2 (A *ᵥ x0 - b)) (norm2 (0 : Fin n → ℝ)) := by
      rw [done_iff, norm2_eq_zero.2 rfl]; exact Or.inr ha
    cases k <;> simp only [loop, this, if_true]

/-- **C112.** With no iteration allowed only the guess can be the answer. -/
theorem C112_none_allowed (it : Iter σ X R J) (rtol atol : ℝ) (s : σ) (x0 x : X) (s' : σ)
    (h : solve it rtol atol 0 s x0 = some (x, s')) : x = x0 := by
  unfold solve at h
  split at h
  · cases h
  · rw [loop] at h
    split_ifs at h
    simp only [Option.some.injEq, Prod.mk.injEq] at h
    exact h.1.symm

/-! ## The line search -/

theorem backtrack_spec (rj : VecRJ σ n) (R0 : Fin n → ℝ) (J0 : Matrix (Fin n) (Fin n) ℝ) (x a : Fin n → ℝ)
    (tau c : ℝ) (k : Nat) (al : ℝ) (s : σ) (al' : ℝ) (s' : σ) (ht : 0 < tau ∧ tau ≤ 1) (hal : 0 < al)
    (h : backtrack rj R0 J0 x a tau c k al s = some (al', s')) :
    0 < al' ∧ al' ≤ al ∧ ∃ s0 r j, rj s0 (x + al' • a) = some (r, j, s') ∧
      norm2 r ≤ norm2 (R0 + (c * al') • (J0 *ᵥ a)) := by
  induction k generalizing al s with
  | zero => cases h
  | succ k ih =>
    rw [backtrack] at h
    split at h
    · cases h
    · rename_i r j s1 e
      split_ifs at h with hc
      · obtain ⟨h1, h2, h3⟩ := ih _ _ (mul_pos hal ht.1) h
        exact ⟨h1, h2.trans (by nlinarith [ht.2]), h3⟩
      · simp only [Option.some.injEq, Prod.mk.injEq] at h
        obtain ⟨rfl, rfl⟩ := h
        exact ⟨hal, le_refl _, s, r, j, e, not_lt.1 hc⟩

/-- **C112.** A step of Newton's method with the line search makes the residual smaller, by a factor of at most
`1 - c α` with the step length `α` found, between 0 and 1. (The residual does not depend on what is left
behind.) -/
theorem C112_descent (rj : VecRJ σ n) (f : (Fin n → ℝ) → Fin n → ℝ)
    (hf : ∀ s x r j s', rj s x = some (r, j, s') → r = f x) (tau c : ℝ) (ht : 0 < tau ∧ tau ≤ 1)
    (hc : 0 < c ∧ c ≤ 1) (fuel : Nat) (s : σ) (x : Fin n → ℝ) (j : Matrix (Fin n) (Fin n) ℝ) (x' : Fin n → ℝ) (s' : σ)
    (h : (searching rj tau c fuel).next s x (f x) j = some (x', s')) :
    ∃ al, 0 < al ∧ al ≤ 1 ∧ norm2 (f x') ≤ (1 - c * al) * norm2 (f x) := by
  simp only [searching] at h
  split at h
  · cases h
  · rename_i a e
    obtain ⟨-, ea⟩ := linSolve_spec e
    simp only [Option.map_eq_some_iff, Prod.mk.injEq] at h
    obtain ⟨⟨al, s1⟩, hb, rfl, rfl⟩ := h
    obtain ⟨h0, h1, s0, r, j', e', hr⟩ := backtrack_spec rj _ j x (-a) tau c fuel 1 s al s1 ht one_pos hb
    refine ⟨al, h0, h1, ?_⟩
    have hx : x + al • (-a) = x - al • a := by rw [smul_neg, ← sub_eq_add_neg]
    rw [hx] at e'
    rw [hf _ _ _ _ _ e'] at hr
    refine hr.trans_eq ?_
    rw [mulVec_neg, ea, smul_neg, ← sub_eq_add_neg]
    have : f x - (c * al) • f x = (1 - c * al) • f x := by rw [sub_smul, one_smul]
    rw [this, norm2_smul, abs_of_nonneg]
    nlinarith [mul_le_mul hc.2 h1 h0.le zero_le_one]

theorem loop_descent (rj : VecRJ σ n) (f : (Fin n → ℝ) → Fin n → ℝ)
    (hf : ∀ s x r j s', rj s x = some (r, j, s') → r = f x) (tau c : ℝ) (ht : 0 < tau ∧ tau ≤ 1)
    (hc : 0 < c ∧ c ≤ 1) (fuel : Nat) (rtol atol nR0 : ℝ) (k : Nat) (s : σ) (x : Fin n → ℝ)
    (j : Matrix (Fin n) (Fin n) ℝ) (x' : Fin n → ℝ) (s' : σ)
    (h : loop (searching rj tau c fuel) rtol atol nR0 k s x (f x) j = some (x', s')) :
    norm2 (f x') ≤ norm2 (f x) := by
  induction k generalizing s x j with
  | zero =>
    rw [loop] at h
    split_ifs at h
    simp only [Option.some.injEq, Prod.mk.injEq] at h
    rw [h.1]
  | succ k ih =>
    rw [loop] at h
    split_ifs at h
    · simp only [Option.some.injEq, Prod.mk.injEq] at h
      rw [h.1]
    · split at h
      · cases h
      · rename_i x1 s1 e1
        obtain ⟨al, h0, h1, hd⟩ := C112_descent rj f hf tau c ht hc fuel s x j x1 s1 e1
        split at h
        · cases h
        · rename_i r2 j2 s2 e2
          obtain rfl := hf _ _ _ _ _ e2
          refine (ih _ _ _ h).trans (hd.trans ?_)
          nlinarith [norm2_nonneg (f x), mul_pos hc.1 h0]

/-- **C112.** Newton's method with the line search never answers with a larger residual than that of the
guess. -/
theorem C112_no_growth (rj : VecRJ σ n) (f : (Fin n → ℝ) → Fin n → ℝ)
    (hf : ∀ s x r j s', rj s x = some (r, j, s') → r = f x) (rtol atol : ℝ) (miter : Nat) (tau c : ℝ)
    (ht : 0 < tau ∧ tau ≤ 1) (hc : 0 < c ∧ c ≤ 1) (fuel : Nat) (s : σ) (x0 x : Fin n → ℝ) (s' : σ)
    (h : newtonSearch rj rtol atol miter tau c fuel s x0 = some (x, s')) : norm2 (f x) ≤ norm2 (f x0) := by
  unfold newtonSearch solve at h
  split at h
  · cases h
  · rename_i r j s1 e
    obtain rfl := hf _ _ _ _ _ e
    exact loop_descent rj f hf tau c ht hc fuel _ _ _ miter s1 x0 j x s' h

/-- Some positive step lengths, all those below a bound, are accepted. -/
theorem accepted_small (φ : ℝ → Fin n → ℝ) (R0 : Fin n → ℝ) (h0 : φ 0 = R0) (hR : R0 ≠ 0) (c : ℝ) (hc : c < 1)
    (hd : ∀ i, HasDerivAt (fun t => φ t i) (-R0 i) 0) :
    ∃ ε > 0, ∀ al, 0 < al → al < ε → norm2 (φ al) ≤ norm2 (R0 - (c * al) • R0) := by
  have hpos : 0 < ∑ i, R0 i ^ 2 := by
    rw [← norm2_sq]
    exact pow_pos (lt_of_le_of_ne (norm2_nonneg R0) fun h => hR (norm2_eq_zero.1 h.symm)) 2
  -- the difference of the squared norms and its derivative
  have hder : HasDerivAt (fun t => ∑ i, φ t i ^ 2 - ∑ i, (R0 i - c * t * R0 i) ^ 2)
      (-(2 * (1 - c)) * ∑ i, R0 i ^ 2) 0 := by
    have h1 : HasDerivAt (fun t => ∑ i, φ t i ^ 2) (∑ i, (2 : ℝ) * R0 i * -R0 i) 0 := by
      refine HasDerivAt.fun_sum fun i _ => ?_
      refine ((hd i).pow 2).congr_deriv ?_
      rw [h0]; simp
    have h2 : HasDerivAt (fun t : ℝ => ∑ i, (R0 i - c * t * R0 i) ^ 2) (∑ i, (2 : ℝ) * R0 i * -(c * R0 i)) 0 := by
      refine HasDerivAt.fun_sum fun i _ => ?_
      have : HasDerivAt (fun t : ℝ => R0 i - c * t * R0 i) (-(c * R0 i)) 0 := by
        have := (((hasDerivAt_id (0 : ℝ)).const_mul c).mul_const (R0 i)).const_sub (R0 i)
        simpa using this
      refine (this.pow 2).congr_deriv ?_
      simp
    refine (h1.sub h2).congr_deriv ?_
    rw [← Finset.sum_sub_distrib, Finset.mul_sum]
    exact Finset.sum_congr rfl fun i _ => by ring
  have hneg : -(2 * (1 - c)) * ∑ i, R0 i ^ 2 < 0 := by nlinarith
  rw [hasDerivAt_iff_tendsto_slope] at hder
  have hev := hder.eventually (gt_mem_nhds hneg)
  rw [eventually_nhdsWithin_iff, Metric.eventually_nhds_iff] at hev
  obtain ⟨ε, hε, hev⟩ := hev
  refine ⟨ε, hε, fun al ha1 ha2 => ?_⟩
  have := hev (y := al) (by rw [Real.dist_eq, sub_zero, abs_of_pos ha1]; exact ha2)
    (by simp only [Set.mem_compl_iff, Set.mem_singleton_iff]; exact ha1.ne')
  rw [slope_def_field] at this
  simp only [h0, mul_zero, zero_mul, sub_zero, sub_self] at this
  rw [div_neg_iff] at this
  have hlt : ∑ i, φ al i ^ 2 - ∑ i, (R0 i - c * al * R0 i) ^ 2 < 0 := by
    rcases this with h | h
    · exact absurd h.2 (not_lt.2 ha1.le)
    · exact h.1
  unfold norm2
  refine Real.sqrt_le_sqrt ?_
  have e : ∀ i, (R0 - (c * al) • R0) i ^ 2 = (R0 i - c * al * R0 i) ^ 2 := fun i => by
    simp only [Pi.sub_apply, Pi.smul_apply, smul_eq_mul]
  simp only [e]
  linarith

/-- **C112.** The line search ends: if the reported Jacobian at a point with a nonzero residual is the derivative
of the residual along the Newton direction, then with enough fuel the search along that direction finds a step
length. -/
theorem C112_search_ends (rj : VecRJ σ n) (f : (Fin n → ℝ) → Fin n → ℝ)
    (hf : ∀ s x, ∃ j s', rj s x = some (f x, j, s')) (x a : Fin n → ℝ) (j : Matrix (Fin n) (Fin n) ℝ)
    (ha : linSolve j (f x) = some a) (hR : f x ≠ 0)
    (hd : ∀ i, HasDerivAt (fun t : ℝ => f (x + t • (-a)) i) ((j *ᵥ (-a)) i) 0) (tau c : ℝ)
    (ht : 0 < tau ∧ tau < 1) (hc : c < 1) (s : σ) :
    ∃ N, ∀ fuel, N ≤ fuel → ∃ p, backtrack rj (f x) j x (-a) tau c fuel 1 s = some p := by
  obtain ⟨-, ea⟩ := linSolve_spec ha
  have eja : j *ᵥ (-a) = -f x := by rw [mulVec_neg, ea]
  obtain ⟨ε, hε, hacc⟩ := accepted_small (fun t => f (x + t • (-a))) (f x) (by simp) hR c hc
    (fun i => (hd i).congr_deriv (by rw [eja]; rfl))
  obtain ⟨N, hN⟩ := exists_pow_lt_of_lt_one hε ht.2
  -- from the step length `tau ^ m` on, `N - m + 1` trials are enough
  have key : ∀ d m, m + d = N → ∀ fuel, d + 1 ≤ fuel → ∀ s,
      ∃ p, backtrack rj (f x) j x (-a) tau c fuel (tau ^ m) s = some p := by
    intro d
    induction d with
    | zero =>
      intro m hm fuel hfu s
      obtain ⟨k, rfl⟩ := Nat.exists_eq_succ_of_ne_zero (by omega : fuel ≠ 0)
      obtain ⟨j', s', e⟩ := hf s (x + tau ^ m • (-a))
      rw [backtrack, e]
      have : ¬ norm2 (f x + (c * tau ^ m) • (j *ᵥ (-a))) < norm2 (f (x + tau ^ m • (-a))) := by
        rw [eja, smul_neg, ← sub_eq_add_neg, not_lt]
        exact hacc _ (pow_pos ht.1 m) (by rw [show m = N from by omega]; exact hN)
      simp only [if_neg this]
      exact ⟨_, rfl⟩
    | succ d ih =>
      intro m hm fuel hfu s
      obtain ⟨k, rfl⟩ := Nat.exists_eq_succ_of_ne_zero (by omega : fuel ≠ 0)
      obtain ⟨j', s', e⟩ := hf s (x + tau ^ m • (-a))
      rw [backtrack, e]
      by_cases hlt : norm2 (f x + (c * tau ^ m) • (j *ᵥ (-a))) < norm2 (f (x + tau ^ m • (-a)))
      · simp only [if_pos hlt]
        rw [← pow_succ]
        exact ih (m + 1) (by omega) k (by omega) s'
      · simp only [if_neg hlt]
        exact ⟨_, rfl⟩
  refine ⟨N + 1, fun fuel hfu => ?_⟩
  have := key N 0 (by omega) fuel hfu s
  rwa [pow_zero] at this

/-! ## Trying several solvers -/

theorem firstSuccess_mem (solvers : List (X → Option X)) (gs : List X) (x : X)
    (h : firstSuccess solvers gs = some x) : ∃ g ∈ gs, ∃ f ∈ solvers, f g = some x := by
  induction gs with
  | nil => cases h
  | cons g gs ih =>
    rw [firstSuccess] at h
    split at h
    · rename_i y e
      obtain ⟨f, hf, e'⟩ := List.exists_of_findSome?_eq_some e
      exact ⟨g, List.mem_cons_self, f, hf, by rw [e', h]⟩
    · obtain ⟨g', hg, r⟩ := ih h
      exact ⟨g', List.mem_cons_of_mem _ hg, r⟩

/-- **C112.** The drivers' solve answers only with a converged point: the residual there is within the absolute
tolerance, or within the relative tolerance of the residual at one of the guesses. -/
theorem C112_try (rj : (Fin n → ℝ) → Option ((Fin n → ℝ) × Matrix (Fin n) (Fin n) ℝ)) (rtol atol : ℝ)
    (miter fuel : Nat) (x0 : Fin n → ℝ) (extra : List (Fin n → ℝ)) (x : Fin n → ℝ)
    (h : solveTry rj rtol atol miter fuel x0 extra = some x) :
    ∃ g ∈ x0 :: extra, ∃ rg jg r j, rj g = some (rg, jg) ∧ rj x = some (r, j) ∧
      (norm2 r ≤ rtol * norm2 rg ∨ norm2 r ≤ atol) := by
  obtain ⟨g, hg, f, hf, e⟩ := firstSuccess_mem _ _ _ h
  have key : ∀ (it : Iter Unit (Fin n → ℝ) (Fin n → ℝ) (Matrix (Fin n) (Fin n) ℝ)),
      it.rj = (fun _ x => (rj x).map fun p => (p.1, p.2, ())) → it.size = norm2 →
      (solve it rtol atol miter () g).map Prod.fst = some x →
      ∃ rg jg r j, rj g = some (rg, jg) ∧ rj x = some (r, j) ∧ (norm2 r ≤ rtol * norm2 rg ∨ norm2 r ≤ atol) := by
    intro it h1 h2 h3
    simp only [Option.map_eq_some_iff, Prod.exists] at h3
    obtain ⟨y, u, h3, rfl⟩ := h3
    obtain ⟨r0, j0, s1, e0, s0, r, j, e1, hr⟩ := C112_answer it rtol atol miter () g y u h3
    rw [h1] at e0 e1
    rw [h2] at hr
    simp only [Option.map_eq_some_iff, Prod.mk.injEq] at e0 e1
    obtain ⟨p, e0, rfl, rfl, -⟩ := e0
    obtain ⟨q, e1, rfl, rfl, -⟩ := e1
    exact ⟨_, _, _, _, e0, e1, hr⟩
  refine ⟨g, hg, ?_⟩
  simp only [List.mem_cons, List.not_mem_nil, or_false] at hf
  rcases hf with rfl | rfl
  · exact key (plain _) rfl rfl e
  · exact key (searching _ _ _ _) rfl rfl e

/-- **C112.** The guesses are tried in order: if Newton's method answers from the first guess, that is the
answer. -/
theorem C112_first (rj : (Fin n → ℝ) → Option ((Fin n → ℝ) × Matrix (Fin n) (Fin n) ℝ)) (rtol atol : ℝ)
    (miter fuel : Nat) (x0 : Fin n → ℝ) (extra : List (Fin n → ℝ)) (x : Fin n → ℝ)
    (h : newton (σ := Unit) (fun _ x => (rj x).map fun p => (p.1, p.2, ())) rtol atol miter () x0 = some (x, ())) :
    solveTry rj rtol atol miter fuel x0 extra = some x := by
  simp only [solveTry, firstSuccess, List.findSome?_cons, h, Option.map_some]

/-! ## Concrete cases -/

/-- The linear problem `2 x = 6` from the guess 0: the answer is 3. -/
example : ∃ x, newton (σ := Unit) (fun _ x => some (!![(2 : ℝ)] *ᵥ x - ![6], !![2], ())) 0 0 5 () ![0] = some (x, ()) ∧
    x = ![3] := by
  have hdet : (!![(2 : ℝ)]).det ≠ 0 := by simp
  obtain ⟨x, h1, h2⟩ := C112_linear !![(2 : ℝ)] hdet ![6] ![0] 0 0 le_rfl le_rfl 5 (by norm_num)
  refine ⟨x, h1, ?_⟩
  obtain ⟨s0, j, e⟩ := C112_root _ _ _ _ _ _ h1
  simp only [Option.some.injEq, Prod.mk.injEq] at e
  have := congrFun e.1 0
  simp [Matrix.mulVec, dotProduct] at this
  funext i
  fin_cases i
  simp
  linarith

/-- The line search hypotheses: the residual `x ^ 2 - 1` at 2 in one dimension, with Jacobian 4. -/
example : ∃ N, ∀ fuel, N ≤ fuel → ∃ p, backtrack (σ := Unit) (n := 1)
    (fun _ x => some (fun i => x i ^ 2 - 1, !![2 * x 0], ())) (fun i => ![(2 : ℝ)] i ^ 2 - 1) !![4] ![2] (-![3 / 4])
    (1 / 2) (1 / 10000) fuel 1 () = some p := by
  refine C112_search_ends _ (fun x i => x i ^ 2 - 1) (fun s x => ⟨_, _, rfl⟩) ![2] ![3 / 4] !![4] ?_ ?_ ?_ _ _
    ⟨by norm_num, by norm_num⟩ (by norm_num) ()
  · rw [linSolve_some (by simp)]
    congr 1
    funext i
    fin_cases i
    simp [Matrix.inv_def, Matrix.mulVec, dotProduct, Ring.inverse_eq_inv', Matrix.adjugate_fin_one]
    norm_num
  · intro h
    have := congrFun h 0
    simp at this
    norm_num at this
  · intro i
    fin_cases i
    have h : HasDerivAt (fun t : ℝ => (2 + t * (-(3 / 4 : ℝ))) ^ 2) (-3) 0 := by
      have h1 : HasDerivAt (fun t : ℝ => 2 + t * (-(3 / 4 : ℝ))) (-(3 / 4)) 0 := by
        simpa using ((hasDerivAt_id (0 : ℝ)).mul_const (-(3 / 4 : ℝ))).const_add 2
      refine (h1.pow 2).congr_deriv ?_
      norm_num
    simp [Matrix.mulVec, dotProduct]
    refine (h.congr_deriv ?_).congr_of_eventuallyEq ?_
    · norm_num
    · exact Filter.Eventually.of_forall fun t => by simp

end Neml.PySolve
