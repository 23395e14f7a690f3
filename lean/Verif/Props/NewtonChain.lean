import Verif.Props.RadialReturn

/-!
# The Newton iteration along a known chain of iterates
-/

namespace Neml.SolveStep

open Matrix

variable {n : Nat} {P : Type}

/-- If the iterates of the solver are known, it stops at the first that meets the tolerances, provided
this happens before the limit of iterations and the residual has been decreasing. -/
theorem newton_chain (sys : Newton.System n) (lin) (p : Newton.Params) (fuel : Nat)
    (X R : ℕ → Fin n → ℝ) (J : ℕ → Matrix (Fin n) (Fin n) ℝ) (K : ℕ)
    (h0 : X 0 = sys.init) (hR : ∀ k ≤ K, sys.RJ (X k) = some (R k, J k))
    (hd : ∀ k < K, lin (J k) (R k) = some (X k - X (k + 1)))
    (hlt : ∀ k < K, Newton.norm2 (R (k + 1)) < Newton.norm2 (R k))
    (hK : Newton.norm2 (R K) < p.atol ∨
      (Newton.norm2 (R 0) ≠ 0 ∧ Newton.norm2 (R K) / Newton.norm2 (R 0) < p.rtol))
    (hm : (K : Int) < p.miter) (hf : K < fuel) :
    ∃ k ≤ K, (Newton.norm2 (R k) < p.atol ∨
        (Newton.norm2 (R 0) ≠ 0 ∧ Newton.norm2 (R k) / Newton.norm2 (R 0) < p.rtol)) ∧
      Newton.newton sys lin p fuel = some (.ok ⟨X k, R k, J k, Newton.norm2 (R k), k + 1⟩) := by
  have key : ∀ (d k f : ℕ), k + d = K → d < f → ∃ j, k ≤ j ∧ j ≤ K ∧
      (Newton.norm2 (R j) < p.atol ∨
        (Newton.norm2 (R 0) ≠ 0 ∧ Newton.norm2 (R j) / Newton.norm2 (R 0) < p.rtol)) ∧
      Newton.loop sys lin p (Newton.norm2 (R 0)) f k ⟨X k, R k, J k, Newton.norm2 (R k), k + 1⟩ =
        some (.ok (j, ⟨X j, R j, J j, Newton.norm2 (R j), j + 1⟩)) := by
    intro d
    induction d with
    | zero =>
      intro k f hk hf'
      obtain rfl : k = K := by omega
      obtain ⟨g, rfl⟩ : ∃ g, f = g + 1 := ⟨f - 1, by omega⟩
      exact ⟨k, le_rfl, le_rfl, hK, Newton.loop_of_conv hK⟩
    | succ d ih =>
      intro k f hk hf'
      obtain ⟨g, rfl⟩ : ∃ g, f = g + 1 := ⟨f - 1, by omega⟩
      by_cases hc : Newton.norm2 (R k) < p.atol ∨
          (Newton.norm2 (R 0) ≠ 0 ∧ Newton.norm2 (R k) / Newton.norm2 (R 0) < p.rtol)
      · exact ⟨k, le_rfl, by omega, hc, Newton.loop_of_conv hc⟩
      · have hb : Newton.body sys lin p ⟨X k, R k, J k, Newton.norm2 (R k), k + 1⟩ =
            .ok ⟨X (k + 1), R (k + 1), J (k + 1), Newton.norm2 (R (k + 1)), k + 1 + 1⟩ := by
          unfold Newton.body
          simp only [hd k (by omega)]
          split_ifs
          · show Newton.lineSearch sys (X k) _ _ (9 + 1) 1 _ = _
            rw [Newton.lineSearch]
            have e1 : (fun j => X k j - 1 * (X k - X (k + 1)) j) = X (k + 1) := by ext j; simp
            simp only [e1, hR (k + 1) (by omega), if_pos (hlt k (by omega))]
          · have e1 : (fun j => X k j - (X k - X (k + 1)) j) = X (k + 1) := by ext j; simp
            simp only [e1, hR (k + 1) (by omega)]
        have hm' : ¬ ((k : Int) + 1 ≥ p.miter) := by omega
        have hc' : ¬ Newton.Conv p (Newton.norm2 (R 0))
            (⟨X k, R k, J k, Newton.norm2 (R k), k + 1⟩ : Newton.It n) := hc
        rw [Newton.loop_of_step hc' hb, if_neg hm']
        obtain ⟨j, h1, h2, h3, h4⟩ := ih (k + 1) g (by omega) (by omega)
        refine ⟨j, by omega, h2, h3, ?_⟩
        rw [← h4]
        push_cast
        rfl
  obtain ⟨j, -, h2, h3, h4⟩ := key K 0 fuel (by omega) hf
  refine ⟨j, h2, h3, ?_⟩
  unfold Newton.newton
  rw [← h0, hR 0 (by omega)]
  simp only
  have h4' : Newton.loop sys lin p (Newton.norm2 (R 0)) fuel 0 ⟨X 0, R 0, J 0, Newton.norm2 (R 0), 1⟩ =
      some (.ok (j, ⟨X j, R j, J j, Newton.norm2 (R j), j + 1⟩)) := h4
  rw [h4']
  simp only
  rw [if_neg (by omega)]

variable [Fintype P] [DecidableEq P]

/-- The same for a system on named unknowns. -/
theorem solveWith_chain (e : P ≃ Fin n) (Z : ℕ → P → ℝ) (R J) {lin} (hl : ExactSolve lin)
    (p : Newton.Params) (fuel K : ℕ) (hJ : ∀ k < K, (J (Z k)).det ≠ 0)
    (hs : ∀ k < K, J (Z k) *ᵥ (Z k - Z (k + 1)) = R (Z k))
    (hlt : ∀ k < K, √(∑ a, R (Z (k + 1)) a * R (Z (k + 1)) a) < √(∑ a, R (Z k) a * R (Z k) a))
    (hK : √(∑ a, R (Z K) a * R (Z K) a) < p.atol ∨
      (√(∑ a, R (Z 0) a * R (Z 0) a) ≠ 0 ∧
        √(∑ a, R (Z K) a * R (Z K) a) / √(∑ a, R (Z 0) a * R (Z 0) a) < p.rtol))
    (hm : (K : Int) < p.miter) (hf : K < fuel) :
    ∃ k ≤ K, (√(∑ a, R (Z k) a * R (Z k) a) < p.atol ∨
        (√(∑ a, R (Z 0) a * R (Z 0) a) ≠ 0 ∧
          √(∑ a, R (Z k) a * R (Z k) a) / √(∑ a, R (Z 0) a * R (Z 0) a) < p.rtol)) ∧
      solveWith e (Z 0) R J lin p fuel = some (Z k, J (Z k)) := by
  have hz : ∀ k, (fun a => (fun i => Z k (e.symm i)) (e a)) = Z k := fun k => by ext a; simp
  simp only [← norm2_flat e] at hlt hK ⊢
  obtain ⟨k, h1, h2, h3⟩ := newton_chain (system e (Z 0) R J) lin p fuel
    (fun k i => Z k (e.symm i)) (fun k i => R (Z k) (e.symm i))
    (fun k => (J (Z k)).submatrix e.symm e.symm) K rfl
    (fun k _ => by show some (_, _) = _; rw [hz])
    (fun k hk => by
      have := hl ((J (Z k)).submatrix e.symm e.symm) (fun i => (Z k - Z (k + 1)) (e.symm i))
        (by rw [det_submatrix_equiv_self]; exact hJ k hk)
      rw [submatrix_mulVec, hs k hk] at this
      exact this) hlt hK hm hf
  refine ⟨k, h1, h2, ?_⟩
  unfold solveWith
  rw [h3]
  simp only [hz]
  simp

/-- The same for a system that throws at some points, none of which is met. -/
theorem solveGuarded_chain (ok : (P → ℝ) → Prop) (e : P ≃ Fin n) (Z : ℕ → P → ℝ) (R J) {lin}
    (hl : ExactSolve lin) (p : Newton.Params) (fuel K : ℕ) (hok : ∀ k, ok (Z k))
    (hJ : ∀ k < K, (J (Z k)).det ≠ 0)
    (hs : ∀ k < K, J (Z k) *ᵥ (Z k - Z (k + 1)) = R (Z k))
    (hlt : ∀ k < K, √(∑ a, R (Z (k + 1)) a * R (Z (k + 1)) a) < √(∑ a, R (Z k) a * R (Z k) a))
    (hK : √(∑ a, R (Z K) a * R (Z K) a) < p.atol ∨
      (√(∑ a, R (Z 0) a * R (Z 0) a) ≠ 0 ∧
        √(∑ a, R (Z K) a * R (Z K) a) / √(∑ a, R (Z 0) a * R (Z 0) a) < p.rtol))
    (hm : (K : Int) < p.miter) (hf : K < fuel) :
    ∃ k ≤ K, (√(∑ a, R (Z k) a * R (Z k) a) < p.atol ∨
        (√(∑ a, R (Z 0) a * R (Z 0) a) ≠ 0 ∧
          √(∑ a, R (Z k) a * R (Z k) a) / √(∑ a, R (Z 0) a * R (Z 0) a) < p.rtol)) ∧
      solveGuarded ok e (Z 0) R J lin p fuel = some (Z k, J (Z k)) := by
  have hz : ∀ k, (fun a => (fun i => Z k (e.symm i)) (e a)) = Z k := fun k => by ext a; simp
  simp only [← norm2_flat e] at hlt hK ⊢
  obtain ⟨k, h1, h2, h3⟩ := newton_chain (guarded ok e (Z 0) R J) lin p fuel
    (fun k i => Z k (e.symm i)) (fun k i => R (Z k) (e.symm i))
    (fun k => (J (Z k)).submatrix e.symm e.symm) K rfl
    (fun k _ => by
      simp only [guarded, hz]
      exact if_pos (by rw [show (fun a => Z k (e.symm (e a))) = Z k from hz k]; exact hok k))
    (fun k hk => by
      have := hl ((J (Z k)).submatrix e.symm e.symm) (fun i => (Z k - Z (k + 1)) (e.symm i))
        (by rw [det_submatrix_equiv_self]; exact hJ k hk)
      rw [submatrix_mulVec, hs k hk] at this
      exact this) hlt hK hm hf
  refine ⟨k, h1, h2, ?_⟩
  unfold solveGuarded
  rw [h3]
  simp only [hz]
  simp

end Neml.SolveStep
