import Verif.Model.Newton
import Mathlib.Tactic.Linarith
import Mathlib.Tactic.SplitIfs
import Mathlib.Tactic.NormNum

/-!
# C17, C18: the Newton solver
-/

namespace Neml.Newton

variable {n : Nat} {sys : System n}
  {solve : Matrix (Fin n) (Fin n) ℝ → (Fin n → ℝ) → Option (Fin n → ℝ)} {p : Params}

/-- The iterate holds the residual, the Jacobian and the norm at its point. -/
def Consistent (sys : System n) (it : It n) : Prop :=
  sys.RJ it.x = some (it.R, it.J) ∧ it.nR = norm2 it.R

theorem lineSearch_spec {xorig dir : Fin n → ℝ} {nR : ℝ} (left : Nat) (alpha : ℝ) (it it' : It n)
    (hc : Consistent sys it) (h : lineSearch sys xorig dir nR left alpha it = .ok it') :
    Consistent sys it' ∧ it'.calls ≤ it.calls + left := by
  induction left generalizing alpha it with
  | zero => simp only [lineSearch, Except.ok.injEq] at h; subst h; exact ⟨hc, by omega⟩
  | succ left ih =>
    simp only [lineSearch] at h
    split at h
    · simp at h
    · rename_i R J hRJ
      split_ifs at h
      · simp only [Except.ok.injEq] at h
        subst h
        exact ⟨⟨hRJ, rfl⟩, by simp only; omega⟩
      · obtain ⟨h1, h2⟩ := ih (alpha / 2) _ ⟨hRJ, rfl⟩ h
        exact ⟨h1, by simp only at h2; omega⟩

theorem body_spec {it it' : It n} (hc : Consistent sys it) (h : body sys solve p it = .ok it') :
    Consistent sys it' ∧ it'.calls ≤ it.calls + 10 := by
  simp only [body] at h
  split at h
  · simp at h
  · split_ifs at h
    · exact lineSearch_spec _ _ _ _ hc h
    · split at h
      · simp at h
      · rename_i R J hRJ
        simp only [Except.ok.injEq] at h
        subst h
        exact ⟨⟨hRJ, rfl⟩, by simp only; omega⟩

theorem loop_of_conv {nR0 : ℝ} {fuel : Nat} {i : Int} {it : It n} (h : Conv p nR0 it) :
    loop sys solve p nR0 (fuel + 1) i it = some (.ok (i, it)) := by
  rw [loop, if_pos h]

theorem loop_of_error {nR0 : ℝ} {fuel : Nat} {i : Int} {it : It n} {e : Err}
    (h : ¬ Conv p nR0 it) (hb : body sys solve p it = .error e) :
    loop sys solve p nR0 (fuel + 1) i it = some (.error e) := by
  rw [loop, if_neg h, hb]

theorem loop_of_step {nR0 : ℝ} {fuel : Nat} {i : Int} {it it' : It n}
    (h : ¬ Conv p nR0 it) (hb : body sys solve p it = .ok it') :
    loop sys solve p nR0 (fuel + 1) i it =
      if i + 1 ≥ p.miter then some (.ok (i + 1, it'))
      else loop sys solve p nR0 fuel (i + 1) it' := by
  rw [loop, if_neg h, hb]

theorem loop_spec {nR0 : ℝ} (fuel : Nat) (i : Int) (it : It n) (j : Int) (it' : It n)
    (hc : Consistent sys it) (h : loop sys solve p nR0 fuel i it = some (.ok (j, it')))
    (hi : i < p.miter) :
    Consistent sys it' ∧ (j = p.miter ∨ (j < p.miter ∧ Conv p nR0 it')) := by
  induction fuel generalizing i it with
  | zero => simp [loop] at h
  | succ fuel ih =>
    by_cases h1 : Conv p nR0 it
    · rw [loop_of_conv h1] at h
      simp only [Option.some.injEq, Except.ok.injEq, Prod.mk.injEq] at h
      obtain ⟨rfl, rfl⟩ := h
      exact ⟨hc, Or.inr ⟨hi, h1⟩⟩
    · cases hb : body sys solve p it with
      | error e => rw [loop_of_error h1 hb] at h; simp at h
      | ok it2 =>
        obtain ⟨hc2, _⟩ := body_spec hc hb
        rw [loop_of_step h1 hb] at h
        by_cases h2 : i + 1 ≥ p.miter
        · rw [if_pos h2] at h
          simp only [Option.some.injEq, Except.ok.injEq, Prod.mk.injEq] at h
          obtain ⟨rfl, rfl⟩ := h
          exact ⟨hc2, Or.inl (by omega)⟩
        · rw [if_neg h2] at h
          exact ih (i + 1) it2 hc2 h (by omega)

/-- C17. For every system, linear solver, tolerances and iteration limit of at least one: if
the solver returns, the reported residual and Jacobian are those of the returned point, and
the residual norm is below the absolute tolerance or below the relative tolerance
times the norm of the initial residual. -/
theorem C17_converged (hm : 1 ≤ p.miter) (fuel : Nat) (it : It n)
    (h : newton sys solve p fuel = some (.ok it)) :
    ∃ R0 J0, sys.RJ sys.init = some (R0, J0) ∧ sys.RJ it.x = some (it.R, it.J) ∧
      (norm2 it.R < p.atol ∨ norm2 it.R < p.rtol * norm2 R0) := by
  unfold newton at h
  split at h
  · simp at h
  rename_i R J hRJ
  split at h
  · simp at h
  · simp at h
  rename_i i it' hl
  by_cases hi : i = p.miter
  · rw [if_pos hi] at h; simp at h
  rw [if_neg hi] at h
  simp only [Option.some.injEq, Except.ok.injEq] at h
  subst h
  obtain ⟨hc, h1 | ⟨_, h1⟩⟩ := loop_spec fuel 0 ⟨sys.init, R, J, norm2 R, 1⟩ i it'
    ⟨hRJ, rfl⟩ hl (by omega)
  · exact absurd h1 hi
  refine ⟨R, J, hRJ, hc.1, ?_⟩
  rw [← hc.2]
  rcases h1 with h1 | ⟨h0, h1⟩
  · exact Or.inl h1
  · right
    have hpos : 0 < norm2 R := lt_of_le_of_ne (Real.sqrt_nonneg _) (Ne.symm h0)
    rwa [div_lt_iff₀ hpos] at h1

/-- C17, negation for a zero iteration limit: the solver returns the start point's
successor although the residual there is as large as before, and raises an error when the
start point already solves the system. -/
theorem C17_zero_limit :
    (∃ (sys : System 1) (solve : _) (p : Params) (it : It 1), p.miter = 0 ∧
      newton sys solve p 1 = some (.ok it) ∧ ¬ norm2 it.R < p.atol ∧
        ¬ norm2 it.R < p.rtol * norm2 (fun _ : Fin 1 => (1 : ℝ))) ∧
    (∃ (sys : System 1) (solve : _) (p : Params), p.miter = 0 ∧
      sys.RJ sys.init = some (0, 1) ∧ 0 < p.atol ∧
      newton sys solve p 1 = some (.error .maxIter)) := by
  constructor
  · refine ⟨⟨0, fun _ => some (fun _ => 1, 1)⟩, fun _ R => some R, ⟨1/2, 1/2, 0, false⟩, ?_⟩
    have hn : norm2 (fun _ : Fin 1 => (1 : ℝ)) = 1 := by simp [norm2]
    have hnc : ¬ Conv (n := 1) ⟨1/2, 1/2, 0, false⟩ (norm2 (fun _ : Fin 1 => (1 : ℝ)))
        ⟨0, fun _ => 1, 1, norm2 (fun _ : Fin 1 => (1 : ℝ)), 1⟩ := by
      simp only [Conv, hn]; norm_num
    refine ⟨⟨fun j => (0 : Fin 1 → ℝ) j - 1, fun _ => 1, 1, norm2 (fun _ : Fin 1 => (1 : ℝ)), 2⟩,
      rfl, ?_, ?_, ?_⟩
    · simp only [newton]
      rw [loop_of_step hnc (it' := ⟨fun j => (0 : Fin 1 → ℝ) j - 1, fun _ => 1, 1, norm2 (fun _ : Fin 1 => (1 : ℝ)), 2⟩)
        (by simp [body])]
      simp
    · simp only [hn]; norm_num
    · simp only [hn]; norm_num
  · refine ⟨⟨0, fun _ => some (0, 1)⟩, fun _ R => some R, ⟨1/2, 1/2, 0, false⟩, rfl, rfl,
      by norm_num, ?_⟩
    have hn : norm2 (0 : Fin 1 → ℝ) = 0 := by simp [norm2]
    have hc : Conv (n := 1) ⟨1/2, 1/2, 0, false⟩ (norm2 (0 : Fin 1 → ℝ))
        ⟨0, 0, 1, norm2 (0 : Fin 1 → ℝ), 1⟩ := by
      simp only [Conv, hn]; norm_num
    simp only [newton]
    rw [loop_of_conv hc]
    simp

/-! ## C18 -/

theorem loop_stops {nR0 : ℝ} (fuel : Nat) (i : Int) (it : It n)
    (hf : (p.miter - i).toNat ≤ fuel) (hf1 : 1 ≤ fuel) :
    loop sys solve p nR0 fuel i it ≠ none := by
  induction fuel generalizing i it with
  | zero => omega
  | succ fuel ih =>
    by_cases h1 : Conv p nR0 it
    · rw [loop_of_conv h1]; simp
    · cases hb : body sys solve p it with
      | error e => rw [loop_of_error h1 hb]; simp
      | ok it2 =>
        rw [loop_of_step h1 hb]
        by_cases h2 : i + 1 ≥ p.miter
        · rw [if_pos h2]; simp
        · rw [if_neg h2]
          exact ih (i + 1) _ (by omega) (by omega)

theorem loop_calls {nR0 : ℝ} (fuel : Nat) (i : Int) (it : It n) (j : Int) (it' : It n)
    (hc : Consistent sys it) (h : loop sys solve p nR0 fuel i it = some (.ok (j, it')))
    (k : Nat) (hk : max 1 (p.miter - i) ≤ k) : it'.calls ≤ it.calls + 10 * k := by
  induction fuel generalizing i it k with
  | zero => simp [loop] at h
  | succ fuel ih =>
    by_cases h1 : Conv p nR0 it
    · rw [loop_of_conv h1] at h
      simp only [Option.some.injEq, Except.ok.injEq, Prod.mk.injEq] at h
      obtain ⟨rfl, rfl⟩ := h
      omega
    · cases hb : body sys solve p it with
      | error e => rw [loop_of_error h1 hb] at h; simp at h
      | ok it2 =>
        obtain ⟨hc2, hcalls⟩ := body_spec hc hb
        rw [loop_of_step h1 hb] at h
        by_cases h2 : i + 1 ≥ p.miter
        · rw [if_pos h2] at h
          simp only [Option.some.injEq, Except.ok.injEq, Prod.mk.injEq] at h
          obtain ⟨rfl, rfl⟩ := h
          omega
        · rw [if_neg h2] at h
          have := ih (i + 1) it2 hc2 h (k - 1) (by omega)
          omega

/-- C18. The solver always stops: `max 1 miter` passes of its loop are enough, for every
system and every linear solver. -/
theorem C18_stops (sys : System n)
    (solve : Matrix (Fin n) (Fin n) ℝ → (Fin n → ℝ) → Option (Fin n → ℝ)) (p : Params)
    (fuel : Nat) (hf : max 1 p.miter ≤ fuel) : newton sys solve p fuel ≠ none := by
  unfold newton
  split
  · simp
  · rename_i R J _
    have := loop_stops (sys := sys) (solve := solve) (p := p) (nR0 := norm2 R) fuel 0
      ⟨sys.init, R, J, norm2 R, 1⟩ (by omega) (by omega)
    split
    · rename_i h; exact absurd h this
    · simp
    · split_ifs <;> simp

/-- C18. When it returns, it has evaluated the system at most `1 + 10 max(1, miter)` times. -/
theorem C18_calls (fuel : Nat) (it : It n) (k : Nat) (hk : max 1 p.miter ≤ k)
    (h : newton sys solve p fuel = some (.ok it)) : it.calls ≤ 1 + 10 * k := by
  unfold newton at h
  split at h
  · simp at h
  rename_i R J hRJ
  split at h
  · simp at h
  · simp at h
  rename_i i it' hl
  by_cases hi : i = p.miter
  · rw [if_pos hi] at h; simp at h
  rw [if_neg hi] at h
  simp only [Option.some.injEq, Except.ok.injEq] at h
  subst h
  exact loop_calls fuel 0 ⟨sys.init, R, J, norm2 R, 1⟩ i it' ⟨hRJ, rfl⟩ hl k (by omega)

/-- More fuel changes nothing: the model's answer is the program's answer. -/
theorem C18_fuel_irrelevant (fuel fuel' : Nat) (h1 : max 1 p.miter ≤ fuel) (h2 : fuel ≤ fuel') :
    newton sys solve p fuel = newton sys solve p fuel' := by
  have key : ∀ (nR0 : ℝ) (f f' : Nat) (i : Int) (it : It n), f ≤ f' →
      loop sys solve p nR0 f i it ≠ none →
      loop sys solve p nR0 f i it = loop sys solve p nR0 f' i it := by
    intro nR0 f
    induction f with
    | zero => intro f' i it _ h; simp [loop] at h
    | succ f ih =>
      intro f' i it hf h
      obtain ⟨g, rfl⟩ : ∃ g, f' = g + 1 := ⟨f' - 1, by omega⟩
      by_cases hc : Conv p nR0 it
      · rw [loop_of_conv hc, loop_of_conv hc]
      · cases hb : body sys solve p it with
        | error e => rw [loop_of_error hc hb, loop_of_error hc hb]
        | ok it' =>
          rw [loop_of_step hc hb] at h ⊢
          rw [loop_of_step hc hb]
          by_cases hm : i + 1 ≥ p.miter
          · rw [if_pos hm, if_pos hm]
          · rw [if_neg hm] at h ⊢
            rw [if_neg hm]
            exact ih g (i + 1) it' (by omega) h
  unfold newton
  split
  · rfl
  · rename_i R J _
    rw [key _ fuel fuel' 0 _ h2 (loop_stops fuel 0 _ (by omega) (by omega))]

/-- Concrete case for C17 and C18: `R(x) = x - 3` from `x = 0` is solved in one step of at
most two. -/
example : ∃ it, newton (n := 1) ⟨0, fun x => some (fun _ => x 0 - 3, 1)⟩ (fun _ R => some R)
    ⟨1/100, 1/100, 2, false⟩ 2 = some (.ok it) ∧ it.x 0 = 3 := by
  have h3 : norm2 (fun _ : Fin 1 => (0 : ℝ) - 3) = 3 := by
    simp only [norm2, Finset.univ_unique, Finset.sum_singleton]
    rw [show ((0 : ℝ) - 3) * (0 - 3) = 3 * 3 by norm_num]
    exact Real.sqrt_mul_self (by norm_num)
  have h0 : norm2 (fun _ : Fin 1 => (0 : ℝ) - (0 - 3) - 3) = 0 := by
    simp [norm2]
  have hnc : ¬ Conv (n := 1) ⟨1/100, 1/100, 2, false⟩ (norm2 (fun _ : Fin 1 => (0 : ℝ) - 3))
      ⟨0, fun _ => 0 - 3, 1, norm2 (fun _ : Fin 1 => (0 : ℝ) - 3), 1⟩ := by
    simp only [Conv, h3]; norm_num
  have hc : Conv (n := 1) ⟨1/100, 1/100, 2, false⟩ (norm2 (fun _ : Fin 1 => (0 : ℝ) - 3))
      ⟨fun _ => 0 - (0 - 3), fun _ => (0 - (0 - 3)) - 3, 1,
        norm2 (fun _ : Fin 1 => (0 : ℝ) - (0 - 3) - 3), 2⟩ := by
    simp only [Conv, h0]; norm_num
  refine ⟨⟨fun _ => 0 - (0 - 3), fun _ => (0 - (0 - 3)) - 3, 1,
    norm2 (fun _ : Fin 1 => (0 : ℝ) - (0 - 3) - 3), 2⟩, ?_, by norm_num⟩
  simp only [newton, Pi.zero_apply]
  rw [loop_of_step hnc (it' := ⟨fun _ => 0 - (0 - 3), fun _ => (0 - (0 - 3)) - 3, 1,
    norm2 (fun _ : Fin 1 => (0 : ℝ) - (0 - 3) - 3), 2⟩) (by simp [body]), if_neg (by norm_num),
    loop_of_conv hc]
  simp

end Neml.Newton
