import Verif.Props.AxisymElastic

/-!
# Pressure vessels: a step whose first guess is already right (C138)
-/

namespace Neml.Axisym

open Matrix Neml.PySolve Neml.Uniaxial Neml.Driver

variable {m g : ℕ} {H : Type}

/-- Spec: the state from which a step starts: the last state, and from the second step on moved by `f` times the last
change. -/
def Foretold (k : Log m g H) (f : ℝ) (u : Fin (m + 1) → ℝ) (z : ℝ) : Prop :=
  (k.displacements.toList = [u] ∧ k.axialstrain.toList = [z]) ∨
  ∃ (l : List (Fin (m + 1) → ℝ)) (l' : List ℝ) (u0 u1 : Fin (m + 1) → ℝ) (z0 z1 : ℝ),
    k.displacements.toList = l ++ [u0, u1] ∧ k.axialstrain.toList = l' ++ [z0, z1] ∧
    (∀ j, u j = u1 j + f * (u1 j - u0 j)) ∧ z = z1 + f * (z1 - z0)

theorem guess_one {α : Type} [Add α] [Sub α] (p : α → α) (s : Series α) (a : α) (h : s.toList = [a]) : guess p s = a := by
  cases s with
  | mk last before =>
    have hb : before = [] := by
      have := congrArg List.length h
      simpa [Series.toList] using this
    subst hb
    simpa [Series.toList, guess] using h

theorem guess_two {α : Type} [Add α] [Sub α] (p : α → α) (s : Series α) (l : List α) (a b : α)
    (h : s.toList = l ++ [a, b]) : guess p s = b + p (b - a) := by
  cases s with
  | mk last before =>
    cases before with
    | nil =>
      have := congrArg List.length h
      simp [Series.toList] at this
    | cons x xs =>
      have h1 : xs.reverse ++ [x, last] = l ++ [a, b] := by simpa [Series.toList] using h
      obtain ⟨-, h2⟩ := List.append_inj' h1 rfl
      simp only [List.cons.injEq, and_true] at h2
      obtain ⟨rfl, rfl⟩ := h2
      rfl

/-- **C138** a vessel whose foretold state is in equilibrium up to the absolute tolerance takes it, unchanged. -/
theorem C138_foretold (b : Problem m g H) (k : Log m g H) (o : Opts) (t : ℝ) (hl : 0 < o.ilimit)
    (u : Fin (m + 1) → ℝ) (z : ℝ) (hf : Foretold k o.predict u z) (E : Eval m g H)
    (hE : b.rj k u (if b.constrained then 0 else z) (fun j => b.T (b.wall.node j) t) (b.p t) (b.pext t) t = some E)
    (hs : b.size E ≤ o.atol) :
    ∃ r, b.takeStep k o t = .ok r ∧ r.u = u ∧ r.ez = (if b.constrained then 0 else z) ∧ r.stresses = E.stresses := by
  have hu : guess (fun x => o.predict • x) k.displacements = u := by
    rcases hf with ⟨h, -⟩ | ⟨l, l', u0, u1, z0, z1, h, -, h', -⟩
    · exact guess_one _ _ _ h
    · rw [guess_two _ _ _ _ _ h]
      funext j
      rw [h' j]
      simp
  have hz : guess (fun x => o.predict * x) k.axialstrain = z := by
    rcases hf with ⟨-, h⟩ | ⟨l, l', u0, u1, z0, z1, -, h, -, h'⟩
    · exact guess_one _ _ _ h
    · rw [guess_two _ _ _ _ _ h, h']
  unfold Problem.takeStep
  simp only [hu, hz, hE]
  obtain ⟨n, hn⟩ := Nat.exists_eq_succ_of_ne_zero hl.ne'
  rw [hn, Problem.iterate, if_neg (fun c => absurd c.1 (not_lt.2 hs))]
  exact ⟨_, rfl, rfl, rfl, rfl⟩

/-- Concrete case of a foretold state: a wall of one element that has moved once. -/
example : let b : Problem 1 1 Unit := ⟨⟨fun j => j, fun _ => 0, fun _ => 2⟩, fun _ => plain, fun _ _ _ _ => 0,
      fun _ t => t, fun t => t, fun t => t, false, .runtime⟩
    Foretold { b.start with displacements := ⟨fun _ => 3, [fun _ => 1]⟩, axialstrain := ⟨5, [4]⟩ } 1 (fun _ => 5) 6 := by
  intro b
  refine Or.inr ⟨[], [], fun _ => 1, fun _ => 3, 4, 5, rfl, rfl, fun _ => by norm_num, by norm_num⟩

end Neml.Axisym
