import Verif.Props.Driver
import Verif.Props.Kinematics

/-!
# C71: the Jacobians of the mixed steps

A reported Jacobian is right if the chain rule holds with it along every differentiable curve. -/

namespace Neml.Driver

open Matrix Neml.PySolve Neml.Uniaxial Neml.Elastic Neml.Damage Neml.Kinematics

variable {H : Type}

/-- A residual function with its Jacobian: defined everywhere, and the Jacobian is the derivative. -/
def Jac {n : Nat} (rj : (Fin n → ℝ) → Option ((Fin n → ℝ) × Matrix (Fin n) (Fin n) ℝ)) : Prop :=
  ∃ (R : (Fin n → ℝ) → Fin n → ℝ) (J : (Fin n → ℝ) → Matrix (Fin n) (Fin n) ℝ), (∀ x, rj x = some (R x, J x)) ∧
    ∀ (X : ℝ → Fin n → ℝ) (X' : Fin n → ℝ) (τ : ℝ), Moves X X' τ → Moves (fun t => R (X t)) (J (X τ) *ᵥ X') τ

/-- The material's tangent is the derivative of its stress, for the calls of a step to `t1`, `T1`. -/
def TangentRight (d : Driver H) (t1 T1 : ℝ) : Prop :=
  Jac fun e => (d.call e t1 T1).map fun o => (o.s, o.A)

/-- A consistent choice of what the material returns. -/
theorem TangentRight.out {d : Driver H} {t1 T1 : ℝ} (h : TangentRight d t1 T1) :
    ∃ o : (Fin 6 → ℝ) → Out3 H, (∀ e, d.call e t1 T1 = some (o e)) ∧
      ∀ (E : ℝ → Fin 6 → ℝ) (E' : Fin 6 → ℝ) (τ : ℝ), Moves E E' τ →
        Moves (fun t => (o (E t)).s) ((o (E τ)).A *ᵥ E') τ := by
  obtain ⟨R, J, h1, h2⟩ := h
  simp only [Option.map_eq_some_iff, Prod.mk.injEq] at h1
  choose o h1 h3 h4 using h1
  refine ⟨o, h1, fun E E' τ hE => ?_⟩
  have := h2 E E' τ hE
  rw [h4]
  simpa only [h3] using this

/-- **C71.** The Jacobian of a stress controlled step is the derivative of its residual. -/
theorem C71_stress_jacobian (d : Driver H) (s1 : Fin 6 → ℝ) (t1 T1 : ℝ) (h : TangentRight d t1 T1) :
    Jac (d.stressRJ s1 t1 T1) := by
  obtain ⟨o, ho, hA⟩ := h.out
  refine ⟨fun e => (o e).s - s1, fun e => (o e).A, fun e => by simp only [Driver.stressRJ, ho, Option.map_some], ?_⟩
  intro X X' τ hX i
  exact (hA X X' τ hX i).sub_const (s1 i)

/-- **C71.** The Jacobian of a rate controlled step is the derivative of its residual. -/
theorem C71_erate_jacobian (d : Driver H) (n : Fin 6 → ℝ) (erate t1 T1 : ℝ) (hdt : t1 ≠ d.t.last)
    (h : TangentRight d t1 T1) : Jac (d.erateRJ n erate t1 T1) := by
  obtain ⟨o, ho, hA⟩ := h.out
  have hne : t1 - d.t.last ≠ 0 := sub_ne_zero.2 hdt
  refine ⟨_, _, fun x => by simp only [Driver.erateRJ, if_neg hne, ho, Option.map_some]; rfl, ?_⟩
  intro X X' τ hX i
  have hE : Moves (fun t => d.strain.last + fun k : Fin 6 => X t k.succ) (fun k => X' k.succ) τ := fun k =>
    (hX k.succ).const_add _
  have hS := hA _ _ τ hE
  refine Fin.lastCases ?_ (fun k => ?_) i
  · have h1 : HasDerivAt (fun t => (fun k : Fin 6 => X t k.succ) ⬝ᵥ n / (t1 - d.t.last) - erate)
        (((fun k : Fin 6 => X' k.succ) ⬝ᵥ n + (fun k : Fin 6 => X τ k.succ) ⬝ᵥ 0) / (t1 - d.t.last)) τ :=
      ((Moves.dot (u := fun t k => X t (Fin.succ k)) (v := fun _ => n) (fun k => hX k.succ)
        (moves_const n τ)).div_const _).sub_const _
    simp only [Fin.snoc_last]
    refine h1.congr_deriv ?_
    simp only [mulVec, dotProduct, of_apply, Fin.snoc_last, Fin.sum_univ_succ (n := 6), Fin.cases_zero, Fin.cases_succ,
      zero_mul, zero_add, Pi.zero_apply, mul_zero, Finset.sum_const_zero, add_zero, Finset.sum_div]
    exact Finset.sum_congr rfl fun k _ => by ring
  · simp only [Fin.snoc_castSucc]
    have h2 := (hS k).sub (((hX 0).const_mul (n k)).add_const (d.stress.last k))
    refine h2.congr_deriv ?_
    simp only [mulVec, dotProduct, of_apply, Fin.snoc_castSucc, Fin.sum_univ_succ (n := 6), Fin.cases_zero,
      Fin.cases_succ]
    ring

open Classical in
/-- What the Jacobian of a strain hold of component `i` should be. -/
noncomputable def holdJac (i : Fin 6) (q E : ℝ) (A : Matrix (Fin 6) (Fin 6) ℝ) : Matrix (Fin 6) (Fin 6) ℝ :=
  of fun r j => Fin.cases ((if j = i then 1 else 0) + A i j / E * (q - 1)) (fun k => A (i.succAbove k) j) r

theorem hold_derivative (d : Driver H) (i : Fin 6) (t1 T1 q E : ℝ) (o : (Fin 6 → ℝ) → Out3 H)
    (hA : ∀ (X : ℝ → Fin 6 → ℝ) (X' : Fin 6 → ℝ) (τ : ℝ), Moves X X' τ →
        Moves (fun t => (o (X t)).s) ((o (X τ)).A *ᵥ X') τ) (X : ℝ → Fin 6 → ℝ) (X' : Fin 6 → ℝ) (τ : ℝ)
    (hX : Moves X X' τ) :
    Moves (fun t => (Fin.cons ((X t i - d.strain.last i) + ((o (X t)).s i - d.stress.last i) / E * (q - 1))
       (fun k : Fin 5 => (o (X t)).s (i.succAbove k) - d.stress.last (i.succAbove k)) : Fin 6 → ℝ))
      (holdJac i q E (o (X τ)).A *ᵥ X') τ := by
  have hS := hA X X' τ hX
  intro r
  refine Fin.cases ?_ (fun k => ?_) r
  · simp only [Fin.cons_zero]
    have h1 := ((hX i).sub_const (d.strain.last i)).add
      ((((hS i).sub_const (d.stress.last i)).div_const E).mul_const (q - 1))
    refine h1.congr_deriv ?_
    simp only [holdJac, mulVec, dotProduct, of_apply, Fin.cases_zero, add_mul, Finset.sum_add_distrib, ite_mul, one_mul,
      zero_mul, Finset.sum_ite_eq', Finset.sum_ite_eq, Finset.mem_univ, if_true, Finset.sum_div, Finset.sum_mul]
    congr 1
    exact Finset.sum_congr rfl fun j _ => by ring
  · simp only [Fin.cons_succ]
    refine ((hS (i.succAbove k)).sub_const _).congr_deriv ?_
    simp only [holdJac, mulVec, dotProduct, of_apply, Fin.cases_succ]

/-- **C71, for holds of the first component.** The Jacobian of a strain hold is the derivative of its residual.
Missing: the other five components, for which it is not, see `C71_hold_disagreement`. -/
theorem C71_hold_jacobian_partial (d : Driver H) (t1 T1 q E : ℝ) (hE : E ≠ 0) (h : TangentRight d t1 T1) :
    Jac (d.holdRJ 0 t1 T1 q E) := by
  obtain ⟨o, ho, hA⟩ := h.out
  exact ⟨_, _, fun x => by simp only [Driver.holdRJ, if_neg hE, ho, Option.map_some]; rfl,
    fun X X' τ hX => hold_derivative d 0 t1 T1 q E o hA X X' τ hX⟩

/-- **C71, disagreement.** The Jacobian of a strain hold of any other component is wrong, for every material: the one
stands in the first column whichever component is held. -/
theorem C71_hold_disagreement (d : Driver H) (i : Fin 6) (hi : i ≠ 0) (t1 T1 q E : ℝ) (h : TangentRight d t1 T1) :
    ¬ Jac (d.holdRJ i t1 T1 q E) := by
  rintro ⟨R, J, h1, h2⟩
  obtain ⟨o, ho, hA⟩ := h.out
  have hE : E ≠ 0 := fun hE => by
    have := h1 0
    simp only [Driver.holdRJ, if_pos hE] at this
    cases this
  simp only [Driver.holdRJ, if_neg hE, ho, Option.map_some, Option.some.injEq, Prod.mk.injEq] at h1
  -- move the first strain component
  have hX : Moves (fun t : ℝ => t • (Pi.single 0 1 : Fin 6 → ℝ)) (Pi.single 0 1) 0 := fun k => by
    simpa using (hasDerivAt_id (0 : ℝ)).mul_const ((Pi.single 0 1 : Fin 6 → ℝ) k)
  have hR := h2 _ _ 0 hX
  have hR' := hold_derivative d i t1 T1 q E o hA _ _ 0 hX
  simp only [← fun x => (h1 x).1] at hR
  have := (hR 0).unique (hR' 0)
  rw [← (h1 _).2] at this
  simp only [mulVec, dotProduct_single, mul_one, of_apply, Fin.cases_zero, holdJac, if_true, if_neg (Ne.symm hi)] at this
  linarith

end Neml.Driver
