import Verif.Props.FlowRule

/-!
# The chain rule for the derivatives of `Verif.Props.Diff`
-/

namespace Neml.Flow

open Matrix Neml.SmallStrain

variable {ι κ ι' κ' : Type} [Fintype ι] [Fintype κ] [Fintype ι'] [Fintype κ']

theorem DV.hasFDerivAt {F : (ι → ℝ) → (κ → ℝ) → ι' → ℝ} {Fs : Matrix ι' ι ℝ} {Fa : Matrix ι' κ ℝ} {s : ι → ℝ}
    {a : κ → ℝ} (h : DV F Fs Fa s a) :
    HasFDerivAt (fun p : (ι → ℝ) × (κ → ℝ) => F p.1 p.2)
      (ContinuousLinearMap.pi fun i => grad (Fs i) (Fa i)) (s, a) := by
  rw [hasFDerivAt_pi']
  intro i
  refine (h i).congr_fderiv (ContinuousLinearMap.ext fun p => ?_)
  simp

/-- Chain rule. -/
theorem D1.comp {f : (ι' → ℝ) → (κ' → ℝ) → ℝ} {fs : ι' → ℝ} {fa : κ' → ℝ}
    {S : (ι → ℝ) → (κ → ℝ) → ι' → ℝ} {A : (ι → ℝ) → (κ → ℝ) → κ' → ℝ} {Ss : Matrix ι' ι ℝ} {Sa : Matrix ι' κ ℝ}
    {As : Matrix κ' ι ℝ} {Aa : Matrix κ' κ ℝ} {s : ι → ℝ} {a : κ → ℝ} (hf : D1 f fs fa (S s a) (A s a))
    (hS : DV S Ss Sa s a) (hA : DV A As Aa s a) :
    D1 (fun s a => f (S s a) (A s a)) (fs ᵥ* Ss + fa ᵥ* As) (fs ᵥ* Sa + fa ᵥ* Aa) s a := by
  have h := hS.hasFDerivAt.prodMk hA.hasFDerivAt
  have hf' : HasFDerivAt (fun p : (ι' → ℝ) × (κ' → ℝ) => f p.1 p.2) (grad fs fa)
      ((fun p : (ι → ℝ) × (κ → ℝ) => (S p.1 p.2, A p.1 p.2)) (s, a)) := hf
  refine (hf'.comp (s, a) h).congr_fderiv (ContinuousLinearMap.ext fun p => ?_)
  have e : ∀ (M : Matrix ι' ι ℝ) (N : Matrix ι' κ ℝ),
      (fun i => M i ⬝ᵥ p.1 + N i ⬝ᵥ p.2) = M *ᵥ p.1 + N *ᵥ p.2 := fun _ _ => rfl
  have e' : ∀ (M : Matrix κ' ι ℝ) (N : Matrix κ' κ ℝ),
      (fun i => M i ⬝ᵥ p.1 + N i ⬝ᵥ p.2) = M *ᵥ p.1 + N *ᵥ p.2 := fun _ _ => rfl
  simp only [ContinuousLinearMap.comp_apply, ContinuousLinearMap.prod_apply, grad_apply]
  change fs ⬝ᵥ (fun i => grad (Ss i) (Sa i) p) + fa ⬝ᵥ (fun i => grad (As i) (Aa i) p) = _
  simp only [grad_apply, e, e', dotProduct_add, add_dotProduct, ← dotProduct_mulVec]
  ring

variable [DecidableEq ι] [DecidableEq κ]

/-- A function of stress and history as a function of the stacked unknowns. -/
theorem D1.stack {f : (ι → ℝ) → (κ → ℝ) → ℝ} {fs : ι → ℝ} {fa : κ → ℝ} {x : ι ⊕ κ → ℝ}
    (h : D1 f fs fa (fun i => x (.inl i)) (fun i => x (.inr i))) (e : ι' → ℝ) :
    D1 (fun (x : ι ⊕ κ → ℝ) (_ : ι' → ℝ) => f (fun i => x (.inl i)) (fun i => x (.inr i)))
      (Sum.elim fs fa) 0 x e := by
  have hS : DV (fun (x : ι ⊕ κ → ℝ) (_ : ι' → ℝ) i => x (.inl i)) (of fun i => Pi.single (Sum.inl i) 1) 0 x e :=
    fun i => D1.coord_s (Sum.inl i)
  have hA : DV (fun (x : ι ⊕ κ → ℝ) (_ : ι' → ℝ) i => x (.inr i)) (of fun i => Pi.single (Sum.inr i) 1) 0 x e :=
    fun i => D1.coord_s (Sum.inr i)
  refine (D1.comp (S := fun (x : ι ⊕ κ → ℝ) (_ : ι' → ℝ) i => x (.inl i))
    (A := fun (x : ι ⊕ κ → ℝ) (_ : ι' → ℝ) i => x (.inr i)) h hS hA).congr ?_ (by simp)
  ext (j | j) <;> simp [vecMul, dotProduct, Pi.single_apply]

/-- The rates of a general rule, row by row. -/
theorem correctRates_of_D1 {fl : GenFlow ℝ ι κ} {T Td : ℝ} {z : (ι ⊕ κ → ℝ) × (ι → ℝ)}
    (h : ∀ i, D1 (fun x e => ratesOf fl T Td (x, e) i) (ratesDy fl T Td z i) (ratesDe fl T Td z i) z.1 z.2) :
    CorrectRates fl T Td z := by
  unfold CorrectRates
  rw [hasFDerivAt_pi']
  intro i
  refine (h i : HasFDerivAt _ _ _).congr_fderiv (ContinuousLinearMap.ext fun p => ?_)
  simp [mulVec]

end Neml.Flow
