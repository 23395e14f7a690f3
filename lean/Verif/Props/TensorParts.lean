import Verif.Props.Tensors
import Mathlib.Analysis.SpecialFunctions.Pow.Real

/-!
# C164: deviators, norms, outer products, conversions and comparison of the tensor classes
-/

namespace Neml.Tensors

open Matrix Neml.Mandel

/-! ## Deviator -/

/-- **C164.** The trace is the sum over the diagonal, the deviator takes a third of it off the diagonal, and the tensor `id_dev`
gives the deviator of every symmetric tensor. -/
theorem C164_dev (s : Fin 6 → ℝ) :
    trace s = ∑ i, symFull s i i ∧
    (∀ i j, symFull (dev s) i j = symFull s i j - if i = j then (∑ k, symFull s k k) / 3 else 0) ∧
    mul (.ss idDev) (.sym s) = some (.sym (dev s)) ∧ trace (dev s) = 0 ∧ dev (dev s) = dev s := by
  have ht : trace s = ∑ i, symFull s i i := by simp [trace, symFull, Fin.sum_univ_three]
  have h0 : trace (dev s) = 0 := by
    simp [dev, trace, idSym]
    ring
  refine ⟨ht, ?_, ?_, h0, ?_⟩
  · intro i j
    rw [← ht, symFull_apply, symFull_apply]
    fin_cases i <;> fin_cases j <;> simp [dev, idSym, idx, wt]
  · have : mul (.ss idDev) (.sym s) = some (.sym (idDev *ᵥ s)) := rfl
    rw [this]
    congr 2
    funext i
    fin_cases i <;> simp [idDev, dev, idSym, trace, mulVec, dotProduct, Fin.sum_univ_six] <;> ring
  · conv_lhs => rw [dev, h0]
    simp

/-! ## Norms -/

/-- **C164.** The norm is the root of the sum of the squares of all the components. -/
theorem C164_norm : (∀ x, norm (.vec x) = some (√(∑ i, x i ^ 2))) ∧ (∀ A, norm (.two A) = some (√(∑ i, ∑ j, A i j ^ 2))) ∧
    ∀ s, norm (.sym s) = some (√(∑ i, ∑ j, symFull s i j ^ 2)) := by
  refine ⟨fun x => ?_, fun A => ?_, fun s => ?_⟩ <;> simp only [norm, contract_vec9, pow_two]
  rfl

/-- **C164.** The norm of a symmetric tensor is the length of its Mandel vector. -/
theorem C164_norm_sym (s : Fin 6 → ℝ) : norm (.sym s) = some (√(∑ i, s i ^ 2)) := by
  have h := C164_contract (.sym s) (.sym s)
  rw [mean_sym] at h
  simp only [contract, Full.contract, Option.some.injEq] at h
  rw [norm, contract_vec9, ← h]
  simp only [dotProduct, pow_two]

/-- **C164.** A vector other than zero is a positive multiple of the normalised vector, which has length one. -/
theorem C164_normalize (x : Fin 3 → ℝ) (h : x ≠ 0) : norm (.vec (normalize x)) = some 1 ∧
    ∃ c > 0, norm (.vec x) = some c ∧ ∀ i, x i = c * normalize x i := by
  have hp : 0 < x ⬝ᵥ x := by
    obtain ⟨i, hi⟩ : ∃ i, x i ≠ 0 := by
      by_contra hn
      push Not at hn
      exact h (funext hn)
    exact Finset.sum_pos' (fun j _ => mul_self_nonneg _) ⟨i, Finset.mem_univ _, mul_self_pos.2 hi⟩
  have hs : 0 < √(x ⬝ᵥ x) := Real.sqrt_pos.2 hp
  constructor
  · rw [norm, Option.some.injEq]
    have : normalize x ⬝ᵥ normalize x = (x ⬝ᵥ x) / (√(x ⬝ᵥ x) * √(x ⬝ᵥ x)) := by
      have e : ∀ i, normalize x i * normalize x i = x i * x i * (√(x ⬝ᵥ x) * √(x ⬝ᵥ x))⁻¹ := by
        intro i
        rw [normalize, div_mul_div_comm, div_eq_mul_inv]
      rw [dotProduct, Finset.sum_congr rfl fun i _ => e i, ← Finset.sum_mul, div_eq_mul_inv]
      rfl
    rw [this, Real.mul_self_sqrt hp.le, div_self hp.ne', Real.sqrt_one]
  · refine ⟨_, hs, rfl, fun i => ?_⟩
    rw [normalize, mul_div_cancel₀ _ hs.ne']

/-! ## Products of vectors -/

/-- **C164.** The cross product is the one of the permutation symbol, the skew tensor of a vector multiplies by the cross product,
and the product is at right angles to both factors with the length of the parallelogram. -/
theorem C164_cross (a b : Fin 3 → ℝ) : (∀ i, cross a b i = ∑ j, ∑ k, eps i j k * a j * b k) ∧
    mul (.skw a) (.vec b) = some (.vec (cross a b)) ∧ a ⬝ᵥ cross a b = 0 ∧ b ⬝ᵥ cross a b = 0 ∧
    cross a b ⬝ᵥ cross a b = (a ⬝ᵥ a) * (b ⬝ᵥ b) - (a ⬝ᵥ b) ^ 2 := by
  refine ⟨fun i => ?_, ?_, ?_, ?_, ?_⟩
  · fin_cases i <;> simp [cross, eps, Fin.sum_univ_three] <;> ring
  · have : mul (.skw a) (.vec b) = some (.vec (skewFull a *ᵥ b)) := rfl
    rw [this]
    congr 2
    funext i
    fin_cases i <;> simp [cross, skewFull, mulVec, dotProduct, Fin.sum_univ_three] <;> ring
  all_goals simp [cross, dotProduct, Fin.sum_univ_three]; ring

/-- **C164.** The outer product of two vectors takes a vector to the multiple of the first by the product with the second. -/
theorem C164_outer (a b x : Fin 3 → ℝ) : ∃ y, mul (.two (outer a b)) (.vec x) = some (.vec y) ∧ ∀ i, y i = (b ⬝ᵥ x) * a i := by
  refine ⟨_, rfl, fun i => ?_⟩
  simp only [mulVec, dotProduct, outer, Finset.sum_mul]
  exact Finset.sum_congr rfl fun j _ => by ring

/-- Outer product of tensors of order two. -/
def Full.outer : Full → Full → Option Full
  | .two A, .two B => some (.four fun i j k l => A i j * B k l)
  | _, _ => none

/-- **C164.** The outer products of tensors of order two stand for the outer products. -/
theorem C164_douter (a b c : Ten) (h : douter a b = some c) : (mean a).outer (mean b) = some (mean c) := by
  unfold douter at h
  split at h <;> cases h
  · simp only [mean, Full.outer]
    congr 2
    funext i j k l
    ring
  · simp only [mean, Full.outer]
    congr 2
    funext i j k l
    rw [neg_mul, ← mul_assoc, Finset.sum_mul, Finset.sum_mul, Finset.sum_mul]
    refine congrArg Neg.neg (Finset.sum_congr rfl fun m _ => ?_)
    ring

/-! ## Conversions between the fourth order classes -/

/-- **C164.** The reduced classes come back from the full class: no component is lost either way. -/
theorem C164_reduce : (∀ M C, full4 (.ss M) = some C → toSym C = .ss M) ∧ (∀ M C, full4 (.sw M) = some C → toSymSkew C = .sw M) ∧
    ∀ M C, full4 (.ws M) = some C → toSkewSym C = .ws M := by
  refine ⟨?_, ?_, ?_⟩ <;> rintro M _ ⟨⟩
  · rw [toSym, C47_full2mandel_mandel2full]
  · rw [toSymSkew, C48_full2skew_skew2full]
  · rw [toSkewSym, C48_full2wws_wws2full]

/-- Symmetric in both pairs of indices. -/
def Minor (C : Fin 3 → Fin 3 → Fin 3 → Fin 3 → ℝ) : Prop := ∀ i j k l, C i j k l = C j i k l ∧ C i j k l = C i j l k

/-- **C164.** Reduction of a full tensor to a `SymSymR4` keeps what the tensor stands for exactly if the tensor is symmetric in
both pairs of indices. -/
theorem C164_toSym (C : Matrix (Fin 9) (Fin 9) ℝ) : mean (toSym C) = mean (.four C) ↔ Minor fun i j k l => C (pos i j) (pos k l) := by
  constructor
  · intro h
    rw [toSym] at h
    simp only [mean, Full.four.injEq] at h
    intro i j k l
    have e := fun i j k l => congrFun (congrFun (congrFun (congrFun h i) j) k) l
    have hc : ∀ i j, wt i j = wt j i := fun i j => by simp only [wt, eq_comm]
    have hx : ∀ i j, idx i j = idx j i := by decide
    dsimp only
    rw [← e i j k l, ← e j i k l, ← e i j l k, hc j i, hx j i, hc l k, hx l k]
    exact ⟨rfl, rfl⟩
  · intro h
    have hp : ∀ p : Fin 9, ∃ i j, pos i j = p := by decide
    have hf : ∀ i j, flip9 (pos i j) = pos j i := by decide
    have hm : mandel2full (full2mandel C) = C := by
      refine C47_mandel2full_full2mandel C (fun p q => ?_) fun p q => ?_ <;> obtain ⟨i, j, rfl⟩ := hp p <;>
        obtain ⟨k, l, rfl⟩ := hp q <;> rw [hf]
      · exact (h i j k l).1.symm
      · exact (h i j k l).2.symm
    rw [toSym, mean_eq]
    simp only [meanFull, mean, hm]

/-! ## Tensors of order six -/

/-- What a `SymSymSymR6` stands for. -/
noncomputable def mean6 (T : Six) (i j k l m n : Fin 3) : ℝ := wt i j * wt k l * wt m n * T (idx i j) (idx k l) (idx m n)

/-- **C164.** The contractions of a sixth order tensor with a symmetric tensor over the first, the second and the last pair of
indices, and the outer product that makes one. -/
theorem C164_six (T : Six) (M : Matrix (Fin 6) (Fin 6) ℝ) (s : Fin 6 → ℝ) :
    mean (.ss (dotI T s)) = .four (fun i j k l => ∑ m, ∑ n, mean6 T m n i j k l * symFull s m n) ∧
    mean (.ss (dotJ T s)) = .four (fun i j k l => ∑ m, ∑ n, mean6 T i j m n k l * symFull s m n) ∧
    mean (.ss (dotK T s)) = .four (fun i j k l => ∑ m, ∑ n, mean6 T i j k l m n * symFull s m n) ∧
    (∀ i j k l m n, mean6 (outerK M s) i j k l m n = wt i j * wt k l * M (idx i j) (idx k l) * symFull s m n) ∧
    dotK (outerK M s) s = (∑ i, ∑ j, symFull s i j ^ 2) • M := by
  refine ⟨?_, ?_, ?_, ?_, ?_⟩
  · simp only [mean, dotI, mean6, symFull_apply]
    congr 1
    funext i j k l
    rw [sum6, Finset.mul_sum]
    refine Finset.sum_congr rfl fun m _ => ?_
    rw [Finset.mul_sum]
    exact Finset.sum_congr rfl fun n _ => by ring
  · simp only [mean, dotJ, mean6, symFull_apply]
    congr 1
    funext i j k l
    rw [sum6, Finset.mul_sum]
    refine Finset.sum_congr rfl fun m _ => ?_
    rw [Finset.mul_sum]
    exact Finset.sum_congr rfl fun n _ => by ring
  · simp only [mean, dotK, mean6, symFull_apply]
    congr 1
    funext i j k l
    rw [sum6, Finset.mul_sum]
    refine Finset.sum_congr rfl fun m _ => ?_
    rw [Finset.mul_sum]
    exact Finset.sum_congr rfl fun n _ => by ring
  · intro i j k l m n
    rw [mean6, outerK, symFull_apply]
    ring
  · ext a b
    have h := C164_contract (.sym s) (.sym s)
    rw [mean_sym] at h
    simp only [contract, Full.contract, Option.some.injEq] at h
    simp only [pow_two, Matrix.smul_apply, smul_eq_mul]
    rw [← h, dotProduct, Finset.sum_mul]
    exact Finset.sum_congr rfl fun k _ => by rw [outerK]; ring

/-! ## Comparison -/

theorem isclose_refl (a : ℝ) : isclose a a := by
  rw [isclose, sub_self, abs_zero]
  positivity

/-- **C164.** A tensor equals itself; tensors of different length differ; the comparison does not depend on the sign; equal tensors
differ by less than the tolerance in each component, and tensors closer than the absolute tolerance are equal. -/
theorem C164_eqv (a b : List ℝ) : eqv a a ∧ (eqv a b → a.length = b.length) ∧
    (eqv a b ↔ eqv (a.map Neg.neg) (b.map Neg.neg)) ∧
    (a.length = b.length → (∀ i, (h : i < a.length) → (h' : i < b.length) → |a[i] - b[i]| ≤ 1 / 10 ^ 8) → eqv a b) := by
  refine ⟨⟨rfl, fun i _ _ => isclose_refl _⟩, fun h => h.1, ?_, ?_⟩
  · have hn : ∀ x y : ℝ, isclose (-x) (-y) ↔ isclose x y := by
      intro x y
      rw [isclose, isclose, abs_neg, show -x - -y = -(x - y) by ring, abs_neg]
    simp only [eqv, List.length_map, List.getElem_map, hn]
  · intro hl h
    refine ⟨hl, fun i h1 h2 => (h i h1 h2).trans ?_⟩
    have : (0 : ℝ) ≤ 1 / 10 ^ 5 * |b[i]| := by positivity
    linarith

/-- **C164, disagreement.** The comparison is neither symmetric nor transitive. -/
theorem C164_eqv_disagreement : (∃ a b, eqv a b ∧ ¬ eqv b a) ∧ ∃ a b c, eqv a b ∧ eqv b c ∧ ¬ eqv a c := by
  have h1 : ∀ x y, isclose x y → eqv [x] [y] := by
    intro x y h
    refine ⟨rfl, fun i hi _ => ?_⟩
    have : i = 0 := by simpa using hi
    subst this
    exact h
  have h2 : ∀ x y, eqv [x] [y] → isclose x y := fun x y h => h.2 0 (by simp) (by simp)
  refine ⟨⟨[1], [1 + 100101 / 10 ^ 10], h1 _ _ ?_, fun h => absurd (h2 _ _ h) ?_⟩,
    [0], [1 / 10 ^ 8], [2 / 10 ^ 8], h1 _ _ ?_, h1 _ _ ?_, fun h => absurd (h2 _ _ h) ?_⟩ <;>
    norm_num [isclose, abs_of_pos, abs_of_neg]

/-! ## Cases -/

/-- Two symmetric tensors that do not commute: their product is not the object's product. -/
example : ∃ u, mul (.sym ![1, 0, 0, 0, 0, 0]) (.sym ![0, 0, 0, 0, 0, √2]) = some (.sym u) ∧
    (mean (.sym ![1, 0, 0, 0, 0, 0])).mul (mean (.sym ![0, 0, 0, 0, 0, √2])) ≠ some (mean (.sym u)) := by
  obtain ⟨u, h1, _, h3⟩ := C164_sym_disagreement ![1, 0, 0, 0, 0, 0] ![0, 0, 0, 0, 0, √2]
  refine ⟨u, h1, fun h => ?_⟩
  have := congrFun (congrFun (h3.1 h) 0) 1
  simp [symFull, Matrix.mul_apply, Fin.sum_univ_three] at this

/-- Products outside the exception: a symmetric and a skew tensor, a stiffness and a strain, two stiffnesses. -/
example (s : Fin 6 → ℝ) (w : Fin 3 → ℝ) (M N : Matrix (Fin 6) (Fin 6) ℝ) : (∃ c, mul (.sym s) (.skw w) = some c) ∧
    (∃ c, mul (.ss M) (.sym s) = some c) ∧ (∃ c, mul (.ss M) (.ss N) = some c) ∧ ¬ Alike (.sym s) (.skw w) ∧
    ¬ Alike (.ss M) (.sym s) ∧ ¬ Alike (.ss M) (.ss N) := by
  simp [mul, dot2, dot4, Alike]

/-- A symmetric tensor with an inverse. -/
example : (inverse (.sym ![2, 3, 4, 0, 0, √2])).isSome := by
  have : (symFull ![2, 3, 4, 0, 0, √2]).det ≠ 0 := by
    rw [Matrix.det_fin_three]
    simp [symFull]
    norm_num
  simp [inverse, invertMat, this]

/-- A vector other than zero, and a full tensor without the minor symmetries. -/
example : (![1, 2, 2] : Fin 3 → ℝ) ≠ 0 ∧ ¬ Minor fun i j k l => (Matrix.diagonal fun p => if p = 1 then (1 : ℝ) else 0) (pos i j) (pos k l) := by
  refine ⟨fun h => by simpa using congrFun h 0, fun h => ?_⟩
  have := (h 0 1 0 1).1
  simp [pos] at this

end Neml.Tensors
