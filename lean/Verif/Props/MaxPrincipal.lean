import Verif.Model.MaxPrincipal
import Verif.Props.DamageDeriv
import Mathlib.Analysis.Matrix.Spectrum
import Mathlib.Data.Fin.Tuple.Sort

/-!
# C168: the maximum principal stress
-/

namespace Neml.Damage

open Matrix Neml.SmallStrain Neml.Mandel

/-- Spec: the documentation of `dsyev` with jobz `V`: eigenvalues in ascending order and orthonormal eigenvectors, one after the
other. -/
def Lapack.Right (L : Lapack) : Prop :=
  ∀ F : Matrix (Fin 3) (Fin 3) ℝ, F.IsSymm → Monotone (L.values F) ∧ ∃ V : Fin 3 → Fin 3 → ℝ,
    (∀ i j : Fin 3, L.vectors F ⟨3 * i + j, by omega⟩ = V i j) ∧
    (∀ i j, V i ⬝ᵥ V j = if i = j then 1 else 0) ∧ ∀ i, F *ᵥ V i = L.values F i • V i

/-- The pull of a stress across the plane with a normal. -/
noncomputable def pull (s : Fin 6 → ℝ) (n : Fin 3 → ℝ) : ℝ := n ⬝ᵥ usym s *ᵥ n

theorem usym_symm (s : Fin 6 → ℝ) : (usym s).IsSymm := by
  ext i j
  fin_cases i <;> fin_cases j <;> rfl

/-- Expansion in an orthonormal basis. -/
theorem expand {V : Fin 3 → Fin 3 → ℝ} (h : ∀ i j, V i ⬝ᵥ V j = if i = j then 1 else 0) (n : Fin 3 → ℝ) :
    n = ∑ i, (V i ⬝ᵥ n) • V i := by
  have h1 : (Matrix.of V) * (Matrix.of V)ᵀ = 1 := by
    ext i j
    rw [Matrix.mul_apply, Matrix.one_apply, ← h i j]
    rfl
  have h2 : (Matrix.of V)ᵀ * (Matrix.of V) = 1 := mul_eq_one_comm.mp h1
  have h3 : (Matrix.of V)ᵀ *ᵥ (Matrix.of V *ᵥ n) = n := by rw [mulVec_mulVec, h2, one_mulVec]
  conv_lhs => rw [← h3]
  funext k
  simp only [mulVec, dotProduct, transpose_apply, Matrix.of_apply, Finset.sum_apply, Pi.smul_apply, smul_eq_mul]
  exact Finset.sum_congr rfl fun i _ => by ring

theorem expand_dot {V : Fin 3 → Fin 3 → ℝ} (h : ∀ i j, V i ⬝ᵥ V j = if i = j then 1 else 0) (m n : Fin 3 → ℝ) :
    m ⬝ᵥ n = ∑ i, (V i ⬝ᵥ m) * (V i ⬝ᵥ n) := by
  conv_lhs => rw [expand h n, dotProduct_sum]
  exact Finset.sum_congr rfl fun i _ => by rw [dotProduct_smul, smul_eq_mul, dotProduct_comm m (V i)]; ring

theorem expand_quad {F : Matrix (Fin 3) (Fin 3) ℝ} {w : Fin 3 → ℝ} {V : Fin 3 → Fin 3 → ℝ} (hF : F.IsSymm)
    (h : ∀ i j, V i ⬝ᵥ V j = if i = j then 1 else 0) (he : ∀ i, F *ᵥ V i = w i • V i) (n : Fin 3 → ℝ) :
    n ⬝ᵥ F *ᵥ n = ∑ i, w i * (V i ⬝ᵥ n) ^ 2 := by
  rw [expand_dot h]
  refine Finset.sum_congr rfl fun i _ => ?_
  have : V i ⬝ᵥ F *ᵥ n = w i * (V i ⬝ᵥ n) := by
    rw [dotProduct_mulVec, ← mulVec_transpose, hF.eq, he i, smul_dotProduct, smul_eq_mul]
  rw [this]
  ring

theorem usym_add (s t : Fin 6 → ℝ) : usym (s + t) = usym s + usym t := by
  ext i j
  fin_cases i <;> fin_cases j <;> simp [usym, add_div]

theorem usym_smul (c : ℝ) (s : Fin 6 → ℝ) : usym (c • s) = c • usym s := by
  ext i j
  fin_cases i <;> fin_cases j <;> simp [usym, mul_div_assoc]

theorem pull_add (s t : Fin 6 → ℝ) (n : Fin 3 → ℝ) : pull (s + t) n = pull s n + pull t n := by
  unfold pull
  rw [usym_add, add_mulVec, dotProduct_add]

theorem pull_smul (c : ℝ) (s : Fin 6 → ℝ) (n : Fin 3 → ℝ) : pull (c • s) n = c * pull s n := by
  unfold pull
  rw [usym_smul, smul_mulVec, dotProduct_smul, smul_eq_mul]

/-- The dyad of a direction with itself works on a stress as the pull. -/
theorem sym_dyad (n : Fin 3 → ℝ) (t : Fin 6 → ℝ) : sym (.of fun i j => n i * n j) ⬝ᵥ t = pull t n := by
  have h2 : √2 * √2 = 2 := Real.mul_self_sqrt (by norm_num)
  have h0 : √2 ≠ 0 := by positivity
  have h3 : ∀ x : ℝ, x / √2 = x * √2 / 2 := by
    intro x
    field_simp
    rw [pow_two, h2]
  simp only [pull, sym, usym, dotProduct, mulVec, Fin.sum_univ_succ, Fin.sum_univ_zero, h3]
  simp
  ring

theorem bilinear_bound (h : Fin 6 → ℝ) (x y : Fin 3 → ℝ) :
    (x ⬝ᵥ usym h *ᵥ y) ^ 2 ≤ (h ⬝ᵥ h) * ((x ⬝ᵥ x) * (y ⬝ᵥ y)) := by
  have e1 : x ⬝ᵥ usym h *ᵥ y = ∑ p : Fin 3 × Fin 3, usym h p.1 p.2 * (x p.1 * y p.2) := by
    rw [Fintype.sum_prod_type]
    simp only [dotProduct, mulVec, Finset.mul_sum]
    exact Finset.sum_congr rfl fun i _ => Finset.sum_congr rfl fun j _ => by ring
  have e2 : ∑ p : Fin 3 × Fin 3, (usym h p.1 p.2) ^ 2 = h ⬝ᵥ h := by
    have h2 : √2 ^ 2 = 2 := Real.sq_sqrt (by norm_num)
    rw [Fintype.sum_prod_type]
    simp [usym, dotProduct, Fin.sum_univ_succ, div_pow, h2]
    ring
  have e3 : ∑ p : Fin 3 × Fin 3, (x p.1 * y p.2) ^ 2 = (x ⬝ᵥ x) * (y ⬝ᵥ y) := by
    rw [Fintype.sum_prod_type]
    simp only [dotProduct, Finset.sum_mul_sum]
    exact Finset.sum_congr rfl fun i _ => Finset.sum_congr rfl fun j _ => by ring
  rw [e1, ← e2, ← e3]
  exact Finset.sum_mul_sq_le_sq_mul_sq _ _ _

/-! ## The largest value -/

/-- The largest principal stress. -/
noncomputable def top (L : Lapack) (s : Fin 6 → ℝ) : ℝ := eigenvaluesSym L s 2

theorem eff_eq (L : Lapack) (s : Fin 6 → ℝ) : (maxPrincipal L).eff s = max (top L s) 0 := by
  change (if top L s < 0 then 0 else top L s) = _
  split_ifs with h
  · exact (max_eq_right h.le).symm
  · exact (max_eq_left (not_lt.mp h)).symm

theorem pull_le_top {L : Lapack} (hL : L.Right) (s : Fin 6 → ℝ) (n : Fin 3 → ℝ) (hn : n ⬝ᵥ n = 1) : pull s n ≤ top L s := by
  obtain ⟨hm, V, -, ho, he⟩ := hL (usym s) (usym_symm s)
  rw [pull, expand_quad (usym_symm s) ho he]
  calc ∑ i, L.values (usym s) i * (V i ⬝ᵥ n) ^ 2 ≤ ∑ i, top L s * ((V i ⬝ᵥ n) * (V i ⬝ᵥ n)) := by
        refine Finset.sum_le_sum fun i _ => ?_
        rw [pow_two]
        exact mul_le_mul_of_nonneg_right (hm (Fin.le_last i)) (mul_self_nonneg _)
    _ = top L s := by rw [← Finset.mul_sum, ← expand_dot ho, hn, mul_one]

/-- The derivative the code reports is the dyad of a unit vector of the largest principal stress. -/
theorem deff_dyad {L : Lapack} (hL : L.Right) (s : Fin 6 → ℝ) (h : 0 ≤ top L s) :
    ∃ n : Fin 3 → ℝ, n ⬝ᵥ n = 1 ∧ usym s *ᵥ n = top L s • n ∧
      (maxPrincipal L).deff s = sym (.of fun i j => n i * n j) := by
  obtain ⟨-, V, hV, ho, he⟩ := hL (usym s) (usym_symm s)
  refine ⟨V 2, by simpa using ho 2 2, he 2, ?_⟩
  change (if top L s < 0 then 0 else _) = _
  rw [if_neg (not_lt.mpr h)]
  have hv : (fun i : Fin 3 => eigenvectorsSym L s ⟨6 + i, by omega⟩) = V 2 := by
    funext i
    rw [← hV 2 i]
    rfl
  rw [hv]
  have h1 : V 2 0 * V 2 0 + V 2 1 * V 2 1 + V 2 2 * V 2 2 = 1 := by
    have := ho 2 2
    simp only [dotProduct, Fin.sum_univ_three, if_true] at this
    exact this
  congr 1
  ext i j
  simp only [unitDyad, h1, ne_eq, one_ne_zero, not_false_eq_true, if_true, Matrix.of_apply, div_one]

/-- C168: the derivative does not depend on the lengths of the eigenvectors, so rounding in them is not passed on to its
size. -/
theorem C168_lengths (L : Lapack) {c : ℝ} (hc : c ≠ 0) (s : Fin 6 → ℝ) :
    (maxPrincipal ⟨L.values, fun F k => c * L.vectors F k⟩).deff s = (maxPrincipal L).deff s := by
  have key : ∀ v : Fin 3 → ℝ, unitDyad (fun i => c * v i) = unitDyad v := by
    intro v
    have e : c * v 0 * (c * v 0) + c * v 1 * (c * v 1) + c * v 2 * (c * v 2) =
        c ^ 2 * (v 0 * v 0 + v 1 * v 1 + v 2 * v 2) := by ring
    simp only [unitDyad, e]
    by_cases h : v 0 * v 0 + v 1 * v 1 + v 2 * v 2 = 0
    · have h0 : v 0 = 0 := by nlinarith [mul_self_nonneg (v 0), mul_self_nonneg (v 1), mul_self_nonneg (v 2)]
      have h1 : v 1 = 0 := by nlinarith [mul_self_nonneg (v 0), mul_self_nonneg (v 1), mul_self_nonneg (v 2)]
      have h2 : v 2 = 0 := by nlinarith [mul_self_nonneg (v 0), mul_self_nonneg (v 1), mul_self_nonneg (v 2)]
      have hv : ∀ i, v i = 0 := fun i => by fin_cases i <;> assumption
      simp [hv]
    · rw [if_pos (mul_ne_zero (pow_ne_zero 2 hc) h), if_pos h]
      ext i j
      simp only [Matrix.of_apply]
      rw [show c * v i * (c * v j) = c ^ 2 * (v i * v j) by ring, mul_div_mul_left _ _ (pow_ne_zero 2 hc)]
  simp only [maxPrincipal, eigenvaluesSym, eigenvectorsSym, key]
  by_cases h : L.values (usym s) 2 < 0 <;> simp [h]

/-- **C168** the maximum principal stress is the largest pull across any plane, or zero if there is no tension: no plane has a
larger pull, and if it is not zero some plane has it. -/
theorem C168_value {L : Lapack} (hL : L.Right) (s : Fin 6 → ℝ) :
    0 ≤ (maxPrincipal L).eff s ∧ (∀ n, n ⬝ᵥ n = 1 → pull s n ≤ (maxPrincipal L).eff s) ∧
    ((maxPrincipal L).eff s ≠ 0 → ∃ n, n ⬝ᵥ n = 1 ∧ pull s n = (maxPrincipal L).eff s) := by
  rw [eff_eq]
  refine ⟨le_max_right _ _, fun n hn => (pull_le_top hL s n hn).trans (le_max_left _ _), fun h => ?_⟩
  have ht : 0 < top L s := by
    by_contra hc
    exact h (max_eq_right (not_lt.mp hc))
  obtain ⟨n, hn, he, -⟩ := deff_dyad hL s ht.le
  refine ⟨n, hn, ?_⟩
  rw [pull, he, dotProduct_smul, hn, smul_eq_mul, mul_one, max_eq_left ht.le]

/-- Two measures described by `C168_value` are the same: it says all about the value. -/
theorem value_unique (s : Fin 6 → ℝ) (x y : ℝ)
    (hx : 0 ≤ x ∧ (∀ n, n ⬝ᵥ n = 1 → pull s n ≤ x) ∧ (x ≠ 0 → ∃ n, n ⬝ᵥ n = 1 ∧ pull s n = x))
    (hy : 0 ≤ y ∧ (∀ n, n ⬝ᵥ n = 1 → pull s n ≤ y) ∧ (y ≠ 0 → ∃ n, n ⬝ᵥ n = 1 ∧ pull s n = y)) : x = y := by
  refine le_antisymm ?_ ?_
  · by_cases h : x = 0
    · rw [h]; exact hy.1
    · obtain ⟨n, hn, h'⟩ := hx.2.2 h
      rw [← h']; exact hy.2.1 n hn
  · by_cases h : y = 0
    · rw [h]; exact hx.1
    · obtain ⟨n, hn, h'⟩ := hy.2.2 h
      rw [← h']; exact hx.2.1 n hn

/-- **C168** scaling a stress scales the measure; the measure of a sum is at most the sum; it is never below the mean stress. -/
theorem C168_convex {L : Lapack} (hL : L.Right) (s t : Fin 6 → ℝ) :
    (∀ c, 0 ≤ c → (maxPrincipal L).eff (c • s) = c * (maxPrincipal L).eff s) ∧
    (maxPrincipal L).eff (s + t) ≤ (maxPrincipal L).eff s + (maxPrincipal L).eff t ∧
    mean.eff s ≤ (maxPrincipal L).eff s := by
  have hs := C168_value hL s
  have ht := C168_value hL t
  refine ⟨fun c hc => ?_, ?_, ?_⟩
  · refine value_unique (c • s) _ _ (C168_value hL _) ⟨mul_nonneg hc hs.1, fun n hn => ?_, fun h => ?_⟩
    · rw [pull_smul]; exact mul_le_mul_of_nonneg_left (hs.2.1 n hn) hc
    · obtain ⟨n, hn, h'⟩ := hs.2.2 (right_ne_zero_of_mul h)
      exact ⟨n, hn, by rw [pull_smul, h']⟩
  · by_cases h : (maxPrincipal L).eff (s + t) = 0
    · rw [h]; exact add_nonneg hs.1 ht.1
    · obtain ⟨n, hn, h'⟩ := (C168_value hL (s + t)).2.2 h
      rw [← h', pull_add]
      exact add_le_add (hs.2.1 n hn) (ht.2.1 n hn)
  · have h0 := hs.2.1 ![1, 0, 0] (by simp [dotProduct, Fin.sum_univ_succ])
    have h1 := hs.2.1 ![0, 1, 0] (by simp [dotProduct, Fin.sum_univ_succ])
    have h2 := hs.2.1 ![0, 0, 1] (by simp [dotProduct, Fin.sum_univ_succ])
    simp [pull, usym, dotProduct, mulVec, Fin.sum_univ_succ] at h0 h1 h2
    simp only [mean]
    linarith

/-- **C168** turning the stress does not change the measure. -/
theorem C168_rotate {L : Lapack} (hL : L.Right) (s t : Fin 6 → ℝ) (R : Matrix (Fin 3) (Fin 3) ℝ) (hR : R * Rᵀ = 1)
    (h : usym t = R * usym s * Rᵀ) : (maxPrincipal L).eff t = (maxPrincipal L).eff s := by
  have hR' : Rᵀ * R = 1 := mul_eq_one_comm.mp hR
  have hp : ∀ n, pull t n = pull s (Rᵀ *ᵥ n) := by
    intro n
    unfold pull
    rw [h, ← mulVec_mulVec, ← mulVec_mulVec, dotProduct_mulVec, ← mulVec_transpose]
  have hd : ∀ n, Rᵀ *ᵥ n ⬝ᵥ Rᵀ *ᵥ n = n ⬝ᵥ n := by
    intro n
    rw [dotProduct_mulVec, ← mulVec_transpose, transpose_transpose, mulVec_mulVec, hR, one_mulVec]
  have hd' : ∀ n, R *ᵥ n ⬝ᵥ R *ᵥ n = n ⬝ᵥ n := by
    intro n
    rw [dotProduct_mulVec, ← mulVec_transpose, mulVec_mulVec, hR', one_mulVec]
  have hs := C168_value hL s
  refine value_unique t _ _ (C168_value hL t) ⟨hs.1, fun n hn => ?_, fun hne => ?_⟩
  · rw [hp]; exact hs.2.1 _ (by rw [hd, hn])
  · obtain ⟨n, hn, h'⟩ := hs.2.2 hne
    refine ⟨R *ᵥ n, by rw [hd', hn], ?_⟩
    rw [hp, mulVec_mulVec, hR', one_mulVec, h']

/-! ## The derivative -/

/-- **C168** the reported derivative is a subgradient at every stress, also where principal stresses are equal or zero: along
any change of stress the measure grows at least as it predicts. It gives back the measure on the stress itself. -/
theorem C168_subgradient {L : Lapack} (hL : L.Right) (s t : Fin 6 → ℝ) :
    (maxPrincipal L).eff s + (maxPrincipal L).deff s ⬝ᵥ (t - s) ≤ (maxPrincipal L).eff t ∧
    (maxPrincipal L).deff s ⬝ᵥ s = (maxPrincipal L).eff s := by
  have key : (maxPrincipal L).deff s ⬝ᵥ s = (maxPrincipal L).eff s ∧
      (maxPrincipal L).deff s ⬝ᵥ t ≤ (maxPrincipal L).eff t := by
    by_cases h : top L s < 0
    · have : (maxPrincipal L).deff s = 0 := if_pos h
      rw [this, zero_dotProduct, zero_dotProduct, eff_eq, max_eq_right h.le]
      exact ⟨rfl, (C168_value hL t).1⟩
    · obtain ⟨n, hn, he, hd⟩ := deff_dyad hL s (not_lt.mp h)
      rw [hd, sym_dyad, sym_dyad]
      refine ⟨?_, (C168_value hL t).2.1 n hn⟩
      rw [pull, he, dotProduct_smul, hn, smul_eq_mul, mul_one, eff_eq, max_eq_left (not_lt.mp h)]
  rw [dotProduct_sub, key.1]
  exact ⟨by linarith [key.2], rfl⟩

/-- Perturbation of the largest principal stress: the second order bound. -/
theorem top_upper {L : Lapack} (hL : L.Right) (s h : Fin 6 → ℝ) (γ : ℝ) (hγ : 0 < γ)
    (hgap : eigenvaluesSym L s 1 + γ ≤ top L s) (n : Fin 3 → ℝ) (hn : n ⬝ᵥ n = 1)
    (he : usym s *ᵥ n = top L s • n) (hsmall : 16 * (h ⬝ᵥ h) ≤ γ ^ 2) :
    top L (s + h) ≤ top L s + pull h n + 2 / γ * (h ⬝ᵥ h) := by
  obtain ⟨hm', V', -, ho', he'⟩ := hL (usym (s + h)) (usym_symm _)
  obtain ⟨hm, V, -, ho, hev⟩ := hL (usym s) (usym_symm _)
  -- the unit vector of the perturbed stress
  set u := V' 2 with hu
  have huu : u ⬝ᵥ u = 1 := by simpa using ho' 2 2
  have htop : top L (s + h) = pull (s + h) u := by
    rw [pull, he' 2, dotProduct_smul, ← hu, huu, smul_eq_mul, mul_one]; rfl
  set a := n ⬝ᵥ u with ha
  set r := u - a • n with hr
  have hur : u = a • n + r := by rw [hr]; abel
  have hnr : n ⬝ᵥ r = 0 := by rw [hr, dotProduct_sub, dotProduct_smul, hn, smul_eq_mul, mul_one, ← ha, sub_self]
  have hrr : r ⬝ᵥ r = 1 - a ^ 2 := by
    have h1 : u ⬝ᵥ u = a ^ 2 + r ⬝ᵥ r := by
      conv_lhs => rw [hur]
      simp only [add_dotProduct, dotProduct_add, smul_dotProduct, dotProduct_smul, hn, hnr, dotProduct_comm r n, smul_eq_mul]
      ring
    linarith
  -- the part across n is at most the second value
  have hsn : ∀ x : Fin 3 → ℝ, n ⬝ᵥ usym s *ᵥ x = top L s * (n ⬝ᵥ x) := by
    intro x
    rw [dotProduct_mulVec, ← mulVec_transpose, (usym_symm s).eq, he, smul_dotProduct, smul_eq_mul]
  have hV2 : V 2 ⬝ᵥ r = 0 := by
    -- n is along V 2
    have hi : ∀ i, i ≠ 2 → V i ⬝ᵥ n = 0 := by
      intro i hi
      have h1 : V i ⬝ᵥ usym s *ᵥ n = L.values (usym s) i * (V i ⬝ᵥ n) := by
        rw [dotProduct_mulVec, ← mulVec_transpose, (usym_symm s).eq, hev i, smul_dotProduct, smul_eq_mul]
      rw [he, dotProduct_smul, smul_eq_mul] at h1
      have h2 : L.values (usym s) i ≤ L.values (usym s) 1 := hm (by
        fin_cases i
        · decide
        · exact le_refl _
        · exact absurd rfl hi)
      have h3 : (top L s - L.values (usym s) i) * (V i ⬝ᵥ n) = 0 := by linarith
      have h4 : top L s - L.values (usym s) i ≠ 0 := by
        have : L.values (usym s) i ≤ eigenvaluesSym L s 1 := h2
        exact ne_of_gt (by linarith)
      exact (mul_eq_zero.mp h3).resolve_left h4
    have hn2 : n = (V 2 ⬝ᵥ n) • V 2 := by
      conv_lhs => rw [expand ho n]
      rw [Fin.sum_univ_three, hi 0 (by decide), hi 1 (by decide), zero_smul, zero_smul, zero_add, zero_add]
    have h5 : (V 2 ⬝ᵥ n) * (V 2 ⬝ᵥ r) = 0 := by
      rw [← hnr]
      conv_rhs => rw [hn2]
      rw [smul_dotProduct, smul_eq_mul]
    have h6 : V 2 ⬝ᵥ n ≠ 0 := by
      intro hz
      rw [hz, zero_smul] at hn2
      rw [hn2, zero_dotProduct] at hn
      exact zero_ne_one hn
    exact (mul_eq_zero.mp h5).resolve_left h6
  have hrs : pull s r ≤ (top L s - γ) * (r ⬝ᵥ r) := by
    rw [pull, expand_quad (usym_symm s) ho hev, expand_dot ho r r, Finset.mul_sum]
    refine Finset.sum_le_sum fun i _ => ?_
    rw [pow_two]
    by_cases hi : i = 2
    · rw [hi, hV2]; simp
    · refine mul_le_mul_of_nonneg_right ?_ (mul_self_nonneg _)
      have h2 : L.values (usym s) i ≤ L.values (usym s) 1 := hm (by
        fin_cases i
        · decide
        · exact le_refl _
        · exact absurd rfl hi)
      have : L.values (usym s) i ≤ eigenvaluesSym L s 1 := h2
      linarith
  have hps : pull s u ≤ top L s - γ * (r ⬝ᵥ r) := by
    have h1 : pull s u = a ^ 2 * top L s + pull s r := by
      have hrn : r ⬝ᵥ usym s *ᵥ n = 0 := by rw [he, dotProduct_smul, dotProduct_comm, hnr, smul_zero]
      unfold pull
      conv_lhs => rw [hur]
      simp only [mulVec_add, mulVec_smul, add_dotProduct, dotProduct_add, smul_dotProduct, dotProduct_smul, hsn, hn, hnr, hrn,
        smul_eq_mul]
      ring
    rw [h1]
    have h2 : a ^ 2 = 1 - r ⬝ᵥ r := by linarith
    rw [h2]
    linarith
  -- the perturbation
  set e := √(h ⬝ᵥ h) with hedef
  set ρ := √(r ⬝ᵥ r) with hρdef
  have hhh : 0 ≤ h ⬝ᵥ h := Finset.sum_nonneg fun i _ => mul_self_nonneg _
  have hrr0 : 0 ≤ r ⬝ᵥ r := Finset.sum_nonneg fun i _ => mul_self_nonneg _
  have he2 : e ^ 2 = h ⬝ᵥ h := Real.sq_sqrt hhh
  have hρ2 : ρ ^ 2 = r ⬝ᵥ r := Real.sq_sqrt hrr0
  have he0 : 0 ≤ e := Real.sqrt_nonneg _
  have hρ0 : 0 ≤ ρ := Real.sqrt_nonneg _
  have b1 : |n ⬝ᵥ usym h *ᵥ r| ≤ e * ρ := by
    refine abs_le_of_sq_le_sq ?_ (mul_nonneg he0 hρ0)
    refine (bilinear_bound h n r).trans (le_of_eq ?_)
    rw [hn, one_mul, mul_pow, he2, hρ2]
  have b2 : |pull h r| ≤ e * ρ ^ 2 := by
    refine abs_le_of_sq_le_sq ?_ (mul_nonneg he0 (pow_nonneg hρ0 2))
    refine (bilinear_bound h r r).trans (le_of_eq ?_)
    rw [mul_pow, he2, hρ2]; ring
  have b3 : |pull h n| ≤ e := by
    refine abs_le_of_sq_le_sq ?_ he0
    refine (bilinear_bound h n n).trans (le_of_eq ?_)
    rw [hn, he2]; ring
  have hph : pull h u = a ^ 2 * pull h n + 2 * a * (n ⬝ᵥ usym h *ᵥ r) + pull h r := by
    have hsy : r ⬝ᵥ usym h *ᵥ n = n ⬝ᵥ usym h *ᵥ r := by
      rw [dotProduct_mulVec, ← mulVec_transpose, (usym_symm h).eq, dotProduct_comm]
    unfold pull
    conv_lhs => rw [hur]
    simp only [mulVec_add, mulVec_smul, add_dotProduct, dotProduct_add, smul_dotProduct, dotProduct_smul, hsy, smul_eq_mul]
    ring
  have ha1 : |a| ≤ 1 := by
    rw [← sq_le_one_iff_abs_le_one]
    linarith
  have b4 : a * (n ⬝ᵥ usym h *ᵥ r) ≤ e * ρ := by
    refine (le_abs_self _).trans ?_
    rw [abs_mul]
    calc |a| * |n ⬝ᵥ usym h *ᵥ r| ≤ 1 * (e * ρ) := mul_le_mul ha1 b1 (abs_nonneg _) zero_le_one
      _ = e * ρ := one_mul _
  have hsm : 4 * e ≤ γ := by
    refine abs_le_of_sq_le_sq' ?_ hγ.le |>.2
    rw [mul_pow, he2]
    linarith
  rw [htop, pull_add, hph]
  have hk : γ * (2 / γ * (h ⬝ᵥ h)) = 2 * e ^ 2 := by rw [he2]; field_simp
  have ha2 : a ^ 2 = 1 - ρ ^ 2 := by rw [hρ2]; linarith
  rw [ha2]
  rw [← hρ2] at hps
  have b2' := le_of_abs_le b2
  have b3' := neg_le_of_abs_le b3
  have key : γ * (γ * ρ ^ 2 - 2 * e * ρ ^ 2 - 2 * (e * ρ) + 2 / γ * (h ⬝ᵥ h)) ≥ 0 := by
    have h1 : γ * (γ * ρ ^ 2 - 2 * e * ρ ^ 2 - 2 * (e * ρ) + 2 / γ * (h ⬝ᵥ h)) =
        γ * (γ / 2 - 2 * e) * ρ ^ 2 + (γ * ρ - 2 * e) ^ 2 / 2 := by
      rw [mul_add, hk]; ring
    rw [h1]
    have : 0 ≤ γ / 2 - 2 * e := by linarith
    positivity
  have key' := nonneg_of_mul_nonneg_right key hγ
  nlinarith [mul_nonneg (by linarith : 0 ≤ pull h n + e) (sq_nonneg ρ)]

/-- The largest principal stress of a perturbed stress, from below. -/
theorem top_lower {L : Lapack} (hL : L.Right) (s h : Fin 6 → ℝ) (n : Fin 3 → ℝ) (hn : n ⬝ᵥ n = 1)
    (he : usym s *ᵥ n = top L s • n) : top L s + pull h n ≤ top L (s + h) := by
  refine le_trans (le_of_eq ?_) (pull_le_top hL (s + h) n hn)
  rw [pull_add]
  congr 1
  rw [pull, he, dotProduct_smul, hn, smul_eq_mul, mul_one]

theorem top_lipschitz {L : Lapack} (hL : L.Right) (s h : Fin 6 → ℝ) : |top L (s + h) - top L s| ≤ √(h ⬝ᵥ h) := by
  have hb : ∀ (h : Fin 6 → ℝ) (u : Fin 3 → ℝ), u ⬝ᵥ u = 1 → |pull h u| ≤ √(h ⬝ᵥ h) := by
    intro h u hu
    refine abs_le_of_sq_le_sq ?_ (Real.sqrt_nonneg _)
    refine (bilinear_bound h u u).trans (le_of_eq ?_)
    have hh : 0 ≤ h ⬝ᵥ h := Finset.sum_nonneg fun i _ => mul_self_nonneg _
    rw [hu, Real.sq_sqrt hh]; ring
  have ht : ∀ s, ∃ u, u ⬝ᵥ u = 1 ∧ top L s = pull s u := by
    intro s
    obtain ⟨-, V, -, ho, he⟩ := hL (usym s) (usym_symm s)
    have hu : V 2 ⬝ᵥ V 2 = 1 := by simpa using ho 2 2
    refine ⟨V 2, hu, ?_⟩
    rw [pull, he 2, dotProduct_smul, hu, smul_eq_mul, mul_one]; rfl
  rw [abs_le]
  constructor
  · obtain ⟨u, hu, h1⟩ := ht s
    have := pull_le_top hL (s + h) u hu
    rw [pull_add] at this
    linarith [neg_le_of_abs_le (hb h u hu)]
  · obtain ⟨u, hu, h1⟩ := ht (s + h)
    have := pull_le_top hL s u hu
    rw [pull_add] at h1
    linarith [le_of_abs_le (hb h u hu)]

/-- A function caught under a flat one is flat. -/
theorem flat_of_bound (f g : ℝ → ℝ) (t0 : ℝ) (hg : HasDerivAt g 0 t0) (hg0 : g t0 = 0)
    (h : ∀ᶠ t in nhds t0, |f t| ≤ g t) : HasDerivAt f 0 t0 := by
  have hf0 : f t0 = 0 := by
    have := h.self_of_nhds
    rw [hg0] at this
    exact abs_nonpos_iff.mp this
  rw [hasDerivAt_iff_isLittleO] at hg ⊢
  simp only [hg0, hf0, smul_zero, sub_zero] at hg ⊢
  refine Asymptotics.IsBigO.trans_isLittleO ?_ hg
  refine Asymptotics.IsBigO.of_bound 1 ?_
  filter_upwards [h] with t ht
  rw [Real.norm_eq_abs, Real.norm_eq_abs, one_mul]
  exact ht.trans (le_abs_self _)

/-- **C168** the reported derivative is the derivative of the measure where the largest principal stress is single and not
zero. -/
theorem C168_derivative {L : Lapack} (hL : L.Right) (s1 : Fin 6 → ℝ) (h0 : eigenvaluesSym L s1 2 ≠ 0)
    (h1 : eigenvaluesSym L s1 2 < 0 ∨ eigenvaluesSym L s1 1 < eigenvaluesSym L s1 2) : (maxPrincipal L).Correct s1 := by
  intro s s' t0 hs hs1
  have hsq : HasDerivAt (fun t => (s t - s1) ⬝ᵥ (s t - s1)) 0 t0 := by
    have : ∀ i, HasDerivAt (fun t => (s t - s1) i * (s t - s1) i) 0 t0 := by
      intro i
      have := ((hs i).sub_const (s1 i)).mul ((hs i).sub_const (s1 i))
      refine this.congr_deriv ?_
      simp [hs1]
    have h2 := HasDerivAt.fun_sum fun i (_ : i ∈ (Finset.univ : Finset (Fin 6))) => this i
    exact h2.congr_deriv (by simp)
  have hsq0 : (s t0 - s1) ⬝ᵥ (s t0 - s1) = 0 := by rw [hs1, sub_self, zero_dotProduct]
  have hadd : ∀ t, s1 + (s t - s1) = s t := fun t => add_sub_cancel _ _
  have hclose : ∀ ε > 0, ∀ᶠ t in nhds t0, (s t - s1) ⬝ᵥ (s t - s1) < ε := by
    intro ε hε
    have := hsq.continuousAt.tendsto
    rw [hsq0] at this
    exact this.eventually_lt_const hε
  have hnear : ∀ᶠ t in nhds t0, |top L (s t) - top L s1| < |top L s1| := by
    filter_upwards [hclose (top L s1 ^ 2) (by have : top L s1 ≠ 0 := h0; positivity)] with t ht
    have h2 := top_lipschitz hL s1 (s t - s1)
    rw [hadd] at h2
    refine h2.trans_lt ?_
    rw [← Real.sqrt_sq_eq_abs]
    exact Real.sqrt_lt_sqrt (Finset.sum_nonneg fun i _ => mul_self_nonneg _) ht
  by_cases hneg : top L s1 < 0
  · have hz : (maxPrincipal L).deff s1 = 0 := if_pos hneg
    rw [hz, zero_dotProduct]
    refine (hasDerivAt_const t0 (0 : ℝ)).congr_of_eventuallyEq ?_
    filter_upwards [hnear] with t ht
    rw [abs_of_neg hneg] at ht
    rw [eff_eq, max_eq_right]
    linarith [(abs_lt.mp ht).2]
  · have hpos : 0 < top L s1 := lt_of_le_of_ne (not_lt.mp hneg) (Ne.symm h0)
    have hgap : eigenvaluesSym L s1 1 < top L s1 := h1.resolve_left hneg
    obtain ⟨n, hn, he, hd⟩ := deff_dyad hL s1 hpos.le
    set γ := top L s1 - eigenvaluesSym L s1 1 with hγ
    have hγ0 : 0 < γ := by linarith
    have hrest : HasDerivAt (fun t => top L (s t) - top L s1 - pull (s t - s1) n) 0 t0 := by
      refine flat_of_bound _ (fun t => 2 / γ * ((s t - s1) ⬝ᵥ (s t - s1))) t0
        ((hsq.const_mul (2 / γ)).congr_deriv (mul_zero _)) (by rw [hsq0, mul_zero]) ?_
      filter_upwards [hclose (γ ^ 2 / 16) (by positivity)] with t ht
      have hu := top_upper hL s1 (s t - s1) γ hγ0 (by linarith) n hn he (by linarith)
      have hl := top_lower hL s1 (s t - s1) n hn he
      rw [hadd] at hu hl
      rw [abs_of_nonneg (by linarith)]
      linarith
    have hlin : HasDerivAt (fun t => pull (s t - s1) n) ((maxPrincipal L).deff s1 ⬝ᵥ s') t0 := by
      rw [hd]
      have h2 := HasDerivAt.fun_sum fun i (_ : i ∈ (Finset.univ : Finset (Fin 6))) =>
        ((hs i).sub_const (s1 i)).const_mul (sym (.of fun i j => n i * n j) i)
      refine (h2.congr_of_eventuallyEq (Filter.Eventually.of_forall fun t => ?_)).congr_deriv rfl
      exact (sym_dyad n (s t - s1)).symm
    have hall := (hrest.add hlin).add_const (top L s1)
    rw [zero_add] at hall
    refine hall.congr_of_eventuallyEq ?_
    filter_upwards [hnear] with t ht
    rw [abs_of_pos hpos] at ht
    have hp : 0 ≤ top L (s t) := by linarith [(abs_lt.mp ht).1]
    rw [eff_eq, max_eq_left hp]
    simp

/-- **C168** the condition is needed: under equal pull in all directions no derivative would be right, as the measure has
none. -/
theorem C168_kink {L : Lapack} (hL : L.Right) (p : ℝ) (hp : 0 < p) (d : Fin 6 → ℝ) :
    ¬ ∀ (s : ℝ → Fin 6 → ℝ) (s' : Fin 6 → ℝ), Moves s s' 0 → s 0 = ![p, p, p, 0, 0, 0] →
      HasDerivAt (fun t => (maxPrincipal L).eff (s t)) (d ⬝ᵥ s') 0 := by
  intro h
  have hval : ∀ t : ℝ, (maxPrincipal L).eff ![p + t, p, p, 0, 0, 0] = p + max t 0 := by
    intro t
    have hpull : ∀ n : Fin 3 → ℝ, n ⬝ᵥ n = 1 → pull ![p + t, p, p, 0, 0, 0] n = p + t * n 0 ^ 2 := by
      intro n hn
      simp only [dotProduct, Fin.sum_univ_three] at hn
      simp [pull, usym, dotProduct, mulVec, Fin.sum_univ_three]
      linear_combination p * hn
    refine value_unique _ _ _ (C168_value hL _) ⟨by positivity, fun n hn => ?_, fun _ => ?_⟩
    · rw [hpull n hn]
      have hn' := hn
      simp only [dotProduct, Fin.sum_univ_three] at hn'
      have h1 : n 0 ^ 2 ≤ 1 := by nlinarith [mul_self_nonneg (n 1), mul_self_nonneg (n 2)]
      have h2 : t * n 0 ^ 2 ≤ max t 0 * n 0 ^ 2 := mul_le_mul_of_nonneg_right (le_max_left _ _) (sq_nonneg _)
      have h3 : max t 0 * n 0 ^ 2 ≤ max t 0 * 1 := mul_le_mul_of_nonneg_left h1 (le_max_right _ _)
      linarith
    · rcases le_total 0 t with ht | ht
      · refine ⟨![1, 0, 0], by simp [dotProduct, Fin.sum_univ_three], ?_⟩
        rw [hpull _ (by simp [dotProduct, Fin.sum_univ_three]), max_eq_left ht]
        simp
      · refine ⟨![0, 1, 0], by simp [dotProduct, Fin.sum_univ_three], ?_⟩
        rw [hpull _ (by simp [dotProduct, Fin.sum_univ_three]), max_eq_right ht]
        simp
  have h1 := h (fun t => ![p + t, p, p, 0, 0, 0]) ![1, 0, 0, 0, 0, 0] (by
    intro i
    fin_cases i
    · exact (hasDerivAt_id (0 : ℝ)).const_add p
    all_goals exact hasDerivAt_const _ _) (by simp)
  simp only [hval] at h1
  have h2 := ((h1.sub_const p).const_mul 2).sub (hasDerivAt_id (0 : ℝ))
  refine not_differentiableAt_abs_zero (h2.differentiableAt.congr_of_eventuallyEq (Filter.Eventually.of_forall fun t => ?_))
  simp only [Pi.sub_apply, id]
  rcases le_total 0 t with ht | ht
  · rw [abs_of_nonneg ht, max_eq_left ht]; ring
  · rw [abs_of_nonpos ht, max_eq_right ht]; ring

/-! ## The largest of several measures -/

/-- **C79** the maximum of several measures is right where its members are and only one of them has the largest value: along
every curve of stresses the values change as the reported derivative says. -/
theorem C79_max (ms : List Measure) (s1 : Fin 6 → ℝ) (h : ∀ m ∈ ms, m.Correct s1) (v : ℝ) (d : Fin 6 → ℝ)
    (hsel : maxSeveral ms s1 = some (v, d)) (huniq : ∀ a ∈ ms, ∀ b ∈ ms, a.eff s1 = v → b.eff s1 = v → a = b)
    (s : ℝ → Fin 6 → ℝ) (s' : Fin 6 → ℝ) (t0 : ℝ) (hs : Moves s s' t0) (hs1 : s t0 = s1) (f : ℝ → ℝ)
    (hf : ∀ t, (maxSeveral ms (s t)).map Prod.fst = some (f t)) : HasDerivAt f (d ⬝ᵥ s') t0 := by
  have hne : ms ≠ [] := by
    rintro rfl
    simp [maxSeveral, selectMax] at hsel
  obtain ⟨i, m, hi, hm, hmax, -⟩ := C34_max ms hne s1
  rw [hsel] at hm
  simp only [Option.some.injEq, Prod.mk.injEq] at hm
  obtain ⟨rfl, rfl⟩ := hm
  have hmem : m ∈ ms := List.mem_of_getElem? hi
  refine (h m hmem s s' t0 hs hs1).congr_of_eventuallyEq ?_
  have hev : ∀ᶠ t in nhds t0, ∀ m' ∈ {m' | m' ∈ ms}, m' ≠ m → m'.eff (s t) < m.eff (s t) := by
    refine (Filter.eventually_all_finite (List.finite_toSet ms)).mpr fun m' hm' => ?_
    by_cases hmm : m' = m
    · exact Filter.Eventually.of_forall fun t hc => absurd hmm hc
    · have hlt : m'.eff s1 < m.eff s1 := lt_of_le_of_ne (hmax m' hm') fun he => hmm (huniq m' hm' m hmem he rfl)
      have c1 := (h m' hm' s s' t0 hs hs1).continuousAt
      have c2 := (h m hmem s s' t0 hs hs1).continuousAt
      have := c1.eventually_lt c2 (by rw [hs1]; exact hlt)
      filter_upwards [this] with t ht _
      exact ht
  filter_upwards [hev] with t ht
  obtain ⟨j, m', hj, hm', hmax', -⟩ := C34_max ms hne (s t)
  have hft := hf t
  rw [hm'] at hft
  simp only [Option.map_some, Option.some.injEq] at hft
  rw [← hft]
  by_contra hc
  have hmm : m' ≠ m := by
    rintro rfl
    exact hc rfl
  exact absurd (hmax' m hmem) (not_le.mpr (ht m' (List.mem_of_getElem? hj) hmm))

/-! ## Cases -/

/-- Routines as documented exist, by the spectral theorem. -/
theorem exists_right : ∃ L : Lapack, L.Right := by
  classical
  have key : ∀ F : Matrix (Fin 3) (Fin 3) ℝ, ∃ (w : Fin 3 → ℝ) (V : Fin 3 → Fin 3 → ℝ), F.IsSymm → Monotone w ∧
      (∀ i j, V i ⬝ᵥ V j = if i = j then 1 else 0) ∧ ∀ i, F *ᵥ V i = w i • V i := by
    intro F
    by_cases hF : F.IsSymm
    · have hA : F.IsHermitian := by rw [Matrix.IsHermitian, conjTranspose_eq_transpose_of_trivial]; exact hF
      refine ⟨hA.eigenvalues ∘ Tuple.sort hA.eigenvalues, fun i => hA.eigenvectorBasis (Tuple.sort hA.eigenvalues i),
        fun _ => ⟨Tuple.monotone_sort _, fun i j => ?_, fun i => hA.mulVec_eigenvectorBasis _⟩⟩
      have := orthonormal_iff_ite.mp hA.eigenvectorBasis.orthonormal (Tuple.sort hA.eigenvalues j)
        (Tuple.sort hA.eigenvalues i)
      simp only [EuclideanSpace.inner_eq_star_dotProduct, star_trivial, EmbeddingLike.apply_eq_iff_eq] at this
      rw [this]
      simp only [eq_comm]
    · exact ⟨0, 0, fun h => absurd h hF⟩
  choose w V h using key
  refine ⟨⟨w, fun F k => V F ⟨k / 3, by omega⟩ ⟨k % 3, by omega⟩⟩, fun F hF => ⟨(h F hF).1, V F, fun i j => ?_, (h F hF).2⟩⟩
  have e1 : (⟨(3 * i + j : ℕ) / 3, by omega⟩ : Fin 3) = i := by ext; simp only; omega
  have e2 : (⟨(3 * i + j : ℕ) % 3, by omega⟩ : Fin 3) = j := by ext; simp only; omega
  exact congr (congrArg (V F) e1) e2

/-- Uniaxial tension has a single largest principal stress. -/
theorem uniaxial {L : Lapack} (hL : L.Right) : (maxPrincipal L).eff ![2, 0, 0, 0, 0, 0] = 2 := by
  have hpull : ∀ n : Fin 3 → ℝ, pull ![2, 0, 0, 0, 0, 0] n = 2 * n 0 ^ 2 := by
    intro n
    simp [pull, usym, dotProduct, mulVec, Fin.sum_univ_three]
    ring
  refine value_unique _ _ _ (C168_value hL _) ⟨by norm_num, fun n hn => ?_, fun _ => ⟨![1, 0, 0], ?_, ?_⟩⟩
  · rw [hpull]
    simp only [dotProduct, Fin.sum_univ_three] at hn
    nlinarith [mul_self_nonneg (n 1), mul_self_nonneg (n 2)]
  · simp [dotProduct, Fin.sum_univ_three]
  · rw [hpull]; simp

/-- The hypotheses of the derivative hold under uniaxial tension. -/
example {L : Lapack} (hL : L.Right) : (maxPrincipal L).Correct ![2, 0, 0, 0, 0, 0] := by
  have h2 : top L ![2, 0, 0, 0, 0, 0] = 2 := by
    have h := uniaxial hL
    rw [eff_eq] at h
    rcases max_choice (top L ![2, 0, 0, 0, 0, 0]) 0 with hc | hc <;> rw [hc] at h
    · exact h
    · norm_num at h
  refine C168_derivative hL _ (by change top L _ ≠ 0; rw [h2]; norm_num) (Or.inr ?_)
  by_contra hc
  obtain ⟨hm, V, -, ho, he⟩ := hL (usym ![2, 0, 0, 0, 0, 0]) (usym_symm _)
  have hev : L.values (usym ![2, 0, 0, 0, 0, 0]) 1 = 2 :=
    le_antisymm ((hm (show (1 : Fin 3) ≤ 2 by decide)).trans (le_of_eq h2)) ((le_of_eq h2.symm).trans (not_lt.mp hc))
  have h1 := he 1
  have h3 := he 2
  rw [hev] at h1
  rw [show L.values (usym ![2, 0, 0, 0, 0, 0]) 2 = 2 from h2] at h3
  have f : ∀ n : Fin 3 → ℝ, usym ![2, 0, 0, 0, 0, 0] *ᵥ n = (2 : ℝ) • n → n 1 = 0 ∧ n 2 = 0 := by
    intro n hn
    have a1 := congrFun hn 1
    have a2 := congrFun hn 2
    simp [usym, mulVec, dotProduct, Fin.sum_univ_three] at a1 a2
    exact ⟨by linarith, by linarith⟩
  obtain ⟨p1, p2⟩ := f _ h1
  obtain ⟨q1, q2⟩ := f _ h3
  have o11 := ho 1 1
  have o22 := ho 2 2
  have o12 := ho 1 2
  simp [dotProduct, Fin.sum_univ_three, p1, p2, q1, q2] at o11 o22 o12
  rcases o12 with o | o <;> simp [o] at o11 o22

/-- Two measures of which the first is larger: the maximum has the derivative of the first. -/
example : maxSeveral [vonMises, mean] ![3, 0, 0, 0, 0, 0] =
      some (vonMises.eff ![3, 0, 0, 0, 0, 0], vonMises.deff ![3, 0, 0, 0, 0, 0]) ∧
    mean.eff ![3, 0, 0, 0, 0, 0] < vonMises.eff ![3, 0, 0, 0, 0, 0] := by
  have h1 : vonMises.eff ![3, 0, 0, 0, 0, 0] = 3 := by
    have : ((3 : ℝ) ^ 2 + 3 ^ 2) / 2 = 3 ^ 2 := by norm_num
    simp only [vonMises, se]
    simp [this]
  have h2 : mean.eff ![3, 0, 0, 0, 0, 0] = 1 := by simp [mean]
  refine ⟨?_, by rw [h1, h2]; norm_num⟩
  simp only [maxSeveral, selectMax, List.zipIdx_cons, List.zipIdx_nil, List.foldl_cons, List.foldl_nil, h1, h2]
  norm_num

end Neml.Damage
