import Verif.Model.Blas
import Mathlib.Algebra.Quaternion
import Mathlib.Tactic.Linarith
import Mathlib.Tactic.LinearCombination
import Mathlib.Tactic.FieldSimp
import Mathlib.Tactic.FinCases

/-!
C166. The linear algebra of the library, for all sizes: arrays holding matrices by rows go through routines
that read them by columns and come back as the products, inverses and solutions of the matrices.
-/

namespace Neml.Blas
open Matrix

section Ring
variable {K : Type*} [CommRing K]

/-- The `m` by `n` matrix an array holds by rows. -/
def rows (m n : ℕ) (A : ℕ → K) : Matrix (Fin m) (Fin n) K := Matrix.of fun i j => A (i * n + j)

/-- The vector an array holds. -/
def vec (n : ℕ) (b : ℕ → K) : Fin n → K := fun i => b i

/-- A call succeeded, left a result with property `P` in the first `n` places and the rest of the array as
it was. -/
def Leaves (r : Option (ℕ → K)) (old : ℕ → K) (n : ℕ) (P : (ℕ → K) → Prop) : Prop :=
  ∃ new, r = some new ∧ P new ∧ ∀ p, n ≤ p → new p = old p

theorem place {m i j : ℕ} (hi : i < m) : (i + j * m) % m = i ∧ (i + j * m) / m = j := by
  constructor
  · rw [Nat.add_mul_mod_self_right, Nat.mod_eq_of_lt hi]
  · rw [Nat.add_mul_div_right _ _ (by omega), Nat.div_eq_of_lt hi]; omega

theorem outside {m n p : ℕ} (hm : 0 < m) (h : n * m ≤ p) : ¬ p / m < n := by
  rw [Nat.div_lt_iff_lt_mul hm]; omega

theorem dgemm_leaves {ta tb : Bool} {m n k lda ldb : ℕ} (hm : 0 < m) {A B C : ℕ → K}
    (ha : ¬ lda < max 1 (if ta then k else m)) (hb : ¬ ldb < max 1 (if tb then n else k)) :
    Leaves (dgemm ta tb m n k 1 A lda B ldb 0 C m) C (n * m) fun D => ∀ i < m, ∀ j < n,
      D (i + j * m) = ∑ l ∈ Finset.range k, entry ta A lda i l * entry tb B ldb l j := by
  refine ⟨_, if_neg (by simp only [not_or]; exact ⟨ha, hb, by omega⟩), ?_, ?_⟩
  · intro i hi j hj
    simp only [(place (j := j) hi).1, (place (j := j) hi).2, hi, hj, and_self, if_true, one_mul, zero_mul, add_zero]
  · intro p hp
    exact if_neg fun h => outside hm hp h.2

/-- `mat_mat` multiplies. -/
theorem C166_mat_mat {m n k : ℕ} (hn : 0 < n) (hk : 0 < k) (A B C : ℕ → K) :
    Leaves (matMat m n k A B C) C (m * n) fun D => rows m n D = rows m k A * rows k n B := by
  obtain ⟨D, h, hD, hf⟩ := dgemm_leaves (ta := false) (tb := false) (n := m) (k := k) (lda := n) (ldb := k) hn
    (A := B) (B := A) (C := C) (by simp; omega) (by simp; omega)
  refine ⟨D, h, ?_, hf⟩
  ext i j
  simp only [rows, of_apply, mul_apply]
  rw [Nat.add_comm, hD j j.2 i i.2, Finset.sum_range]
  exact Finset.sum_congr rfl fun l _ => by simp [entry, Nat.add_comm, mul_comm]

/-- `mat_mat_ABT` multiplies with the transpose. -/
theorem C166_mat_mat_abt {m n k : ℕ} (hn : 0 < n) (hk : 0 < k) (A B C : ℕ → K) :
    Leaves (matMatABT m n k A B C) C (m * n) fun D => rows m n D = rows m k A * (rows n k B)ᵀ := by
  obtain ⟨D, h, hD, hf⟩ := dgemm_leaves (ta := true) (tb := false) (n := m) (k := k) (lda := k) (ldb := k) hn
    (A := B) (B := A) (C := C) (by simp; omega) (by simp; omega)
  refine ⟨D, h, ?_, hf⟩
  ext i j
  simp only [rows, of_apply, mul_apply, transpose_apply]
  rw [Nat.add_comm, hD j j.2 i i.2, Finset.sum_range]
  exact Finset.sum_congr rfl fun l _ => by simp [entry, Nat.add_comm, mul_comm]

/-- `rotate_matrix` computes `A B Aᵀ`, whatever is in the work array. -/
theorem C166_rotate {m n : ℕ} (hm : 0 < m) (hn : 0 < n) (A B C temp : ℕ → K) :
    Leaves (rotateMatrix m n A B C temp) C (m * m) fun D =>
      rows m m D = rows m n A * rows n n B * (rows m n A)ᵀ := by
  obtain ⟨E, h, hE, -⟩ := dgemm_leaves (ta := true) (tb := false) (n := n) (k := n) (lda := n) (ldb := n) hm
    (A := A) (B := B) (C := temp) (by simp; omega) (by simp; omega)
  obtain ⟨D, h', hD, hf⟩ := dgemm_leaves (ta := false) (tb := false) (n := m) (k := n) (lda := m) (ldb := n) hm
    (A := E) (B := A) (C := C) (by simp; omega) (by simp; omega)
  refine ⟨D, by rw [rotateMatrix, h]; exact h', ?_, hf⟩
  ext i j
  simp only [rows, of_apply, mul_apply, transpose_apply]
  rw [Nat.add_comm, hD j j.2 i i.2, Finset.sum_range]
  simp only [entry, Bool.false_eq_true, if_false, Finset.sum_mul]
  rw [Finset.sum_comm]
  refine Finset.sum_congr rfl fun l _ => ?_
  rw [hE j j.2 l l.2, Finset.sum_range, Finset.sum_mul]
  exact Finset.sum_congr rfl fun r _ => by simp [entry, Nat.add_comm]; ring

/-- `mat_vec` multiplies a matrix with a vector. -/
theorem C166_mat_vec {m n : ℕ} (hn : 0 < n) (A b c : ℕ → K) :
    Leaves (matVec A m b n c) c m fun d => vec m d = rows m n A *ᵥ vec n b := by
  refine ⟨_, if_neg (by omega), ?_, ?_⟩
  · funext i
    simp only [vec, mulVec, dotProduct, rows, of_apply, if_true, i.2, one_mul, zero_mul, add_zero, entry]
    rw [Finset.sum_range]
    exact Finset.sum_congr rfl fun l _ => by rw [Nat.add_comm]
  · intro p hp
    exact if_neg (by simp only [if_true]; omega)

/-- `mat_vec_trans` multiplies the transpose of a matrix with a vector. -/
theorem C166_mat_vec_trans {m n : ℕ} (hm : 0 < m) (A b c : ℕ → K) :
    Leaves (matVecTrans A m b n c) c m fun d => vec m d = (rows n m A)ᵀ *ᵥ vec n b := by
  refine ⟨_, if_neg (by omega), ?_, ?_⟩
  · funext i
    simp only [vec, mulVec, dotProduct, rows, of_apply, transpose_apply, Bool.false_eq_true, if_false, i.2,
      if_true, one_mul, zero_mul, add_zero, entry]
    rw [Finset.sum_range]
    exact Finset.sum_congr rfl fun l _ => by rw [Nat.add_comm]
  · intro p hp
    exact if_neg (by simp only [Bool.false_eq_true, if_false]; omega)

theorem dger_leaves {na nb : ℕ} (h : 0 < nb) (α : K) (a b C : ℕ → K) :
    Leaves (dger nb na α b a C nb) C (na * nb) fun D =>
      rows na nb D = rows na nb C + α • vecMulVec (vec na a) (vec nb b) := by
  refine ⟨_, if_neg (by omega), ?_, ?_⟩
  · ext i j
    have e : (i : ℕ) * nb + j = j + i * nb := Nat.add_comm _ _
    simp only [rows, of_apply, e, (place (j := (i : ℕ)) j.2).1, (place (j := (i : ℕ)) j.2).2, i.2, j.2, and_self,
      if_true, Matrix.add_apply, Matrix.smul_apply, vecMulVec_apply, vec, smul_eq_mul]
    ring
  · intro p hp
    exact if_neg fun h' => outside h hp h'.2

/-- `outer_update` adds the dyadic product. -/
theorem C166_outer_update {na nb : ℕ} (h : 0 < nb) (a b C : ℕ → K) :
    Leaves (outerUpdate a na b nb C) C (na * nb) fun D =>
      rows na nb D = rows na nb C + vecMulVec (vec na a) (vec nb b) := by
  simpa [outerUpdate] using dger_leaves h 1 a b C

/-- `outer_update_minus` subtracts it. -/
theorem C166_outer_update_minus {na nb : ℕ} (h : 0 < nb) (a b C : ℕ → K) :
    Leaves (outerUpdateMinus a na b nb C) C (na * nb) fun D =>
      rows na nb D = rows na nb C - vecMulVec (vec na a) (vec nb b) := by
  simpa [outerUpdateMinus, sub_eq_add_neg] using dger_leaves h (-1) a b C

/-- Two nested loops that set every entry of a matrix held by rows set these entries and no others. -/
theorem loops {m n : ℕ} (f : ℕ → ℕ → K) (C : ℕ → K) :
    (∀ i < m, ∀ j < n, ((List.range m).foldl (fun C i => (List.range n).foldl (fun C j =>
      Function.update C (cindex i j n) (f i j)) C) C) (cindex i j n) = f i j) ∧
    ∀ p, m * n ≤ p → ((List.range m).foldl (fun C i => (List.range n).foldl (fun C j =>
      Function.update C (cindex i j n) (f i j)) C) C) p = C p := by
  have inner : ∀ (i : ℕ) (C : ℕ → K) (l : ℕ), l ≤ n →
      (∀ j < l, ((List.range l).foldl (fun C j => Function.update C (cindex i j n) (f i j)) C) (cindex i j n)
        = f i j) ∧
      ∀ p, (p < i * n ∨ i * n + l ≤ p) →
        ((List.range l).foldl (fun C j => Function.update C (cindex i j n) (f i j)) C) p = C p := by
    intro i C l
    induction l with
    | zero => intro _; exact ⟨fun j hj => by omega, fun p _ => rfl⟩
    | succ l ih =>
      intro hl
      obtain ⟨h1, h2⟩ := ih (by omega)
      simp only [List.range_succ, List.foldl_append, List.foldl_cons, List.foldl_nil]
      refine ⟨fun j hj => ?_, fun p hp => ?_⟩
      · by_cases h : j = l
        · subst h; simp
        · rw [Function.update_of_ne (by unfold cindex; omega), h1 j (by omega)]
      · rw [Function.update_of_ne (by unfold cindex; omega), h2 p (by omega)]
  have main : ∀ m' , (∀ i < m', ∀ j < n, ((List.range m').foldl (fun C i => (List.range n).foldl (fun C j =>
      Function.update C (cindex i j n) (f i j)) C) C) (cindex i j n) = f i j) ∧
      ∀ p, m' * n ≤ p → ((List.range m').foldl (fun C i => (List.range n).foldl (fun C j =>
        Function.update C (cindex i j n) (f i j)) C) C) p = C p := by
    intro m'
    induction m' with
    | zero => exact ⟨fun i hi => by omega, fun p _ => rfl⟩
    | succ m' ih =>
      obtain ⟨h1, h2⟩ := ih
      simp only [List.range_succ, List.foldl_append, List.foldl_cons, List.foldl_nil]
      have hs : (m' + 1) * n = m' * n + n := by ring
      refine ⟨fun i hi j hj => ?_, fun p hp => ?_⟩
      · by_cases h : i = m'
        · subst h; exact (inner i _ n le_rfl).1 j hj
        · have : i + 1 ≤ m' := by omega
          have := Nat.mul_le_mul_right n this
          have e : (i + 1) * n = i * n + n := by ring
          rw [(inner m' _ n le_rfl).2 _ (by unfold cindex; left; omega), h1 i (by omega) j hj]
      · rw [(inner m' _ n le_rfl).2 _ (by right; omega), h2 p (by omega)]
  exact main m

/-- `outer_vec` is the dyadic product. -/
theorem C166_outer (na nb : ℕ) (a b C : ℕ → K) :
    Leaves (some (outerVec a na b nb C)) C (na * nb) fun D =>
      rows na nb D = vecMulVec (vec na a) (vec nb b) := by
  obtain ⟨h1, h2⟩ := loops (m := na) (n := nb) (fun i j => a i * b j) C
  refine ⟨_, rfl, ?_, h2⟩
  ext i j
  have := h1 i i.2 j j.2
  simp only [rows, of_apply, vecMulVec_apply, vec]
  rw [Nat.add_comm]
  exact this

/-- The quaternion in row `i` of an array. -/
def quat (A : ℕ → K) (i : ℕ) : Quaternion K := ⟨A (i * 4), A (i * 4 + 1), A (i * 4 + 2), A (i * 4 + 3)⟩

/-- `qmult_vec` multiplies every quaternion of a list from the right. -/
theorem C166_qmult (As B Cs : ℕ → K) (n : ℕ) :
    Leaves (qmultVec As B n Cs) Cs (n * 4) fun D => ∀ i < n, quat D i = quat As i * quat B 0 := by
  obtain ⟨D, h, hD, hf⟩ := dgemm_leaves (ta := false) (tb := false) (m := 4) (n := n) (k := 4) (lda := 4)
    (ldb := 4) (by norm_num) (A := qtable B) (B := As) (C := Cs) (by simp) (by simp)
  refine ⟨D, h, fun i hi => ?_, hf⟩
  have h0 := hD 0 (by norm_num) i hi
  have h1 := hD 1 (by norm_num) i hi
  have h2 := hD 2 (by norm_num) i hi
  have h3 := hD 3 (by norm_num) i hi
  simp only [entry, Bool.false_eq_true, if_false, Finset.sum_range_succ, Finset.sum_range_zero, qtable] at h0 h1 h2 h3
  simp only [Nat.zero_add, Nat.add_comm _ (i * 4)] at h0 h1 h2 h3
  simp only [Nat.add_zero] at h0 h1 h2 h3
  ext
  · rw [Quaternion.re_mul]; change D (i * 4) = _; rw [h0]; simp only [quat, Nat.zero_mul, Nat.zero_add]; ring
  · rw [Quaternion.imI_mul]; change D (i * 4 + 1) = _; rw [h1]; simp only [quat, Nat.zero_mul, Nat.zero_add]; ring
  · rw [Quaternion.imJ_mul]; change D (i * 4 + 2) = _; rw [h2]; simp only [quat, Nat.zero_mul, Nat.zero_add]; ring
  · rw [Quaternion.imK_mul]; change D (i * 4 + 3) = _; rw [h3]; simp only [quat, Nat.zero_mul, Nat.zero_add]; ring

/-- A product over an empty range is refused instead of being zero, and so are products with no columns. -/
theorem C166_empty_disagreement (m n k : ℕ) (A B C : ℕ → K) :
    matMat m n 0 A B C = none ∧ matMat m 0 k A B C = none ∧ matVec A m B 0 C = none ∧
      matVecTrans A 0 B n C = none := by
  refine ⟨?_, ?_, ?_, ?_⟩ <;> simp [matMat, dgemm, matVec, matVecTrans, dgemv]

end Ring

/-- A product of matrices that are not square. -/
example : ∃ D : ℕ → ℚ, matMat (K := ℚ) 2 2 3 (fun p => p + 1) (fun p => if p = 0 then 1 else 0) (fun _ => 7) = some D ∧
    rows 2 2 D = !![1, 0; 4, 0] ∧ D 4 = 7 := by
  obtain ⟨D, h, hD, hf⟩ := C166_mat_mat (K := ℚ) (m := 2) (n := 2) (k := 3) (by norm_num) (by norm_num)
    (fun p => p + 1) (fun p => if p = 0 then 1 else 0) (fun _ => 7)
  refine ⟨D, h, ?_, hf 4 (by norm_num)⟩
  rw [hD]
  ext i j
  fin_cases i <;> fin_cases j <;> simp [rows, mul_apply, Fin.sum_univ_three]; norm_num

section Field
variable {K : Type*} [Field K]

theorem byColumns_eq (n : ℕ) (A : ℕ → K) : byColumns n A = (rows n n A)ᵀ := by
  ext i j; simp [byColumns, rows, Nat.add_comm]

theorem byColumns_transposed (n : ℕ) (A B : ℕ → K) : byColumns n (transposed A n B) = rows n n A := by
  ext i j
  have := (loops (m := n) (n := n) (fun i j => A (cindex j i n)) B).1 j j.2 i i.2
  simp only [byColumns, rows, of_apply]
  refine this.trans ?_
  rw [cindex, Nat.add_comm]

/-- `solve_mat` solves, whatever is in the work array; only a singular matrix raises the exception, and then
the right hand side is as it was. -/
theorem C166_solve {n : ℕ} (hn : 0 < n) (A x B : ℕ → K) :
    ((rows n n A).det ≠ 0 → ∃ y, solveMat A n x B = .ok y ∧ rows n n A *ᵥ vec n y = vec n x ∧
      (∀ z, rows n n A *ᵥ z = vec n x → z = vec n y) ∧ ∀ p, n ≤ p → y p = x p) ∧
    ((rows n n A).det = 0 → solveMat A n x B = .error x) := by
  have hn' : ¬ n < 1 := by omega
  constructor
  · intro h
    have hu : IsUnit (rows n n A).det := isUnit_iff_ne_zero.mpr h
    refine ⟨fun p => if h : p < n then ((rows n n A)⁻¹ *ᵥ vec n x) ⟨p, h⟩ else x p, ?_, ?_, ?_, ?_⟩
    · simp only [solveMat, dgesv]
      rw [if_neg hn', if_neg (by rwa [byColumns_transposed]), byColumns_transposed]
      rfl
    · have : vec n (fun p => if h : p < n then ((rows n n A)⁻¹ *ᵥ vec n x) ⟨p, h⟩ else x p)
          = (rows n n A)⁻¹ *ᵥ vec n x := by
        funext i; simp [vec]
      rw [this, mulVec_mulVec, mul_nonsing_inv _ hu, one_mulVec]
    · intro z hz
      funext i
      rw [← hz]
      simp [vec, mulVec_mulVec, nonsing_inv_mul _ hu]
    · intro p hp
      simp [Nat.not_lt.mpr hp]
  · intro h
    simp only [solveMat, dgesv]
    rw [if_neg hn', if_pos (by rwa [byColumns_transposed])]
    rfl

/-- `invert_mat` inverts; only a singular matrix raises the exception. -/
theorem C166_invert (lu : (ℕ → K) → ℕ → K) {n : ℕ} (hn : 0 < n) (A : ℕ → K) :
    ((rows n n A).det ≠ 0 → ∃ D, invertMat lu A n = .ok D ∧ rows n n D * rows n n A = 1 ∧
      rows n n A * rows n n D = 1 ∧ ∀ p, n * n ≤ p → D p = A p) ∧
    ((rows n n A).det = 0 → ∃ D, invertMat lu A n = .error D) := by
  have hn' : ¬ n < 1 := by omega
  constructor
  · intro h
    have hu : IsUnit (rows n n A).det := isUnit_iff_ne_zero.mpr h
    have hd : ¬ (byColumns n A).det = 0 := by rwa [byColumns_eq, det_transpose]
    refine ⟨fun p => if h : p % n < n ∧ p / n < n then (byColumns n A)⁻¹ ⟨p % n, h.1⟩ ⟨p / n, h.2⟩ else A p,
      ?_, ?_⟩
    · simp only [invertMat, dgetri]
      rw [if_neg hn', if_neg hd]
      rfl
    · have : rows n n (fun p => if h : p % n < n ∧ p / n < n then (byColumns n A)⁻¹ ⟨p % n, h.1⟩ ⟨p / n, h.2⟩
          else A p) = (rows n n A)⁻¹ := by
        ext i j
        have e : (i : ℕ) * n + j = j + i * n := Nat.add_comm _ _
        have h1 := (place (j := (i : ℕ)) j.2).1
        have h2 := (place (j := (i : ℕ)) j.2).2
        simp only [rows, of_apply, e]
        rw [dif_pos ⟨by rw [h1]; exact j.2, by rw [h2]; exact i.2⟩, byColumns_eq, ← transpose_nonsing_inv,
          transpose_apply]
        simp only [h1, h2]
        rfl
      rw [this]
      refine ⟨nonsing_inv_mul _ hu, mul_nonsing_inv _ hu, fun p hp => ?_⟩
      exact dif_neg fun h' => outside hn hp h'.2
  · intro h
    have hd : (byColumns n A).det = 0 := by rwa [byColumns_eq, det_transpose]
    refine ⟨lu A, ?_⟩
    simp only [invertMat, dgetri]
    rw [if_neg hn', if_pos hd]
    rfl

end Field

/-- A system with a matrix that is not symmetric. -/
example : ∃ y : ℕ → ℚ, solveMat (K := ℚ) (fun p => if p = 2 then 0 else 1) 2 (fun p => p + 3) (fun _ => 0) = .ok y ∧
    y 0 = -1 ∧ y 1 = 4 := by
  have hA : rows 2 2 (fun p => if p = 2 then (0 : ℚ) else 1) = !![1, 1; 0, 1] := by
    ext i j; fin_cases i <;> fin_cases j <;> simp [rows]
  obtain ⟨y, h, hy, -, -⟩ := (C166_solve (n := 2) (by norm_num) (fun p => if p = 2 then (0 : ℚ) else 1)
    (fun p => p + 3) (fun _ => 0)).1 (by rw [hA]; simp)
  refine ⟨y, h, ?_⟩
  rw [hA] at hy
  have h0 := congrFun hy 0
  have h1 := congrFun hy 1
  simp [vec, mulVec, dotProduct, Fin.sum_univ_two] at h0 h1
  constructor <;> linarith

/-! ## Condition number and invariants -/

/-- The largest sum of absolute values over a row. -/
noncomputable def normInf {n : ℕ} (M : Matrix (Fin n) (Fin n) ℝ) : ℝ := ⨆ i, ∑ j, |M i j|

theorem sum_fold (f : ℕ → ℝ) (n : ℕ) : (List.range n).foldl (fun c j => c + f j) 0 = ∑ j : Fin n, f j := by
  induction n with
  | zero => rfl
  | succ n ih => rw [List.range_succ, List.foldl_append, ih, Fin.sum_univ_castSucc]; rfl

theorem max_fold (f : ℕ → ℝ) (hf : ∀ i, 0 ≤ f i) (n : ℕ) :
    (List.range n).foldl (fun a i => if f i > a then f i else a) 0 = ⨆ i : Fin n, f i := by
  have key : ∀ n, 0 ≤ (List.range n).foldl (fun a i => if f i > a then f i else a) 0 ∧
      (∀ i < n, f i ≤ (List.range n).foldl (fun a i => if f i > a then f i else a) 0) ∧
      ((List.range n).foldl (fun a i => if f i > a then f i else a) 0 = 0 ∨
        ∃ i < n, (List.range n).foldl (fun a i => if f i > a then f i else a) 0 = f i) := by
    intro n
    induction n with
    | zero => exact ⟨le_rfl, fun i hi => by omega, Or.inl rfl⟩
    | succ n ih =>
      simp only [List.range_succ, List.foldl_append, List.foldl_cons, List.foldl_nil]
      obtain ⟨h0, h1, h2⟩ := ih
      set a := (List.range n).foldl (fun a i => if f i > a then f i else a) 0
      split_ifs with h
      · refine ⟨hf n, fun i hi => ?_, Or.inr ⟨n, by omega, rfl⟩⟩
        by_cases e : i = n
        · rw [e]
        · exact (h1 i (by omega)).trans h.le
      · refine ⟨h0, fun i hi => ?_, h2.imp id fun ⟨i, hi, e⟩ => ⟨i, by omega, e⟩⟩
        by_cases e : i = n
        · rw [e]; exact not_lt.mp h
        · exact h1 i (by omega)
  obtain ⟨h0, h1, h2⟩ := key n
  rcases Nat.eq_zero_or_pos n with rfl | hn
  · simp [Real.iSup_of_isEmpty]
  haveI : Nonempty (Fin n) := ⟨⟨0, hn⟩⟩
  have hb : BddAbove (Set.range fun i : Fin n => f i) := Set.finite_range _ |>.bddAbove
  refine le_antisymm ?_ (ciSup_le fun i => h1 i i.2)
  rcases h2 with h2 | ⟨i, hi, h2⟩
  · rw [h2]; exact (hf 0).trans (le_ciSup hb ⟨0, hn⟩)
  · rw [h2]; exact le_ciSup hb ⟨i, hi⟩

/-- `condition` multiplies the norm of the rows of the matrix with the norm of the columns of its inverse. -/
theorem C166_condition (A B : ℕ → ℝ) (n : ℕ) :
    condition A n B = normInf (rows n n A) * norm1 (rows n n A)⁻¹ := by
  have : anorm A n = normInf (rows n n A) := by
    unfold anorm normInf
    have h := max_fold (fun i => ∑ j : Fin n, |A (cindex i j n)|)
      (fun i => Finset.sum_nonneg fun j _ => abs_nonneg _) n
    simp only [sum_fold (fun j => |A (cindex _ j n)|)]
    rw [h]
    refine iSup_congr fun i => Finset.sum_congr rfl fun j _ => ?_
    simp only [rows, of_apply, cindex, Nat.add_comm]
  simp only [condition, byColumns_transposed, this, one_div, inv_inv]

/-- The condition number of a symmetric matrix. -/
theorem C166_condition_partial {A : ℕ → ℝ} {n : ℕ} (B : ℕ → ℝ) (h : (rows n n A).IsSymm) :
    condition A n B = norm1 (rows n n A) * norm1 (rows n n A)⁻¹ := by
  rw [C166_condition]
  congr 1
  unfold normInf norm1
  refine iSup_congr fun i => Finset.sum_congr rfl fun j _ => ?_
  rw [h.apply]

/-- The result is not the condition number in either norm in general. -/
theorem C166_condition_disagreement : ∃ A : ℕ → ℝ, (rows 2 2 A).det ≠ 0 ∧ ∀ B,
    condition A 2 B ≠ norm1 (rows 2 2 A) * norm1 (rows 2 2 A)⁻¹ ∧
    condition A 2 B ≠ normInf (rows 2 2 A) * normInf (rows 2 2 A)⁻¹ := by
  have hA : rows 2 2 (fun p => if p = 2 then (0 : ℝ) else if p = 3 then 1 / 2 else 1) = !![1, 1; 0, 1 / 2] := by
    ext i j; fin_cases i <;> fin_cases j <;> simp [rows]
  have hI : (!![1, 1; 0, 1 / 2] : Matrix (Fin 2) (Fin 2) ℝ)⁻¹ = !![1, -2; 0, 2] := by
    refine inv_eq_left_inv ?_
    ext i j; fin_cases i <;> fin_cases j <;> simp [mul_apply, Fin.sum_univ_two]
  have sup2 : ∀ f : Fin 2 → ℝ, ⨆ i, f i = max (f 0) (f 1) := by
    intro f
    have hb : BddAbove (Set.range f) := Set.finite_range _ |>.bddAbove
    refine le_antisymm (ciSup_le fun i => ?_) (max_le (le_ciSup hb 0) (le_ciSup hb 1))
    fin_cases i <;> simp
  refine ⟨fun p => if p = 2 then 0 else if p = 3 then 1 / 2 else 1, by rw [hA]; simp, fun B => ?_⟩
  rw [C166_condition, hA, hI]
  simp only [normInf, norm1, sup2, Fin.sum_univ_two]
  constructor <;> simp <;> norm_num

/-- The Mandel components of a symmetric tensor: shear components times the root of two. -/
structure Components (F : Matrix (Fin 3) (Fin 3) ℝ) (s : ℕ → ℝ) : Prop where
  sym : F.IsSymm
  xx : s 0 = F 0 0
  yy : s 1 = F 1 1
  zz : s 2 = F 2 2
  yz : s 3 = √2 * F 1 2
  xz : s 4 = √2 * F 0 2
  xy : s 5 = √2 * F 0 1

/-- `usym` gives the tensor back. -/
theorem C166_usym {F : Matrix (Fin 3) (Fin 3) ℝ} {s : ℕ → ℝ} (h : Components F s) : rows 3 3 (usym s) = F := by
  have h2 : √(2 : ℝ) ≠ 0 := by positivity
  have e := h.sym
  ext i j
  fin_cases i <;> fin_cases j <;>
    simp [rows, usym, h.xx, h.yy, h.zz, h.yz, h.xz, h.xy, h2, e.apply 0 1, e.apply 0 2, e.apply 1 2]

/-- `I1` and `I2` are the invariants of the tensor: coefficients of its characteristic polynomial. -/
theorem C166_invariants {F : Matrix (Fin 3) (Fin 3) ℝ} {s : ℕ → ℝ} (hF : Components F s) (F2 : ℕ → ℝ) (x : ℝ) :
    ∃ i, i2 s F2 = some i ∧
    (x • (1 : Matrix (Fin 3) (Fin 3) ℝ) - F).det = x ^ 3 - i1 s * x ^ 2 + i * x - F.det := by
  rw [← C166_usym hF]
  obtain ⟨D, h, hD, -⟩ := C166_mat_mat (m := 3) (n := 3) (k := 3) (by norm_num) (by norm_num) (usym s) (usym s) F2
  refine ⟨1 / 2 * ((usym s 0 + usym s 4 + usym s 8) * (usym s 0 + usym s 4 + usym s 8) - (D 0 + D 4 + D 8)),
    by simp only [i2, h], ?_⟩
  have h0 := congrFun (congrFun hD 0) 0
  have h1 := congrFun (congrFun hD 1) 1
  have h2 := congrFun (congrFun hD 2) 2
  simp [rows, mul_apply, Fin.sum_univ_three] at h0 h1 h2
  rw [h0, h1, h2, det_fin_three, det_fin_three]
  simp [rows, usym, i1]
  ring

/-- A tensor with three different shear components. -/
example : Components !![1, 2, 3; 2, 4, 5; 3, 5, 6] fun p => ([1, 4, 6, √2 * 5, √2 * 3, √2 * 2] : List ℝ).getD p 0 where
  sym := by ext i j; fin_cases i <;> fin_cases j <;> rfl
  xx := rfl
  yy := rfl
  zz := rfl
  yz := rfl
  xz := rfl
  xy := rfl

end Neml.Blas
