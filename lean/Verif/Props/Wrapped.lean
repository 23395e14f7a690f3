import Verif.Model.Wrapped
import Mathlib.Tactic.Linarith
import Mathlib.Tactic.NormNum

/-!
# C172: the flat derivative arrays of rules with named internal variables
-/

namespace Neml.Wrapped

open Neml.Walker Matrix

/-- Filling leaves what lies before the first block. -/
theorem fill_before (bs : List Block) (o : ℕ) (m : Mem) (a : ℕ) (h : a < o) : fill bs o m a = m a := by
  induction bs generalizing o m with
  | nil => rfl
  | cons b bs ih =>
    rw [fill, ih _ _ (by omega), store, if_neg (by omega)]

/-- Each block is found where the sizes of the blocks before it say. -/
theorem fill_at (pre post : List Block) (b : Block) (o : ℕ) (m : Mem) {i j : ℕ} (hi : i < b.size) (hj : j < 6) :
    fill (pre ++ b :: post) o m (o + 6 * (nhist pre + i) + j) = b.val i j := by
  induction pre generalizing o m with
  | nil =>
    simp only [List.nil_append, fill, nhist, List.map_nil, List.sum_nil, Nat.zero_add]
    rw [fill_before _ _ _ _ (by omega), store, if_pos (by omega)]
    have h1 : o + 6 * i + j - o = 6 * i + j := by omega
    rw [h1, show (6 * i + j) / 6 = i by omega, show (6 * i + j) % 6 = j by omega]
  | cons c pre ih =>
    simp only [List.cons_append, fill]
    rw [← ih (o + 6 * c.size)]
    congr 1
    simp only [nhist, List.map_cons, List.sum_cons]
    ring

theorem copyRow_other (nh : ℕ) (temp : Mem) (i a : ℕ) (js : List ℕ) (d : Mem) (h : ∀ j ∈ js, a ≠ j * nh + i) :
    js.foldl (fun d j => copyOne nh temp d i j) d a = d a := by
  induction js generalizing d with
  | nil => rfl
  | cons j js ih =>
    rw [List.foldl_cons, ih _ fun k hk => h k (by simp [hk]), copyOne, if_neg (h j (by simp))]

theorem copyRow_at (nh : ℕ) (temp : Mem) (i j : ℕ) (hi : i < nh) (js : List ℕ) (d : Mem) (hj : j ∈ js) :
    js.foldl (fun d j => copyOne nh temp d i j) d (j * nh + i) = temp (i * 6 + j) := by
  induction js generalizing d with
  | nil => simp at hj
  | cons k js ih =>
    rw [List.foldl_cons]
    by_cases h : j ∈ js
    · exact ih _ h
    · have hk : j = k := by simpa [h] using hj
      subst hk
      rw [copyRow_other, copyOne, if_pos rfl]
      intro l hl he
      have : l ≠ j := fun e => h (e ▸ hl)
      have h1 : j * nh = l * nh := by omega
      exact this (Nat.eq_of_mul_eq_mul_right (by omega) h1).symm

theorem copyRows_other (nh : ℕ) (temp : Mem) (a : ℕ) (is js : List ℕ) (d : Mem)
    (h : ∀ i ∈ is, ∀ j ∈ js, a ≠ j * nh + i) :
    is.foldl (fun d i => js.foldl (fun d j => copyOne nh temp d i j) d) d a = d a := by
  induction is generalizing d with
  | nil => rfl
  | cons i is ih =>
    rw [List.foldl_cons, ih _ fun k hk => h k (by simp [hk]), copyRow_other _ _ _ _ _ _ (h i (by simp))]

theorem copyRows_at (nh : ℕ) (temp : Mem) (i j : ℕ) (is js : List ℕ) (d : Mem) (hi : i ∈ is) (hj : j ∈ js)
    (hb : ∀ k ∈ is, k < nh) :
    is.foldl (fun d i => js.foldl (fun d j => copyOne nh temp d i j) d) d (j * nh + i) = temp (i * 6 + j) := by
  induction is generalizing d with
  | nil => simp at hi
  | cons k is ih =>
    rw [List.foldl_cons]
    by_cases h : i ∈ is
    · exact ih _ h fun l hl => hb l (by simp [hl])
    · have hk : i = k := by simpa [h] using hi
      subst hk
      have hin := hb i (by simp)
      rw [copyRows_other, copyRow_at _ _ _ _ hin _ _ hj]
      intro l hl q _ he
      have hln := hb l (by simp [hl])
      have h1 : (j * nh + i) % nh = i := by
        rw [Nat.mul_add_mod_self_right, Nat.mod_eq_of_lt hin]
      have h2 : (q * nh + l) % nh = l := by
        rw [Nat.mul_add_mod_self_right, Nat.mod_eq_of_lt hln]
      rw [he, h2] at h1
      exact h (h1 ▸ hl)

/-- The transposing copy. -/
theorem copyT_at (nh : ℕ) (temp d : Mem) {i j : ℕ} (hi : i < nh) (hj : j < 6) :
    copyT nh temp d (j * nh + i) = temp (i * 6 + j) :=
  copyRows_at nh temp i j _ _ d (List.mem_range.mpr hi) (List.mem_range.mpr hj) fun _ h => List.mem_range.mp h

theorem nhist_append (a b : List Block) : nhist (a ++ b) = nhist a + nhist b := by simp [nhist]

/-- **C172** (rates by the stress). The array has one row of six for each history entry, in the order of the
layout: entry `j` of row `offset + i` is the derivative of entry `i` of the variable by stress component `j`. -/
theorem C172_rates_by_stress (pre post : List Block) (b : Block) (dhv : Mem) {i j : ℕ} (hi : i < b.size) (hj : j < 6) :
    dhds (pre ++ b :: post) dhv ((nhist pre + i) * 6 + j) = b.val i j := by
  have := fill_at pre post b 0 dhv hi hj
  rw [dhds, ← this]
  congr 1
  ring

/-- What the wrapper makes of the blocks of the derivative of the direction. -/
theorem dgda_at (pre post : List Block) (b : Block) (temp dgv : Mem) {i j : ℕ} (hi : i < b.size) (hj : j < 6) :
    dgda (pre ++ b :: post) temp dgv (j * nhist (pre ++ b :: post) + (nhist pre + i)) = b.val i j := by
  have hn : nhist pre + i < nhist (pre ++ b :: post) := by
    rw [nhist_append]
    simp only [nhist, List.map_cons, List.sum_cons]
    omega
  rw [dgda, copyT_at _ _ _ hn hj, ← fill_at pre post b 0 temp hi hj]
  congr 1
  ring

/-- The offset of a variable: the sizes of the variables before it. -/
def offset (ds : List Der) (k : ℕ) : ℕ := nhist ((ds.take k).map Der.block)

/-- **C172** (the direction by the variables, part). The array has one row for each component of the flow direction
and one column for each history entry, in the order of the layout, provided that the derivatives by tensor variables
are symmetric matrices.

The full claim has no condition on the derivatives; see `C172_direction_disagreement`. -/
theorem C172_direction_partial (ds : List Der) (k : ℕ) (hk : k < ds.length)
    (hs : ∀ c < 6, ∀ e < 6, ds[k].deriv c e = ds[k].deriv e c ∨ ds[k].block.size = 1) (temp dgv : Mem)
    {c e : ℕ} (hc : c < 6) (he : e < ds[k].block.size) :
    dgda (ds.map Der.block) temp dgv (c * nhist (ds.map Der.block) + (offset ds k + e)) = ds[k].deriv c e := by
  have hsplit : ds.map Der.block = (ds.take k).map Der.block ++ ds[k].block :: (ds.drop (k + 1)).map Der.block := by
    conv_lhs => rw [← List.take_append_drop k ds, List.drop_eq_getElem_cons hk]
    rw [List.map_append, List.map_cons]
  have h := dgda_at ((ds.take k).map Der.block) ((ds.drop (k + 1)).map Der.block) ds[k].block temp dgv he hc
  rw [← hsplit] at h
  rw [offset, h]
  cases hd : ds[k] with
  | scalar d => rfl
  | sym d =>
    have he6 : e < 6 := by rw [hd] at he; exact he
    rcases hs c hc e he6 with h1 | h1
    · rw [hd] at h1
      exact h1.symm
    · rw [hd] at h1
      simp [Der.block] at h1

/-- **C172** (the code against the claim). A derivative by a tensor variable that is not symmetric arrives
transposed. -/
theorem C172_direction_disagreement : ∃ (ds : List Der) (k : ℕ) (hk : k < ds.length) (c e : ℕ), c < 6 ∧
    e < ds[k].block.size ∧ ∀ temp dgv,
    dgda (ds.map Der.block) temp dgv (c * nhist (ds.map Der.block) + (offset ds k + e)) ≠ ds[k].deriv c e := by
  refine ⟨[.sym fun c e => if c = 0 ∧ e = 1 then 1 else 0], 0, by simp, 0, 1, by norm_num, by simp [Der.block], ?_⟩
  intro temp dgv
  have h := dgda_at [] [] (Der.block (.sym fun c e => if c = 0 ∧ e = 1 then 1 else 0)) temp dgv (i := 1) (j := 0)
    (by simp [Der.block]) (by norm_num)
  simp only [List.nil_append] at h
  simp only [List.map_cons, List.map_nil, offset, List.take_zero, List.getElem_cons_zero]
  rw [h]
  norm_num [Der.block, Der.deriv]

/-! ## The Walker rule -/

/-- The column of a history entry of the Walker rule. -/
def col {n : ℕ} : Var n → ℕ
  | .alpha => 0
  | .R => 1
  | .D => 2
  | .X i j => 3 + 6 * i + j

theorem dDirOf_symm (d : Fin 6 → ℝ) (i j : Fin 6) : dDirOf d i j = dDirOf d j i := by
  have h : (dDirOf d)ᵀ = dDirOf d := by
    unfold dDirOf
    split_ifs
    · exact transpose_one
    · rw [transpose_smul, transpose_sub, transpose_one, transpose_vecMulVec]
  exact congrFun (congrFun h j) i

theorem walkerDers_nhist (n : ℕ) (G : Matrix (Fin 6) (Fin 6) ℝ) :
    nhist ((walkerDers n G).map Der.block) = 3 + 6 * n := by
  simp [walkerDers, nhist, Der.block, mul_comm]
  omega

/-- **C172** (the Walker rule). The derivative of the flow direction of the Walker rule by its internal variables
arrives in the flat array as it should, for any number of backstresses. -/
theorem C172_walker {n : ℕ} (s : Fin 6 → ℝ) (a : Var n → ℝ) (T : ℝ) (temp dgv : Mem) (c : Fin 6) (v : Var n) :
    dgda ((walkerDers n (dDirOf (Parts.eff s a))).map Der.block) temp dgv (c * (3 + 6 * n) + col v) =
      (Parts.g (n := n)).da s a T c v := by
  set G := dDirOf (Parts.eff s a)
  have hlen : (walkerDers n G).length = 3 + n := by simp [walkerDers]; omega
  cases v with
  | alpha =>
    have h := C172_direction_partial (walkerDers n G) 0 (by omega) (fun _ _ _ _ => Or.inr rfl) temp dgv c.2
      (e := 0) (by simp [walkerDers, Der.block])
    rw [walkerDers_nhist] at h
    simpa [walkerDers, offset, nhist, col, Der.deriv, Parts.g] using h
  | R =>
    have h := C172_direction_partial (walkerDers n G) 1 (by omega) (fun _ _ _ _ => Or.inr rfl) temp dgv c.2
      (e := 0) (by simp [walkerDers, Der.block])
    rw [walkerDers_nhist] at h
    simpa [walkerDers, offset, nhist, col, Der.deriv, Der.block, Parts.g] using h
  | D =>
    have h := C172_direction_partial (walkerDers n G) 2 (by omega) (fun _ _ _ _ => Or.inr rfl) temp dgv c.2
      (e := 0) (by simp [walkerDers, Der.block])
    rw [walkerDers_nhist] at h
    simpa [walkerDers, offset, nhist, col, Der.deriv, Der.block, Parts.g] using h
  | X i j =>
    have hk : 3 + i.1 < (walkerDers n G).length := by omega
    have hget : (walkerDers n G)[3 + i.1] =
        .sym fun i j => if h : i < 6 ∧ j < 6 then -G ⟨i, h.1⟩ ⟨j, h.2⟩ else 0 := by
      simp only [walkerDers]
      rw [List.getElem_append_right (by simp)]
      simp
    have hoff : offset (walkerDers n G) (3 + i.1) = 3 + 6 * i.1 := by
      have : min i.1 n = i.1 := by omega
      rw [offset, walkerDers, List.take_append, List.take_of_length_le (by simp)]
      simp [nhist, Der.block, this, mul_comm]
      omega
    have h := C172_direction_partial (walkerDers n G) (3 + i.1) hk (fun c hc e he => Or.inl (by
      rw [hget]
      simp only [Der.deriv, hc, he, and_self, dif_pos]
      exact congrArg Neg.neg (dDirOf_symm _ _ _))) temp dgv c.2 (e := j.1) (by rw [hget]; exact j.2)
    rw [walkerDers_nhist, hoff, hget] at h
    simp only [Der.deriv, c.2, j.2, and_self, dif_pos] at h
    simpa [col, Parts.g] using h

/-! ## Examples -/

example : dhds [⟨1, fun _ j => j⟩, ⟨6, fun i j => 10 * i + j⟩] 0 ((1 + 2) * 6 + 3) = 23 := by
  have h := C172_rates_by_stress [⟨1, fun _ j => (j : ℝ)⟩] [] ⟨6, fun i j => 10 * i + j⟩ 0 (i := 2) (j := 3)
    (by norm_num) (by norm_num)
  simp only [nhist, List.map_cons, List.map_nil, List.sum_cons, List.sum_nil, List.cons_append, List.nil_append,
    Nat.add_zero] at h
  rw [h]
  norm_num

/-- A symmetric derivative after a number. -/
example (temp dgv : Mem) :
    dgda ([Der.scalar fun c => c, Der.sym fun c e => c + e].map Der.block) temp dgv (2 * 7 + (1 + 4)) = 6 := by
  have h := C172_direction_partial [Der.scalar fun c => c, Der.sym fun c e => c + e] 1 (by simp)
    (fun c _ e _ => Or.inl (by simp [Der.deriv, add_comm])) temp dgv (c := 2) (e := 4) (by norm_num)
    (by simp [Der.block])
  norm_num [nhist, offset, Der.block, Der.deriv] at h ⊢
  exact h

end Neml.Wrapped
