import Verif.Model.Polycrystal
import Mathlib.Algebra.BigOperators.Fin
import Mathlib.Algebra.BigOperators.Field
import Mathlib.Algebra.Order.BigOperators.Group.Finset
import Mathlib.Analysis.Calculus.Deriv.Pow
import Mathlib.Analysis.Calculus.Deriv.Mul
import Mathlib.Analysis.Calculus.Deriv.Add
import Mathlib.Data.Fintype.Perm
import Mathlib.LinearAlgebra.Pi
import Mathlib.Tactic.NormNum
import Mathlib.Tactic.Linarith
import Mathlib.Tactic.FieldSimp

/-!
# C64: the Taylor polycrystal
-/

namespace Neml.Polycrystal

open Matrix

/-! ## Weights -/

theorem foldl_sum (l : List ℝ) (x : ℝ) : l.foldl (· + ·) x = x + l.sum := by
  induction l generalizing x with
  | nil => simp
  | cons a l ih => rw [List.foldl_cons, ih, List.sum_cons]; ring

/-- The constructor fails exactly for a wrong number of weights, for weights adding up to zero, or when there
is no grain. -/
theorem C64_weights_fail (n : Nat) (w : List ℝ) :
    mkWeights n w = none ↔ (w ≠ [] ∧ w.length ≠ n) ∨ (w ≠ [] ∧ w.sum = 0) ∨ (w = [] ∧ n = 0) := by
  unfold mkWeights
  by_cases hw : w = []
  · subst hw
    simp [foldl_sum]
  · have : w.length ≠ 0 := by simpa using hw
    simp only [this, if_false, foldl_sum, zero_add]
    by_cases hn : w.length = n <;> by_cases hs : w.sum = 0 <;> simp [hw, hn, hs]

theorem sum_map_div (w : List ℝ) (c : ℝ) : (w.map (· / c)).sum = w.sum / c := by
  induction w with
  | nil => simp
  | cons a l ih => simp [ih, add_div]

/-- Otherwise there is one weight for each grain, they add up to one, and they are in the proportion asked
for: equal ones when none are given. -/
theorem C64_weights (n : Nat) (w w' : List ℝ) (h : mkWeights n w = some w') :
    w'.length = n ∧ w'.sum = 1 ∧
      (w = [] → ∀ x ∈ w', x = 1 / n) ∧
      (w ≠ [] → ∀ i (hi : i < w'.length) (hi' : i < w.length), w'[i] * w.sum = w[i]) := by
  unfold mkWeights at h
  by_cases hw : w = []
  · subst hw
    simp only [List.length_nil, if_true, ne_eq, not_true_eq_false, false_and, if_false, foldl_sum, zero_add,
      List.sum_replicate, smul_eq_mul, nsmul_eq_mul, mul_one] at h
    split_ifs at h with h0
    simp only [Option.some.injEq] at h
    subst h
    refine ⟨by simp, ?_, ?_, fun h => absurd rfl h⟩
    · rw [sum_map_div]; simp [h0]
    · intro _ x hx
      simp only [List.map_replicate, List.mem_replicate] at hx
      exact hx.2
  · have hl : w.length ≠ 0 := by simpa using hw
    simp only [hl, if_false, ne_eq, not_false_eq_true, true_and, foldl_sum, zero_add] at h
    split_ifs at h with h0 h1
    simp only [Option.some.injEq] at h
    subst h
    refine ⟨by simpa using h0, ?_, fun h => absurd h hw, ?_⟩
    · rw [sum_map_div, div_self h1]
    · intro _ i hi hi'
      rw [List.getElem_map]
      field_simp

/-- Weights that differ by a common factor give the same polycrystal. -/
theorem C64_weights_scale (n : Nat) (w : List ℝ) {c : ℝ} (hc : c ≠ 0) :
    mkWeights n (w.map (c * ·)) = mkWeights n w := by
  unfold mkWeights
  by_cases hw : w = []
  · subst hw; rfl
  · have hl : w.length ≠ 0 := by simpa using hw
    have hs : (w.map (c * ·)).sum = c * w.sum := by rw [List.sum_map_mul_left]; simp
    simp only [List.length_map, hl, if_false, foldl_sum, zero_add, hs, mul_eq_zero, hc, false_or, List.map_map]
    congr 3
    apply List.map_congr_left
    intro x _
    simp only [Function.comp]
    rw [mul_div_mul_left _ _ hc]

/-- Cases: three grains without weights, and two with weights one and three. -/
example : mkWeights 3 [] = some [1 / 3, 1 / 3, 1 / 3] ∧ mkWeights 2 [1, 3] = some [1 / 4, 3 / 4] ∧
    mkWeights 2 [1, -1] = none ∧ mkWeights 2 [1, 2, 3] = none ∧ mkWeights 0 [] = none := by
  refine ⟨?_, ?_, ?_, ?_, ?_⟩ <;> norm_num [mkWeights, List.replicate]

/-! ## Where things are stored -/

theorem sum_take_replicate (n i c : Nat) (h : i ≤ n) : ((List.replicate n c).take i).sum = i * c := by
  rw [List.take_replicate, List.sum_replicate, min_eq_left h, smul_eq_mul]

/-- Each accessor finds its part of the store: it starts where the parts before it end, in the order
histories, stresses, deformation rates, vorticities. -/
theorem C64_layout (n nstore i : Nat) (hi : i < n) :
    offHistory n nstore i = ((partSizes n nstore).take i).sum ∧ (partSizes n nstore)[i]? = some nstore ∧
    offStress n nstore i = ((partSizes n nstore).take (n + i)).sum ∧ (partSizes n nstore)[n + i]? = some 6 ∧
    offD n nstore i = ((partSizes n nstore).take (2 * n + i)).sum ∧ (partSizes n nstore)[2 * n + i]? = some 6 ∧
    offW n nstore i = ((partSizes n nstore).take (3 * n + i)).sum ∧ (partSizes n nstore)[3 * n + i]? = some 3 ∧
    (partSizes n nstore).sum = n * (nstore + 15) ∧ (partSizes n nstore).length = 4 * n := by
  have e : partSizes n nstore = List.replicate n nstore ++ (List.replicate n 6 ++ (List.replicate n 6 ++
      List.replicate n 3)) := by
    rw [partSizes, List.append_assoc, List.append_assoc]
  rw [e]
  have t1 : ∀ (a : Nat) (l : List Nat) (k : Nat), (List.replicate n a ++ l).take (n + k) =
      List.replicate n a ++ l.take k := by
    intro a l k
    rw [List.take_append]
    simp
  have g1 : ∀ (a : Nat) (l : List Nat) (k : Nat), (List.replicate n a ++ l)[n + k]? = l[k]? := by
    intro a l k
    rw [List.getElem?_append_right (by simp)]
    simp
  have e2 : 2 * n + i = n + (n + i) := by ring
  have e3 : 3 * n + i = n + (n + (n + i)) := by ring
  rw [e2, e3]
  simp only [t1, g1]
  refine ⟨?_, ?_, ?_, ?_, ?_, ?_, ?_, ?_, ?_, ?_⟩
  · rw [List.take_append_of_le_length (by simp; omega), sum_take_replicate _ _ _ hi.le, offHistory]
  · rw [List.getElem?_append_left (by simpa using hi)]; simp [hi]
  · rw [List.take_append_of_le_length (by simp; omega)]
    simp [sum_take_replicate _ _ _ hi.le, offStress, List.take_replicate, min_eq_left hi.le]
  · rw [List.getElem?_append_left (by simpa using hi)]; simp [hi]
  · rw [List.take_append_of_le_length (by simp; omega)]
    simp [List.take_replicate, min_eq_left hi.le, offD]; ring
  · rw [List.getElem?_append_left (by simpa using hi)]; simp [hi]
  · simp [List.take_replicate, min_eq_left hi.le, offW]; ring
  · simp [hi]
  · simp; ring
  · simp; ring

/-! ## Averages -/

theorem accumulate_eq {n : Nat} {V : Type} [AddCommGroup V] [Module ℝ V] (w : Fin n → ℝ) (x : Fin n → V) :
    accumulate w x = ∑ i, w i • x i := by
  have key : ∀ (l : List (Fin n)) (a : V), l.foldl (fun acc i => acc + w i • x i) a =
      a + (l.map fun i => w i • x i).sum := by
    intro l
    induction l with
    | nil => simp
    | cons i l ih => intro a; rw [List.foldl_cons, ih, List.map_cons, List.sum_cons, add_assoc]
  rw [accumulate, key, zero_add, ← List.ofFn_eq_map, List.sum_ofFn]

variable {n : Nat} {H : Type} {grain : GrainIn H → Option (GrainOut H)} {a : StepIn} {un pn : ℝ} {st : Store n H}

theorem evalAll_iff {g : Fin n → GrainOut H} :
    evalAll grain a st = some g ↔ ∀ i, grain (grainIn a st i) = some (g i) := by
  unfold evalAll
  constructor
  · intro h i
    split_ifs at h with h1
    simp only [Option.some.injEq] at h
    rw [← h]
    simp
  · intro h
    have h1 : ∀ i, (grain (grainIn a st i)).isSome := fun i => by rw [h i]; rfl
    rw [dif_pos h1]
    congr 1
    funext i
    simp [h i]

/-- The update succeeds exactly when every grain does. Then stress and tangents are the weighted averages of
the grains', the energies grow by the weighted averages, and each grain's stress and history is stored. -/
theorem C64_average (w : Fin n → ℝ) (out : StepOut) (st' : Store n H) :
    taylor w grain a un pn st = some (out, st') ↔
      ∃ g : Fin n → GrainOut H, (∀ i, grain (grainIn a st i) = some (g i)) ∧
        (∀ j, out.s j = ∑ i, w i * (g i).s j) ∧ (∀ j, out.A j = ∑ i, w i * (g i).A j) ∧
        (∀ j, out.B j = ∑ i, w i * (g i).B j) ∧ out.u = un + ∑ i, w i * (g i).u ∧
        out.p = pn + ∑ i, w i * (g i).p ∧
        ∀ i, st'.stress i = (g i).s ∧ st'.hist i = (g i).h ∧ st'.d i = a.d1 ∧ st'.w i = a.w1 := by
  simp only [taylor, Option.map_eq_some_iff, evalAll_iff, Prod.mk.injEq]
  constructor
  · rintro ⟨g, hg, rfl, rfl⟩
    refine ⟨g, hg, ?_, ?_, ?_, ?_, ?_, fun i => ⟨rfl, rfl, rfl, rfl⟩⟩
    · intro j; simp [accumulate_eq, Finset.sum_apply]
    · intro j; simp [accumulate_eq, Finset.sum_apply]
    · intro j; simp [accumulate_eq, Finset.sum_apply]
    · simp [accumulate_eq, add_comm]
    · simp [accumulate_eq, add_comm]
  · rintro ⟨g, hg, h1, h2, h3, h4, h5, h6⟩
    refine ⟨g, hg, ?_, ?_⟩
    · cases out
      simp only [accumulate_eq, smul_eq_mul, StepOut.mk.injEq]
      refine ⟨?_, ?_, ?_, ?_, ?_⟩
      · funext j; simpa [Finset.sum_apply] using (h1 j).symm
      · funext j; simpa [Finset.sum_apply] using (h2 j).symm
      · funext j; simpa [Finset.sum_apply] using (h3 j).symm
      · rw [add_comm]; exact h4.symm
      · rw [add_comm]; exact h5.symm
    · cases st'
      simp only [Store.mk.injEq]
      exact ⟨funext fun i => (h6 i).2.1.symm, funext fun i => (h6 i).1.symm, funext fun i => (h6 i).2.2.1.symm,
        funext fun i => (h6 i).2.2.2.symm⟩

/-- The update throws exactly when some grain does. -/
theorem C64_fail (w : Fin n → ℝ) :
    taylor w grain a un pn st = none ↔ ∃ i, grain (grainIn a st i) = none := by
  simp only [taylor, Option.map_eq_none_iff, evalAll]
  split_ifs with h
  · simp only [reduceCtorEq, false_iff, not_exists]
    intro i hi
    have := h i
    rw [hi] at this
    exact absurd this (by simp)
  · simp only [true_iff]
    push Not at h
    obtain ⟨i, hi⟩ := h
    exact ⟨i, by simpa using hi⟩

/-- With weights that are not negative and add up to one every component of the average lies between the
smallest and the largest of the grains. -/
theorem C64_bounds (w : Fin n → ℝ) (hw : ∀ i, 0 ≤ w i) (hs : ∑ i, w i = 1) {out : StepOut} {st' : Store n H}
    (h : taylor w grain a un pn st = some (out, st')) (j : Fin 6) {lo hi : ℝ}
    (hb : ∀ i, lo ≤ st'.stress i j ∧ st'.stress i j ≤ hi) : lo ≤ out.s j ∧ out.s j ≤ hi := by
  obtain ⟨g, -, h1, -, -, -, -, h6⟩ := (C64_average w out st').mp h
  rw [h1]
  have e : ∀ i, (g i).s j = st'.stress i j := fun i => by rw [(h6 i).1]
  simp only [e]
  constructor
  · calc lo = ∑ i, w i * lo := by rw [← Finset.sum_mul, hs, one_mul]
      _ ≤ _ := Finset.sum_le_sum fun i _ => mul_le_mul_of_nonneg_left (hb i).1 (hw i)
  · calc _ ≤ ∑ i, w i * hi := Finset.sum_le_sum fun i _ => mul_le_mul_of_nonneg_left (hb i).2 (hw i)
      _ = hi := by rw [← Finset.sum_mul, hs, one_mul]

/-- The order of the grains does not matter: with grains and weights permuted the results are the same and
the new store is permuted. -/
theorem C64_permute (σ : Equiv.Perm (Fin n)) (w : Fin n → ℝ) (out : StepOut) (st' : Store n H)
    (h : taylor w grain a un pn st = some (out, st')) :
    taylor (w ∘ σ) grain a un pn ⟨st.hist ∘ σ, st.stress ∘ σ, st.d ∘ σ, st.w ∘ σ⟩ =
      some (out, ⟨st'.hist ∘ σ, st'.stress ∘ σ, st'.d ∘ σ, st'.w ∘ σ⟩) := by
  obtain ⟨g, hg, h1, h2, h3, h4, h5, h6⟩ := (C64_average w out st').mp h
  rw [C64_average]
  refine ⟨g ∘ σ, fun i => hg (σ i), fun j => ?_, fun j => ?_, fun j => ?_, ?_, ?_, fun i => h6 (σ i)⟩
  · rw [h1]; exact (Equiv.sum_comp σ fun i => w i * (g i).s j).symm
  · rw [h2]; exact (Equiv.sum_comp σ fun i => w i * (g i).A j).symm
  · rw [h3]; exact (Equiv.sum_comp σ fun i => w i * (g i).B j).symm
  · rw [h4]; congr 1; exact (Equiv.sum_comp σ fun i => w i * (g i).u).symm
  · rw [h5]; congr 1; exact (Equiv.sum_comp σ fun i => w i * (g i).p).symm

/-- If along a path of deformation rates every grain's stress moves with some rate, the average moves with the
weighted average of those rates. In particular if each grain reports its consistent tangent, so does the
polycrystal. -/
theorem C64_tangent (w : Fin n → ℝ) (x : ℝ → StepIn) (t0 : ℝ) (out : ℝ → StepOut) (st' : ℝ → Store n H)
    (h : ∀ t, taylor w grain (x t) un pn st = some (out t, st' t)) (dir : Fin 6 → ℝ)
    (hx : ∀ i, ∀ o : ℝ → GrainOut H, (∀ t, grain (grainIn (x t) st i) = some (o t)) →
      ∀ j : Fin 6, HasDerivAt (fun t => (o t).s j) (∑ k : Fin 6, (o t0).A ⟨6 * j + k, by omega⟩ * dir k) t0)
    (j : Fin 6) :
    HasDerivAt (fun t => (out t).s j) (∑ k : Fin 6, (out t0).A ⟨6 * j + k, by omega⟩ * dir k) t0 := by
  choose g hg h1 h2 _ _ _ _ using fun t => (C64_average w (out t) (st' t)).mp (h t)
  have e1 : (fun t => (out t).s j) = fun t => ∑ i, w i * (g t i).s j := funext fun t => h1 t j
  have e2 : ∑ k : Fin 6, (out t0).A ⟨6 * j + k, by omega⟩ * dir k =
      ∑ i, w i * ∑ k : Fin 6, (g t0 i).A ⟨6 * j + k, by omega⟩ * dir k := by
    simp only [h2, Finset.sum_mul, Finset.mul_sum]
    rw [Finset.sum_comm]
    exact Finset.sum_congr rfl fun i _ => Finset.sum_congr rfl fun k _ => by ring
  rw [e1, e2]
  exact HasDerivAt.fun_sum fun i _ => (hx i (fun t => g t i) (fun t => hg t i) j).const_mul (w i)

/-! ## Paths -/

/-- A path of the polycrystal: what each step returned and the store at the end. The energies are handed on. -/
def runTaylor (w : Fin n → ℝ) (grain : GrainIn H → Option (GrainOut H)) :
    List StepIn → Store n H → ℝ → ℝ → Option (List StepOut × Store n H)
  | [], st, _, _ => some ([], st)
  | a :: as, st, u, p => (taylor w grain a u p st).bind fun r =>
      (runTaylor w grain as r.2 r.1.u r.1.p).map fun rs => (r.1 :: rs.1, rs.2)

/-- One crystal alone along a path: what it was last given and returned is handed on. -/
def runGrain (grain : GrainIn H → Option (GrainOut H)) :
    List StepIn → (Fin 6 → ℝ) → (Fin 3 → ℝ) → (Fin 6 → ℝ) → H → Option (List (GrainOut H))
  | [], _, _, _, _ => some []
  | a :: as, d, w, s, h =>
    (grain ⟨a.d1, d, a.w1, w, a.T1, a.T0, a.t1, a.t0, s, h⟩).bind fun r =>
      (runGrain grain as a.d1 a.w1 r.s r.h).map fun rs => r :: rs

/-- The results of a crystal as results of an update that started with energy `u` and dissipation `p`. -/
def asSteps : List (GrainOut H) → ℝ → ℝ → List StepOut
  | [], _, _ => []
  | g :: gs, u, p => ⟨g.s, g.A, g.B, u + g.u, p + g.p⟩ :: asSteps gs (u + g.u) (p + g.p)

/-- A polycrystal of equal grains behaves along every path as one grain, whatever the weights: it fails when
the grain fails and returns what the grain returns. -/
theorem C64_identical (w : Fin n → ℝ) (hs : ∑ i, w i = 1) (as : List StepIn) (st : Store n H) (u p : ℝ)
    {d : Fin 6 → ℝ} {v : Fin 3 → ℝ} {s : Fin 6 → ℝ} {h : H}
    (heq : ∀ i, st.d i = d ∧ st.w i = v ∧ st.stress i = s ∧ st.hist i = h) :
    (runTaylor w grain as st u p).map Prod.fst = (runGrain grain as d v s h).map fun gs => asSteps gs u p := by
  have hn : 0 < n := by
    rcases Nat.eq_zero_or_pos n with h0 | h0
    · subst h0; simp at hs
    · exact h0
  induction as generalizing st u p d v s h with
  | nil => simp [runTaylor, runGrain, asSteps]
  | cons a as ih =>
    have e : ∀ i, grainIn a st i = ⟨a.d1, d, a.w1, v, a.T1, a.T0, a.t1, a.t0, s, h⟩ := fun i => by
      obtain ⟨h1, h2, h3, h4⟩ := heq i
      rw [grainIn, h1, h2, h3, h4]
    rw [runTaylor, runGrain]
    cases hg : grain ⟨a.d1, d, a.w1, v, a.T1, a.T0, a.t1, a.t0, s, h⟩ with
    | none =>
      have : taylor w grain a u p st = none := (C64_fail w).mpr ⟨⟨0, hn⟩, by rw [e, hg]⟩
      rw [this]
      rfl
    | some g =>
      have h1 : taylor w grain a u p st = some (⟨g.s, g.A, g.B, u + g.u, p + g.p⟩,
          ⟨fun _ => g.h, fun _ => g.s, fun _ => a.d1, fun _ => a.w1⟩) := by
        rw [C64_average]
        refine ⟨fun _ => g, fun i => by rw [e, hg], ?_, ?_, ?_, ?_, ?_, fun i => ⟨rfl, rfl, rfl, rfl⟩⟩ <;>
          simp [← Finset.sum_mul, hs]
      rw [h1]
      simp only [Option.bind_some, Option.map_map]
      have h2 := ih ⟨fun _ => g.h, fun _ => g.s, fun _ => a.d1, fun _ => a.w1⟩ (u + g.u) (p + g.p)
        (d := a.d1) (v := a.w1) (s := g.s) (h := g.h) (fun i => ⟨rfl, rfl, rfl, rfl⟩)
      have h3 := congrArg (Option.map (List.cons (⟨g.s, g.A, g.B, u + g.u, p + g.p⟩ : StepOut))) h2
      simp only [Option.map_map] at h3
      exact h3

/-- A path in which each step starts where the one before ended, from rest. -/
def Chained : List StepIn → (Fin 6 → ℝ) → (Fin 3 → ℝ) → Prop
  | [], _, _ => True
  | a :: as, d, w => a.d0 = d ∧ a.w0 = w ∧ Chained as a.d1 a.w1

/-- The increments the grains see are the increments asked for on every path from rest, because the rates kept
in the store are those of the last step. -/
theorem C64_increments (w : Fin n → ℝ) (before : List StepIn) (a : StepIn) (init : Rotation.Quat → H)
    (q : Fin n → Rotation.Quat) {r : List StepOut} {st : Store n H}
    (hc : Chained (before ++ [a]) 0 0) (h : runTaylor w grain before (initStore init q) 0 0 = some (r, st))
    (i : Fin n) : (grainIn a st i).d1 - (grainIn a st i).d0 = a.d1 - a.d0 ∧
      (grainIn a st i).w1 - (grainIn a st i).w0 = a.w1 - a.w0 := by
  have key : ∀ (before : List StepIn) (st0 : Store n H) (d : Fin 6 → ℝ) (v : Fin 3 → ℝ) (u p : ℝ) (r : List StepOut),
      (∀ i, st0.d i = d ∧ st0.w i = v) → Chained (before ++ [a]) d v →
      runTaylor w grain before st0 u p = some (r, st) → ∀ i, st.d i = a.d0 ∧ st.w i = a.w0 := by
    intro before
    induction before with
    | nil =>
      intro st0 d v u p r h0 hc h
      simp only [runTaylor, Option.some.injEq, Prod.mk.injEq] at h
      rw [← h.2]
      simp only [List.nil_append, Chained] at hc
      intro i
      rw [(h0 i).1, (h0 i).2, hc.1, hc.2.1]
      exact ⟨rfl, rfl⟩
    | cons b bs ih =>
      intro st0 d v u p r h0 hc h
      rw [runTaylor] at h
      simp only [Option.bind_eq_some_iff, Option.map_eq_some_iff, Prod.exists, Prod.mk.injEq] at h
      obtain ⟨o, st1, h1, rs, st2, h2, -, rfl⟩ := h
      obtain ⟨g, -, -, -, -, -, -, h6⟩ := (C64_average w o st1).mp h1
      simp only [List.cons_append, Chained] at hc
      exact ih st1 b.d1 b.w1 o.u o.p rs (fun i => (h6 i).2.2) hc.2.2 h2
  obtain ⟨h1, h2⟩ := key before _ 0 0 0 0 r (fun i => ⟨rfl, rfl⟩) hc h i
  simp only [grainIn, h1, h2, and_self]

/-- The old rates, and the old stress, given by the caller are not used: a first step that starts at rates
other than zero is taken from zero. -/
theorem C64_first_step (init : Rotation.Quat → H) (q : Fin n → Rotation.Quat) (i : Fin n) :
    (grainIn a (initStore init q) i).d0 = 0 ∧ (grainIn a (initStore init q) i).w0 = 0 ∧
      (grainIn a (initStore init q) i).s0 = 0 :=
  ⟨rfl, rfl, rfl⟩

/-- A spring as grain, of stiffness `k` stored as its history. -/
noncomputable def springGrain : GrainIn ℝ → Option (GrainOut ℝ) := fun x =>
  if x.T1 < 0 then none
  else some ⟨x.s0 + x.h0 • (x.d1 - x.d0), x.h0, 0, 0, x.h0 * ((x.d1 - x.d0) ⬝ᵥ (x.d1 - x.d0)) / 2, 0⟩

/-- Case: two springs of stiffness 1 and 3 with weights 1/4 and 3/4; the average stiffness is 5/2. -/
example : ∃ out st', taylor ![1 / 4, 3 / 4] springGrain ⟨![1, 0, 0, 0, 0, 0], 0, 0, 0, 300, 300, 1, 0, 0⟩ 0 0
    (⟨![1, 3], 0, 0, 0⟩ : Store 2 ℝ) = some (out, st') ∧ out.s 0 = 5 / 2 ∧ out.u = 5 / 4 ∧
    st'.stress 1 = ![3, 0, 0, 0, 0, 0] := by
  let g : Fin 2 → GrainOut ℝ := fun i =>
    ⟨(![1, 3] : Fin 2 → ℝ) i • ![1, 0, 0, 0, 0, 0], (![1, 3] : Fin 2 → ℝ) i, 0, 0, (![1, 3] : Fin 2 → ℝ) i / 2, 0⟩
  refine ⟨⟨fun j => ∑ i, ![1 / 4, 3 / 4] i * (g i).s j, fun j => ∑ i, ![1 / 4, 3 / 4] i * (g i).A j,
    fun j => ∑ i, ![1 / 4, 3 / 4] i * (g i).B j, 0 + ∑ i, ![1 / 4, 3 / 4] i * (g i).u,
    0 + ∑ i, ![1 / 4, 3 / 4] i * (g i).p⟩, ⟨fun i => (g i).h, fun i => (g i).s, fun _ => ![1, 0, 0, 0, 0, 0], fun _ => 0⟩,
    (C64_average _ _ _).mpr ⟨g, ?_, fun _ => rfl, fun _ => rfl, fun _ => rfl, rfl, rfl,
      fun _ => ⟨rfl, rfl, rfl, rfl⟩⟩, ?_, ?_, ?_⟩
  · intro i
    have e : ¬ ((300 : ℝ) < 0) := by norm_num
    fin_cases i <;> simp [springGrain, grainIn, e, g]
  · norm_num [Fin.sum_univ_succ, g]
  · norm_num [Fin.sum_univ_succ, g]
  · funext j; fin_cases j <;> simp [g]

/-! ## Turning -/

/-- How a rotation acts on stresses and rates, on spins and on histories. -/
structure Turn (H : Type) where
  s : (Fin 6 → ℝ) →ₗ[ℝ] Fin 6 → ℝ
  w : (Fin 3 → ℝ) → Fin 3 → ℝ
  h : H → H

/-- The arguments of a grain, turned. -/
def Turn.args (P : Turn H) (x : GrainIn H) : GrainIn H :=
  { x with d1 := P.s x.d1, d0 := P.s x.d0, w1 := P.w x.w1, w0 := P.w x.w0, s0 := P.s x.s0, h0 := P.h x.h0 }

/-- A grain model that turns with its arguments: see C104 for crystals. -/
def Turns (P : Turn H) (grain : GrainIn H → Option (GrainOut H)) : Prop :=
  ∀ x o, grain x = some o → ∃ o', grain (P.args x) = some o' ∧ o'.s = P.s o.s ∧ o'.h = P.h o.h ∧ o'.u = o.u ∧
    o'.p = o.p

/-- If the grains turn with their arguments then so does the polycrystal: the stress of the turned texture
under the turned deformation is the turned stress, and the energies are the same. -/
theorem C64_turn (P : Turn H) (hP : Turns P grain) (w : Fin n → ℝ) {out : StepOut} {st' : Store n H}
    (h : taylor w grain a un pn st = some (out, st')) :
    ∃ out' st'', taylor w grain { a with d1 := P.s a.d1, w1 := P.w a.w1 } un pn
        ⟨fun i => P.h (st.hist i), fun i => P.s (st.stress i), fun i => P.s (st.d i), fun i => P.w (st.w i)⟩ =
        some (out', st'') ∧
      out'.s = P.s out.s ∧ out'.u = out.u ∧ out'.p = out.p ∧
      ∀ i, st''.hist i = P.h (st'.hist i) ∧ st''.stress i = P.s (st'.stress i) ∧ st''.d i = P.s (st'.d i) ∧
        st''.w i = P.w (st'.w i) := by
  obtain ⟨g, hg, h1, -, -, h4, h5, h6⟩ := (C64_average w out st').mp h
  choose g' e1 e2 e3 e4 e5 using fun i => hP _ _ (hg i)
  refine ⟨⟨fun j => ∑ i, w i * (g' i).s j, fun j => ∑ i, w i * (g' i).A j, fun j => ∑ i, w i * (g' i).B j,
    un + ∑ i, w i * (g' i).u, pn + ∑ i, w i * (g' i).p⟩,
    ⟨fun i => (g' i).h, fun i => (g' i).s, fun _ => P.s a.d1, fun _ => P.w a.w1⟩,
    (C64_average _ _ _).mpr ⟨g', e1, fun _ => rfl, fun _ => rfl, fun _ => rfl, rfl, rfl,
      fun _ => ⟨rfl, rfl, rfl, rfl⟩⟩, ?_, ?_, ?_, ?_⟩
  · have e : out.s = ∑ i, w i • (g i).s := by
      funext j; rw [h1, Finset.sum_apply]; rfl
    rw [e, map_sum]
    funext j
    simp only [map_smul, Finset.sum_apply, Pi.smul_apply, smul_eq_mul, e2]
  · simp only [e4, h4]
  · simp only [e5, h5]
  · intro i
    obtain ⟨a1, a2, a3, a4⟩ := h6 i
    rw [a1, a2, a3, a4]
    exact ⟨e3 i, e2 i, rfl, rfl⟩

/-- Case: the springs turn with the reflection that exchanges the first two axes. -/
example : Turns (⟨LinearMap.funLeft ℝ ℝ (Equiv.swap 0 1), id, id⟩ : Turn ℝ) springGrain := by
  intro x o h
  simp only [springGrain] at h
  split_ifs at h with hT
  simp only [Option.some.injEq] at h
  subst h
  let e : (Fin 6 → ℝ) →ₗ[ℝ] Fin 6 → ℝ := LinearMap.funLeft ℝ ℝ (Equiv.swap 0 1)
  refine ⟨⟨e x.s0 + x.h0 • (e x.d1 - e x.d0), x.h0, 0, 0,
    x.h0 * ((e x.d1 - e x.d0) ⬝ᵥ (e x.d1 - e x.d0)) / 2, 0⟩, ?_, ?_, rfl, ?_, rfl⟩
  · simp only [springGrain]
    exact if_neg hT
  · simp only [map_add, map_smul, map_sub, e]
  · simp only [← map_sub]
    congr 2
    exact Equiv.sum_comp (Equiv.swap (0 : Fin 6) 1) fun k => (x.d1 - x.d0) k * (x.d1 - x.d0) k

/-! ## Elastic strains -/

/-- The average of the grains' elastic strains. -/
def averageStrain (w : Fin n → ℝ) (estrain : (Fin 6 → ℝ) → H → Fin 6 → ℝ) (st : Store n H) (j : Fin 6) : ℝ :=
  ∑ i, w i * estrain (st.stress i) (st.hist i) j

theorem elasticStrains_eq (w : Fin n → ℝ) (estrain : (Fin 6 → ℝ) → H → Fin 6 → ℝ) (st : Store n H) (hn : n ≤ 6) :
    elasticStrains w estrain st = some fun j => if j.val < n then averageStrain w estrain st j else 0 := by
  rw [elasticStrains, if_neg (by omega)]
  congr 1
  have key : ∀ (l : List (Fin n)) (e : Fin 6 → ℝ) (j : Fin 6), l.foldl (fun e i => fun j : Fin 6 =>
      if j.val < n then e j + w i * estrain (st.stress i) (st.hist i) j else e j) e j =
      if j.val < n then e j + (l.map fun i => w i * estrain (st.stress i) (st.hist i) j).sum else e j := by
    intro l
    induction l with
    | nil => intro e j; simp
    | cons i l ih =>
      intro e j
      rw [List.foldl_cons, ih]
      by_cases hj : j.val < n
      · simp [hj, add_assoc]
      · simp [hj]
  funext j
  rw [key]
  simp only [Pi.zero_apply, zero_add]
  rw [← List.ofFn_eq_map, List.sum_ofFn]
  rfl

/-- With six grains the elastic strains are the average. With fewer, only as many components as there are
grains are, and the others are zero. With more, memory beyond the result is overwritten. -/
theorem C64_elastic_partial (w : Fin n → ℝ) (estrain : (Fin 6 → ℝ) → H → Fin 6 → ℝ) (st : Store n H) :
    (n = 6 → elasticStrains w estrain st = some (averageStrain w estrain st)) ∧
    (n ≤ 6 → ∃ e, elasticStrains w estrain st = some e ∧
      (∀ j : Fin 6, j.val < n → e j = averageStrain w estrain st j) ∧ ∀ j : Fin 6, n ≤ j.val → e j = 0) ∧
    (6 < n → elasticStrains w estrain st = none) := by
  refine ⟨fun h => ?_, fun h => ?_, fun h => by rw [elasticStrains, if_pos h]⟩
  · subst h
    rw [elasticStrains_eq w estrain st (le_refl _)]
    congr 1
    funext j
    rw [if_pos j.isLt]
  · refine ⟨_, elasticStrains_eq w estrain st h, fun j hj => by simp only [if_pos hj], fun j hj => ?_⟩
    simp only [if_neg (by omega : ¬ j.val < n)]

/-- So the claim holds for all grains and states exactly when there are six grains. -/
theorem C64_elastic_iff (w : Fin n → ℝ) (hs : ∑ i, w i = 1) :
    (∀ (estrain : (Fin 6 → ℝ) → ℝ → Fin 6 → ℝ) (st : Store n ℝ),
      elasticStrains w estrain st = some (averageStrain w estrain st)) ↔ n = 6 := by
  constructor
  · intro h
    by_contra hne
    rcases Nat.lt_or_ge 6 n with h6 | h6
    · have := h (fun _ _ _ => 1) ⟨0, 0, 0, 0⟩
      rw [(C64_elastic_partial w _ _).2.2 h6] at this
      exact absurd this (by simp)
    · have h1 := h (fun _ _ _ => 1) ⟨0, 0, 0, 0⟩
      rw [elasticStrains_eq w _ _ h6] at h1
      simp only [Option.some.injEq] at h1
      have h2 := congrFun h1 ⟨5, by norm_num⟩
      rw [if_neg (by simp only; omega)] at h2
      simp [averageStrain, hs] at h2
  · intro h estrain st
    exact (C64_elastic_partial w estrain st).1 h

end Neml.Polycrystal
