import Verif.Model.Block
import Verif.Props.Mandel
import Mathlib.Data.List.Basic
import Mathlib.Data.List.FinRange
import Mathlib.Tactic.FinCases

/-!
# C29: block evaluation

The constant `s22` of the code is a decimal approximation of `√2/2`; the theorems take it to be
exact.
-/

namespace Neml.Block

open Matrix Neml.Mandel

/-- The constant the code approximates. -/
noncomputable def half2 : ℝ := √2 / 2

theorem half2_spec : half2 + half2 = √2 := by unfold half2; ring

/-- The block's tensor to Mandel conversion is the library's, on symmetric tensors. -/
theorem C29_t2m (X : Matrix (Fin 3) (Fin 3) ℝ) (hX : Xᵀ = X) : t2m half2 X = sym X := by
  have e : ∀ i j, X i j = X j i := fun i j => congrFun (congrFun hX j) i
  have e1 := e 0 1; have e2 := e 0 2; have e3 := e 1 2
  ext i
  fin_cases i <;>
    simp [t2m, t2mArray, vec9, sym, vecMul, dotProduct, Fin.sum_univ_succ, half2] <;> grind

/-- The block's Mandel to tensor conversion is the library's. -/
theorem C29_m2t (v : Fin 6 → ℝ) : m2t half2 v = usym v := by
  ext i j
  fin_cases i <;> fin_cases j <;>
    simp [m2t, m2tArray, mat9, usym, vecMul, dotProduct, Fin.sum_univ_succ, half2, div_r2] <;> ring

theorem half2_mul (x : ℝ) : half2 * x = √2 * x / 2 := by unfold half2; ring

theorem half_mul' (x : ℝ) : 2⁻¹ * x = x / 2 := by ring

set_option maxHeartbeats 1000000 in
-- 81 entries
/-- The block's fourth order conversion is the library's. -/
theorem C29_m42t4 (M : Matrix (Fin 6) (Fin 6) ℝ) : m42t4 half2 M = mandel2full M := by
  ext i j
  fin_cases i <;> fin_cases j <;> simp [m42t4, mandel2full, half2_mul, half_mul']

variable {H : Type} {n : ℕ}

/-- The state of the loop after any schedule that does each point at most once: every point done has
been updated from its initial buffers, the others have not been touched, and the flag is set exactly
if some point done threw. -/
theorem fold_spec (s22 : ℝ) (upd : Update H) (x : Fin n → TensorInput H) (sched : List (Fin n))
    (hnd : sched.Nodup) (b0 : Bool) (buf0 : Fin n → Buf H) :
    let st := sched.foldl (step s22 upd x) (b0, buf0)
    (∀ i ∈ sched, st.2 i = (upd (toInput s22 (x i)) (buf0 i)).2) ∧
    (∀ i ∉ sched, st.2 i = buf0 i) ∧
    (st.1 = true ↔ b0 = true ∨ ∃ i ∈ sched, (upd (toInput s22 (x i)) (buf0 i)).1 = true) := by
  induction sched generalizing b0 buf0 with
  | nil => simp
  | cons a as ih =>
    obtain ⟨ha, hnd'⟩ := List.nodup_cons.mp hnd
    obtain ⟨h1, h2, h3⟩ := ih hnd' (b0 || (upd (toInput s22 (x a)) (buf0 a)).1)
      (Function.update buf0 a (upd (toInput s22 (x a)) (buf0 a)).2)
    have hne : ∀ i ∈ as, Function.update buf0 a (upd (toInput s22 (x a)) (buf0 a)).2 i = buf0 i :=
      fun i hi => Function.update_of_ne (show i ≠ a from fun e => ha (e ▸ hi)) _ _
    simp only [List.foldl_cons]
    refine ⟨?_, ?_, ?_⟩
    · intro i hi
      rcases List.mem_cons.mp hi with rfl | hi
      · exact (h2 i ha).trans (by simp)
      · exact (h1 i hi).trans (by rw [hne i hi])
    · intro i hi
      have hia : i ≠ a := fun e => hi (e ▸ List.mem_cons_self)
      refine (h2 i fun h => hi (List.mem_cons_of_mem _ h)).trans ?_
      exact Function.update_of_ne hia _ _
    · refine h3.trans ?_
      simp only [Bool.or_eq_true, List.mem_cons, exists_eq_or_imp, or_assoc]
      refine or_congr_right (or_congr_right ?_)
      exact exists_congr fun i => and_congr_right fun hi => by rw [hne i hi]

/-- What one point evaluated on its own with these buffers gives. -/
noncomputable def alone (upd : Update H) (x : TensorInput H) (out0 : Output H)
    (loc : (Fin 6 → ℝ) × Matrix (Fin 6) (Fin 6) ℝ) : Bool × Buf H :=
  upd ⟨sym x.e1, sym x.e0, x.T1, x.T0, sym x.s0, x.h0, x.u0, x.p0⟩
    ⟨loc.1, loc.2, out0.h, out0.u, out0.p⟩

/-- The caller's tensors are symmetric. -/
def Symm (x : TensorInput H) : Prop := x.e1ᵀ = x.e1 ∧ x.e0ᵀ = x.e0 ∧ x.s0ᵀ = x.s0

theorem toInput_symm (x : TensorInput H) (hx : Symm x) :
    toInput half2 x = ⟨sym x.e1, sym x.e0, x.T1, x.T0, sym x.s0, x.h0, x.u0, x.p0⟩ := by
  simp only [toInput, C29_t2m _ hx.1, C29_t2m _ hx.2.1, C29_t2m _ hx.2.2]

/-- C29, no failing point: in whatever order the points are processed, each point gets the stress,
tangent, history, energy and work that evaluating it alone gives, as tensors. Missing: blocks with a
failing point, see `C29_failure_hidden`. -/
theorem C29_block_partial (upd : Update H) (x : Fin n → TensorInput H) (out0 : Fin n → Output H)
    (loc : Fin n → (Fin 6 → ℝ) × Matrix (Fin 6) (Fin 6) ℝ) (sched : List (Fin n))
    (hnd : sched.Nodup) (hall : ∀ i, i ∈ sched) (hx : ∀ i, Symm (x i))
    (hok : ∀ i, (alone upd (x i) (out0 i) (loc i)).1 = false) (i : Fin n) :
    let r := (alone upd (x i) (out0 i) (loc i)).2
    blockEvaluate half2 upd x out0 loc sched i = ⟨usym r.s, mandel2full r.A, r.h, r.u, r.p⟩ := by
  obtain ⟨h1, -, h3⟩ := fold_spec half2 upd x sched hnd false
    (fun i => ⟨(loc i).1, (loc i).2, (out0 i).h, (out0 i).u, (out0 i).p⟩)
  have hf : (sched.foldl (step half2 upd x)
      (false, fun i => ⟨(loc i).1, (loc i).2, (out0 i).h, (out0 i).u, (out0 i).p⟩)).1 = false := by
    rw [Bool.eq_false_iff]
    intro hc
    rcases h3.mp hc with h | ⟨j, -, hj⟩
    · cases h
    · rw [toInput_symm _ (hx j)] at hj
      have := hok j
      unfold alone at this
      rw [this] at hj
      cases hj
  simp only [blockEvaluate, hf, Bool.false_eq_true, if_false, h1 i (hall i), C29_m2t, C29_m42t4,
    toInput_symm _ (hx i), alone]

/-- C29, any order: the result does not depend on the schedule, whether or not points fail. -/
theorem C29_schedule (s22 : ℝ) (upd : Update H) (x : Fin n → TensorInput H)
    (out0 : Fin n → Output H) (loc : Fin n → (Fin 6 → ℝ) × Matrix (Fin 6) (Fin 6) ℝ)
    (sched sched' : List (Fin n)) (hnd : sched.Nodup) (hp : sched.Perm sched') :
    blockEvaluate s22 upd x out0 loc sched = blockEvaluate s22 upd x out0 loc sched' := by
  obtain ⟨h1, h2, h3⟩ := fold_spec s22 upd x sched hnd false
    (fun i => ⟨(loc i).1, (loc i).2, (out0 i).h, (out0 i).u, (out0 i).p⟩)
  obtain ⟨k1, k2, k3⟩ := fold_spec s22 upd x sched' (hp.nodup_iff.mp hnd) false
    (fun i => ⟨(loc i).1, (loc i).2, (out0 i).h, (out0 i).u, (out0 i).p⟩)
  have hb := (h3.trans ((or_congr_right (exists_congr fun i =>
    and_congr_left fun _ => hp.mem_iff)).trans k3.symm))
  have hb' := Bool.eq_iff_iff.mpr hb
  have hst : (sched.foldl (step s22 upd x)
      (false, fun i => ⟨(loc i).1, (loc i).2, (out0 i).h, (out0 i).u, (out0 i).p⟩)).2 =
      (sched'.foldl (step s22 upd x)
      (false, fun i => ⟨(loc i).1, (loc i).2, (out0 i).h, (out0 i).u, (out0 i).p⟩)).2 := by
    funext i
    by_cases hi : i ∈ sched
    · exact (h1 i hi).trans (k1 i (hp.mem_iff.mp hi)).symm
    · exact (h2 i hi).trans (k2 i fun h => hi (hp.mem_iff.mpr h)).symm
  simp only [blockEvaluate, hb', hst]

/-- C29, failure: if any point throws, the call still returns, and at *every* point, also at those
that succeeded, the stress and the tangent are what the caller's arrays held before the call. The
history, energy and work of the points are overwritten all the same. -/
theorem C29_failure_hidden (s22 : ℝ) (upd : Update H) (x : Fin n → TensorInput H)
    (out0 : Fin n → Output H) (loc : Fin n → (Fin 6 → ℝ) × Matrix (Fin 6) (Fin 6) ℝ)
    (sched : List (Fin n)) (hnd : sched.Nodup) (j : Fin n) (hj : j ∈ sched)
    (hfail : (upd (toInput s22 (x j)) ⟨(loc j).1, (loc j).2, (out0 j).h, (out0 j).u,
      (out0 j).p⟩).1 = true) (i : Fin n) (hi : i ∈ sched) :
    let r := blockEvaluate s22 upd x out0 loc sched i
    r.s = (out0 i).s ∧ r.A = (out0 i).A ∧
      r.h = (upd (toInput s22 (x i)) ⟨(loc i).1, (loc i).2, (out0 i).h, (out0 i).u,
        (out0 i).p⟩).2.h := by
  obtain ⟨h1, -, h3⟩ := fold_spec s22 upd x sched hnd false
    (fun i => ⟨(loc i).1, (loc i).2, (out0 i).h, (out0 i).u, (out0 i).p⟩)
  have hf := h3.mpr (Or.inr ⟨j, hj, hfail⟩)
  simp only [blockEvaluate, hf, if_true, h1 i hi, and_self]

/-- Two points, unit stiffness, one history number; processed in reverse order. -/
example : blockEvaluate (n := 2) half2
      (fun i _ => (false, ⟨i.e1, 1, i.h0 + i.T1, i.u0, i.p0⟩))
      (fun k => ⟨!![1, 2, 0; 2, 0, 0; 0, 0, k.1], 0, 3, 0, 0, (4 : ℝ), 0, 0⟩)
      (fun _ => ⟨0, 0, 0, 0, 0⟩) (fun _ => (0, 0)) [1, 0] 1 =
    ⟨!![1, 2, 0; 2, 0, 0; 0, 0, 1], mandel2full 1, 7, 0, 0⟩ := by
  have hs : ∀ k : Fin 2, (!![1, 2, 0; 2, 0, 0; 0, 0, (k.1 : ℝ)])ᵀ =
      !![1, 2, 0; 2, 0, 0; 0, 0, (k.1 : ℝ)] := by
    intro k; ext i j; fin_cases i <;> fin_cases j <;> simp
  rw [C29_block_partial _ _ _ _ [1, 0] (by decide) (by decide)
    (fun k => ⟨hs k, by simp, by simp⟩) (fun _ => rfl) 1]
  simp only [alone, C47_usym_sym _ (hs 1)]
  norm_num

/-- A failing point hides the result of its neighbour. -/
example : (blockEvaluate (H := ℝ) (n := 2) half2
      (fun i b => if i.T1 = 0 then (true, b) else (false, ⟨i.e1, 1, 1, 0, 0⟩))
      (fun k => ⟨1, 0, k.1, 0, 0, 0, 0, 0⟩)
      (fun _ => ⟨0, 0, 0, 0, 0⟩) (fun _ => (0, 0)) [0, 1] 1).s = 0 :=
  (C29_failure_hidden half2 _ _ _ _ [0, 1] (by decide) 0 (by decide)
    (by simp [toInput]) 1 (by decide)).1

end Neml.Block
