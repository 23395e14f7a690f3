import Verif.Model.LargeDriver
import Verif.Props.Driver
import Verif.Props.Tensors
import Mathlib.Analysis.SpecialFunctions.Log.Basic
import Mathlib.Analysis.SpecialFunctions.Trigonometric.Basic
import Mathlib.Tactic.FinCases

/-!
# C130: the large deformation driver

Stated on the lists returned: which times, deformation gradients, strains and spins they hold, what they do not depend on,
and how the strain compares with the exact one.
-/

namespace Neml.LargeDriver

open Matrix Neml.Driver

variable {H : Type}

/-- The strains and spins along a list of deformation gradients. -/
noncomputable def strainsTo (G : ℕ → Matrix (Fin 3) (Fin 3) ℝ) (k : ℕ) : Fin 6 → ℝ :=
  ∑ j ∈ Finset.range k, sym (incD (G j) (G (j + 1)))

noncomputable def spinsTo (G : ℕ → Matrix (Fin 3) (Fin 3) ℝ) (k : ℕ) : Fin 3 → ℝ :=
  ∑ j ∈ Finset.range k, skew (incW (G j) (G (j + 1)))

/-- The lists after `k` steps. -/
structure Upto (F : ℝ → Matrix (Fin 3) (Fin 3) ℝ) (dt : ℝ) (k : ℕ) (r : Large H) : Prop where
  time : r.time.toList = (List.range (k + 1)).map fun j : ℕ => (j : ℝ) * dt
  grad : r.F.toList = (List.range (k + 1)).map fun j : ℕ => F (j * dt)
  D : r.D.toList = (List.range (k + 1)).map fun j : ℕ => strainsTo (fun i : ℕ => F (i * dt)) j
  W : r.W.toList = (List.range (k + 1)).map fun j : ℕ => spinsTo (fun i : ℕ => F (i * dt)) j
  stress : r.stress.toList.length = k + 1
  history : r.history.toList.length = k + 1
  energy : r.energy.toList.length = k + 1
  dissipation : r.dissipation.toList.length = k + 1

theorem last_of {α : Type} {s : Series α} {k : ℕ} {f : ℕ → α} (h : s.toList = (List.range (k + 1)).map f) : s.last = f k := by
  have h1 : s.toList.getLast? = some s.last := by simp [Series.toList]
  rw [h, List.range_succ, List.map_append] at h1
  simpa using h1.symm

theorem step_upto (model : InL H → Option (OutL H)) (F : ℝ → Matrix (Fin 3) (Fin 3) ℝ) (dt T : ℝ) (k : ℕ) (r r' : Large H)
    (h : Upto F dt k r) (hs : r.step model F dt T = some r') : Upto F dt (k + 1) r' := by
  unfold Large.step at hs
  extract_lets t F1 d1 w1 at hs
  split_ifs at hs with hdet
  simp only [Option.map_eq_some_iff] at hs
  obtain ⟨o, -, rfl⟩ := hs
  have ht : t = ((k + 1 : ℕ) : ℝ) * dt := by
    change r.time.last + dt = _
    rw [last_of h.time]; push_cast; ring
  have hF : r.F.last = F (k * dt) := last_of h.grad
  have hF1 : F1 = F (((k + 1 : ℕ) : ℝ) * dt) := by rw [← ht]
  refine ⟨?_, ?_, ?_, ?_, ?_, ?_, ?_, ?_⟩
  · rw [Series.push_toList, h.time, List.range_succ (n := k + 1), List.map_append, ht]; rfl
  · rw [Series.push_toList, h.grad, List.range_succ (n := k + 1), List.map_append, hF1]; rfl
  · rw [Series.push_toList, h.D, List.range_succ (n := k + 1), List.map_append]
    congr 1
    simp only [List.map_cons, List.map_nil, List.cons.injEq, and_true]
    change r.D.last + sym (incD r.F.last F1) = _
    rw [last_of h.D, hF, hF1, strainsTo, strainsTo, Finset.sum_range_succ]
  · rw [Series.push_toList, h.W, List.range_succ (n := k + 1), List.map_append]
    congr 1
    simp only [List.map_cons, List.map_nil, List.cons.injEq, and_true]
    change r.W.last + skew (incW r.F.last F1) = _
    rw [last_of h.W, hF, hF1, spinsTo, spinsTo, Finset.sum_range_succ]
  · rw [Series.push_toList, List.length_append, h.stress]; rfl
  · rw [Series.push_toList, List.length_append, h.history]; rfl
  · rw [Series.push_toList, List.length_append, h.energy]; rfl
  · rw [Series.push_toList, List.length_append, h.dissipation]; rfl

theorem steps_upto (model : InL H → Option (OutL H)) (F : ℝ → Matrix (Fin 3) (Fin 3) ℝ) (dt T : ℝ) (n k : ℕ)
    (r r' : Large H) (h : Upto F dt k r) (hs : Large.steps model F dt T n r = some r') : Upto F dt (k + n) r' := by
  induction n generalizing k r with
  | zero => simp only [Large.steps, Option.some.injEq] at hs; subst hs; exact h
  | succ n ih =>
    simp only [Large.steps, Option.bind_eq_some_iff] at hs
    obtain ⟨r1, h1, h2⟩ := hs
    have := ih (k + 1) r1 (step_upto model F dt T k r r1 h h1) h2
    rwa [show k + 1 + n = k + (n + 1) by omega] at this

/-- **C130.** All lists returned have an entry for the start and one for each step. The times are evenly spaced and end at the
time given, the deformation gradients are those at these times, and the strains and spins are the sums of the increments
between them. -/
theorem C130_lists (model : InL H → Option (OutL H)) (init : H) (F : ℝ → Matrix (Fin 3) (Fin 3) ℝ) (tmax T : ℝ) (n : ℕ)
    (r : Large H) (h : defGrad model init F tmax T n = some r) :
    r.time.toList = (List.range (n + 1)).map (fun j : ℕ => (j : ℝ) * (tmax / n)) ∧ r.time.last = tmax ∧
    r.F.toList = (List.range (n + 1)).map (fun j : ℕ => F (j * (tmax / n))) ∧
    r.D.toList = (List.range (n + 1)).map (strainsTo fun i : ℕ => F (i * (tmax / n))) ∧
    r.W.toList = (List.range (n + 1)).map (spinsTo fun i : ℕ => F (i * (tmax / n))) ∧
    r.stress.toList.length = n + 1 ∧ r.history.toList.length = n + 1 ∧ r.energy.toList.length = n + 1 ∧
    r.dissipation.toList.length = n + 1 := by
  unfold defGrad at h
  split_ifs at h with hn
  have hnr : (n : ℝ) ≠ 0 := by exact_mod_cast hn
  have w := steps_upto model F (tmax / n) T n 0 _ r ⟨by simp [Series.toList], by simp [Series.toList],
    by simp [Series.toList, strainsTo], by simp [Series.toList, spinsTo], rfl, rfl, rfl, rfl⟩ h
  rw [Nat.zero_add] at w
  refine ⟨w.time, ?_, w.grad, w.D, w.W, w.stress, w.history, w.energy, w.dissipation⟩
  rw [last_of w.time, mul_div_cancel₀ _ hnr]

/-- **C130.** The increments summed: with the increment `L` of the velocity gradient taken with the gradient at the end of the step,
the strain increment stands for the symmetric part of `L` in Mandel notation and the spin increment for its skew part. -/
theorem C130_increments (F0 F1 L : Matrix (Fin 3) (Fin 3) ℝ) (hF : F1.det ≠ 0) (hL : L * F1 = F1 - F0) :
    Tensors.mean (.sym (sym (incD F0 F1))) = .two (fun i j => (L i j + L j i) / 2) ∧
    Tensors.mean (.skw (skew (incW F0 F1))) = .two (fun i j => (L i j - L j i) / 2) := by
  have hl : incL F0 F1 = L := by
    rw [incL, ← hL, Matrix.mul_assoc, mul_nonsing_inv _ (isUnit_iff_ne_zero.2 hF), Matrix.mul_one]
  constructor
  · rw [Tensors.mean_sym]
    congr 1
    funext i j
    fin_cases i <;> fin_cases j <;> simp [Tensors.symFull, sym, incD, hl] <;> ring
  · rw [Tensors.mean_skw]
    congr 1
    funext i j
    fin_cases i <;> fin_cases j <;> simp [Tensors.skewFull, skew, incW, hl] <;> ring

/-- A stretch by two along one axis with a shear. -/
example : (!![2, 1, 0; 0, 1, 0; 0, 0, 1] : Matrix (Fin 3) (Fin 3) ℝ).det ≠ 0 ∧
    (!![1 / 2, 1 / 2, 0; 0, 0, 0; 0, 0, 0] : Matrix (Fin 3) (Fin 3) ℝ) * !![2, 1, 0; 0, 1, 0; 0, 0, 1] =
      !![2, 1, 0; 0, 1, 0; 0, 0, 1] - 1 := by
  refine ⟨by rw [Matrix.det_fin_three]; simp, ?_⟩
  ext i j
  fin_cases i <;> fin_cases j <;> simp [Matrix.mul_apply, Fin.sum_univ_three] <;> norm_num

/-! ## Change of the reference -/

theorem incL_reference (F0 F1 A : Matrix (Fin 3) (Fin 3) ℝ) (hA : A.det ≠ 0) : incL (F0 * A) (F1 * A) = incL F0 F1 := by
  have hu : IsUnit A.det := isUnit_iff_ne_zero.2 hA
  rw [incL, incL, ← Matrix.sub_mul, Matrix.mul_inv_rev, Matrix.mul_assoc, ← Matrix.mul_assoc A, mul_nonsing_inv A hu,
    Matrix.one_mul]

/-- The same lists, up to the deformation gradients. -/
structure Same (A : Matrix (Fin 3) (Fin 3) ℝ) (r q : Large H) : Prop where
  time : q.time = r.time
  F : q.F.last = r.F.last * A
  D : q.D = r.D
  W : q.W = r.W
  stress : q.stress = r.stress
  history : q.history = r.history
  energy : q.energy = r.energy
  dissipation : q.dissipation = r.dissipation

theorem step_same (model : InL H → Option (OutL H)) (F : ℝ → Matrix (Fin 3) (Fin 3) ℝ) (A : Matrix (Fin 3) (Fin 3) ℝ)
    (hA : A.det ≠ 0) (dt T : ℝ) (r q r' : Large H) (h : Same A r q) (hs : r.step model F dt T = some r') :
    ∃ q', q.step model (fun t => F t * A) dt T = some q' ∧ Same A r' q' := by
  unfold Large.step at hs
  extract_lets t F1 d1 w1 at hs
  split_ifs at hs with hdet
  simp only [Option.map_eq_some_iff] at hs
  obtain ⟨o, ho, rfl⟩ := hs
  have hdet' : (F (q.time.last + dt) * A).det ≠ 0 := by
    rw [det_mul, h.time]; exact mul_ne_zero hdet hA
  have hl : incL q.F.last (F (q.time.last + dt) * A) = incL r.F.last F1 := by
    rw [h.F, h.time, incL_reference _ _ _ hA]
  refine ⟨⟨q.time.push (q.time.last + dt), q.stress.push o.s, q.F.push (F (q.time.last + dt) * A), q.D.push d1, q.W.push w1,
    q.history.push o.h, q.energy.push o.u, q.dissipation.push o.p⟩, ?_, ?_⟩
  · unfold Large.step
    rw [if_neg hdet']
    have hd : q.D.last + sym (incD q.F.last (F (q.time.last + dt) * A)) = d1 := by
      rw [incD, hl, h.D]; rfl
    have hw : q.W.last + skew (incW q.F.last (F (q.time.last + dt) * A)) = w1 := by
      rw [incW, hl, h.W]; rfl
    simp only [hd, hw]
    rw [h.time, h.stress, h.D, h.W, h.history, h.energy, h.dissipation]
    change Option.map _ (model ⟨d1, r.D.last, w1, r.W.last, T, t, r.time.last, r.stress.last, r.history.last, r.energy.last,
      r.dissipation.last⟩) = _
    rw [ho]
    rfl
  · exact ⟨by rw [h.time], by rw [h.time]; rfl, by rw [h.D], by rw [h.W], by rw [h.stress], by rw [h.history],
      by rw [h.energy], by rw [h.dissipation]⟩

theorem steps_same (model : InL H → Option (OutL H)) (F : ℝ → Matrix (Fin 3) (Fin 3) ℝ) (A : Matrix (Fin 3) (Fin 3) ℝ)
    (hA : A.det ≠ 0) (dt T : ℝ) (n : ℕ) (r q r' : Large H) (h : Same A r q) (hs : Large.steps model F dt T n r = some r') :
    ∃ q', Large.steps model (fun t => F t * A) dt T n q = some q' ∧ Same A r' q' := by
  induction n generalizing r q with
  | zero => simp only [Large.steps, Option.some.injEq] at hs; subst hs; exact ⟨q, rfl, h⟩
  | succ n ih =>
    simp only [Large.steps, Option.bind_eq_some_iff] at hs
    obtain ⟨r1, h1, h2⟩ := hs
    obtain ⟨q1, h3, h4⟩ := step_same model F A hA dt T r q r1 h h1
    obtain ⟨q2, h5, h6⟩ := ih r1 q1 h4 h2
    exact ⟨q2, by simp only [Large.steps, h3, Option.bind_some]; exact h5, h6⟩

/-- **C130.** The results do not depend on the reference configuration: with all deformation gradients taken from another
reference the same times, strains, spins, stresses, histories, energies and dissipations are returned. -/
theorem C130_reference (model : InL H → Option (OutL H)) (init : H) (F : ℝ → Matrix (Fin 3) (Fin 3) ℝ)
    (A : Matrix (Fin 3) (Fin 3) ℝ) (hA : A.det ≠ 0) (tmax T : ℝ) (n : ℕ) (r : Large H)
    (h : defGrad model init F tmax T n = some r) :
    ∃ q, defGrad model init (fun t => F t * A) tmax T n = some q ∧ q.time = r.time ∧ q.D = r.D ∧ q.W = r.W ∧
      q.stress = r.stress ∧ q.history = r.history ∧ q.energy = r.energy ∧ q.dissipation = r.dissipation := by
  unfold defGrad at h ⊢
  split_ifs at h with hn
  obtain ⟨q, h1, h2⟩ := steps_same model F A hA (tmax / n) T n
    ⟨⟨0, []⟩, ⟨0, []⟩, ⟨F 0, []⟩, ⟨0, []⟩, ⟨0, []⟩, ⟨init, []⟩, ⟨0, []⟩, ⟨0, []⟩⟩
    ⟨⟨0, []⟩, ⟨0, []⟩, ⟨F 0 * A, []⟩, ⟨0, []⟩, ⟨0, []⟩, ⟨init, []⟩, ⟨0, []⟩, ⟨0, []⟩⟩ r
    ⟨rfl, rfl, rfl, rfl, rfl, rfl, rfl, rfl⟩ h
  exact ⟨q, by rw [if_neg hn]; exact h1, h2.time, h2.D, h2.W, h2.stress, h2.history, h2.energy, h2.dissipation⟩

/-! ## Rotations -/

/-- The sum of the normal strains. -/
def vol (e : Fin 6 → ℝ) : ℝ := e 0 + e 1 + e 2

theorem vol_inc (F0 F1 : Matrix (Fin 3) (Fin 3) ℝ) (h1 : F1 * F1ᵀ = 1) (h0 : F0 * F0ᵀ = 1) :
    vol (sym (incD F0 F1)) = (∑ i, ∑ j, (F1 i j - F0 i j) ^ 2) / 2 := by
  have hinv : F1⁻¹ = F1ᵀ := inv_eq_right_inv h1
  have e1 : ∀ i, (F1 * F1ᵀ) i i = 1 := fun i => by rw [h1, one_apply_eq]
  have e0 : ∀ i, (F0 * F0ᵀ) i i = 1 := fun i => by rw [h0, one_apply_eq]
  simp only [Matrix.mul_apply, transpose_apply, Fin.sum_univ_three] at e1 e0
  have a0 := e1 0
  have a1 := e1 1
  have a2 := e1 2
  have b0 := e0 0
  have b1 := e0 1
  have b2 := e0 2
  simp only [vol, sym, incD, incL, hinv, Matrix.smul_apply, Matrix.add_apply, transpose_apply, Matrix.mul_apply,
    Matrix.sub_apply, Fin.sum_univ_three, cons_val_zero, cons_val_one, cons_val, smul_eq_mul]
  linarith

theorem vol_add (a b : Fin 6 → ℝ) : vol (a + b) = vol a + vol b := by simp only [vol, Pi.add_apply]; ring

/-- **C130, disagreement.** A rigid rotation strains the material: the volume strain returned is half the sum of the squares of
all changes of the deformation gradient. It is not zero unless nothing moves between any two steps. -/
theorem C130_rigid (model : InL H → Option (OutL H)) (init : H) (F : ℝ → Matrix (Fin 3) (Fin 3) ℝ)
    (hF : ∀ t, F t * (F t)ᵀ = 1) (tmax T : ℝ) (n : ℕ) (r : Large H) (h : defGrad model init F tmax T n = some r) :
    vol r.D.last = ∑ k ∈ Finset.range n, (∑ i, ∑ j, (F ((k + 1 : ℕ) * (tmax / n)) i j - F (k * (tmax / n)) i j) ^ 2) / 2 ∧
    ((∃ k < n, F ((k + 1 : ℕ) * (tmax / n)) ≠ F (k * (tmax / n))) → 0 < vol r.D.last) := by
  obtain ⟨-, -, -, hD, -⟩ := C130_lists model init F tmax T n r h
  have key : ∀ (G : ℕ → Matrix (Fin 3) (Fin 3) ℝ) (hG : ∀ k, G k * (G k)ᵀ = 1) (k : ℕ), vol (strainsTo G k) =
      ∑ j ∈ Finset.range k, (∑ a, ∑ b, (G (j + 1) a b - G j a b) ^ 2) / 2 := by
    intro G hG k
    induction k with
    | zero => simp [strainsTo, vol]
    | succ k ih => rw [strainsTo, Finset.sum_range_succ, vol_add, vol_inc _ _ (hG _) (hG _), Finset.sum_range_succ, ← ih,
        strainsTo]
  have e : vol r.D.last = ∑ k ∈ Finset.range n,
      (∑ i, ∑ j, (F ((k + 1 : ℕ) * (tmax / n)) i j - F (k * (tmax / n)) i j) ^ 2) / 2 := by
    rw [last_of hD, key _ fun k => hF _]
  refine ⟨e, fun ⟨k, hk, hne⟩ => ?_⟩
  rw [e]
  refine Finset.sum_pos' (fun j _ => by positivity) ⟨k, Finset.mem_range.2 hk, ?_⟩
  by_contra hle
  refine hne (ext fun i j => ?_)
  have h0 : ∑ i, ∑ j, (F ((k + 1 : ℕ) * (tmax / n)) i j - F (k * (tmax / n)) i j) ^ 2 = 0 := by
    refine le_antisymm (by linarith) (by positivity)
  have h1 := (Finset.sum_eq_zero_iff_of_nonneg fun i _ => by positivity).1 h0 i (Finset.mem_univ i)
  have h2 := (Finset.sum_eq_zero_iff_of_nonneg fun j _ => by positivity).1 h1 j (Finset.mem_univ j)
  exact sub_eq_zero.1 (pow_eq_zero_iff two_ne_zero |>.1 h2)

/-! ## Stretches -/

/-- A stretch along x. -/
def stretch (l : ℝ) : Matrix (Fin 3) (Fin 3) ℝ := diagonal ![l, 1, 1]

theorem stretch_inv (l : ℝ) (hl : l ≠ 0) : (stretch l)⁻¹ = stretch l⁻¹ := by
  refine inv_eq_right_inv ?_
  rw [stretch, stretch, diagonal_mul_diagonal, ← diagonal_one]
  congr 1
  funext i
  fin_cases i <;> simp [hl]

theorem inc_stretch (l0 l1 : ℝ) (h1 : l1 ≠ 0) :
    sym (incD (stretch l0) (stretch l1)) = ![1 - l0 / l1, 0, 0, 0, 0, 0] ∧ skew (incW (stretch l0) (stretch l1)) = 0 := by
  have e : incL (stretch l0) (stretch l1) = diagonal ![1 - l0 / l1, 0, 0] := by
    rw [incL, stretch_inv _ h1, stretch, stretch, stretch, diagonal_sub, diagonal_mul_diagonal]
    congr 1
    funext i
    fin_cases i
    · simp; field_simp
    · simp
    · simp
  constructor
  · rw [incD, e, diagonal_transpose]
    funext i
    fin_cases i <;> simp [sym, diagonal]
    ring
  · rw [incW, e, diagonal_transpose, sub_self, smul_zero]
    funext i
    fin_cases i <;> simp [skew]

theorem log_step (a b : ℝ) (ha : 0 < a) (hb : 0 < b) :
    1 - a / b ≤ Real.log (b / a) ∧ Real.log (b / a) - (1 - a / b) ≤ (b - a) ^ 2 / (a * b) := by
  have h1 := Real.one_sub_inv_le_log_of_pos (div_pos hb ha)
  have h2 := Real.log_le_sub_one_of_pos (div_pos hb ha)
  rw [inv_div] at h1
  refine ⟨h1, ?_⟩
  have : (b - a) ^ 2 / (a * b) = b / a - 1 - (1 - a / b) := by field_simp
  linarith

/-- **C130.** For a stretch along x the strain returned is along x only and there is no spin. The strain is at most the
logarithmic strain, and the difference goes to zero with the number of steps: it is below `(L tmax / m)² / n`, if the stretch
changes at a rate of `L` at most and is at least `m`. -/
theorem C130_stretch (model : InL H → Option (OutL H)) (init : H) (l : ℝ → ℝ) (L m : ℝ) (hm : 0 < m) (hl : ∀ t, m ≤ l t)
    (hL : ∀ s t, |l s - l t| ≤ L * |s - t|) (tmax T : ℝ) (n : ℕ) (r : Large H)
    (h : defGrad model init (fun t => stretch (l t)) tmax T n = some r) :
    (∀ i, i ≠ 0 → r.D.last i = 0) ∧ r.W.last = 0 ∧ r.D.last 0 ≤ Real.log (l tmax / l 0) ∧
      Real.log (l tmax / l 0) - r.D.last 0 ≤ (L * tmax / m) ^ 2 / n := by
  obtain ⟨-, -, -, hD, hW, -⟩ := C130_lists model init _ tmax T n r h
  have hn : n ≠ 0 := by
    rintro rfl
    simp [defGrad] at h
  have hnr : (n : ℝ) ≠ 0 := by exact_mod_cast hn
  have hpos : ∀ t, 0 < l t := fun t => hm.trans_le (hl t)
  have key : ∀ k : ℕ, (∀ i, i ≠ 0 → strainsTo (fun i : ℕ => stretch (l (i * (tmax / n)))) k i = 0) ∧
      spinsTo (fun i : ℕ => stretch (l (i * (tmax / n)))) k = 0 ∧
      strainsTo (fun i : ℕ => stretch (l (i * (tmax / n)))) k 0 ≤ Real.log (l (k * (tmax / n)) / l 0) ∧
      Real.log (l (k * (tmax / n)) / l 0) - strainsTo (fun i : ℕ => stretch (l (i * (tmax / n)))) k 0 ≤
        k * ((L * (tmax / n)) ^ 2 / m ^ 2) := by
    intro k
    induction k with
    | zero => simp [strainsTo, spinsTo, (hpos 0).ne']
    | succ k ih =>
      obtain ⟨i1, i2, i3, i4⟩ := ih
      obtain ⟨d1, d2⟩ := inc_stretch (l (k * (tmax / n))) (l ((k + 1 : ℕ) * (tmax / n))) (hpos _).ne'
      have es : strainsTo (fun i : ℕ => stretch (l (i * (tmax / n)))) (k + 1) =
          strainsTo (fun i : ℕ => stretch (l (i * (tmax / n)))) k +
            ![1 - l (k * (tmax / n)) / l ((k + 1 : ℕ) * (tmax / n)), 0, 0, 0, 0, 0] := by
        rw [← d1, strainsTo, strainsTo, Finset.sum_range_succ]
      have ew : spinsTo (fun i : ℕ => stretch (l (i * (tmax / n)))) (k + 1) = 0 := by
        rw [spinsTo, Finset.sum_range_succ, d2, add_zero]
        exact i2
      obtain ⟨l1, l2⟩ := log_step (l (k * (tmax / n))) (l ((k + 1 : ℕ) * (tmax / n))) (hpos _) (hpos _)
      have elog : Real.log (l ((k + 1 : ℕ) * (tmax / n)) / l 0) =
          Real.log (l (k * (tmax / n)) / l 0) + Real.log (l ((k + 1 : ℕ) * (tmax / n)) / l (k * (tmax / n))) := by
        rw [← Real.log_mul (div_pos (hpos _) (hpos _)).ne' (div_pos (hpos _) (hpos _)).ne']
        congr 1
        exact (div_mul_div_cancel₀' (hpos (k * (tmax / n))).ne' _ _).symm
      have hsq : (l ((k + 1 : ℕ) * (tmax / n)) - l (k * (tmax / n))) ^ 2 /
          (l (k * (tmax / n)) * l ((k + 1 : ℕ) * (tmax / n))) ≤ (L * (tmax / n)) ^ 2 / m ^ 2 := by
        refine div_le_div₀ (sq_nonneg _) ?_ (by positivity) ?_
        · rw [sq_le_sq, abs_mul]
          refine (hL _ _).trans ?_
          rw [show ((k + 1 : ℕ) : ℝ) * (tmax / n) - k * (tmax / n) = tmax / n by push_cast; ring]
          exact mul_le_mul_of_nonneg_right (le_abs_self L) (abs_nonneg _)
        · rw [sq]; exact mul_le_mul (hl _) (hl _) hm.le (hpos _).le
      refine ⟨fun i hi => ?_, ew, ?_, ?_⟩
      · rw [es, Pi.add_apply, i1 i hi]
        fin_cases i
        · exact absurd rfl hi
        all_goals simp
      · rw [es, elog, Pi.add_apply]
        exact add_le_add i3 (by simpa using l1)
      · rw [es, elog, Pi.add_apply]
        have : (![1 - l (k * (tmax / n)) / l ((k + 1 : ℕ) * (tmax / n)), 0, 0, 0, 0, 0] : Fin 6 → ℝ) 0 =
          1 - l (k * (tmax / n)) / l ((k + 1 : ℕ) * (tmax / n)) := rfl
        rw [this]
        push_cast at *
        linarith
  obtain ⟨k1, k2, k3, k4⟩ := key n
  have en : (n : ℝ) * (tmax / n) = tmax := mul_div_cancel₀ _ hnr
  rw [en] at k3 k4
  rw [last_of hD, last_of hW]
  refine ⟨k1, k2, k3, k4.trans (le_of_eq ?_)⟩
  field_simp

/-- A material with the strain as stress: a rotation about z, and a stretch. -/
def echo : InL ℕ → Option (OutL ℕ) := fun i => some ⟨i.d1, i.h0 + 1, 0, 0⟩

theorem echo_runs (F : ℝ → Matrix (Fin 3) (Fin 3) ℝ) (hF : ∀ t, (F t).det ≠ 0) (tmax T : ℝ) (n : ℕ) (hn : n ≠ 0) :
    ∃ r, defGrad echo 0 F tmax T n = some r := by
  unfold defGrad
  rw [if_neg hn]
  generalize tmax / (n : ℝ) = dt
  generalize (⟨⟨0, []⟩, ⟨0, []⟩, ⟨F 0, []⟩, ⟨0, []⟩, ⟨0, []⟩, ⟨0, []⟩, ⟨0, []⟩, ⟨0, []⟩⟩ : Large ℕ) = r
  clear hn
  induction n generalizing r with
  | zero => exact ⟨r, rfl⟩
  | succ n ih =>
    simp only [Large.steps, Large.step, echo, if_neg (hF _), Option.map_some, Option.bind_some]
    exact ih _

example : ∃ r : Large ℕ, defGrad echo 0 (fun t => !![Real.cos t, -Real.sin t, 0; Real.sin t, Real.cos t, 0; 0, 0, 1])
    Real.pi 300 1 = some r ∧ 0 < vol r.D.last := by
  have ho : ∀ t, (!![Real.cos t, -Real.sin t, 0; Real.sin t, Real.cos t, 0; 0, 0, 1] : Matrix (Fin 3) (Fin 3) ℝ) *
      (!![Real.cos t, -Real.sin t, 0; Real.sin t, Real.cos t, 0; 0, 0, 1])ᵀ = 1 := by
    intro t
    ext i j
    have := Real.sin_sq_add_cos_sq t
    fin_cases i <;> fin_cases j <;> simp [Matrix.mul_apply, Fin.sum_univ_three] <;> nlinarith
  obtain ⟨r, hr⟩ := echo_runs (fun t => !![Real.cos t, -Real.sin t, 0; Real.sin t, Real.cos t, 0; 0, 0, 1]) (fun t => by
    intro h0
    have := congrArg det (ho t)
    rw [det_mul, h0, zero_mul, det_one] at this
    exact zero_ne_one this) Real.pi 300 1 one_ne_zero
  refine ⟨r, hr, (C130_rigid echo 0 _ ho Real.pi 300 1 r hr).2 ⟨0, Nat.one_pos, fun h0 => ?_⟩⟩
  have := congrFun (congrFun h0 0) 0
  norm_num at this

end Neml.LargeDriver
