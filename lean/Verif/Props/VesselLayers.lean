import Verif.Props.VesselCycle
import Mathlib.Analysis.Calculus.Deriv.Mul
import Mathlib.Analysis.Calculus.Deriv.Add
import Mathlib.Algebra.BigOperators.Group.Finset.Basic
import Mathlib.Data.List.GetD

/-!
# C133: the temperature of a wall of several layers
-/

namespace Neml.Vessel

/-- The thermal resistance of the first `i` layers: the sum of thickness over conductivity. -/
noncomputable def resistance (rs ks : List ℝ) (i : ℕ) : ℝ :=
  ∑ j ∈ Finset.range i, (rs.getD (j + 1) 0 - rs.getD j 0) / ks.getD j 0

/-- A sensible wall: increasing radii, one more than layers, at least one layer, positive conductivities. -/
structure Wall (rs ks : List ℝ) : Prop where
  length : rs.length = ks.length + 1
  some : 0 < ks.length
  sorted : rs.Pairwise (· < ·)
  pos : ∀ k ∈ ks, 0 < k

theorem cumFrom_get (s : ℝ) (R : List ℝ) (i : ℕ) (h : i ≤ R.length) :
    (cumFrom s R)[i]? = some (s + (R.take i).sum) := by
  induction R generalizing s i with
  | nil => simp at h; simp [cumFrom, h]
  | cons a R ih =>
    cases i with
    | zero => simp [cumFrom]
    | succ i =>
      simp only [cumFrom, List.getElem?_cons_succ, List.take_succ_cons, List.sum_cons]
      rw [ih _ _ (by simpa using h), add_assoc]

theorem cumFrom_length (s : ℝ) (R : List ℝ) : (cumFrom s R).length = R.length + 1 := by
  induction R generalizing s with
  | nil => rfl
  | cons a R ih => simp [cumFrom, ih]

theorem interp_head (q : ℝ × ℝ) (l : List (ℝ × ℝ)) (h : (q :: l).Pairwise fun a b => a.1 < b.1) :
    interp q.1 (q :: l) = q.2 := by
  cases l with
  | nil => rfl
  | cons p l =>
    rw [List.pairwise_cons] at h
    rw [interp, if_neg (lt_irrefl _), if_pos (h.1 p (by simp))]
    simp

theorem interp_layer (x : ℝ) (P : List (ℝ × ℝ)) (h : P.Pairwise fun a b => a.1 < b.1) (i : ℕ) (p q : ℝ × ℝ)
    (hp : P[i]? = some p) (hq : P[i + 1]? = some q) (h1 : p.1 ≤ x) (h2 : x ≤ q.1) :
    interp x P = p.2 + (x - p.1) / (q.1 - p.1) * (q.2 - p.2) := by
  induction i generalizing P with
  | zero =>
    match P, h with
    | [], _ => simp at hp
    | [a], _ => simp at hq
    | a :: b :: l, h =>
      obtain rfl : a = p := by simpa using hp
      obtain rfl : b = q := by simpa using hq
      have hab : a.1 < b.1 := (List.pairwise_cons.1 h).1 b (by simp)
      rw [interp, if_neg (not_lt.2 h1)]
      rcases eq_or_lt_of_le h2 with e | e
      · rw [if_neg (by rw [e]; exact lt_irrefl _), e, interp_head b l (List.pairwise_cons.1 h).2,
          div_self (by linarith)]
        ring
      · rw [if_pos e]
        ring
  | succ i ih =>
    match P, h with
    | [], _ => simp at hp
    | [a], _ => simp at hp
    | a :: b :: l, h =>
      have h' := List.pairwise_cons.1 h
      have hp' : (b :: l)[i]? = some p := by simpa using hp
      have hq' : (b :: l)[i + 1]? = some q := by simpa using hq
      have hap : a.1 < p.1 := h'.1 p (List.mem_of_getElem? hp')
      have hbp : b.1 ≤ p.1 := by
        cases i with
        | zero => simp at hp'; rw [hp']
        | succ i =>
          exact ((List.pairwise_cons.1 h'.2).1 p (List.mem_of_getElem? (by simpa using hp' : l[i]? = some p))).le
      rw [interp, if_neg (by linarith), if_neg (by linarith)]
      exact ih _ h'.2 hp' hq'

theorem sorted_getD {rs : List ℝ} (h : rs.Pairwise (· < ·)) (i : ℕ) (hi : i + 1 < rs.length) :
    rs.getD i 0 < rs.getD (i + 1) 0 := by
  rw [List.getD_eq_getElem _ _ (by omega), List.getD_eq_getElem _ _ hi]
  exact List.pairwise_iff_getElem.1 h _ _ _ _ (by omega)

section
variable {rs ks : List ℝ} (w : Wall rs ks)
include w

theorem resist_length : (resist rs ks).length = ks.length := by
  simp only [resist, diff, List.length_zipWith, List.length_tail, w.length]
  omega

theorem resist_take (i : ℕ) (h : i ≤ ks.length) : ((resist rs ks).take i).sum = resistance rs ks i := by
  induction i with
  | zero => simp [resistance]
  | succ i ih =>
    have hl := w.length
    have hi : i < (resist rs ks).length := by rw [resist_length w]; omega
    rw [List.take_succ_eq_append_getElem hi, List.sum_append, ih (by omega), resistance, resistance,
      Finset.sum_range_succ]
    congr 1
    simp only [resist, diff, List.getElem_zipWith, List.getElem_tail, List.sum_singleton]
    rw [List.getD_eq_getElem _ _ (by omega), List.getD_eq_getElem _ _ (by omega), List.getD_eq_getElem _ _ (by omega)]

theorem layer_pos (i : ℕ) (h : i < ks.length) :
    0 < (rs.getD (i + 1) 0 - rs.getD i 0) / ks.getD i 0 := by
  refine div_pos (sub_pos.2 (sorted_getD w.sorted i (by rw [w.length]; omega))) ?_
  rw [List.getD_eq_getElem _ _ h]
  exact w.pos _ (List.getElem_mem h)

theorem total_pos : 0 < resistance rs ks ks.length :=
  Finset.sum_pos (fun i hi => layer_pos w i (Finset.mem_range.1 hi)) ⟨0, Finset.mem_range.2 w.some⟩

theorem resist_sum : (resist rs ks).sum = resistance rs ks ks.length := by
  rw [← resist_take w _ le_rfl, ← resist_length w, List.take_length]

theorem faces_get (T1 Tr : ℝ) (flip : Bool) (i : ℕ) (h : i ≤ ks.length) :
    (faces rs ks T1 Tr flip)[i]? = some (if flip then T1 + (1 - resistance rs ks i / resistance rs ks ks.length) * (Tr - T1)
      else T1 + resistance rs ks i / resistance rs ks ks.length * (Tr - T1)) := by
  simp only [faces, List.getElem?_map]
  rw [cumFrom_get 0 _ i (by rw [resist_length w]; exact h), resist_take w i h, resist_sum w]
  simp

theorem zip_sorted (ys : List ℝ) : (rs.zip ys).Pairwise fun a b => a.1 < b.1 := by
  have h := w.sorted
  clear w
  induction rs generalizing ys with
  | nil => simp
  | cons a rs ih =>
    cases ys with
    | nil => simp
    | cons y ys =>
      rw [List.pairwise_cons] at h
      rw [List.zip_cons_cons, List.pairwise_cons]
      exact ⟨fun p hp => h.1 _ (List.of_mem_zip hp).1, ih ys h.2⟩

/-- The share of the resistance of the wall between the inner side and a point of a layer. -/
noncomputable def share (rs ks : List ℝ) (i : ℕ) (r : ℝ) : ℝ :=
  (resistance rs ks i + (r - rs.getD i 0) / ks.getD i 0) / resistance rs ks ks.length

/-- **C133.** At every point of the wall the temperature is divided between the two sides in the ratio of the thermal
resistances: the temperature of one side is the initial one, that of the other side follows the trapezoid. -/
theorem C133_profile {c : Cycle} (g : Good c) (flip : Bool) (k : ℕ) (s : ℝ) (h0 : 0 ≤ s) (h1 : s < cycleLength c)
    (i : ℕ) (hi : i < ks.length) (r : ℝ) (hr1 : rs.getD i 0 ≤ r) (hr2 : r ≤ rs.getD (i + 1) 0) :
    c.layered rs ks flip r (c.delay + k * cycleLength c + s) =
      some (c.T1 + (if flip then 1 - share rs ks i r else share rs ks i r) *
        (Real.sign (c.T2 - c.T1) * trapezoid c s)) := by
  have hp := g.period_pos
  have hk : (0 : ℝ) ≤ k * cycleLength c := mul_nonneg (Nat.cast_nonneg k) hp.le
  have tp := total_pos w
  rw [Cycle.layered, if_neg (by rw [w.length]; simp), if_neg (by rintro (h | h); exacts [g.hot.ne' h, g.cold.ne' h]),
    if_neg (by linarith), if_neg (by
      rw [g.period, resist_sum w]
      rintro (h | h | h)
      exacts [hp.ne' h, lt_irrefl _ (w.pos 0 h), tp.ne' h])]
  rw [phase_eq g _ s k h0 h1 (by simp), right_eq g s h0]
  set Tr := c.T1 + Real.sign (c.T2 - c.T1) * trapezoid c s with hTr
  have hl := w.length
  have hg : ∀ j, j ≤ ks.length → rs[j]? = some (rs.getD j 0) := by
    intro j hj
    rw [List.getD_eq_getElem _ _ (by omega), List.getElem?_eq_getElem]
  have zi : ∀ j, j ≤ ks.length → (rs.zip (faces rs ks c.T1 Tr flip))[j]? = some (rs.getD j 0,
      (if flip then c.T1 + (1 - resistance rs ks j / resistance rs ks ks.length) * (Tr - c.T1)
        else c.T1 + resistance rs ks j / resistance rs ks ks.length * (Tr - c.T1))) := by
    intro j hj
    rw [List.getElem?_zip_eq_some]
    exact ⟨hg j hj, faces_get w c.T1 Tr flip j hj⟩
  rw [interp_layer r _ (zip_sorted w _) i _ _ (zi i hi.le) (zi (i + 1) hi) hr1 hr2]
  congr 1
  have hd : rs.getD (i + 1) 0 - rs.getD i 0 ≠ 0 := (sub_pos.2 (sorted_getD w.sorted i (by omega))).ne'
  have hk' : ks.getD i 0 ≠ 0 := by
    rw [List.getD_eq_getElem _ _ hi]
    exact (w.pos _ (List.getElem_mem hi)).ne'
  have e : resistance rs ks (i + 1) = resistance rs ks i + (rs.getD (i + 1) 0 - rs.getD i 0) / ks.getD i 0 := by
    rw [resistance, Finset.sum_range_succ]; rfl
  have eT : Tr - c.T1 = Real.sign (c.T2 - c.T1) * trapezoid c s := by rw [hTr]; ring
  simp only [eT]
  have tn := tp.ne'
  cases flip
  · simp only [Bool.false_eq_true, if_false, share, e]
    field_simp
    ring
  · simp only [if_true, share, e]
    field_simp
    ring

/-- **C133.** The inner side has the initial temperature and the outer side follows the trapezoid; flipped, the other way
round. -/
theorem C133_sides {c : Cycle} (g : Good c) (k : ℕ) (s : ℝ) (h0 : 0 ≤ s) (h1 : s < cycleLength c) :
    c.layered rs ks false (rs.getD 0 0) (c.delay + k * cycleLength c + s) = some c.T1 ∧
    c.layered rs ks false (rs.getD ks.length 0) (c.delay + k * cycleLength c + s) =
      some (c.T1 + Real.sign (c.T2 - c.T1) * trapezoid c s) ∧
    c.layered rs ks true (rs.getD 0 0) (c.delay + k * cycleLength c + s) =
      some (c.T1 + Real.sign (c.T2 - c.T1) * trapezoid c s) ∧
    c.layered rs ks true (rs.getD ks.length 0) (c.delay + k * cycleLength c + s) = some c.T1 := by
  have hl := w.length
  have hs := w.some
  have tn := (total_pos w).ne'
  have a := fun flip => C133_profile w g flip k s h0 h1 0 hs (rs.getD 0 0) le_rfl
    (sorted_getD w.sorted 0 (by omega)).le
  have l1 : ks.length - 1 + 1 = ks.length := by omega
  have b := fun flip => C133_profile w g flip k s h0 h1 (ks.length - 1) (by omega) (rs.getD ks.length 0)
    (by
      have := sorted_getD w.sorted (ks.length - 1) (by omega)
      rw [l1] at this
      exact this.le) (by rw [l1])
  have s0 : share rs ks 0 (rs.getD 0 0) = 0 := by simp [share, resistance]
  have s1 : share rs ks (ks.length - 1) (rs.getD ks.length 0) = 1 := by
    rw [share]
    have : resistance rs ks ks.length = resistance rs ks (ks.length - 1) +
        (rs.getD ks.length 0 - rs.getD (ks.length - 1) 0) / ks.getD (ks.length - 1) 0 := by
      conv_lhs => rw [← l1, resistance, Finset.sum_range_succ, l1]
      rfl
    rw [← this, div_self tn]
  refine ⟨?_, ?_, ?_, ?_⟩
  · rw [a, s0]; simp
  · rw [b, s1]; simp
  · rw [a, s0]; simp
  · rw [b, s1]; simp

/-- **C133.** The heat flux, conductivity times gradient, is the same in all layers. -/
theorem C133_flux {c : Cycle} (g : Good c) (flip : Bool) (k : ℕ) (s : ℝ) (h0 : 0 ≤ s) (h1 : s < cycleLength c) :
    ∃ q, ∀ (i : ℕ) (_ : i < ks.length) (r : ℝ), rs.getD i 0 < r → r < rs.getD (i + 1) 0 →
      ∃ b, HasDerivAt (fun x => (c.layered rs ks flip x (c.delay + k * cycleLength c + s)).getD 0) b r ∧
        ks.getD i 0 * b = q := by
  refine ⟨(if flip then -1 else 1) / resistance rs ks ks.length * (Real.sign (c.T2 - c.T1) * trapezoid c s),
    fun i hi r hr1 hr2 => ⟨(if flip then -1 else 1) * (1 / ks.getD i 0 / resistance rs ks ks.length) *
      (Real.sign (c.T2 - c.T1) * trapezoid c s), ?_, ?_⟩⟩
  · have ev : (fun x => (c.layered rs ks flip x (c.delay + k * cycleLength c + s)).getD 0) =ᶠ[nhds r]
        fun x => c.T1 + (if flip then 1 - share rs ks i x else share rs ks i x) *
          (Real.sign (c.T2 - c.T1) * trapezoid c s) := by
      filter_upwards [Ioo_mem_nhds hr1 hr2] with x hx
      rw [C133_profile w g flip k s h0 h1 i hi x hx.1.le hx.2.le]
      rfl
    refine HasDerivAt.congr_of_eventuallyEq ?_ ev
    have hs : HasDerivAt (fun x => share rs ks i x) (1 / ks.getD i 0 / resistance rs ks ks.length) r := by
      unfold share
      exact ((((hasDerivAt_id r).sub_const _).div_const _).const_add _).div_const _
    cases flip
    · simp only [Bool.false_eq_true, if_false, one_mul]
      exact (hs.mul_const _).const_add _
    · simp only [if_true, neg_one_mul]
      exact ((hs.const_sub _).mul_const _).const_add _
  · have hk' : ks.getD i 0 ≠ 0 := by
      rw [List.getD_eq_getElem _ _ hi]
      exact (w.pos _ (List.getElem_mem hi)).ne'
    have tn := (total_pos w).ne'
    field_simp

/-- **C133.** With layers of one conductivity the temperature is that of the single wall. -/
theorem C133_single {c : Cycle} (g : Good c) (κ : ℝ) (hκ : ∀ k ∈ ks, k = κ) (k : ℕ) (s : ℝ) (h0 : 0 ≤ s)
    (h1 : s < cycleLength c) (i : ℕ) (hi : i < ks.length) (r : ℝ) (hr1 : rs.getD i 0 ≤ r)
    (hr2 : r ≤ rs.getD (i + 1) 0) (ho : rs.getD 0 0 < rs.getD ks.length 0) :
    c.layered rs ks false r (c.delay + k * cycleLength c + s) =
      c.gradient (rs.getD 0 0) (rs.getD ks.length 0) r (c.delay + k * cycleLength c + s) := by
  rw [C133_profile w g false k s h0 h1 i hi r hr1 hr2, C131_cycle g _ _ r s ho k h0 h1]
  have hk : ∀ j, j < ks.length → ks.getD j 0 = κ := by
    intro j hj
    rw [List.getD_eq_getElem _ _ hj]
    exact hκ _ (List.getElem_mem hj)
  have hn : κ ≠ 0 := by
    rw [← hk i hi, List.getD_eq_getElem _ _ hi]
    exact (w.pos _ (List.getElem_mem hi)).ne'
  have e : ∀ j, j ≤ ks.length → resistance rs ks j = (rs.getD j 0 - rs.getD 0 0) / κ := by
    intro j hj
    induction j with
    | zero => simp [resistance]
    | succ j ih =>
      have : resistance rs ks (j + 1) = resistance rs ks j + (rs.getD (j + 1) 0 - rs.getD j 0) / ks.getD j 0 := by
        rw [resistance, Finset.sum_range_succ]; rfl
      rw [this, ih (by omega), hk j (by omega)]
      ring
  have hd : rs.getD ks.length 0 - rs.getD 0 0 ≠ 0 := by linarith
  simp only [Bool.false_eq_true, if_false, share]
  rw [e i hi.le, e _ le_rfl, hk i hi]
  congr 3
  field_simp
  ring

end

/-- **C133.** Before the cycling starts the wall has the initial temperature. -/
theorem C133_delay {rs ks : List ℝ} (w : Wall rs ks) {c : Cycle} (g : Good c) (flip : Bool) (r t : ℝ)
    (h : t < c.delay) : c.layered rs ks flip r t = some c.T1 := by
  rw [Cycle.layered, if_neg (by rw [w.length]; simp), if_neg (by rintro (h | h); exacts [g.hot.ne' h, g.cold.ne' h]),
    if_pos h]

/-- Beside C133: two layers, the second one conducts three times better and is three times as thick. -/
theorem wall_sample : Wall [1, 2, 5] [1, 3] := by
  constructor
  · rfl
  · simp
  · norm_num
  · norm_num

example : sample.layered [1, 2, 5] [1, 3] false 2 (2 + 0 * cycleLength sample + 2) = some 400 := by
  have := C133_profile wall_sample sample_good false 0 2 (by norm_num)
    (by norm_num [cycleLength, sample, abs_of_pos]) 1 (by simp) 2 (by norm_num) (by norm_num)
  rw [show sample.delay = 2 from rfl] at this
  push_cast at this
  rw [this]
  congr 1
  rw [Real.sign_of_pos (by norm_num [sample])]
  norm_num [trapezoid, sample, abs_of_pos, share, resistance, Finset.sum_range_succ]

end Neml.Vessel
