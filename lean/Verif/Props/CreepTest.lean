import Verif.Props.StressTests

/-!
# C125: what a creep test records and reports -/

namespace Neml.DriverTests

open Matrix Neml.Driver Neml.PySolve Neml.Uniaxial

variable {H : Type}

namespace Creep

/-- The points (time and stress) of the loading. -/
noncomputable def start (a : Creep H) : List (ℝ × ℝ) :=
  (0, 0) :: leg 0 0 (|a.smax / a.nup| / |a.srate|) (a.smax / a.nup) a.nup

open Classical in
/-- The time since the start of the hold of point `j` of it, counted from zero: evenly spaced, or evenly spaced logarithms
from one. -/
noncomputable def since (a : Creep H) (j : ℕ) : ℝ :=
  if a.log then (10 : ℝ) ^ ((j : ℝ) * (Real.log a.hold / Real.log 10) / (a.nsteps - 1 : ℕ))
  else a.hold * ((j : ℝ) + 1) / a.nsteps

/-- The points of the test: the loading, then the hold. -/
noncomputable def program (a : Creep H) : List (ℝ × ℝ) :=
  a.start ++ (List.range a.nsteps).map fun j : ℕ => (a.since j + |a.smax| / |a.srate|, a.smax)

theorem start_length (a : Creep H) : a.start.length = a.nup + 1 := by
  simp [start, leg_length]

theorem program_length (a : Creep H) : a.program.length = a.nup + 1 + a.nsteps := by
  simp [program, start_length]

theorem times_eq (a : Creep H) (t0 : ℝ) :
    a.times t0 = (List.range a.nsteps).map fun j : ℕ => a.since j + t0 := by
  unfold times since
  by_cases hn : a.nsteps = 0
  · simp [hn]
  rw [if_neg hn]
  by_cases hl : a.log
  · have h1 : a.nsteps - 1 + 1 = a.nsteps := by omega
    simp only [hl, if_true, logspace, h1, List.map_map]
    rfl
  · simp [hl]

theorem down_went {d0 : Driver H} (hr : d0.rtol = 0) (ha : d0.atol = 0)
    (h0 : d0.t.before.length = d0.strain.before.length) (a : Creep H) (hn : norm2 a.sdir = 1) (ts : List ℝ) (x : Rec H)
    (path : List (ℝ × ℝ)) (t s : ℝ) (h : OnS d0 a.T a.sdir x path) (hp : path.getLast? = some (t, s)) :
    (∃ k, OffS d0 a.T a.sdir (a.down ts x).1 (path ++ (ts.map fun t => (t, s)).take k)) ∧
    ((a.down ts x).2 = false → OnS d0 a.T a.sdir (a.down ts x).1 (path ++ ts.map fun t => (t, s))) ∧
    ∃ more, (a.down ts x).1.strain.toList = x.strain.toList ++ more ∧ (x.strain.last :: more).IsChain (· ≤ ·) ∧
      ∀ e ∈ more, |e| ≤ a.elimit * ∑ k, |a.sdir k| := by
  induction ts generalizing x path t with
  | nil =>
    exact ⟨⟨0, by simpa [down] using h.off h0⟩, fun _ => by simpa [down] using h, [], by simp [down], by simp, by simp⟩
  | cons t1 ts ih =>
    cases hx : x.d.stressStep x.d.stress.last t1 a.T with
    | none =>
      have hd : a.down (t1 :: ts) x = (x, true) := by rw [down, hx]
      rw [hd]
      exact ⟨⟨0, by simpa using h.off h0⟩, (fun h => by cases h), [], by simp, by simp, by simp⟩
    | some d' =>
      by_cases hc : (∃ i, a.elimit < |d'.strain.last i|) ∨ d'.strain.last ⬝ᵥ a.sdir < x.strain.last ∨ a.damage d'.stored.last
      · have hd : a.down (t1 :: ts) x = ({ x with d := d' }, true) := by
          rw [down, hx]; simp only; exact if_pos hc
        rw [hd]
        exact ⟨⟨0, by simpa using h.over h0 (.stress x.d.stress.last t1 a.T) d' hx rfl⟩, (fun h => by cases h), [], by simp,
          by simp, by simp⟩
      · have hd : a.down (t1 :: ts) x = a.down ts (x.note a.sdir d' t1) := by
          rw [down, hx]; simp only; exact if_neg hc
        rw [hd]
        obtain ⟨-, e2⟩ := stressHold_on hr ha hn t1 x path t s h hp d' hx
        obtain ⟨⟨k, i1⟩, i2, more, i3, i4, i5⟩ := ih _ _ t1 e2 (by simp)
        simp only [not_or, not_exists, not_lt] at hc
        refine ⟨⟨k + 1, by simpa using i1⟩, fun hf => by simpa using i2 hf, d'.strain.last ⬝ᵥ a.sdir :: more, ?_, ?_, ?_⟩
        · rw [i3]
          simp [Rec.note, Series.push_toList]
        · rw [List.isChain_cons_cons]
          exact ⟨hc.2.1, i4⟩
        · intro e he
          rcases List.mem_cons.1 he with rfl | he
          · rw [dotProduct, Finset.mul_sum]
            refine (Finset.abs_sum_le_sum_abs _ _).trans (Finset.sum_le_sum fun i _ => ?_)
            rw [abs_mul]
            exact mul_le_mul_of_nonneg_right (hc.1 i) (abs_nonneg _)
          · exact i5 e he

theorem up_went {c : Setup H} (hr : c.rtol = 0) (ha : c.atol = 0) (a : Creep H) (hs : norm2 a.sdir = 1)
    (hq : 1 / 10 ^ 8 < |a.srate|) (hn : a.nup ≠ 0) (x : Rec H)
    (h : a.up (Rec.new (c.driver a.T a.history)) = .ok x) :
    OnS (c.driver a.T a.history) a.T a.sdir x a.start ∧ a.start.getLast? = some (|a.smax| / |a.srate|, a.smax) := by
  have hnr : (a.nup : ℝ) ≠ 0 := by exact_mod_cast hn
  have hnp : (0 : ℝ) < a.nup := lt_of_le_of_ne (Nat.cast_nonneg _) hnr.symm
  obtain ⟨f1, f2, f3⟩ : (c.driver a.T a.history).rtol = c.rtol ∧ (c.driver a.T a.history).atol = c.atol ∧
      (c.driver a.T a.history).t.before.length = (c.driver a.T a.history).strain.before.length := by
    cases a.history <;> exact ⟨rfl, rfl, rfl⟩
  have w : WentS (c.driver a.T a.history) a.T a.sdir (Rec.new (c.driver a.T a.history)) [(0, 0)]
      (leg 0 0 (|a.smax / a.nup| / |a.srate|) (a.smax / a.nup) a.nup) (a.up (Rec.new (c.driver a.T a.history))) := by
    refine loop_legS (fun x path t s h hp => ?_) a.nup _ _ 0 0 (StressCyclic.new_onS c a.T a.history a.sdir) rfl
    cases hx : x.d.srateSincStep a.sdir a.srate (a.smax / a.nup) a.T with
    | none => exact ⟨0, by simpa using h.off f3, Ext.refl _⟩
    | some d' =>
      exact ⟨srateSinc_on (f1.trans hr) (f2.trans ha) hs a.srate _ hq x path t s h hp d' hx,
        Ext.note _ _ (.srateSinc a.sdir a.srate (a.smax / a.nup) a.T) _ hx _⟩
  rw [h] at w
  have p := leg_last [((0 : ℝ), (0 : ℝ))] 0 0 (|a.smax / a.nup| / |a.srate|) (a.smax / a.nup) a.nup rfl
  refine ⟨w.1, ?_⟩
  rw [start, ← List.singleton_append, p]
  simp only [Option.some.injEq, Prod.mk.injEq, zero_add]
  constructor
  · rw [abs_div, abs_of_pos hnp]; field_simp
  · field_simp

/-- Everything about a run. -/
theorem run_went (a : Creep H) (c : Setup H) (hr : c.rtol = 0) (ha : c.atol = 0) (hs : norm2 a.sdir = 1)
    (hq : 1 / 10 ^ 8 < |a.srate|) (o : CreepOut H) (h : a.run c = some o) :
    ∃ r k, OffS (c.driver a.T a.history) a.T a.sdir r (a.program.take k) ∧ a.nup + 1 ≤ k ∧ k ≤ a.program.length ∧
      (o.failed = false → k = a.program.length ∧ r.d.t.toList = r.time.toList) ∧
      o = out r o.failed (a.nup + 1) ∧
      (r.strain.toList.drop a.nup).IsChain (· ≤ ·) ∧
      (∀ e ∈ r.strain.toList.drop (a.nup + 1), |e| ≤ a.elimit * ∑ k, |a.sdir k|) := by
  unfold run at h
  split_ifs at h with hn
  obtain ⟨f1, f2, f3⟩ : (c.driver a.T a.history).rtol = c.rtol ∧ (c.driver a.T a.history).atol = c.atol ∧
      (c.driver a.T a.history).t.before.length = (c.driver a.T a.history).strain.before.length := by
    cases a.history <;> exact ⟨rfl, rfl, rfl⟩
  cases hx : a.up (Rec.new (c.driver a.T a.history)) with
  | stop r' => rw [hx] at h; cases h
  | ok x =>
    rw [hx] at h
    obtain ⟨w, p⟩ := up_went hr ha a hs hq hn x hx
    simp only [Option.some.injEq] at h
    have hlen : x.strain.toList.length = a.nup + 1 := by rw [(w.off f3).lengths, start_length]
    have hri : x.d.strain.toList.length = a.nup + 1 := by
      rw [← hlen, ← w.strains, List.length_map]
    have ht0 : x.time.last = |a.smax| / |a.srate| := (w.lastTime p).2
    rw [hri, ht0] at h
    obtain ⟨⟨k, i1⟩, i2, more, i3, i4, i5⟩ := down_went (f1.trans hr) (f2.trans ha) f3 a hs
      (a.times (|a.smax| / |a.srate|)) x _ _ _ w p
    have hprog : a.start ++ (a.times (|a.smax| / |a.srate|)).map (fun t => (t, a.smax)) = a.program := by
      rw [times_eq a, List.map_map]
      rfl
    have hof : o.failed = (a.down (a.times (|a.smax| / |a.srate|)) x).2 := by rw [← h]; rfl
    have htl : ((a.times (|a.smax| / |a.srate|)).map (fun t => (t, a.smax))).length = a.nsteps := by
      rw [times_eq a]; simp
    -- the length of what was kept
    have htake : a.start ++ ((a.times (|a.smax| / |a.srate|)).map (fun t => (t, a.smax))).take k =
        a.program.take (a.nup + 1 + min k a.nsteps) := by
      rw [← hprog, ← start_length a, List.take_length_add_append]
      congr 1
      rw [← htl, ← List.take_take, List.take_length]
    refine ⟨(a.down (a.times (|a.smax| / |a.srate|)) x).1, a.nup + 1 + min k a.nsteps, htake ▸ i1, by omega, ?_, ?_, ?_, ?_, ?_⟩
    · rw [program_length]; omega
    · intro hf
      rw [hof] at hf
      have h2 := i2 hf
      have l1 := congrArg List.length h2.stress
      have l2 := congrArg List.length i1.stress
      rw [l1] at l2
      rw [List.length_map, List.length_map, hprog, htake, List.length_take] at l2
      refine ⟨?_, h2.times⟩
      rw [program_length] at l2 ⊢
      omega
    · rw [hof]; exact h.symm
    · rw [i3, Series.toList]
      have : x.strain.before.reverse.length = a.nup := by
        rw [toList_len] at hlen; simpa using hlen
      rw [List.append_assoc, ← this, List.drop_left]
      exact i4
    · rw [i3, ← hlen, List.drop_left]
      exact i5

end Creep

/-- **C125.** A creep test along a unit direction, with exactly solved steps and a rate the code does not take for zero, runs
up to its stress at the given rate and then holds it over the given times. What is returned are the points of this program up
to where it was stopped, if it was, at least the whole loading; it is the whole program if the test did not fail. In the hold
the strains do not decrease, and none is above the limit. -/
theorem C125_program (a : Creep H) (c : Setup H) (hr : c.rtol = 0) (ha : c.atol = 0) (hs : norm2 a.sdir = 1)
    (hq : 1 / 10 ^ 8 < |a.srate|) (o : CreepOut H) (h : a.run c = some o) :
    (∃ k, a.nup + 1 ≤ k ∧ o.time = (a.program.take k).map Prod.fst ∧ o.stress = (a.program.take k).map Prod.snd) ∧
    (o.failed = false → o.time = a.program.map Prod.fst ∧ o.stress = a.program.map Prod.snd ∧
      o.history.length = o.strain.length) ∧
    o.strain.length = o.time.length ∧ (o.strain.drop a.nup).Pairwise (· ≤ ·) ∧
    ∀ e ∈ o.strain.drop (a.nup + 1), |e| ≤ a.elimit * ∑ k, |a.sdir k| := by
  obtain ⟨r, k, h1, h2, h3, h4, h5, h6, h7⟩ := Creep.run_went a c hr ha hs hq o h
  have et : o.time = r.time.toList := by rw [h5]; rfl
  have es : o.strain = r.strain.toList := by rw [h5]; rfl
  have er : o.stress = r.stress.toList := by rw [h5]; rfl
  have eh : o.history = r.d.stored.toList := by rw [h5]; rfl
  rw [et, es, er, eh]
  refine ⟨⟨k, h2, h1.time, h1.stress⟩, fun hf => ?_, ?_, List.isChain_iff_pairwise.1 h6, h7⟩
  · obtain ⟨hk, ht⟩ := h4 hf
    have hall : a.program.take k = a.program := List.take_of_length_le hk.ge
    refine ⟨by rw [h1.time, hall], by rw [h1.stress, hall], ?_⟩
    rw [h1.lengths, hall]
    have ht2 : r.d.t.toList.length = a.program.length := by rw [ht, h1.time, hall, List.length_map]
    obtain ⟨ops, ho, -⟩ := h1.run
    obtain ⟨m1, -, -, -, -, m6⟩ := run_lengths _ _ _ ho
    have hz : (c.driver a.T a.history).t.before = [] ∧ (c.driver a.T a.history).stored.before = [] := by
      cases a.history <;> exact ⟨rfl, rfl⟩
    rw [hz.1] at m1
    rw [hz.2] at m6
    rw [toList_len] at ht2 ⊢
    rw [m6]
    simpa [m1] using ht2
  · rw [h1.lengths, h1.time, List.length_map]

theorem diff_length (xs : List ℝ) : (diff xs).length = xs.length - 1 := by
  induction xs with
  | nil => rfl
  | cons x xs ih =>
    cases xs with
    | nil => rfl
    | cons y ys => simp only [diff, List.length_cons] at ih ⊢; omega

theorem diff_get (xs : List ℝ) (j : ℕ) (x y : ℝ) (hx : xs[j]? = some x) (hy : xs[j + 1]? = some y) :
    (diff xs)[j]? = some (y - x) := by
  induction xs generalizing j with
  | nil => simp at hx
  | cons z xs ih =>
    cases xs with
    | nil => simp at hy
    | cons w ys =>
      cases j with
      | zero => simp only [List.getElem?_cons_zero, List.getElem?_cons_succ, Option.some.injEq] at hx hy
                subst hx hy; rfl
      | succ j =>
        simp only [List.getElem?_cons_succ] at hx hy
        simpa [diff] using ih j (by simpa using hx) (by simpa using hy)

theorem inner_get {α : Type} (xs : List α) (ri j : ℕ) (x : α) (hj : ri + j + 1 < xs.length) (hx : xs[ri + j]? = some x) :
    (inner xs ri)[j]? = some x := by
  unfold inner
  rw [List.getElem?_dropLast, List.length_drop, if_pos (by omega), List.getElem?_drop, hx]

theorem inner_length {α : Type} (xs : List α) (ri : ℕ) : (inner xs ri).length = xs.length - ri - 1 := by
  simp [inner]

/-- **C125.** With `n` points kept of the hold, the lists of the hold have `n - 1` entries. Entry `j` belongs to point `j`
of the hold, counted from zero: its time and strain are those since point zero, its total strain that of the point, its rate
the change of the strain to the next point over the change of the time. The last point has no entry. -/
theorem C125_reported (a : Creep H) (c : Setup H) (hr : c.rtol = 0) (ha : c.atol = 0) (hs : norm2 a.sdir = 1)
    (hq : 1 / 10 ^ 8 < |a.srate|) (o : CreepOut H) (h : a.run c = some o) :
    o.rtime.length = o.strain.length - (a.nup + 2) ∧ o.rstrain.length = o.strain.length - (a.nup + 2) ∧
    o.tstrain.length = o.strain.length - (a.nup + 2) ∧ o.rrate.length = o.strain.length - (a.nup + 2) ∧
    ∀ j e0 e e1, o.strain[a.nup + 1]? = some e0 → o.strain[a.nup + 1 + j]? = some e →
      o.strain[a.nup + 1 + j + 1]? = some e1 →
      o.rtime[j]? = some (a.since j - a.since 0) ∧ o.rstrain[j]? = some (e - e0) ∧ o.tstrain[j]? = some e ∧
      o.rrate[j]? = some ((e1 - e) / (a.since (j + 1) - a.since j)) := by
  obtain ⟨r, k, h1, h2, h3, -, h5, -, -⟩ := Creep.run_went a c hr ha hs hq o h
  have et : o.time = r.time.toList := by rw [h5]; rfl
  have es : o.strain = r.strain.toList := by rw [h5]; rfl
  have e1 : o.rtime = if decide (a.nup + 1 + 1 < o.strain.length) then
      (inner o.time (a.nup + 1)).map (· - o.time.getD (a.nup + 1) 0) else [] := by rw [h5]; rfl
  have e2 : o.rstrain = if decide (a.nup + 1 + 1 < o.strain.length) then
      (inner o.strain (a.nup + 1)).map (· - o.strain.getD (a.nup + 1) 0) else [] := by rw [h5]; rfl
  have e3 : o.tstrain = inner o.strain (a.nup + 1) := by rw [h5]; rfl
  have e4 : o.rrate = List.zipWith (· / ·) (diff (o.strain.drop (a.nup + 1))) (diff (o.time.drop (a.nup + 1))) := by
    rw [h5]; rfl
  have hl : o.time.length = o.strain.length := by rw [et, es, h1.lengths, h1.time, List.length_map]
  have hk : o.strain.length = k := by rw [es, h1.lengths, List.length_take, min_eq_left h3]
  rw [Creep.program_length] at h3
  refine ⟨?_, ?_, ?_, ?_, ?_⟩
  · rw [e1]
    split_ifs with hc
    · rw [List.length_map, inner_length, hl]; omega
    · rw [decide_eq_true_eq] at hc
      simp only [List.length_nil]; omega
  · rw [e2]
    split_ifs with hc
    · rw [List.length_map, inner_length]; omega
    · rw [decide_eq_true_eq] at hc
      simp only [List.length_nil]; omega
  · rw [e3, inner_length]; omega
  · rw [e4, List.length_zipWith, diff_length, diff_length, List.length_drop, List.length_drop, hl, min_self]; omega
  · intro j x0 x x1 hx0 hx hx1
    have hj : a.nup + 1 + j + 1 < o.strain.length := (List.getElem?_eq_some_iff.1 hx1).1
    have time : ∀ m, m ≤ j + 1 → o.time[a.nup + 1 + m]? = some (a.since m + |a.smax| / |a.srate|) := by
      intro m hm
      rw [et, h1.time, List.getElem?_map, List.getElem?_take_of_lt (by omega), Creep.program,
        List.getElem?_append_right (by rw [Creep.start_length]; omega), Creep.start_length, List.getElem?_map,
        List.getElem?_range (by omega)]
      simp
    have t0 : o.time.getD (a.nup + 1) 0 = a.since 0 + |a.smax| / |a.srate| := by
      have := time 0 (by omega)
      rw [List.getD_eq_getElem?_getD]
      rw [Nat.add_zero] at this
      rw [this]; rfl
    have x00 : o.strain.getD (a.nup + 1) 0 = x0 := by
      rw [List.getD_eq_getElem?_getD, hx0]; rfl
    have hc : (decide (a.nup + 1 + 1 < o.strain.length)) = true := by rw [decide_eq_true_eq]; omega
    refine ⟨?_, ?_, ?_, ?_⟩
    · rw [e1, if_pos hc, List.getElem?_map, inner_get _ _ _ _ (by omega) (time j (by omega)), t0]
      simp
    · rw [e2, if_pos hc, List.getElem?_map, inner_get _ _ _ _ hj hx, x00]
      simp
    · rw [e3, inner_get _ _ _ _ hj hx]
    · rw [e4, List.getElem?_zipWith, diff_get _ j x x1 (by rw [List.getElem?_drop]; exact hx)
        (by rw [List.getElem?_drop]; exact hx1),
        diff_get _ j _ _ (by rw [List.getElem?_drop]; exact time j (by omega))
          (by rw [List.getElem?_drop]; exact time (j + 1) le_rfl)]
      simp

/-- **C125, disagreement.** The reported times and strains of the hold are not counted from its start. With even steps the
entry for a point that is `t` after the start of the hold is reported at `t - hold / nsteps`, and the strain of the first
step of the hold, in which the creep is fastest, is missing in all of them: the strain since the end of the loading is the
reported strain plus that of the first step. -/
theorem C125_origin (a : Creep H) (c : Setup H) (hr : c.rtol = 0) (ha : c.atol = 0) (hs : norm2 a.sdir = 1)
    (hq : 1 / 10 ^ 8 < |a.srate|) (hl : a.log = false) (o : CreepOut H) (h : a.run c = some o) (j : ℕ) (t x : ℝ)
    (ht : o.rtime[j]? = some t) (hx : o.rstrain[j]? = some x) :
    o.time[a.nup + 1 + j]? = some (|a.smax| / |a.srate| + (t + a.hold / a.nsteps)) ∧
    ∃ ez e0 e, o.strain[a.nup]? = some ez ∧ o.strain[a.nup + 1]? = some e0 ∧ o.strain[a.nup + 1 + j]? = some e ∧
      e - ez = x + (e0 - ez) := by
  obtain ⟨l1, -, -, -, hget⟩ := C125_reported a c hr ha hs hq o h
  have hj : j < o.strain.length - (a.nup + 2) := by
    rw [← l1]
    exact (List.getElem?_eq_some_iff.1 ht).1
  obtain ⟨g1, g2, -, -⟩ := hget j _ _ _ (List.getElem?_eq_getElem (by omega)) (List.getElem?_eq_getElem (by omega))
    (List.getElem?_eq_getElem (by omega))
  rw [ht] at g1
  rw [hx] at g2
  refine ⟨?_, _, _, _, List.getElem?_eq_getElem (by omega), List.getElem?_eq_getElem (by omega),
    List.getElem?_eq_getElem (by omega), ?_⟩
  · obtain ⟨r, k, h1, h2, h3, -, h5, -, -⟩ := Creep.run_went a c hr ha hs hq o h
    have et : o.time = r.time.toList := by rw [h5]; rfl
    have es : o.strain = r.strain.toList := by rw [h5]; rfl
    have hk : o.strain.length = k := by rw [es, h1.lengths, List.length_take, min_eq_left h3]
    rw [Creep.program_length] at h3
    rw [et, h1.time, List.getElem?_map, List.getElem?_take_of_lt (by omega), Creep.program,
      List.getElem?_append_right (by rw [Creep.start_length]; omega), Creep.start_length, List.getElem?_map,
      List.getElem?_range (by omega)]
    simp only [Option.some.injEq] at g1
    simp only [Nat.add_sub_cancel_left, Option.map_some, Option.some.injEq]
    rw [g1]
    simp only [Creep.since, hl, Bool.false_eq_true, if_false, Nat.cast_zero]
    ring
  · simp only [Option.some.injEq] at g2
    rw [g2]
    ring

/-- **C125, disagreement.** With logarithmic steps the first point of the hold is one unit of time after its start, however
short the hold is: with a hold shorter than that the first step of the hold ends after the hold, and the test goes back in
time from there. -/
theorem C125_log (a : Creep H) (hl : a.log = true) (h0 : 0 < a.hold) (h1 : a.hold < 1) (hn : 2 ≤ a.nsteps) :
    a.since 0 = 1 ∧ a.since (a.nsteps - 1) = a.hold ∧ a.since (a.nsteps - 1) < a.since 0 := by
  have e0 : a.since 0 = 1 := by simp [Creep.since, hl]
  have hn1 : ((a.nsteps - 1 : ℕ) : ℝ) ≠ 0 := by
    have : a.nsteps - 1 ≠ 0 := by omega
    exact_mod_cast this
  have h10 : Real.log 10 ≠ 0 := by
    refine Real.log_ne_zero_of_pos_of_ne_one (by norm_num) (by norm_num)
  have e1 : a.since (a.nsteps - 1) = a.hold := by
    simp only [Creep.since, hl, if_true]
    rw [mul_div_assoc, mul_div_assoc', mul_comm, mul_div_assoc, div_self hn1, mul_one,
      Real.rpow_def_of_pos (by norm_num), mul_div_cancel₀ _ h10, Real.exp_log h0]
  exact ⟨e0, e1, by rw [e0, e1]; exact h1⟩

namespace Creep

/-- The hold with an elastic material. -/
theorem down_elastic {c : Setup H} (hr : c.rtol = 0) (ha : c.atol = 0) (hi : 0 < c.miter) (a : Creep H)
    (hs : norm2 a.sdir = 1) (C : Matrix (Fin 6) (Fin 6) ℝ) (hm : IsElastic c.model C) (hC : C.det ≠ 0)
    (hd : ∀ h, a.damage h = false) (ts : List ℝ) (x : Rec H) (path : List (ℝ × ℝ)) (t s : ℝ)
    (h : OnS (c.driver a.T a.history) a.T a.sdir x path) (hp : path.getLast? = some (t, s))
    (hl : ∀ i, |x.d.strain.last i| ≤ a.elimit) (hx : x.strain.last = x.d.strain.last ⬝ᵥ a.sdir) :
    (a.down ts x).2 = false := by
  obtain ⟨f1, f2⟩ : (c.driver a.T a.history).rtol = c.rtol ∧ (c.driver a.T a.history).atol = c.atol := by
    cases a.history <;> exact ⟨rfl, rfl⟩
  induction ts generalizing x path t with
  | nil => rfl
  | cons t1 ts ih =>
    obtain ⟨d', h1, h2⟩ := stressStep_on hr ha hi C hm hC h x.d.stress.last t1
    rw [sub_self, mulVec_zero, sub_eq_zero] at h2
    rw [down, h1]
    simp only
    rw [if_neg]
    · obtain ⟨-, e2⟩ := stressHold_on (f1.trans hr) (f2.trans ha) hs t1 x path t s h hp d' h1
      exact ih _ _ t1 e2 (by simp) (by simp only [Rec.note]; rw [h2]; exact hl) rfl
    · rw [h2, hx, hd]
      simp only [lt_self_iff_false, Bool.false_eq_true, or_self, or_false, not_exists, not_lt]
      exact hl

/-- **C125.** With a linear elastic material, exact solves and no damage check, a creep test is run to its end, if no
component of the strain is above the limit. -/
theorem C125_elastic (a : Creep H) (c : Setup H) (hr : c.rtol = 0) (ha : c.atol = 0) (hi : 0 < c.miter)
    (hs : norm2 a.sdir = 1) (hq : 1 / 10 ^ 8 < |a.srate|) (C : Matrix (Fin 6) (Fin 6) ℝ) (hm : IsElastic c.model C)
    (hC : C.det ≠ 0) (hn : a.nup ≠ 0) (hd : ∀ h, a.damage h = false)
    (hl : ∀ i, |(C⁻¹ *ᵥ a.smax • a.sdir) i| ≤ a.elimit) :
    ∃ o, a.run c = some o ∧ o.failed = false := by
  obtain ⟨f1, f2, f3⟩ : (c.driver a.T a.history).rtol = c.rtol ∧ (c.driver a.T a.history).atol = c.atol ∧
      (c.driver a.T a.history).t.before.length = (c.driver a.T a.history).strain.before.length := by
    cases a.history <;> exact ⟨rfl, rfl, rfl⟩
  have hf : ∀ x path t s, OnS (c.driver a.T a.history) a.T a.sdir x path → path.getLast? = some (t, s) →
      WentS (c.driver a.T a.history) a.T a.sdir x path [(t + |a.smax / a.nup| / |a.srate|, s + a.smax / a.nup)]
        (match x.d.srateSincStep a.sdir a.srate (a.smax / a.nup) a.T with
          | none => .stop x
          | some d' => .ok (x.note a.sdir d' d'.t.last)) := by
    intro x path t s h hp
    cases hx : x.d.srateSincStep a.sdir a.srate (a.smax / a.nup) a.T with
    | none => exact ⟨0, by simpa using h.off f3, Ext.refl _⟩
    | some d' =>
      exact ⟨srateSinc_on (f1.trans hr) (f2.trans ha) hs a.srate _ hq x path t s h hp d' hx,
        Ext.note _ _ (.srateSinc a.sdir a.srate (a.smax / a.nup) a.T) _ hx _⟩
  obtain ⟨x, hx⟩ := StressCyclic.loop_okS hf (fun x path h => by
    obtain ⟨d', hd, -⟩ := srateSinc_step hr ha hi C hm hC hs a.srate (a.smax / a.nup) hq h
    exact ⟨_, by rw [hd]⟩) a.nup _ _ 0 0 (StressCyclic.new_onS c a.T a.history a.sdir) rfl
  have hup : a.up (Rec.new (c.driver a.T a.history)) = .ok x := hx
  obtain ⟨w, p⟩ := up_went hr ha a hs hq hn x hup
  refine ⟨_, by rw [run, if_neg hn, hup], ?_⟩
  simp only [out]
  refine down_elastic hr ha hi a hs C hm hC hd _ x _ _ _ w p ?_ ?_
  · obtain ⟨-, -, -, -, m5⟩ := w.elastic C hm
    have : x.d.strain.last = C⁻¹ *ᵥ a.smax • a.sdir := by
      rw [← w.lastStress p, m5, mulVec_mulVec, nonsing_inv_mul C (Ne.isUnit hC), one_mulVec]
    rw [this]
    exact hl
  · have h1 := w.strains
    rw [Series.toList, List.map_append, List.map_cons, List.map_nil, Series.toList] at h1
    have := congrArg List.getLast? h1
    simp at this
    exact this.symm

end Creep

/-- A concrete creep test, on the identity stiffness. -/
example : ∃ o, (⟨1 / 100, 1 / 1000, 100, 300, 5, 3, ![1, 0, 0, 0, 0, 0], false, none, 1, fun _ => false⟩ : Creep ℕ).run
    (⟨counter, 0, 0, 25, 0⟩ : Setup ℕ) = some o ∧ o.failed = false := by
  have hs : norm2 (![1, 0, 0, 0, 0, 0] : Fin 6 → ℝ) = 1 := by simp [norm2, Fin.sum_univ_six]
  refine Creep.C125_elastic _ _ rfl rfl (by norm_num) hs (by norm_num [abs_of_pos]) 1 counter_elastic (by simp)
    (by norm_num) (fun _ => rfl) fun i => ?_
  simp only [inv_one, one_mulVec]
  fin_cases i <;> norm_num [abs_of_pos]

/-! ## C126: isochronous curves -/

/-- **C126, disagreement.** The strain used for an isochronous curve at a time is not the strain at this time: with even
steps it is that of the last but one point of the creep test, at `time (nsteps - 1) / nsteps`, although the creep test went on
to the time. -/
theorem C126_time (a : Creep H) (c : Setup H) (hr : c.rtol = 0) (ha : c.atol = 0) (hs : norm2 a.sdir = 1)
    (hq : 1 / 10 ^ 8 < |a.srate|) (hl : a.log = false) (hn : 2 ≤ a.nsteps) (stress e : ℝ)
    (h : isoStrain c a stress = some (e, false)) :
    ∃ o : CreepOut H, ({ a with smax := stress } : Creep H).run c = some o ∧
      o.strain[a.nup + a.nsteps - 1]? = some e ∧
      o.time[a.nup + a.nsteps - 1]? = some (|stress| / |a.srate| + a.hold * (a.nsteps - 1) / a.nsteps) ∧
      o.time[a.nup + a.nsteps]? = some (|stress| / |a.srate| + a.hold) ∧ o.time.length = a.nup + a.nsteps + 1 := by
  unfold isoStrain at h
  cases ho : ({ a with smax := stress } : Creep H).run c with
  | none => rw [ho] at h; cases h
  | some o =>
    rw [ho] at h
    simp only at h
    cases hl' : o.tstrain.getLast? with
    | none => rw [hl'] at h; cases h
    | some e' =>
      rw [hl'] at h
      simp only [Option.some.injEq, Prod.mk.injEq] at h
      obtain ⟨rfl, hf⟩ := h
      obtain ⟨-, p2, p3, -⟩ := C125_program ({ a with smax := stress } : Creep H) c hr ha hs hq o ho
      obtain ⟨p21, -, -⟩ := p2 hf
      have hnr : (a.nsteps : ℝ) ≠ 0 := by
        have : a.nsteps ≠ 0 := by omega
        exact_mod_cast this
      have htl : o.time.length = a.nup + a.nsteps + 1 := by
        rw [p21, List.length_map, Creep.program_length]
        simp only
        omega
      obtain ⟨-, -, q3, -, hget⟩ := C125_reported ({ a with smax := stress } : Creep H) c hr ha hs hq o ho
      simp only at q3 hget
      have time : ∀ m, m < a.nsteps → o.time[a.nup + 1 + m]? =
          some (a.hold * ((m : ℝ) + 1) / a.nsteps + |stress| / |a.srate|) := by
        intro m hm
        rw [p21, List.getElem?_map, Creep.program,
          List.getElem?_append_right (by rw [Creep.start_length]; simp only; omega), Creep.start_length, List.getElem?_map]
        simp only [Nat.add_sub_cancel_left]
        rw [List.getElem?_range (by simpa using hm)]
        simp [Creep.since, hl]
      refine ⟨o, rfl, ?_, ?_, ?_, htl⟩
      · have hj : a.nup + 1 + (a.nsteps - 2) + 1 < o.strain.length := by rw [p3, htl]; omega
        obtain ⟨-, -, g3, -⟩ := hget (a.nsteps - 2) _ _ _ (List.getElem?_eq_getElem (by omega))
          (List.getElem?_eq_getElem (by omega)) (List.getElem?_eq_getElem hj)
        rw [List.getLast?_eq_getElem?] at hl'
        have hidx : o.tstrain.length - 1 = a.nsteps - 2 := by rw [q3, p3, htl]; omega
        rw [hidx, g3] at hl'
        rw [← hl', ← List.getElem?_eq_getElem]
        congr 1
        omega
      · have := time (a.nsteps - 2) (by omega)
        rw [show a.nup + a.nsteps - 1 = a.nup + 1 + (a.nsteps - 2) by omega, this]
        congr 1
        rw [Nat.cast_sub (by omega)]
        push_cast
        ring
      · have := time (a.nsteps - 1) (by omega)
        rw [show a.nup + a.nsteps = a.nup + 1 + (a.nsteps - 1) by omega, this]
        congr 1
        rw [Nat.cast_sub (by omega)]
        push_cast
        rw [sub_add_cancel, mul_div_assoc, div_self hnr]
        ring

end Neml.DriverTests
