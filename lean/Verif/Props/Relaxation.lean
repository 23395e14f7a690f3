import Verif.Props.CreepTest

/-!
# C124: what a relaxation test records and reports -/

namespace Neml.DriverTests

open Matrix Neml.Driver Neml.PySolve Neml.Uniaxial

variable {H : Type}

/-- Times after steps from `t`. -/
def sums (t : ℝ) : List ℝ → List ℝ
  | [] => []
  | dt :: dts => (t + dt) :: sums (t + dt) dts

theorem sums_length (t : ℝ) (dts : List ℝ) : (sums t dts).length = dts.length := by
  induction dts generalizing t with
  | nil => rfl
  | cons dt dts ih => simp [sums, ih]

theorem sums_diff (t x : ℝ) (xs : List ℝ) : sums t (diff (x :: xs)) = xs.map fun y => t + (y - x) := by
  induction xs generalizing t x with
  | nil => rfl
  | cons y ys ih =>
    simp only [diff, sums, List.map_cons, ih]
    congr 1
    refine List.map_congr_left fun z _ => ?_
    ring

theorem sums_replicate (t dt : ℝ) (n : ℕ) :
    sums t (List.replicate n dt) = (List.range n).map fun k : ℕ => t + ((k : ℝ) + 1) * dt := by
  induction n generalizing t with
  | zero => rfl
  | succ n ih =>
    rw [List.replicate_succ, sums, ih, List.range_succ_eq_map, List.map_cons, List.map_map]
    congr 1
    · simp
    · refine List.map_congr_left fun k _ => ?_
      simp only [Function.comp_apply, Nat.succ_eq_add_one, Nat.cast_add, Nat.cast_one]
      ring

namespace Relax

/-- The points (time and strain) of the loading. -/
noncomputable def start (a : Relax) : List (ℝ × ℝ) :=
  (0, 0) :: leg 0 0 (a.emax / a.nup / a.erate) (a.emax / a.nup) a.nup

open Classical in
/-- The time since the start of the hold of point `j` of it, counted from zero. -/
noncomputable def since (a : Relax) (j : ℕ) : ℝ :=
  if a.log then (10 : ℝ) ^ (((j : ℝ) + 1) * (Real.log a.hold / Real.log 10) / a.nsteps) - 1
  else a.hold * ((j : ℝ) + 1) / a.nsteps

/-- The times of the test. -/
noncomputable def times (a : Relax) : List ℝ :=
  a.start.map Prod.fst ++ (List.range a.nsteps).map fun j : ℕ => a.emax / a.erate + a.since j

theorem start_length (a : Relax) : a.start.length = a.nup + 1 := by simp [start, leg_length]

theorem dts_length (a : Relax) : a.dts.length = a.nsteps := by
  unfold dts
  by_cases hl : a.log
  · rw [if_pos hl, diff_length]; simp [logspace]
  · rw [if_neg hl]; simp

theorem sums_dts (a : Relax) (t : ℝ) : sums t a.dts = (List.range a.nsteps).map fun j : ℕ => t + a.since j := by
  unfold dts since
  by_cases hl : a.log
  · simp only [hl, if_true]
    rw [logspace, List.range_succ_eq_map, List.map_cons, List.map_map, sums_diff, List.map_map]
    refine List.map_congr_left fun j _ => ?_
    simp
  · simp only [hl, Bool.false_eq_true, if_false]
    rw [sums_replicate]
    refine List.map_congr_left fun j _ => ?_
    ring

theorem dot_sdir (a : Relax) (v : Fin 6 → ℝ) : v ⬝ᵥ a.sdir = v a.index * a.tc := by
  rw [sdir, dotProduct_single]

theorem norm_sdir (a : Relax) (h : |a.tc| = 1) : norm2 a.sdir = 1 := by
  have h1 : norm2 a.sdir ^ 2 = 1 := by
    have := dot_self_norm a.sdir
    rw [dot_sdir, sdir, Pi.single_eq_same] at this
    rw [sdir, ← this, ← sq, ← sq_abs, h, one_pow]
  exact (pow_eq_one_iff_of_nonneg (norm2_nonneg _) two_ne_zero).1 h1

theorem up_went {c : Setup H} (hr : c.rtol = 0) (ha : c.atol = 0) (a : Relax) (hs : |a.tc| = 1) (hn : a.nup ≠ 0)
    (x : Rec H × Guess) (h : a.up (Rec.new (c.driver a.T none)) = .ok x) :
    On (c.driver a.T none) a.T a.sdir x.1 a.start ∧ a.start.getLast? = some (a.emax / a.erate, a.emax) := by
  have hnr : (a.nup : ℝ) ≠ 0 := by exact_mod_cast hn
  have h0 : (c.driver a.T none).t.before.length = (c.driver a.T none).stress.before.length := rfl
  have w0 : On (c.driver a.T none) a.T a.sdir (Rec.new (c.driver a.T none)) [(0, 0)] := by
    refine ⟨?_, ?_, ?_, ?_, ?_, [], rfl, by simp⟩ <;>
      simp [Rec.new, Setup.driver, Driver.new, Series.toList]
  have w : Went (c.driver a.T none) a.T a.sdir (Rec.new (c.driver a.T none)) [(0, 0)]
      (leg 0 0 (a.emax / a.nup / a.erate) (a.emax / a.nup) a.nup) (a.up (Rec.new (c.driver a.T none))) := by
    refine loop_leg (fun x path t e h hp => ?_) a.nup (Rec.new (c.driver a.T none), none) _ 0 0 w0 rfl
    have hdt : x.1.d.t.last = t := by
      refine toList_last (h.times.trans h.time) ?_
      rw [List.getLast?_map, hp]; rfl
    obtain ⟨ops, ho, -⟩ := h.run
    obtain ⟨tr, ta, -⟩ := run_tol _ _ _ ho
    cases hx : x.1.d.erateEincStep a.sdir a.erate (a.emax / a.nup) a.T (x.2.map Prod.fst) (x.2.map Prod.snd) with
    | none => exact ⟨0, by simpa using h.off h0, Ext.refl _⟩
    | some q =>
      obtain ⟨d', de, s⟩ := q
      have hstep : x.1.d.step (.erateEinc a.sdir a.erate (a.emax / a.nup) a.T (x.2.map Prod.fst) (x.2.map Prod.snd)) =
          some d' := by
        simp [Driver.step, hx]
      obtain ⟨h3, h4, -⟩ := C71_einc _ (tr.trans hr) (ta.trans ha) _ (norm_sdir a hs) _ _ _ _ _ _ _ _ hx
      simp only
      rw [h3, hdt]
      exact ⟨h.note hp _ d' hstep rfl _ _ (by rw [h3, hdt]) (by rw [h4, norm_sdir a hs, one_mul]),
        Ext.note _ _ _ _ hstep _⟩
  rw [h] at w
  have p := leg_last [((0 : ℝ), (0 : ℝ))] 0 0 (a.emax / a.nup / a.erate) (a.emax / a.nup) a.nup rfl
  refine ⟨w.1, ?_⟩
  rw [start, ← List.singleton_append, p, zero_add, zero_add, mul_div_cancel₀ _ hnr]
  congr 2
  field_simp

theorem down_went (a : Relax) (dts : List ℝ) (x y : Rec H) (hr : x.d.rtol = 0) (ha : x.d.atol = 0)
    (h : a.down dts x = some y) :
    y.time.toList = x.time.toList ++ sums x.d.t.last dts ∧
    (∀ k, k ≠ a.index → y.d.stress.last k = x.d.stress.last k) ∧
    ∃ es ss : List ℝ, y.strain.toList = x.strain.toList ++ es ∧ y.stress.toList = x.stress.toList ++ ss ∧
      es.length = dts.length ∧ ss.length = dts.length ∧
      ∀ (j : ℕ) (e s : ℝ), es[j]? = some e → ss[j]? = some s →
        e + (a.q - 1) * (s / a.E) = x.d.strain.last ⬝ᵥ a.sdir + (a.q - 1) * (x.d.stress.last ⬝ᵥ a.sdir / a.E) := by
  induction dts generalizing x with
  | nil =>
    simp only [down, Option.some.injEq] at h
    subst h
    exact ⟨by simp [sums], fun _ _ => rfl, [], [], by simp, by simp, rfl, rfl, by simp⟩
  | cons dt dts ih =>
    rw [down] at h
    cases hx : x.d.holdStep a.index (x.d.t.last + dt) a.T a.q a.E with
    | none => rw [hx] at h; cases h
    | some d' =>
      rw [hx] at h
      simp only at h
      obtain ⟨h1, h2, -⟩ := C71_hold x.d d' hr ha _ _ _ _ _ hx
      obtain ⟨e1, t2, hst, ht⟩ := step_strain x.d d' (.hold a.index (x.d.t.last + dt) a.T a.q a.E) hx
      obtain ⟨_, -, -, -, r1, r2, -, -, -, -, -, -, -, -, h7, -⟩ := strainStep_spec x.d d' e1 t2 _ hst
      have htl : d'.t.last = x.d.t.last + dt := by rw [h7, ← ht _ rfl]; rfl
      obtain ⟨i1, i2, es, ss, i3, i4, i5, i6, i7⟩ := ih (x.note a.sdir d' d'.t.last) (r1.trans hr) (r2.trans ha) h
      have hinv : d'.strain.last ⬝ᵥ a.sdir + (a.q - 1) * (d'.stress.last ⬝ᵥ a.sdir / a.E) =
          x.d.strain.last ⬝ᵥ a.sdir + (a.q - 1) * (x.d.stress.last ⬝ᵥ a.sdir / a.E) := by
        simp only [dot_sdir]
        linear_combination a.tc * h2
      refine ⟨?_, fun k hk => (i2 k hk).trans (h1 k hk), d'.strain.last ⬝ᵥ a.sdir :: es, d'.stress.last ⬝ᵥ a.sdir :: ss, ?_, ?_,
        by simp [i5], by simp [i6], ?_⟩
      · rw [i1, sums]
        simp [Rec.note, Series.push_toList, htl]
      · rw [i3]; simp [Rec.note, Series.push_toList]
      · rw [i4]; simp [Rec.note, Series.push_toList]
      · intro j e s he hs
        cases j with
        | zero =>
          simp only [List.getElem?_cons_zero, Option.some.injEq] at he hs
          rw [← he, ← hs]
          exact hinv
        | succ j =>
          simp only [List.getElem?_cons_succ] at he hs
          rw [i7 j e s he hs]
          exact hinv

end Relax

/-- **C124.** A relaxation test with exactly solved steps, along or against one of the axes, goes up to its strain at the given
rate and then holds. The times are those of the program. In the hold the strain plus the follow-up, the stress over the
modulus times the factor less one, is what it was at the end of the loading. -/
theorem C124_program (a : Relax) (c : Setup H) (hr : c.rtol = 0) (ha : c.atol = 0) (hs : |a.tc| = 1) (o : RelaxOut)
    (h : a.run c = some o) :
    o.time = a.times ∧ o.strain.length = a.nup + 1 + a.nsteps ∧ o.stress.length = a.nup + 1 + a.nsteps ∧
    o.strain.take (a.nup + 1) = a.start.map Prod.snd ∧ o.strain[a.nup]? = some a.emax ∧
    ∀ s0 j e s, o.stress[a.nup]? = some s0 → o.strain[a.nup + 1 + j]? = some e → o.stress[a.nup + 1 + j]? = some s →
      e + (a.q - 1) * (s / a.E) = a.emax + (a.q - 1) * (s0 / a.E) := by
  unfold Relax.run at h
  split_ifs at h with hn
  rw [not_or] at hn
  cases hx : a.up (Rec.new (c.driver a.T none)) with
  | stop r' => rw [hx] at h; cases h
  | ok x =>
    rw [hx] at h
    obtain ⟨x, g⟩ := x
    obtain ⟨w, p⟩ := Relax.up_went hr ha a hs hn.1 _ hx
    simp only at w h
    simp only [Option.map_eq_some_iff] at h
    obtain ⟨y, hy, rfl⟩ := h
    obtain ⟨ops, ho, -⟩ := w.run
    obtain ⟨tr, ta, -⟩ := run_tol _ _ _ ho
    obtain ⟨i1, -, es, ss, i3, i4, i5, i6, i7⟩ := Relax.down_went a _ x y (tr.trans hr) (ta.trans ha) hy
    have hn1 := Relax.norm_sdir a hs
    have hst : x.strain.toList = a.start.map Prod.snd := by
      rw [w.strain]
      refine List.map_congr_left fun q _ => ?_
      rw [hn1, one_mul]
    have hl1 : x.strain.toList.length = a.nup + 1 := by rw [hst, List.length_map, Relax.start_length]
    have hl2 : x.stress.toList.length = a.nup + 1 := by rw [(w.off rfl).lengths, Relax.start_length]
    have hdt : x.d.t.last = a.emax / a.erate := toList_last (w.times.trans w.time) (by rw [List.getLast?_map, p]; rfl)
    have hemax : x.strain.last = a.emax := toList_last hst (by rw [List.getLast?_map, p]; rfl)
    have hsd : x.d.strain.last ⬝ᵥ a.sdir = a.emax := by
      rw [← hemax]
      refine (toList_last w.strains.symm ?_).symm
      simp [Series.toList]
    have hsl : x.d.stress.last ⬝ᵥ a.sdir = x.stress.last := by
      refine (toList_last w.stresses.symm ?_).symm
      simp [Series.toList]
    rw [Relax.dts_length] at i5 i6
    refine ⟨?_, ?_, ?_, ?_, ?_, ?_⟩
    · change y.time.toList = _
      rw [i1, w.time, hdt, Relax.sums_dts, Relax.times]
    · change y.strain.toList.length = _
      rw [i3, List.length_append, hl1, i5]
    · change y.stress.toList.length = _
      rw [i4, List.length_append, hl2, i6]
    · change y.strain.toList.take _ = _
      rw [i3, ← hl1, List.take_left, hst]
    · change y.strain.toList[a.nup]? = _
      rw [i3, List.getElem?_append_left (by omega), hst, List.getElem?_map]
      have : a.start[a.nup]? = some (a.emax / a.erate, a.emax) := by
        rw [List.getLast?_eq_getElem?, Relax.start_length] at p
        exact p
      rw [this]; rfl
    · intro s0 j e s h0 he hs'
      change y.stress.toList[a.nup]? = _ at h0
      change y.strain.toList[a.nup + 1 + j]? = _ at he
      change y.stress.toList[a.nup + 1 + j]? = _ at hs'
      rw [i4, List.getElem?_append_left (by omega)] at h0
      rw [i3, List.getElem?_append_right (by omega), hl1, Nat.add_sub_cancel_left] at he
      rw [i4, List.getElem?_append_right (by omega), hl2, Nat.add_sub_cancel_left] at hs'
      have h0' : x.stress.last = s0 := by
        refine toList_last rfl ?_
        rw [List.getLast?_eq_getElem?, hl2]
        exact h0
      rw [i7 j e s he hs', hsd, hsl, h0']

/-- **C124.** Without follow-up the strain is held. -/
theorem C124_held (a : Relax) (c : Setup H) (hr : c.rtol = 0) (ha : c.atol = 0) (hs : |a.tc| = 1) (hq : a.q = 1)
    (o : RelaxOut) (h : a.run c = some o) :
    o.strain = a.start.map Prod.snd ++ List.replicate a.nsteps a.emax := by
  obtain ⟨-, h2, h3, h4, -, h6⟩ := C124_program a c hr ha hs o h
  refine List.ext_getElem? fun i => ?_
  rcases Nat.lt_or_ge i (a.nup + 1) with hi | hi
  · have hl : i < (a.start.map Prod.snd).length := by rw [List.length_map, Relax.start_length]; exact hi
    rw [List.getElem?_append_left hl, ← h4, List.getElem?_take_of_lt hi]
  · rw [List.getElem?_append_right (by rw [List.length_map, Relax.start_length]; exact hi), List.length_map,
      Relax.start_length]
    rcases Nat.lt_or_ge i (a.nup + 1 + a.nsteps) with hj | hj
    · rw [List.getElem?_replicate, if_pos (by omega)]
      have e1 : o.strain[a.nup + 1 + (i - (a.nup + 1))]? = some (o.strain[i]'(by omega)) := by
        rw [show a.nup + 1 + (i - (a.nup + 1)) = i by omega]
        exact List.getElem?_eq_getElem _
      have e2 : o.stress[a.nup + 1 + (i - (a.nup + 1))]? = some (o.stress[i]'(by omega)) := by
        rw [show a.nup + 1 + (i - (a.nup + 1)) = i by omega]
        exact List.getElem?_eq_getElem _
      have := h6 _ _ _ _ (List.getElem?_eq_getElem (by omega)) e1 e2
      rw [hq, sub_self, zero_mul, zero_mul, add_zero, add_zero] at this
      rw [List.getElem?_eq_getElem (by omega), this]
    · rw [List.getElem?_eq_none (by omega), List.getElem?_eq_none (by simp; omega)]

theorem times_get (a : Relax) (j : ℕ) (hj : j < a.nsteps) :
    a.times[a.nup + 1 + j]? = some (a.emax / a.erate + a.since j) := by
  rw [Relax.times, List.getElem?_append_right (by rw [List.length_map, Relax.start_length]; omega), List.length_map,
    Relax.start_length, List.getElem?_map, Nat.add_sub_cancel_left, List.getElem?_range hj]
  rfl

/-- **C124.** The lists of the hold have one entry less than the hold has steps. Entry `j` belongs to point `j` of the hold,
counted from zero and the first after the loading: its time is that since point zero, its rate the fall of the stress to the
next point over the change of the time. -/
theorem C124_reported (a : Relax) (c : Setup H) (hr : c.rtol = 0) (ha : c.atol = 0) (hs : |a.tc| = 1) (o : RelaxOut)
    (h : a.run c = some o) :
    o.rtime.length = a.nsteps - 1 ∧ o.rstress.length = a.nsteps - 1 ∧ o.rstrain.length = a.nsteps - 1 ∧
    o.rrate.length = a.nsteps - 1 ∧ ∀ j s s1 e, o.stress[a.nup + 1 + j]? = some s → o.stress[a.nup + 1 + j + 1]? = some s1 →
      o.strain[a.nup + 1 + j]? = some e →
      o.rtime[j]? = some (a.since j - a.since 0) ∧ o.rstress[j]? = some s ∧ o.rstrain[j]? = some e ∧
      o.rrate[j]? = some ((s - s1) / (a.since (j + 1) - a.since j)) := by
  obtain ⟨ht, hl1, hl2, -⟩ := C124_program a c hr ha hs o h
  have hform : o.rtime = (inner o.time (a.nup + 1)).map (fun t => t - o.time.getD (a.nup + 1) 0) ∧
      o.rrate = List.zipWith (fun ds dt => -ds / dt) (diff (o.stress.drop (a.nup + 1))) (diff (o.time.drop (a.nup + 1))) ∧
      o.rstress = inner o.stress (a.nup + 1) ∧ o.rstrain = inner o.strain (a.nup + 1) := by
    unfold Relax.run at h
    split_ifs at h with hn
    rw [not_or] at hn
    cases hx : a.up (Rec.new (c.driver a.T none)) with
    | stop r' => rw [hx] at h; cases h
    | ok x =>
      rw [hx] at h
      obtain ⟨x, g⟩ := x
      obtain ⟨w, p⟩ := Relax.up_went hr ha a hs hn.1 _ hx
      simp only at w h
      simp only [Option.map_eq_some_iff] at h
      obtain ⟨y, hy, rfl⟩ := h
      have hri : x.d.strain.toList.length = a.nup + 1 := by
        have h1 := congrArg List.length w.strains
        rw [List.length_map, w.strain, List.length_map, Relax.start_length] at h1
        exact h1
      rw [hri]
      exact ⟨rfl, rfl, rfl, rfl⟩
  obtain ⟨f1, f2, f3, f4⟩ := hform
  have htl : o.time.length = a.nup + 1 + a.nsteps := by
    rw [ht]; simp [Relax.times, Relax.start_length]
  refine ⟨?_, ?_, ?_, ?_, ?_⟩
  · rw [f1, List.length_map, inner_length, htl]; omega
  · rw [f3, inner_length, hl2]; omega
  · rw [f4, inner_length, hl1]; omega
  · rw [f2, List.length_zipWith, diff_length, diff_length, List.length_drop, List.length_drop, htl, hl2, min_self]; omega
  · intro j s s1 e hs0 hs1 he
    have hj : a.nup + 1 + j + 1 < o.stress.length := (List.getElem?_eq_some_iff.1 hs1).1
    have t0 : o.time.getD (a.nup + 1) 0 = a.emax / a.erate + a.since 0 := by
      have := times_get a 0 (by omega)
      rw [List.getD_eq_getElem?_getD, ht]
      rw [Nat.add_zero] at this
      rw [this]; rfl
    have tj : o.time[a.nup + 1 + j]? = some (a.emax / a.erate + a.since j) := ht ▸ times_get a j (by omega)
    have tj1 : o.time[a.nup + 1 + (j + 1)]? = some (a.emax / a.erate + a.since (j + 1)) :=
      ht ▸ times_get a (j + 1) (by omega)
    refine ⟨?_, ?_, ?_, ?_⟩
    · rw [f1, List.getElem?_map, inner_get _ _ _ _ (by omega) tj, t0]
      simp
    · rw [f3, inner_get _ _ _ _ hj hs0]
    · rw [f4, inner_get _ _ _ _ (by omega) he]
    · rw [f2, List.getElem?_zipWith, diff_get _ j s s1 (by rw [List.getElem?_drop]; exact hs0)
        (by rw [List.getElem?_drop]; exact hs1),
        diff_get _ j _ _ (by rw [List.getElem?_drop]; exact tj) (by rw [List.getElem?_drop]; exact tj1)]
      simp

/-- **C124, disagreement.** The reported times of the relaxation are not counted from its start, and the stress it starts from
is not among the reported ones: with even steps the entry reported at time `t` belongs to the time `t + hold / nsteps` after
the end of the loading. -/
theorem C124_origin (a : Relax) (c : Setup H) (hr : c.rtol = 0) (ha : c.atol = 0) (hs : |a.tc| = 1) (hl : a.log = false)
    (o : RelaxOut) (h : a.run c = some o) (j : ℕ) (t s : ℝ) (ht : o.rtime[j]? = some t) (hx : o.rstress[j]? = some s) :
    o.time[a.nup + 1 + j]? = some (a.emax / a.erate + (t + a.hold / a.nsteps)) ∧ o.stress[a.nup + 1 + j]? = some s := by
  obtain ⟨e1, e2, e3, -⟩ := C124_program a c hr ha hs o h
  obtain ⟨l1, -, -, -, hget⟩ := C124_reported a c hr ha hs o h
  have hj : j < a.nsteps - 1 := by
    rw [← l1]
    exact (List.getElem?_eq_some_iff.1 ht).1
  obtain ⟨g1, g2, -⟩ := hget j _ _ _ (List.getElem?_eq_getElem (by omega)) (List.getElem?_eq_getElem (by omega))
    (List.getElem?_eq_getElem (by omega))
  rw [ht, Option.some.injEq] at g1
  rw [hx] at g2
  refine ⟨?_, by rw [g2]; exact List.getElem?_eq_getElem (by omega)⟩
  rw [e1, times_get a j (by omega), g1]
  simp only [Relax.since, hl, Bool.false_eq_true, if_false, Nat.cast_zero]
  congr 1
  ring

/-- **C124, disagreement.** With logarithmic steps the hold ends one unit of time early; a hold shorter than that goes
back in time. -/
theorem C124_log (a : Relax) (hl : a.log = true) (h0 : 0 < a.hold) (hn : a.nsteps ≠ 0) :
    a.since (a.nsteps - 1) = a.hold - 1 ∧ (a.hold < 1 → a.since (a.nsteps - 1) < 0) := by
  have hn1 : (a.nsteps : ℝ) ≠ 0 := by exact_mod_cast hn
  have h10 : Real.log 10 ≠ 0 := Real.log_ne_zero_of_pos_of_ne_one (by norm_num) (by norm_num)
  have e1 : a.since (a.nsteps - 1) = a.hold - 1 := by
    simp only [Relax.since, hl, if_true]
    rw [Nat.cast_sub (by omega), Nat.cast_one, sub_add_cancel, mul_comm, mul_div_assoc, div_self hn1, mul_one,
      Real.rpow_def_of_pos (by norm_num), mul_div_cancel₀ _ h10, Real.exp_log h0]
  exact ⟨e1, fun h => by rw [e1]; linarith⟩

/-- **C124.** With a linear elastic material and exact solves a relaxation test along x without follow-up is run, if the
stiffness is regular, also with the strain along x held. -/
theorem C124_elastic (a : Relax) (c : Setup H) (hr : c.rtol = 0) (ha : c.atol = 0) (hi : 0 < c.miter)
    (C : Matrix (Fin 6) (Fin 6) ℝ) (hm : IsElastic c.model C) (hC : C.det ≠ 0) (hd : a.sdir ⬝ᵥ C⁻¹ *ᵥ a.sdir ≠ 0)
    (hJ : (C.updateRow 0 (Pi.single 0 1)).det ≠ 0) (hx : a.index = 0) (hs : |a.tc| = 1) (hq : a.q = 1) (hE : a.E ≠ 0)
    (he : a.erate ≠ 0) (hem : a.emax ≠ 0) (hn : a.nup ≠ 0) (hn' : a.nsteps ≠ 0) : ∃ o, a.run c = some o := by
  have hnr : (a.nup : ℝ) ≠ 0 := by exact_mod_cast hn
  have w0 : On (c.driver a.T none) a.T a.sdir (Rec.new (c.driver a.T none)) [(0, 0)] := by
    refine ⟨?_, ?_, ?_, ?_, ?_, [], rfl, by simp⟩ <;>
      simp [Rec.new, Setup.driver, Driver.new, Series.toList]
  -- the loading
  have hup : ∀ (n : ℕ) (x : Rec H × Guess), x.1.d.rtol = 0 → x.1.d.atol = 0 → 0 < x.1.d.miter → x.1.d.model = c.model →
      ∃ y, loop (fun x => match x.1.d.erateEincStep a.sdir a.erate (a.emax / a.nup) a.T (x.2.map Prod.fst)
          (x.2.map Prod.snd) with
        | none => (.stop x.1 : Ended (Rec H) (Rec H × Guess))
        | some (d', de, s) => .ok (x.1.note a.sdir d' d'.t.last, some (de, s))) n x = .ok y := by
    intro n
    induction n with
    | zero => intro x _ _ _ _; exact ⟨x, rfl⟩
    | succ n ih =>
      intro x m1 m2 m3 m4
      obtain ⟨⟨d', de, s⟩, hx⟩ := C71_elastic_einc x.1.d m1.ge m2.ge m3 C (by rw [m4]; exact hm) hC a.sdir hd a.erate
        (a.emax / a.nup) a.T he (div_ne_zero hem hnr) (x.2.map Prod.fst) (x.2.map Prod.snd)
      have hstep : x.1.d.step (.erateEinc a.sdir a.erate (a.emax / a.nup) a.T (x.2.map Prod.fst) (x.2.map Prod.snd)) =
          some d' := by simp [Driver.step, hx]
      obtain ⟨e1, t2, hst, -⟩ := step_strain _ d' _ hstep
      obtain ⟨_, -, q1, -, q2, q3, q4, -⟩ := strainStep_spec _ d' e1 t2 _ hst
      simp only [loop, hx, Ended.andThen]
      exact ih _ (q2.trans m1) (q3.trans m2) (q4.symm ▸ m3) (q1.trans m4)
  obtain ⟨⟨x, g⟩, hup⟩ := hup a.nup (Rec.new (c.driver a.T none), none) hr ha hi rfl
  have hup' : a.up (Rec.new (c.driver a.T none)) = .ok (x, g) := hup
  obtain ⟨w, p⟩ := Relax.up_went hr ha a hs hn _ hup'
  obtain ⟨m1, m2, m3, m4⟩ := w.model
  -- the hold
  have hdown : ∀ (dts : List ℝ) (x : Rec H), x.d.rtol = 0 → x.d.atol = 0 → 0 < x.d.miter → x.d.model = c.model →
      ∃ y, a.down dts x = some y := by
    intro dts
    induction dts with
    | nil => intro x _ _ _ _; exact ⟨x, rfl⟩
    | cons dt dts ih =>
      intro x m1 m2 m3 m4
      have hrj : ∀ e, x.d.holdRJ 0 (x.d.t.last + dt) a.T 1 a.E e =
          some (C.updateRow 0 (Pi.single 0 1) *ᵥ e - Fin.cons (x.d.strain.last 0) (fun k : Fin 5 =>
            x.d.stress.last ((0 : Fin 6).succAbove k) + (C *ᵥ x.d.thermalNext a.T) ((0 : Fin 6).succAbove k)),
            C.updateRow 0 (Pi.single 0 1)) := by
        intro e
        obtain ⟨h, u, p, hc⟩ := (m4 ▸ hm : IsElastic x.d.model C) ⟨e - x.d.thermalNext a.T, x.d.mech.last, a.T, x.d.T.last,
          x.d.t.last + dt, x.d.t.last, x.d.stress.last, x.d.stored.last, x.d.u.last, x.d.p.last⟩
        unfold Driver.holdRJ
        rw [if_neg hE, Driver.call, hc]
        simp only [Option.map_some, Option.some.injEq, Prod.mk.injEq, sub_self, mul_zero, add_zero]
        refine ⟨?_, ?_⟩
        · funext r
          refine Fin.cases ?_ (fun k => ?_) r
          · simp [mulVec, dotProduct, Pi.single_apply, updateRow_self]
          · have h1 : (C.updateRow 0 (Pi.single 0 1) *ᵥ e) k.succ = (C *ᵥ e) k.succ := by
              rw [mulVec, mulVec, updateRow_ne (Fin.succ_ne_zero k)]
            rw [Pi.sub_apply, h1, Fin.cons_succ, Fin.cons_succ,
              show (0 : Fin 6).succAbove k = k.succ from Fin.zero_succAbove k, mulVec_sub, Pi.sub_apply]
            ring
        · ext r j
          rw [of_apply]
          refine Fin.cases ?_ (fun k => ?_) r
          · rw [Fin.cases_zero, updateRow_self, Pi.single_apply]
          · rw [Fin.cases_succ, updateRow_ne (Fin.succ_ne_zero k),
              show (0 : Fin 6).succAbove k = k.succ from Fin.zero_succAbove k]
      obtain ⟨e1, he1⟩ := solveTry_linear x.d m1.ge m2.ge m3 _ _ hJ _ hrj x.d.strain.last []
      obtain ⟨d', hd', -⟩ := strainStep_elastic x.d C (m4 ▸ hm) e1 (x.d.t.last + dt) a.T
      have hq1 : ¬ (¬ IsClose 1 1 ∧ IsClose a.E (-1)) := by
        rintro ⟨h, -⟩
        refine h ?_
        simp only [IsClose, sub_self, abs_zero]
        positivity
      have hh : x.d.holdStep a.index (x.d.t.last + dt) a.T a.q a.E = some d' := by
        unfold Driver.holdStep
        rw [hx, hq, if_neg hq1, he1]
        exact hd'
      obtain ⟨_, -, q1, -, q2, q3, q4, -⟩ := strainStep_spec _ d' _ _ _ hd'
      rw [Relax.down, hh]
      exact ih _ (q2.trans m1) (q3.trans m2) (q4.symm ▸ m3) (q1.trans m4)
  obtain ⟨y, hy⟩ := hdown a.dts x (m1.trans hr) (m2.trans ha) (m4.symm ▸ hi) m3
  exact ⟨Relax.out y x.d.strain.toList.length, by
    rw [Relax.run, if_neg (by simp [hn, hn']), hup']; simp only [hy, Option.map_some]⟩

/-- A concrete relaxation test, on the identity stiffness. -/
example : ∃ o, (⟨1 / 100, 1 / 1000, 100, 300, 5, 3, 0, 1, false, 1, 1⟩ : Relax).run (⟨counter, 0, 0, 25, 0⟩ : Setup ℕ) =
    some o := by
  refine C124_elastic _ _ rfl rfl (by norm_num) 1 counter_elastic (by simp) ?_ ?_ rfl (by norm_num) rfl (by norm_num)
    (by norm_num) (by norm_num) (by norm_num) (by norm_num)
  · simp [Relax.sdir]
  · have : (1 : Matrix (Fin 6) (Fin 6) ℝ).updateRow 0 (Pi.single 0 1) = 1 := by
      ext i j
      by_cases h : i = 0
      · subst h; rw [updateRow_self, Matrix.one_apply, Pi.single_apply]; simp only [eq_comm]
      · rw [updateRow_ne h]
    rw [this]; simp

/-! ## Other directions than x -/

/-- A material whose strains along the axes grow with time when there is no stress; unit stiffness. -/
noncomputable def swelling : Model3 Unit := ⟨fun i => some ⟨i.e1 - i.t1 • isoDir, (), 1, 0, 0⟩, fun _ => 0, ()⟩

theorem hold_call (t1 T1 : ℝ) (rtol atol : ℝ) (miter fuel : ℕ) (i : Fin 6) (E : ℝ) (hE : E ≠ 0) (e : Fin 6 → ℝ) :
    (Driver.new swelling rtol atol miter fuel T1 false).holdRJ i t1 T1 1 E e =
      some (Fin.cons (e i) (fun k => (e - t1 • isoDir) (i.succAbove k)),
        of fun r j => Fin.cases (if j = 0 then 1 else 0) (fun k => (1 : Matrix (Fin 6) (Fin 6) ℝ) (i.succAbove k) j) r) := by
  have hth : (Driver.new swelling rtol atol miter fuel T1 false).thermalNext T1 = 0 := by
    simp [Driver.thermalNext, Driver.new]
  unfold Driver.holdRJ
  rw [if_neg hE, Driver.call, hth, sub_zero]
  simp [swelling, Driver.new]

/-- A singular Jacobian everywhere: only the guess itself can be the answer. -/
theorem solveTry_singular {n : ℕ} (rj : (Fin n → ℝ) → Option ((Fin n → ℝ) × Matrix (Fin n) (Fin n) ℝ)) (rtol atol : ℝ)
    (miter fuel : ℕ) (x0 : Fin n → ℝ) (r : Fin n → ℝ) (j : Matrix (Fin n) (Fin n) ℝ) (h : rj x0 = some (r, j))
    (hj : j.det = 0) (hr : ¬ Done rtol atol (norm2 r) (norm2 r)) : PySolve.solveTry rj rtol atol miter fuel x0 [] = none := by
  have key : ∀ it : Iter Unit (Fin n → ℝ) (Fin n → ℝ) (Matrix (Fin n) (Fin n) ℝ),
      it.rj () x0 = some (r, j, ()) → it.size = norm2 → it.next () x0 r j = none → solve it rtol atol miter () x0 = none := by
    intro it h1 h2 h3
    rw [solve, h1]
    simp only
    cases miter with
    | zero => rw [PySolve.loop, h2, if_neg hr]
    | succ m => rw [PySolve.loop, h2, if_neg hr, h3]
  simp only [PySolve.solveTry, firstSuccess, List.findSome?, newton, newtonSearch]
  rw [key (plain _) (by simp [plain, h]) rfl (by simp [plain, linSolve, hj]),
    key (searching _ _ _ _) (by simp [searching, h]) rfl (by simp [searching, linSolve, hj])]
  rfl

/-- **C124, disagreement.** The direction of a relaxation test is an argument, but the Jacobian of a hold is that of a hold
along x. For a material that does not prefer any axis, the hold along x answers and the same hold along y raises. -/
theorem C124_direction (rtol atol t1 T1 E : ℝ) (miter fuel : ℕ) (hr0 : 0 ≤ rtol) (hr : rtol < 1) (ha : 0 ≤ atol)
    (hm : 0 < miter) (ht : atol < t1) (hE : E ≠ 0) :
    (∃ d', (Driver.new swelling rtol atol miter fuel T1 false).holdStep 0 t1 T1 1 E = some d') ∧
    (Driver.new swelling rtol atol miter fuel T1 false).holdStep 1 t1 T1 1 E = none := by
  have hq : ¬ (¬ IsClose 1 1 ∧ IsClose E (-1)) := by
    rintro ⟨h, -⟩
    refine h ?_
    simp only [IsClose, sub_self, abs_zero]
    positivity
  constructor
  · unfold Driver.holdStep
    rw [if_neg hq]
    have hM : (of fun r j => Fin.cases (if j = 0 then (1 : ℝ) else 0)
        (fun k => (1 : Matrix (Fin 6) (Fin 6) ℝ) ((0 : Fin 6).succAbove k) j) r) = (1 : Matrix (Fin 6) (Fin 6) ℝ) := by
      ext r j
      rw [of_apply]
      refine Fin.cases ?_ (fun k => ?_) r
      · simp [Matrix.one_apply, eq_comm]
      · rw [Fin.cases_succ, show (0 : Fin 6).succAbove k = k.succ from Fin.zero_succAbove k]
    obtain ⟨x, hx⟩ := solveTry_linear (Driver.new swelling rtol atol miter fuel T1 false) hr0 ha hm
      ((Driver.new swelling rtol atol miter fuel T1 false).holdRJ 0 t1 T1 1 E) 1 (by simp)
      (Fin.cons 0 fun k => t1 * isoDir ((0 : Fin 6).succAbove k)) (fun e => by
        rw [hold_call _ _ _ _ _ _ _ _ hE, hM, one_mulVec]
        congr 2
        funext r
        refine Fin.cases ?_ (fun k => ?_) r
        · simp
        · simp) (Driver.new swelling rtol atol miter fuel T1 false).strain.last []
    rw [hx]
    exact ⟨_, by simp only [Driver.strainStep, Driver.call, swelling, Driver.new, Option.map_some]; rfl⟩
  · unfold Driver.holdStep
    rw [if_neg hq]
    have hs : (Driver.new swelling rtol atol miter fuel T1 false).solveTry
        ((Driver.new swelling rtol atol miter fuel T1 false).holdRJ 1 t1 T1 1 E)
        (Driver.new swelling rtol atol miter fuel T1 false).strain.last [] = none := by
      refine solveTry_singular _ _ _ _ _ _ _ _ (hold_call t1 T1 rtol atol miter fuel 1 E hE _) ?_ ?_
      · refine Matrix.det_zero_of_row_eq (i := 0) (j := 1) (by decide) ?_
        funext j
        have h10 : (1 : Fin 6).succAbove 0 = 0 := rfl
        change (if j = 0 then (1 : ℝ) else 0) = (1 : Matrix (Fin 6) (Fin 6) ℝ) ((1 : Fin 6).succAbove 0) j
        rw [h10, Matrix.one_apply]
        simp only [eq_comm]
      · have hv : atol < norm2 (Fin.cons (((Driver.new swelling rtol atol miter fuel T1 false).strain.last) 1)
            (fun k => ((Driver.new swelling rtol atol miter fuel T1 false).strain.last - t1 • isoDir)
              ((1 : Fin 6).succAbove k)) : Fin 6 → ℝ) := by
          refine ht.trans_le ?_
          rw [norm2]
          refine Real.le_sqrt_of_sq_le ?_
          refine le_trans ?_ (Finset.single_le_sum (fun i _ => sq_nonneg _) (Finset.mem_univ (1 : Fin 6)))
          have h10 : (1 : Fin 6).succAbove 0 = 0 := rfl
          change _ ≤ ((Driver.new swelling rtol atol miter fuel T1 false).strain.last - t1 • isoDir)
              ((1 : Fin 6).succAbove 0) ^ 2
          rw [h10]
          simp [Driver.new, isoDir]
        rw [Done, not_not]
        refine ⟨?_, hv⟩
        have : 0 < norm2 (Fin.cons (((Driver.new swelling rtol atol miter fuel T1 false).strain.last) 1)
            (fun k => ((Driver.new swelling rtol atol miter fuel T1 false).strain.last - t1 • isoDir)
              ((1 : Fin 6).succAbove k)) : Fin 6 → ℝ) := ha.trans_lt hv
        exact mul_lt_of_lt_one_left this hr
    rw [hs]

end Neml.DriverTests
