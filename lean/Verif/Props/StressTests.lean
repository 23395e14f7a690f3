import Verif.Props.DriverTests

/-!
# C123: stress controlled cycles follow their program -/

namespace Neml.DriverTests

open Matrix Neml.Driver Neml.PySolve Neml.Uniaxial

variable {H : Type}

/-! ## What is kept while a stress controlled test runs -/

/-- The times and stresses kept are the points of `path`; the stress is along the direction; and the lists are the driver's
series. -/
structure OnS (d0 : Driver H) (T : ℝ) (sdir : Fin 6 → ℝ) (r : Rec H) (path : List (ℝ × ℝ)) : Prop where
  time : r.time.toList = path.map Prod.fst
  stress : r.stress.toList = path.map Prod.snd
  times : r.d.t.toList = r.time.toList
  vec : r.d.stress.toList = path.map fun p => p.2 • sdir
  strains : r.d.strain.toList.map (· ⬝ᵥ sdir) = r.strain.toList
  run : ∃ ops, d0.run ops = some r.d ∧ ∀ o ∈ ops, o.temp = T

/-- The same, but the driver may have made one step more. -/
structure OffS (d0 : Driver H) (T : ℝ) (sdir : Fin 6 → ℝ) (r : Rec H) (path : List (ℝ × ℝ)) : Prop where
  time : r.time.toList = path.map Prod.fst
  stress : r.stress.toList = path.map Prod.snd
  times : r.time.toList <+: r.d.t.toList
  vec : (path.map fun p => p.2 • sdir) <+: r.d.stress.toList
  strains : r.strain.toList <+: r.d.strain.toList.map (· ⬝ᵥ sdir)
  lengths : r.strain.toList.length = path.length
  more : r.d.t.toList.length ≤ path.length + 1
  run : ∃ ops, d0.run ops = some r.d ∧ ∀ o ∈ ops, o.temp = T

theorem OnS.off {d0 : Driver H} {T : ℝ} {sdir : Fin 6 → ℝ} {r : Rec H} {path : List (ℝ × ℝ)} (h : OnS d0 T sdir r path)
    (h0 : d0.t.before.length = d0.strain.before.length) : OffS d0 T sdir r path := by
  have hl : r.d.t.toList.length = path.length := by rw [h.times, h.time, List.length_map]
  refine ⟨h.time, h.stress, by rw [h.times], by rw [h.vec], by rw [h.strains], ?_, by omega, h.run⟩
  obtain ⟨ops, ho, -⟩ := h.run
  have := run_lengths _ _ _ ho
  rw [← h.strains, List.length_map, ← hl, toList_len, toList_len]
  omega

theorem OnS.lastStress {d0 : Driver H} {T : ℝ} {sdir : Fin 6 → ℝ} {r : Rec H} {path : List (ℝ × ℝ)}
    (h : OnS d0 T sdir r path) {t s : ℝ} (hp : path.getLast? = some (t, s)) : r.d.stress.last = s • sdir :=
  toList_last h.vec (by rw [List.getLast?_map, hp]; rfl)

theorem OnS.lastTime {d0 : Driver H} {T : ℝ} {sdir : Fin 6 → ℝ} {r : Rec H} {path : List (ℝ × ℝ)}
    (h : OnS d0 T sdir r path) {t s : ℝ} (hp : path.getLast? = some (t, s)) : r.d.t.last = t ∧ r.time.last = t :=
  ⟨toList_last (h.times.trans h.time) (by rw [List.getLast?_map, hp]; rfl),
    toList_last h.time (by rw [List.getLast?_map, hp]; rfl)⟩

theorem OnS.note {d0 : Driver H} {T : ℝ} {sdir : Fin 6 → ℝ} (hn : norm2 sdir = 1) {r : Rec H} {path : List (ℝ × ℝ)}
    (h : OnS d0 T sdir r path) (o : Op) (d' : Driver H) (hs : r.d.step o = some d') (hT : o.temp = T)
    (t1 s1 : ℝ) (ht : d'.t.last = t1) (hv : d'.stress.last = s1 • sdir) :
    OnS d0 T sdir (r.note sdir d' t1) (path ++ [(t1, s1)]) := by
  obtain ⟨e1, t2, hst, -⟩ := step_strain r.d d' o hs
  obtain ⟨_, -, -, -, -, -, -, -, h1, -, -, h4, -, -, h7, -⟩ := strainStep_spec r.d d' e1 t2 _ hst
  have ht2 : t2 = t1 := by rw [← ht, h7]; rfl
  refine ⟨?_, ?_, ?_, ?_, ?_, ?_⟩
  · simp [Rec.note, Series.push_toList, h.time]
  · simp only [Rec.note, Series.push_toList, h.stress, List.map_append, List.map_cons, List.map_nil]
    rw [hv, smul_dotProduct, dot_self_norm, hn]
    simp
  · simp [Rec.note, h7, ht2, Series.push_toList, h.times]
  · rw [h4] at hv
    simp only [Rec.note, h4, Series.push_toList, List.map_append, h.vec, List.map_cons, List.map_nil]
    rw [← hv]
    rfl
  · simp only [Rec.note, h1, Series.push_toList, List.map_append, h.strains, List.map_cons, List.map_nil]; rfl
  · obtain ⟨ops, ho, hops⟩ := h.run
    refine ⟨ops ++ [o], by rw [run_append, ho]; exact hs, fun o' ho' => ?_⟩
    rcases List.mem_append.1 ho' with h | h
    · exact hops o' h
    · rw [List.mem_singleton.1 h, hT]

theorem OnS.over {d0 : Driver H} {T : ℝ} {sdir : Fin 6 → ℝ} {r : Rec H} {path : List (ℝ × ℝ)} (h : OnS d0 T sdir r path)
    (h0 : d0.t.before.length = d0.strain.before.length) (o : Op) (d' : Driver H) (hs : r.d.step o = some d')
    (hT : o.temp = T) : OffS d0 T sdir { r with d := d' } path := by
  obtain ⟨e1, t2, hst, -⟩ := step_strain r.d d' o hs
  obtain ⟨_, -, -, -, -, -, -, -, h1, -, -, h4, -, -, h7, -⟩ := strainStep_spec r.d d' e1 t2 _ hst
  have hf := h.off h0
  refine ⟨h.time, h.stress, ?_, ?_, ?_, hf.lengths, ?_, ?_⟩
  · simp [h7, Series.push_toList, h.times]
  · simp [h4, Series.push_toList, h.vec]
  · simp [h1, Series.push_toList, h.strains]
  · have hl : r.d.t.toList.length = path.length := by rw [h.times, h.time, List.length_map]
    simp only [h7, Series.push_toList, List.length_append, List.length_cons, List.length_nil]
    omega
  · obtain ⟨ops, ho, hops⟩ := h.run
    refine ⟨ops ++ [o], by rw [run_append, ho]; exact hs, fun o' ho' => ?_⟩
    rcases List.mem_append.1 ho' with h | h
    · exact hops o' h
    · rw [List.mem_singleton.1 h, hT]

def WentS (d0 : Driver H) (T : ℝ) (sdir : Fin 6 → ℝ) (r0 : Rec H) (path new : List (ℝ × ℝ)) :
    Ended (Rec H) (Rec H) → Prop
  | .ok y => OnS d0 T sdir y (path ++ new) ∧ Ext r0 y
  | .stop r => ∃ k, OffS d0 T sdir r (path ++ new.take k) ∧ Ext r0 r

theorem loop_legS {d0 : Driver H} {T : ℝ} {sdir : Fin 6 → ℝ} {f : Rec H → Ended (Rec H) (Rec H)}
    {dt ds : ℝ} (hf : ∀ x path t s, OnS d0 T sdir x path → path.getLast? = some (t, s) →
      WentS d0 T sdir x path [(t + dt, s + ds)] (f x)) (n : ℕ) (x : Rec H) (path : List (ℝ × ℝ)) (t s : ℝ)
    (h : OnS d0 T sdir x path) (hp : path.getLast? = some (t, s)) :
    WentS d0 T sdir x path (leg t s dt ds n) (loop f n x) := by
  induction n generalizing x path t s with
  | zero => exact ⟨by simpa [leg] using h, Ext.refl _⟩
  | succ n ih =>
    have h1 := hf x path t s h hp
    rw [leg_succ]
    simp only [loop, Ended.andThen]
    cases hx : f x with
    | stop r =>
      rw [hx] at h1
      obtain ⟨k, h2, h3⟩ := h1
      rcases k with _ | k
      · exact ⟨0, by simpa using h2, h3⟩
      · exact ⟨1, by simpa using h2, h3⟩
    | ok y =>
      rw [hx] at h1
      obtain ⟨h2, h3⟩ := h1
      have h4 := ih y _ (t + dt) (s + ds) h2 (by simp)
      simp only
      cases hy : loop f n y with
      | ok z =>
        rw [hy] at h4
        exact ⟨by simpa using h4.1, h3.trans h4.2⟩
      | stop r =>
        rw [hy] at h4
        obtain ⟨k, h5, h6⟩ := h4
        exact ⟨k + 1, by simpa using h5, h3.trans h6⟩

/-- What a stress ramp step does. -/
theorem srateSinc_on {d0 : Driver H} {T : ℝ} {sdir : Fin 6 → ℝ} (hr : d0.rtol = 0) (ha : d0.atol = 0)
    (hn : norm2 sdir = 1) (srate sinc : ℝ) (hq : 1 / 10 ^ 8 < |srate|) (x : Rec H) (path : List (ℝ × ℝ)) (t s : ℝ)
    (h : OnS d0 T sdir x path) (hp : path.getLast? = some (t, s)) (d' : Driver H)
    (hx : x.d.srateSincStep sdir srate sinc T = some d') :
    OnS d0 T sdir (x.note sdir d' d'.t.last) (path ++ [(t + |sinc| / |srate|, s + sinc)]) := by
  obtain ⟨ops, ho, -⟩ := h.run
  obtain ⟨tr, ta, -⟩ := run_tol _ _ _ ho
  obtain ⟨h1, h2⟩ := C71_srate_partial x.d d' (tr.trans hr) (ta.trans ha) sdir hn srate sinc T hq hx
  rw [(h.lastTime hp).1] at h2
  rw [h2]
  exact h.note hn (.srateSinc sdir srate sinc T) d' hx rfl _ _ h2 (by rw [h1, h.lastStress hp, add_smul])

/-- What a step at constant stress does. -/
theorem stressHold_on {d0 : Driver H} {T : ℝ} {sdir : Fin 6 → ℝ} (hr : d0.rtol = 0) (ha : d0.atol = 0)
    (hn : norm2 sdir = 1) (t1 : ℝ) (x : Rec H) (path : List (ℝ × ℝ)) (t s : ℝ)
    (h : OnS d0 T sdir x path) (hp : path.getLast? = some (t, s)) (d' : Driver H)
    (hx : x.d.stressStep x.d.stress.last t1 T = some d') :
    d'.t.last = t1 ∧ OnS d0 T sdir (x.note sdir d' t1) (path ++ [(t1, s)]) := by
  obtain ⟨ops, ho, -⟩ := h.run
  obtain ⟨tr, ta, -⟩ := run_tol _ _ _ ho
  have h1 := C71_stress_exact x.d d' (tr.trans hr) (ta.trans ha) _ _ _ hx
  obtain ⟨e, he⟩ := stressStep_strain _ _ _ _ _ hx
  obtain ⟨_, -, -, -, -, -, -, -, -, -, -, -, -, -, h7, -⟩ := strainStep_spec _ _ _ _ _ he
  have ht : d'.t.last = t1 := by rw [h7]; rfl
  exact ⟨ht, h.note hn (.stress x.d.stress.last t1 T) d' hx rfl _ _ ht (by rw [h1, h.lastStress hp])⟩

namespace StressCyclic

/-- The smallest stress. -/
noncomputable def smin (a : StressCyclic) : ℝ := a.smax * a.R

open Classical in
/-- The number of steps of a hold: a hold that is not positive is left out. -/
noncomputable def holdSteps (a : StressCyclic) (h : ℝ) : ℕ := if 0 < h then a.nhold else 0

/-- The points (time and stress) of the first ramp. -/
noncomputable def start (a : StressCyclic) : List (ℝ × ℝ) :=
  (0, 0) :: leg 0 0 (|a.smax / a.nsteps| / |a.srate|) (a.smax / a.nsteps) a.nsteps

/-- The time of a ramp between the smallest and the largest stress. -/
noncomputable def rampTime (a : StressCyclic) : ℝ := |a.smax - a.smin| / |a.srate|

/-- The points of a cycle that starts at time `t`: hold, ramp down, hold, ramp up. -/
noncomputable def block (a : StressCyclic) (t : ℝ) : List (ℝ × ℝ) :=
  let t1 := t + max a.hold0 0
  let t2 := t1 + a.rampTime
  let t3 := t2 + max a.hold1 0
  leg t a.smax (a.hold0 / a.nhold) 0 (a.holdSteps a.hold0) ++
  leg t1 a.smax (a.rampTime / a.nsteps) ((a.smin - a.smax) / a.nsteps) a.nsteps ++
  leg t2 a.smin (a.hold1 / a.nhold) 0 (a.holdSteps a.hold1) ++
  leg t3 a.smin (a.rampTime / a.nsteps) ((a.smax - a.smin) / a.nsteps) a.nsteps

/-- The length of a cycle, in time and in points. -/
noncomputable def period (a : StressCyclic) : ℝ := max a.hold0 0 + max a.hold1 0 + 2 * a.rampTime

noncomputable def points (a : StressCyclic) : ℕ := a.holdSteps a.hold0 + a.holdSteps a.hold1 + 2 * a.nsteps

/-- The first ramp and `n` cycles. -/
noncomputable def program (a : StressCyclic) (n : ℕ) : List (ℝ × ℝ) :=
  a.start ++ (List.range n).flatMap fun c : ℕ => a.block (|a.smax| / |a.srate| + (c : ℝ) * a.period)

theorem block_length (a : StressCyclic) (t : ℝ) : (a.block t).length = a.points := by
  simp only [block, List.length_append, leg_length, points]
  ring

theorem program_length (a : StressCyclic) (n : ℕ) : (a.program n).length = a.nsteps + 1 + n * a.points := by
  simp only [program, start, List.length_append, List.length_cons, leg_length, List.length_flatMap, block_length,
    List.map_const', List.length_range, List.sum_replicate, smul_eq_mul]

theorem program_succ (a : StressCyclic) (n : ℕ) :
    a.program (n + 1) = a.program n ++ a.block (|a.smax| / |a.srate| + n * a.period) := by
  simp [program, List.range_succ]

theorem check_went {d0 : Driver H} (h0 : d0.t.before.length = d0.strain.before.length) (a : StressCyclic) (x : Rec H)
    (path : List (ℝ × ℝ)) (t1 s1 : ℝ) (o : Op) (d : Option (Driver H)) (hd : x.d.step o = d) (hT : o.temp = a.T)
    (h : OnS d0 a.T a.sdir x path)
    (hok : ∀ d', d = some d' → OnS d0 a.T a.sdir (x.note a.sdir d' d'.t.last) (path ++ [(t1, s1)])) :
    WentS d0 a.T a.sdir x path [(t1, s1)] (a.check x d) := by
  unfold check
  cases d with
  | none => exact ⟨0, by simpa using h.off h0, Ext.refl _⟩
  | some d' =>
    simp only
    split_ifs
    · exact ⟨0, by simpa using h.over h0 o d' hd hT, Ext.over _ _ _ hd⟩
    · exact ⟨hok d' rfl, Ext.note _ _ _ _ hd _⟩

theorem hold_went {d0 : Driver H} (hr : d0.rtol = 0) (ha : d0.atol = 0)
    (h0 : d0.t.before.length = d0.strain.before.length) (a : StressCyclic) (hn : norm2 a.sdir = 1) (ht : ℝ) (x : Rec H)
    (path : List (ℝ × ℝ)) (t s : ℝ) (h : OnS d0 a.T a.sdir x path) (hp : path.getLast? = some (t, s)) :
    WentS d0 a.T a.sdir x path (leg t s (ht / a.nhold) 0 (a.holdSteps ht)) (a.hold ht x) := by
  unfold hold holdSteps
  by_cases h1 : 0 < ht
  · rw [if_pos h1, if_pos h1]
    refine loop_legS (fun x path t s h hp => ?_) a.nhold x path t s h hp
    refine check_went h0 a x path _ _ (.stress x.d.stress.last (x.d.t.last + ht / a.nhold) a.T) _ rfl rfl h fun d' hd => ?_
    obtain ⟨e1, e2⟩ := stressHold_on hr ha hn _ x path t s h hp d' hd
    rw [e1, add_zero]
    rwa [(h.lastTime hp).1] at e2 ⊢
  · rw [if_neg h1, if_neg h1]
    exact ⟨by simpa [leg] using h, Ext.refl _⟩

theorem hold_end (a : StressCyclic) (hh : a.nhold ≠ 0 ∨ ¬ (0 < a.hold0 ∨ 0 < a.hold1)) (ht t : ℝ)
    (he : ht = a.hold0 ∨ ht = a.hold1) : t + a.holdSteps ht * (ht / a.nhold) = t + max ht 0 := by
  unfold holdSteps
  by_cases h1 : 0 < ht
  · have h2 : a.nhold ≠ 0 := by
      rcases hh with hh | hh
      · exact hh
      · exact absurd (by rcases he with rfl | rfl <;> simp [h1]) hh
    rw [if_pos h1, mul_div_cancel₀ _ (by exact_mod_cast h2), max_eq_left h1.le]
  · rw [if_neg h1, max_eq_right (not_lt.1 h1)]
    simp

theorem ramp_went {d0 : Driver H} (hr : d0.rtol = 0) (ha : d0.atol = 0)
    (h0 : d0.t.before.length = d0.strain.before.length) (a : StressCyclic) (hn : norm2 a.sdir = 1)
    (hq : 1 / 10 ^ 8 < |a.srate|) (sinc : ℝ) (x : Rec H) (path : List (ℝ × ℝ)) (t s : ℝ)
    (h : OnS d0 a.T a.sdir x path) (hp : path.getLast? = some (t, s)) :
    WentS d0 a.T a.sdir x path (leg t s (|sinc| / |a.srate|) sinc a.nsteps) (a.ramp sinc x) := by
  refine loop_legS (fun x path t s h hp => ?_) a.nsteps x path t s h hp
  refine check_went h0 a x path _ _ (.srateSinc a.sdir a.srate sinc a.T) _ rfl rfl h fun d' hd => ?_
  exact srateSinc_on hr ha hn a.srate sinc hq x path t s h hp d' hd

/-- One cycle from a point at `smax`. -/
theorem cycle_went {d0 : Driver H} (hr : d0.rtol = 0) (ha : d0.atol = 0) (h0 : d0.t.before.length = 0)
    (h2 : d0.u.before.length = 0) (h3 : d0.p.before.length = 0)
    (h4 : d0.strain.before.length = 0) (a : StressCyclic) (hn : a.nsteps ≠ 0) (hs : norm2 a.sdir = 1)
    (hq : 1 / 10 ^ 8 < |a.srate|) (hh : a.nhold ≠ 0 ∨ ¬ (0 < a.hold0 ∨ 0 < a.hold1)) (s : ℕ) (x : Rec H)
    (path : List (ℝ × ℝ)) (t : ℝ) (h : OnS d0 a.T a.sdir x path) (hp : path.getLast? = some (t, a.smax)) :
    match a.cycle s x with
    | .ok (y, row) => OnS d0 a.T a.sdir y (path ++ a.block t) ∧ Ext x y ∧
        (path ++ a.block t).getLast? = some (t + a.period, a.smax) ∧
        Cyclic.RowOf y.strain.toList y.d.u.toList y.d.p.toList s path.length (path.length + a.points) row
    | .stop r => ∃ k, OffS d0 a.T a.sdir r (path ++ (a.block t).take k) ∧ Ext x r := by
  have h01 : d0.t.before.length = d0.strain.before.length := h0.trans h4.symm
  have hnr : (a.nsteps : ℝ) ≠ 0 := by exact_mod_cast hn
  have hnp : (0 : ℝ) < a.nsteps := lt_of_le_of_ne (Nat.cast_nonneg _) hnr.symm
  have hd1 : |(a.smax * a.R - a.smax) / a.nsteps| / |a.srate| = a.rampTime / a.nsteps := by
    rw [rampTime, smin, abs_div, abs_of_pos hnp, abs_sub_comm]
    ring
  have hd2 : |(a.smax - a.smax * a.R) / a.nsteps| / |a.srate| = a.rampTime / a.nsteps := by
    rw [rampTime, smin, abs_div, abs_of_pos hnp]
    ring
  obtain ⟨L1, hL1⟩ : ∃ L, L = leg t a.smax (a.hold0 / a.nhold) 0 (a.holdSteps a.hold0) := ⟨_, rfl⟩
  obtain ⟨L2, hL2⟩ : ∃ L, L = leg (t + max a.hold0 0) a.smax (a.rampTime / a.nsteps)
    ((a.smin - a.smax) / a.nsteps) a.nsteps := ⟨_, rfl⟩
  obtain ⟨L3, hL3⟩ : ∃ L, L = leg (t + max a.hold0 0 + a.rampTime) a.smin (a.hold1 / a.nhold) 0
    (a.holdSteps a.hold1) := ⟨_, rfl⟩
  obtain ⟨L4, hL4⟩ : ∃ L, L = leg (t + max a.hold0 0 + a.rampTime + max a.hold1 0) a.smin (a.rampTime / a.nsteps)
    ((a.smax - a.smin) / a.nsteps) a.nsteps := ⟨_, rfl⟩
  have hb : a.block t = L1 ++ L2 ++ L3 ++ L4 := by rw [hL1, hL2, hL3, hL4]; rfl
  have hoff : ∀ (K L M : List (ℝ × ℝ)) (r : Rec H) (k : ℕ), OffS d0 a.T a.sdir r (path ++ K ++ L.take k) →
      a.block t = K ++ L ++ M → ∃ k, OffS d0 a.T a.sdir r (path ++ (a.block t).take k) := by
    intro K L M r k hk he
    refine ⟨K.length + min k L.length, ?_⟩
    rw [he, List.append_assoc, List.take_length_add_append, List.take_append_of_le_length (min_le_right _ _),
      ← List.take_take, List.take_length, ← List.append_assoc]
    exact hk
  unfold cycle
  have w1 := hold_went hr ha h01 a hs a.hold0 x path t a.smax h hp
  have p1 := leg_last path t a.smax (a.hold0 / a.nhold) 0 (a.holdSteps a.hold0) hp
  rw [← hL1] at w1 p1
  rw [hold_end a hh a.hold0 t (Or.inl rfl), mul_zero, add_zero] at p1
  cases hx1 : a.hold a.hold0 x with
  | stop r =>
    rw [hx1] at w1
    obtain ⟨k, w, we⟩ := w1
    obtain ⟨k', w'⟩ := hoff [] L1 (L2 ++ L3 ++ L4) r k (by simpa using w) (by simp [hb])
    exact ⟨k', w', we⟩
  | ok x1 =>
    rw [hx1] at w1
    obtain ⟨w1, we1⟩ := w1
    have w2 := ramp_went hr ha h01 a hs hq ((a.smax * a.R - a.smax) / a.nsteps) x1 _ _ _ w1 p1
    have p2 := leg_last _ _ _ (|(a.smax * a.R - a.smax) / a.nsteps| / |a.srate|) ((a.smax * a.R - a.smax) / a.nsteps)
      a.nsteps p1
    rw [hd1] at w2 p2
    change WentS d0 a.T a.sdir x1 (path ++ L1) (leg (t + max a.hold0 0) a.smax (a.rampTime / a.nsteps)
      ((a.smin - a.smax) / a.nsteps) a.nsteps) _ at w2
    change (path ++ L1 ++ leg (t + max a.hold0 0) a.smax (a.rampTime / a.nsteps)
      ((a.smin - a.smax) / a.nsteps) a.nsteps).getLast? = some (_, a.smax + a.nsteps * ((a.smin - a.smax) / a.nsteps)) at p2
    rw [← hL2] at w2 p2
    rw [mul_div_cancel₀ _ hnr, mul_div_cancel₀ _ hnr, add_sub_cancel] at p2
    simp only [Ended.andThen]
    cases hx2 : a.ramp ((a.smax * a.R - a.smax) / a.nsteps) x1 with
    | stop r =>
      rw [hx2] at w2
      obtain ⟨k, w, we⟩ := w2
      obtain ⟨k', w'⟩ := hoff L1 L2 (L3 ++ L4) r k w (by simp [hb])
      exact ⟨k', w', we1.trans we⟩
    | ok x2 =>
      rw [hx2] at w2
      obtain ⟨w2, we2⟩ := w2
      have w3 := hold_went hr ha h01 a hs a.hold1 x2 _ _ _ w2 p2
      have p3 := leg_last _ _ _ (a.hold1 / a.nhold) 0 (a.holdSteps a.hold1) p2
      rw [← hL3] at w3 p3
      rw [hold_end a hh a.hold1 _ (Or.inr rfl), mul_zero, add_zero] at p3
      simp only
      cases hx3 : a.hold a.hold1 x2 with
      | stop r =>
        rw [hx3] at w3
        obtain ⟨k, w, we⟩ := w3
        obtain ⟨k', w'⟩ := hoff (L1 ++ L2) L3 L4 r k (by simpa using w) (by simp [hb])
        exact ⟨k', w', we1.trans (we2.trans we)⟩
      | ok x3 =>
        rw [hx3] at w3
        obtain ⟨w3, we3⟩ := w3
        have w4 := ramp_went hr ha h01 a hs hq ((a.smax - a.smax * a.R) / a.nsteps) x3 _ _ _ w3 p3
        have p4 := leg_last _ _ _ (|(a.smax - a.smax * a.R) / a.nsteps| / |a.srate|)
          ((a.smax - a.smax * a.R) / a.nsteps) a.nsteps p3
        rw [hd2] at w4 p4
        change WentS d0 a.T a.sdir x3 (path ++ L1 ++ L2 ++ L3) (leg _ a.smin (a.rampTime / a.nsteps)
          ((a.smax - a.smin) / a.nsteps) a.nsteps) _ at w4
        change (path ++ L1 ++ L2 ++ L3 ++ leg _ a.smin (a.rampTime / a.nsteps) ((a.smax - a.smin) / a.nsteps)
          a.nsteps).getLast? = some (_, a.smin + a.nsteps * ((a.smax - a.smin) / a.nsteps)) at p4
        rw [← hL4] at w4 p4
        rw [mul_div_cancel₀ _ hnr, mul_div_cancel₀ _ hnr, add_sub_cancel] at p4
        simp only
        cases hx4 : a.ramp ((a.smax - a.smax * a.R) / a.nsteps) x3 with
        | stop r =>
          rw [hx4] at w4
          obtain ⟨k, w, we⟩ := w4
          obtain ⟨k', w'⟩ := hoff (L1 ++ L2 ++ L3) L4 [] r k (by simpa using w) (by simp [hb])
          exact ⟨k', w', we1.trans (we2.trans (we3.trans we))⟩
        | ok x4 =>
          rw [hx4] at w4
          obtain ⟨w4, we4⟩ := w4
          have hpath : path ++ L1 ++ L2 ++ L3 ++ L4 = path ++ a.block t := by simp [hb]
          rw [hpath] at w4 p4
          simp only
          refine ⟨w4, we1.trans (we2.trans (we3.trans we4)), ?_, ?_⟩
          · rw [p4]
            simp only [Option.some.injEq, Prod.mk.injEq, and_true]
            rw [period]
            ring
          · have hlen : (path ++ a.block t).length = path.length + a.points := by
              rw [List.length_append, block_length]
            have hpos : 0 < a.points := by
              have : a.points = a.holdSteps a.hold0 + a.holdSteps a.hold1 + 2 * a.nsteps := rfl
              omega
            obtain ⟨ops, ho, -⟩ := w4.run
            obtain ⟨m1, m2, m3, -, m5, -⟩ := run_lengths _ _ _ ho
            have mt : x4.d.t.toList.length = path.length + a.points := by
              rw [w4.times, w4.time, List.length_map, hlen]
            rw [toList_len, m1, h0] at mt
            have ms : x4.strain.toList.length = path.length + a.points := by
              rw [← w4.strains, List.length_map, toList_len, m5, h4, mt]
            have mu : x4.d.u.toList.length = path.length + a.points := by rw [toList_len, m2, h2, mt]
            have mp : x4.d.p.toList.length = path.length + a.points := by rw [toList_len, m3, h3, mt]
            obtain ⟨ops1, ho1, -⟩ := h.run
            obtain ⟨q1, -, -, -, q5, -⟩ := run_lengths _ _ _ ho1
            have hsi : x.d.strain.toList.length = path.length := by
              have : x.d.t.toList.length = path.length := by
                rw [h.times, h.time, List.length_map]
              rw [toList_len] at this ⊢
              omega
            have hne : Cyclic.since x4.strain path.length ≠ [] := by
              refine List.ne_nil_of_length_pos ?_
              rw [Cyclic.since, List.length_drop, ms]
              omega
            have htake : x4.strain.toList.take (path.length + a.points) = x4.strain.toList :=
              List.take_of_length_le ms.le
            rw [hsi]
            refine ⟨rfl, ms.ge, ?_, ?_, rfl, ?_, ?_⟩
            · rw [htake]; exact Cyclic.maxOf_spec _ hne
            · rw [htake]; exact Cyclic.minOf_spec _ hne
            · rw [← mu]; exact Cyclic.last_get _
            · rw [← mp]; exact Cyclic.last_get _

/-- The rows, oldest first, from cycle number 0. -/
def RowsOf (a : StressCyclic) (r : Rec H) (rows : List Cyclic.Row) : Prop :=
  ∀ c row, rows[c]? = some row → Cyclic.RowOf r.strain.toList r.d.u.toList r.d.p.toList c (a.nsteps + 1 + c * a.points)
    (a.nsteps + 1 + (c + 1) * a.points) row

theorem cycles_went {d0 : Driver H} (hr : d0.rtol = 0) (ha : d0.atol = 0) (h0 : d0.t.before.length = 0)
    (h2 : d0.u.before.length = 0) (h3 : d0.p.before.length = 0)
    (h4 : d0.strain.before.length = 0) (a : StressCyclic) (hn : a.nsteps ≠ 0) (hs : norm2 a.sdir = 1)
    (hq : 1 / 10 ^ 8 < |a.srate|) (hh : a.nhold ≠ 0 ∨ ¬ (0 < a.hold0 ∨ 0 < a.hold1))
    (n s : ℕ) (x : Rec H) (rows : List Cyclic.Row) (h : OnS d0 a.T a.sdir x (a.program s))
    (hp : (a.program s).getLast? = some (|a.smax| / |a.srate| + s * a.period, a.smax))
    (hl : rows.length = s) (hrows : RowsOf a x rows.reverse) (r : Rec H) (out : List Cyclic.Row)
    (ho : a.cycles n s x rows = (r, out)) :
    (∃ k, OffS d0 a.T a.sdir r ((a.program (s + n)).take k)) ∧ RowsOf a r out.reverse ∧ out.length ≤ s + n ∧
      (out.length = s + n → OnS d0 a.T a.sdir r (a.program (s + n))) := by
  induction n generalizing s x rows with
  | zero =>
    simp only [cycles, Prod.mk.injEq] at ho
    obtain ⟨rfl, rfl⟩ := ho
    refine ⟨⟨(a.program s).length, ?_⟩, hrows, hl.le, fun _ => h⟩
    rw [Nat.add_zero, List.take_length]
    exact h.off (h0.trans h4.symm)
  | succ n ih =>
    have hc := cycle_went hr ha h0 h2 h3 h4 a hn hs hq hh s x _ _ h hp
    rw [cycles] at ho
    cases hx : a.cycle s x with
    | ok q =>
      obtain ⟨y, row⟩ := q
      rw [hx] at hc ho
      obtain ⟨c1, c2, c3, c4⟩ := hc
      rw [← program_succ] at c1 c3
      have hs1 : s + 1 + n = s + (n + 1) := by omega
      rw [← hs1]
      refine ih (s + 1) y (row :: rows) c1 ?_ (by simp [hl]) ?_ ho
      · rw [c3]; push_cast; congr 2; ring
      · intro c row' hrow
        rw [List.reverse_cons] at hrow
        rcases Nat.lt_or_ge c rows.reverse.length with hcl | hcl
        · rw [List.getElem?_append_left hcl] at hrow
          exact (hrows c row' hrow).ext c2.strain c2.u c2.p
        · rw [List.getElem?_append_right hcl] at hrow
          have hc0 : c - rows.reverse.length = 0 := by
            by_contra hne
            obtain ⟨m, hm⟩ := Nat.exists_eq_succ_of_ne_zero hne
            rw [hm] at hrow
            simp at hrow
          rw [hc0] at hrow
          simp only [List.getElem?_cons_zero, Option.some.injEq] at hrow
          subst hrow
          have hcs : c = s := by
            rw [List.length_reverse] at hcl hc0
            omega
          subst hcs
          rw [program_length] at c4
          convert c4 using 1
          ring
    | stop r' =>
      rw [hx] at hc ho
      simp only [Prod.mk.injEq] at ho
      obtain ⟨rfl, rfl⟩ := ho
      obtain ⟨k, c1, c2⟩ := hc
      have hpre : a.program (s + 1) <+: a.program (s + (n + 1)) := by
        clear ih
        induction n with
        | zero => exact List.prefix_refl _
        | succ n ih =>
          refine ih.trans ?_
          rw [show s + (n + 1 + 1) = (s + (n + 1)) + 1 by omega, program_succ a (s + (n + 1))]
          exact List.prefix_append _ _
      refine ⟨⟨(a.program s ++ (a.block (|a.smax| / |a.srate| + s * a.period)).take k).length, ?_⟩, ?_, ?_, ?_⟩
      · have hp2 : a.program s ++ (a.block (|a.smax| / |a.srate| + s * a.period)).take k <+:
            a.program (s + (n + 1)) := by
          refine List.IsPrefix.trans ?_ hpre
          rw [program_succ]
          exact (List.prefix_append_right_inj _).2 (List.take_prefix _ _)
        rw [← List.prefix_iff_eq_take.1 hp2]
        exact c1
      · intro c row hrow
        exact (hrows c row hrow).ext c2.strain c2.u c2.p
      · omega
      · intro hlen; omega

theorem new_onS (c : Setup H) (T : ℝ) (hist : Option H) (sdir : Fin 6 → ℝ) :
    OnS (c.driver T hist) T sdir (Rec.new (c.driver T hist)) [(0, 0)] := by
  refine ⟨?_, ?_, ?_, ?_, ?_, [], rfl, by simp⟩ <;>
    cases hist <;> simp [Rec.new, Setup.driver, Driver.new, Series.toList]

theorem run_went (a : StressCyclic) (c : Setup H) (hr : c.rtol = 0) (ha : c.atol = 0) (hs : norm2 a.sdir = 1)
    (hq : 1 / 10 ^ 8 < |a.srate|) (r : Rec H) (rows : List Cyclic.Row) (h : a.run c = some (r, rows)) :
    (∃ k, OffS (c.driver a.T none) a.T a.sdir r ((a.program a.ncycles).take k)) ∧ RowsOf a r rows ∧
      rows.length ≤ a.ncycles ∧ (rows.length = a.ncycles → OnS (c.driver a.T none) a.T a.sdir r (a.program a.ncycles)) := by
  unfold run at h
  split_ifs at h with hn
  rw [not_or, not_and_or] at hn
  obtain ⟨hn, hh⟩ := hn
  have hnr : (a.nsteps : ℝ) ≠ 0 := by exact_mod_cast hn
  have hnp : (0 : ℝ) < a.nsteps := lt_of_le_of_ne (Nat.cast_nonneg _) hnr.symm
  have w : WentS (c.driver a.T none) a.T a.sdir (Rec.new (c.driver a.T none)) [(0, 0)]
      (leg 0 0 (|a.smax / a.nsteps| / |a.srate|) (a.smax / a.nsteps) a.nsteps) (a.first (Rec.new (c.driver a.T none))) := by
    refine loop_legS (fun x path t s h hp => ?_) a.nsteps _ _ 0 0 (new_onS c a.T none a.sdir) rfl
    cases hx : x.d.srateSincStep a.sdir a.srate (a.smax / a.nsteps) a.T with
    | none => exact ⟨0, by simpa using h.off rfl, Ext.refl _⟩
    | some d' =>
      exact ⟨srateSinc_on hr ha hs a.srate _ hq x path t s h hp d' hx,
        Ext.note _ _ (.srateSinc a.sdir a.srate (a.smax / a.nsteps) a.T) _ hx _⟩
  cases hx : a.first (Rec.new (c.driver a.T none)) with
  | stop r' => rw [hx] at h; cases h
  | ok x =>
    rw [hx] at h w
    obtain ⟨w1, -⟩ := w
    simp only [Option.some.injEq, Prod.mk.injEq] at h
    obtain ⟨rfl, rfl⟩ := h
    have hstart : [((0 : ℝ), (0 : ℝ))] ++ leg 0 0 (|a.smax / a.nsteps| / |a.srate|) (a.smax / a.nsteps) a.nsteps =
        a.program 0 := by simp [program, start]
    have p1 := leg_last [((0 : ℝ), (0 : ℝ))] 0 0 (|a.smax / a.nsteps| / |a.srate|) (a.smax / a.nsteps) a.nsteps rfl
    rw [hstart] at w1 p1
    have := cycles_went (d0 := c.driver a.T none) hr ha rfl rfl rfl rfl a hn hs hq hh a.ncycles 0 x [] w1 (by
      rw [p1]
      simp only [Option.some.injEq, Prod.mk.injEq, Nat.cast_zero, zero_mul, add_zero, zero_add]
      constructor
      · rw [abs_div, abs_of_pos hnp]; field_simp
      · field_simp) rfl (by intro c row h; simp at h) _ _ rfl
    rw [Nat.zero_add] at this
    simpa using this

end StressCyclic

/-- **C123.** A stress controlled cyclic test along a unit direction, with exactly solved steps and a rate the code does not
take for zero, goes along its program: a ramp to the largest stress, then cycles of hold, ramp down to `smax R`, hold and ramp
up, at the given rate and with the given number of steps. The stress has no other components. If the test is stopped, the
stresses returned are those of the first points of the program, and the strains those of the driver at these points. If there
is a row of results for every cycle, all of the program has been run. -/
theorem C123_program (a : StressCyclic) (c : Setup H) (hr : c.rtol = 0) (ha : c.atol = 0) (hs : norm2 a.sdir = 1)
    (hq : 1 / 10 ^ 8 < |a.srate|) (r : Rec H) (rows : List Cyclic.Row) (h : a.run c = some (r, rows)) :
    (∃ k, r.stress.toList = ((a.program a.ncycles).take k).map Prod.snd ∧
      ((a.program a.ncycles).take k).map Prod.fst <+: r.d.t.toList ∧
      (((a.program a.ncycles).take k).map fun p => p.2 • a.sdir) <+: r.d.stress.toList) ∧
    r.strain.toList <+: r.d.strain.toList.map (· ⬝ᵥ a.sdir) ∧ r.strain.toList.length = r.stress.toList.length ∧
    (rows.length = a.ncycles → r.d.t.toList = (a.program a.ncycles).map Prod.fst ∧
      r.stress.toList = (a.program a.ncycles).map Prod.snd) := by
  obtain ⟨⟨k, h1⟩, -, -, h4⟩ := StressCyclic.run_went a c hr ha hs hq r rows h
  refine ⟨⟨k, h1.stress, h1.time ▸ h1.times, h1.vec⟩, h1.strains, ?_, fun hl => ⟨(h4 hl).times.trans (h4 hl).time,
    (h4 hl).stress⟩⟩
  rw [h1.lengths, h1.stress, List.length_map]

/-- **C123.** There is one row of results for each completed cycle, numbered from zero, with the largest and the smallest
strain recorded in the cycle, holds included, the mean of the two, and the energy and the dissipation at its end. -/
theorem C123_rows (a : StressCyclic) (c : Setup H) (hr : c.rtol = 0) (ha : c.atol = 0) (hs : norm2 a.sdir = 1)
    (hq : 1 / 10 ^ 8 < |a.srate|) (r : Rec H) (rows : List Cyclic.Row)
    (h : a.run c = some (r, rows)) (i : ℕ) (row : Cyclic.Row) (hrow : rows[i]? = some row) :
    row.cycle = i ∧
    IsGreatest {s | s ∈ (r.strain.toList.take (a.nsteps + 1 + (i + 1) * a.points)).drop
      (a.nsteps + 1 + i * a.points)} row.max ∧
    IsLeast {s | s ∈ (r.strain.toList.take (a.nsteps + 1 + (i + 1) * a.points)).drop
      (a.nsteps + 1 + i * a.points)} row.min ∧
    row.mean = (row.max + row.min) / 2 ∧
    r.d.u.toList[a.nsteps + (i + 1) * a.points]? = some row.u ∧
    r.d.p.toList[a.nsteps + (i + 1) * a.points]? = some row.p := by
  obtain ⟨-, h2, -⟩ := StressCyclic.run_went a c hr ha hs hq r rows h
  have := h2 i row hrow
  have he : a.nsteps + 1 + (i + 1) * a.points - 1 = a.nsteps + (i + 1) * a.points := by omega
  exact ⟨this.cycle, this.max, this.min, this.mean, he ▸ this.energy, he ▸ this.work⟩

/-! ## Elastic materials -/

/-- At constant temperature, an elastic material stays on its law. -/
theorem run_elastic (C : Matrix (Fin 6) (Fin 6) ℝ) (d d' : Driver H) (hm : IsElastic d.model C) (T : ℝ)
    (h1 : d.thermal.last = 0) (h2 : d.T.last = T) (h3 : d.stress.last = C *ᵥ d.strain.last) (ops : List Op)
    (h : d.run ops = some d') (hT : ∀ o ∈ ops, o.temp = T) :
    d'.stress.last = C *ᵥ d'.strain.last ∧ d'.miter = d.miter := by
  induction ops generalizing d with
  | nil => simp only [Driver.run, Option.some.injEq] at h; rw [← h]; exact ⟨h3, rfl⟩
  | cons o os ih =>
    simp only [Driver.run, Option.bind_eq_some_iff] at h
    obtain ⟨d1, e1, e2⟩ := h
    obtain ⟨e, t, hs, -⟩ := step_strain _ d1 o e1
    rw [hT o (by simp)] at hs
    have hth : d.thermalNext T = 0 := by
      unfold Driver.thermalNext
      split_ifs
      · rfl
      · rw [h1, h2]; simp
    obtain ⟨_, -, m1, -, -, -, m4, -, q1, -, q3, q4, -, q6, -⟩ := strainStep_spec _ d1 e t _ hs
    obtain ⟨d2, f1, f2⟩ := strainStep_elastic d C hm e t T
    have hd : d2 = d1 := Option.some.inj (f1.symm.trans hs)
    subst hd
    obtain ⟨r1, r2⟩ := ih d2 (by rw [m1]; exact hm) (by rw [q3]; exact hth) (by rw [q6]; rfl)
      (by rw [f2, hth, sub_zero, q1]; rfl) e2 (fun o ho => hT o (by simp [ho]))
    exact ⟨r1, r2.trans m4⟩

theorem OnS.elastic {c : Setup H} {T : ℝ} {hist : Option H} {sdir : Fin 6 → ℝ} {r : Rec H} {path : List (ℝ × ℝ)}
    (h : OnS (c.driver T hist) T sdir r path) (C : Matrix (Fin 6) (Fin 6) ℝ) (hm : IsElastic c.model C) :
    r.d.rtol = c.rtol ∧ r.d.atol = c.atol ∧ r.d.model = c.model ∧ r.d.miter = c.miter ∧
      r.d.stress.last = C *ᵥ r.d.strain.last := by
  have hf : (c.driver T hist).rtol = c.rtol ∧ (c.driver T hist).atol = c.atol ∧ (c.driver T hist).model = c.model ∧
      (c.driver T hist).miter = c.miter ∧ (c.driver T hist).thermal.last = 0 ∧ (c.driver T hist).T.last = T ∧
      (c.driver T hist).stress.last = 0 ∧ (c.driver T hist).strain.last = 0 := by
    cases hist <;> exact ⟨rfl, rfl, rfl, rfl, rfl, rfl, rfl, rfl⟩
  obtain ⟨f1, f2, f3, f4, f5, f6, f7, f8⟩ := hf
  obtain ⟨ops, ho, hops⟩ := h.run
  obtain ⟨h1, h2, h3⟩ := run_tol _ _ _ ho
  obtain ⟨h4, h5⟩ := run_elastic C _ _ (by rw [f3]; exact hm) T f5 f6 (by rw [f7, f8, mulVec_zero]) ops ho hops
  exact ⟨h1.trans f1, h2.trans f2, h3.trans f3, h5.trans f4, h4⟩

/-- With an elastic material, a step to a stress answers; the strain increment belongs to the stress increment. -/
theorem stressStep_on {c : Setup H} {T : ℝ} {hist : Option H} {sdir : Fin 6 → ℝ} (hr : c.rtol = 0) (ha : c.atol = 0)
    (hi : 0 < c.miter) (C : Matrix (Fin 6) (Fin 6) ℝ) (hm : IsElastic c.model C) (hC : C.det ≠ 0) {x : Rec H}
    {path : List (ℝ × ℝ)} (h : OnS (c.driver T hist) T sdir x path) (s1 : Fin 6 → ℝ) (t1 : ℝ) :
    ∃ d', x.d.stressStep s1 t1 T = some d' ∧ d'.strain.last - x.d.strain.last = C⁻¹ *ᵥ (s1 - x.d.stress.last) := by
  obtain ⟨m1, m2, m3, m4, m5⟩ := h.elastic C hm
  obtain ⟨d', hd⟩ := C71_elastic_stress x.d (m1.trans hr).ge (m2.trans ha).ge (by rw [m4]; exact hi) C
    (by rw [m3]; exact hm) hC s1 t1 T
  refine ⟨d', hd, ?_⟩
  have h1 := C71_stress_exact x.d d' (m1.trans hr) (m2.trans ha) _ _ _ hd
  have hinv : ∀ v, C⁻¹ *ᵥ C *ᵥ v = v := fun v => by
    rw [mulVec_mulVec, nonsing_inv_mul C (Ne.isUnit hC), one_mulVec]
  obtain ⟨ops, ho, hops⟩ := h.run
  have hf : (c.driver T hist).model = c.model ∧ (c.driver T hist).thermal.last = 0 ∧ (c.driver T hist).T.last = T ∧
      (c.driver T hist).stress.last = 0 ∧ (c.driver T hist).strain.last = 0 := by
    cases hist <;> exact ⟨rfl, rfl, rfl, rfl, rfl⟩
  obtain ⟨f3, f5, f6, f7, f8⟩ := hf
  obtain ⟨h4, -⟩ := run_elastic C _ d' (by rw [f3]; exact hm) T f5 f6 (by rw [f7, f8, mulVec_zero])
    (ops ++ [.stress s1 t1 T]) (by rw [run_append, ho]; exact hd) (fun o h => by
      rcases List.mem_append.1 h with h | h
      · exact hops o h
      · rw [List.mem_singleton.1 h]; rfl)
  rw [← h1, h4, m5, ← mulVec_sub, hinv]

theorem srateSinc_step {c : Setup H} {T : ℝ} {hist : Option H} {sdir : Fin 6 → ℝ} (hr : c.rtol = 0) (ha : c.atol = 0)
    (hi : 0 < c.miter) (C : Matrix (Fin 6) (Fin 6) ℝ) (hm : IsElastic c.model C) (hC : C.det ≠ 0) (hn : norm2 sdir = 1)
    (srate sinc : ℝ) (hq : 1 / 10 ^ 8 < |srate|) {x : Rec H}
    {path : List (ℝ × ℝ)} (h : OnS (c.driver T hist) T sdir x path) :
    ∃ d', x.d.srateSincStep sdir srate sinc T = some d' ∧
      norm2 (d'.strain.last - x.d.strain.last) = |sinc| * norm2 (C⁻¹ *ᵥ sdir) := by
  obtain ⟨m1, m2, -⟩ := h.elastic C hm
  obtain ⟨d', hd, he⟩ := stressStep_on hr ha hi C hm hC h (x.d.sincStress sdir sinc)
    (x.d.t.last + x.d.sincTime sdir srate (x.d.sincStress sdir sinc))
  have hd' : x.d.srateSincStep sdir srate sinc T = some d' := hd
  refine ⟨d', hd', ?_⟩
  obtain ⟨h1, -⟩ := C71_srate_partial x.d d' (m1.trans hr) (m2.trans ha) sdir hn srate sinc T hq hd'
  have h2 := C71_stress_exact x.d d' (m1.trans hr) (m2.trans ha) _ _ _ hd
  rw [he, ← h2, h1, add_sub_cancel_left, mulVec_smul, norm2_smul]

namespace StressCyclic

theorem loop_okS {d0 : Driver H} {T : ℝ} {sdir : Fin 6 → ℝ} {f : Rec H → Ended (Rec H) (Rec H)}
    {dt ds : ℝ} (hf : ∀ x path t s, OnS d0 T sdir x path → path.getLast? = some (t, s) →
      WentS d0 T sdir x path [(t + dt, s + ds)] (f x)) (hok : ∀ x path, OnS d0 T sdir x path → ∃ y, f x = .ok y)
    (n : ℕ) (x : Rec H) (path : List (ℝ × ℝ)) (t s : ℝ) (h : OnS d0 T sdir x path) (hp : path.getLast? = some (t, s)) :
    ∃ y, loop f n x = .ok y := by
  induction n generalizing x path t s with
  | zero => exact ⟨x, rfl⟩
  | succ n ih =>
    obtain ⟨y, hy⟩ := hok x path h
    have h1 := hf x path t s h hp
    rw [hy] at h1
    obtain ⟨z, hz⟩ := ih y _ (t + dt) (s + ds) h1.1 (by simp)
    exact ⟨z, by simp only [loop, hy, Ended.andThen, hz]⟩

/-- The first ramp with an elastic material. -/
theorem first_elastic (a : StressCyclic) (c : Setup H) (hr : c.rtol = 0) (ha : c.atol = 0) (hi : 0 < c.miter)
    (hs : norm2 a.sdir = 1) (hq : 1 / 10 ^ 8 < |a.srate|) (C : Matrix (Fin 6) (Fin 6) ℝ) (hm : IsElastic c.model C)
    (hC : C.det ≠ 0) (hn : a.nsteps ≠ 0) : ∃ x, a.first (Rec.new (c.driver a.T none)) = .ok x ∧
      OnS (c.driver a.T none) a.T a.sdir x (a.program 0) ∧
      (a.program 0).getLast? = some (|a.smax| / |a.srate|, a.smax) := by
  have hnr : (a.nsteps : ℝ) ≠ 0 := by exact_mod_cast hn
  have hnp : (0 : ℝ) < a.nsteps := lt_of_le_of_ne (Nat.cast_nonneg _) hnr.symm
  have hf : ∀ x path t s, OnS (c.driver a.T none) a.T a.sdir x path → path.getLast? = some (t, s) →
      WentS (c.driver a.T none) a.T a.sdir x path [(t + |a.smax / a.nsteps| / |a.srate|, s + a.smax / a.nsteps)]
        (match x.d.srateSincStep a.sdir a.srate (a.smax / a.nsteps) a.T with
          | none => .stop x
          | some d' => .ok (x.note a.sdir d' d'.t.last)) := by
    intro x path t s h hp
    cases hx : x.d.srateSincStep a.sdir a.srate (a.smax / a.nsteps) a.T with
    | none => exact ⟨0, by simpa using h.off rfl, Ext.refl _⟩
    | some d' =>
      exact ⟨srateSinc_on hr ha hs a.srate _ hq x path t s h hp d' hx,
        Ext.note _ _ (.srateSinc a.sdir a.srate (a.smax / a.nsteps) a.T) _ hx _⟩
  obtain ⟨x, hx⟩ := loop_okS hf (fun x path h => by
    obtain ⟨d', hd, -⟩ := srateSinc_step hr ha hi C hm hC hs a.srate (a.smax / a.nsteps) hq h
    exact ⟨_, by rw [hd]⟩) a.nsteps _ _ 0 0 (new_onS c a.T none a.sdir) rfl
  have w := loop_legS hf a.nsteps _ _ 0 0 (new_onS c a.T none a.sdir) rfl
  rw [hx] at w
  replace w := w.1
  have hstart : [((0 : ℝ), (0 : ℝ))] ++ leg 0 0 (|a.smax / a.nsteps| / |a.srate|) (a.smax / a.nsteps) a.nsteps =
      a.program 0 := by simp [program, start]
  have p1 := leg_last [((0 : ℝ), (0 : ℝ))] 0 0 (|a.smax / a.nsteps| / |a.srate|) (a.smax / a.nsteps) a.nsteps rfl
  rw [hstart] at w p1
  refine ⟨x, hx, w, ?_⟩
  rw [p1]
  simp only [Option.some.injEq, Prod.mk.injEq, zero_add]
  constructor
  · rw [abs_div, abs_of_pos hnp]; field_simp
  · field_simp

/-- **C123.** With a linear elastic material and exact solves, all cycles are run if the strain increment of a step, which
is `|smax (1 - R)| / nsteps` times the compliance along the direction, is within the limit. -/
theorem C123_elastic (a : StressCyclic) (c : Setup H) (hr : c.rtol = 0) (ha : c.atol = 0) (hi : 0 < c.miter)
    (hs : norm2 a.sdir = 1) (hq : 1 / 10 ^ 8 < |a.srate|) (C : Matrix (Fin 6) (Fin 6) ℝ) (hm : IsElastic c.model C)
    (hC : C.det ≠ 0) (hn : a.nsteps ≠ 0) (hh : a.nhold ≠ 0)
    (hl : |a.smax - a.smin| / a.nsteps * norm2 (C⁻¹ *ᵥ a.sdir) ≤ a.etol) :
    ∃ r rows, a.run c = some (r, rows) ∧ rows.length = a.ncycles := by
  have hnr : (a.nsteps : ℝ) ≠ 0 := by exact_mod_cast hn
  have hnp : (0 : ℝ) < a.nsteps := lt_of_le_of_ne (Nat.cast_nonneg _) hnr.symm
  have he : 0 ≤ a.etol := le_trans (mul_nonneg (div_nonneg (abs_nonneg _) hnp.le) (norm2_nonneg _)) hl
  have hold : ∀ (ht : ℝ) (x : Rec H) (path : List (ℝ × ℝ)) (t s : ℝ), OnS (c.driver a.T none) a.T a.sdir x path →
      path.getLast? = some (t, s) → ∃ y, a.hold ht x = .ok y := by
    intro ht x path t s h hp
    unfold hold
    by_cases h3 : 0 < ht
    · rw [if_pos h3]
      refine loop_okS (dt := ht / a.nhold) (ds := 0) (fun x path t s h hp => ?_) (fun x path h => ?_) _ _ _ _ _ h hp
      · refine check_went rfl a x path _ _ (.stress x.d.stress.last (x.d.t.last + ht / a.nhold) a.T) _ rfl rfl h
          fun d' hd => ?_
        obtain ⟨e1, e2⟩ := stressHold_on (d0 := c.driver a.T none) hr ha hs _ x path t s h hp d' hd
        rw [e1, add_zero]
        rwa [(h.lastTime hp).1] at e2 ⊢
      · obtain ⟨d', hd, hz⟩ := stressStep_on hr ha hi C hm hC h x.d.stress.last (x.d.t.last + ht / a.nhold)
        rw [sub_self, mulVec_zero] at hz
        have hneg : ¬ a.etol < norm2 (d'.strain.last - x.d.strain.last) := by
          rw [hz, norm2_eq_zero.2 rfl, not_lt]
          exact he
        exact ⟨x.note a.sdir d' d'.t.last, by rw [hd]; exact if_neg hneg⟩
    · rw [if_neg h3]
      exact ⟨x, rfl⟩
  have ramp : ∀ (sinc : ℝ), |sinc| = |a.smax - a.smin| / a.nsteps → ∀ (x : Rec H) (path : List (ℝ × ℝ)) (t s : ℝ),
      OnS (c.driver a.T none) a.T a.sdir x path → path.getLast? = some (t, s) → ∃ y, a.ramp sinc x = .ok y := by
    intro sinc hsinc x path t s h hp
    refine loop_okS (dt := |sinc| / |a.srate|) (ds := sinc) (fun x path t s h hp => ?_) (fun x path h => ?_) _ _ _ _ _ h hp
    · refine check_went rfl a x path _ _ (.srateSinc a.sdir a.srate sinc a.T) _ rfl rfl h fun d' hd => ?_
      exact srateSinc_on hr ha hs a.srate sinc hq x path t s h hp d' hd
    · obtain ⟨d', hd, hz⟩ := srateSinc_step hr ha hi C hm hC hs a.srate sinc hq h
      have hneg : ¬ a.etol < norm2 (d'.strain.last - x.d.strain.last) := by
        rw [hz, hsinc, not_lt]
        exact hl
      exact ⟨x.note a.sdir d' d'.t.last, by rw [hd]; exact if_neg hneg⟩
  have hd1 : |(a.smax * a.R - a.smax) / a.nsteps| = |a.smax - a.smin| / a.nsteps := by
    rw [smin, abs_div, abs_of_pos hnp, abs_sub_comm]
  have hd2 : |(a.smax - a.smax * a.R) / a.nsteps| = |a.smax - a.smin| / a.nsteps := by
    rw [smin, abs_div, abs_of_pos hnp]
  have cyc : ∀ (k : ℕ) (x : Rec H) (path : List (ℝ × ℝ)) (t s : ℝ),
      OnS (c.driver a.T none) a.T a.sdir x path → path.getLast? = some (t, s) → ∃ y, a.cycle k x = .ok y := by
    intro k x path t s h hp
    obtain ⟨x1, hx1⟩ := hold a.hold0 x path t s h hp
    have w1 := hold_went (d0 := c.driver a.T none) hr ha rfl a hs a.hold0 x path t s h hp
    rw [hx1] at w1
    have p1 := leg_last path t s (a.hold0 / a.nhold) 0 (a.holdSteps a.hold0) hp
    obtain ⟨x2, hx2⟩ := ramp _ hd1 x1 _ _ _ w1.1 p1
    have w2 := ramp_went (d0 := c.driver a.T none) hr ha rfl a hs hq ((a.smax * a.R - a.smax) / a.nsteps) x1 _ _ _ w1.1 p1
    have p2 := leg_last _ _ _ (|(a.smax * a.R - a.smax) / a.nsteps| / |a.srate|) ((a.smax * a.R - a.smax) / a.nsteps)
      a.nsteps p1
    rw [hx2] at w2
    obtain ⟨x3, hx3⟩ := hold a.hold1 x2 _ _ _ w2.1 p2
    have w3 := hold_went (d0 := c.driver a.T none) hr ha rfl a hs a.hold1 x2 _ _ _ w2.1 p2
    rw [hx3] at w3
    have p3 := leg_last _ _ _ (a.hold1 / a.nhold) 0 (a.holdSteps a.hold1) p2
    obtain ⟨x4, hx4⟩ := ramp _ hd2 x3 _ _ _ w3.1 p3
    exact ⟨_, by simp only [cycle, hx1, hx2, hx3, hx4, Ended.andThen]; rfl⟩
  have cycs : ∀ (n k : ℕ) (x : Rec H) (rows : List Cyclic.Row) (path : List (ℝ × ℝ)) (t : ℝ),
      OnS (c.driver a.T none) a.T a.sdir x path → path.getLast? = some (t, a.smax) →
      (a.cycles n k x rows).2.length = rows.length + n := by
    intro n
    induction n with
    | zero => intro k x rows path t _ _; rfl
    | succ n ih =>
      intro k x rows path t h hp
      obtain ⟨⟨y, row⟩, hy⟩ := cyc k x path t _ h hp
      have w := cycle_went (d0 := c.driver a.T none) hr ha rfl rfl rfl rfl a hn hs hq (Or.inl hh) k x path t h hp
      rw [hy] at w
      rw [cycles, hy]
      simp only
      rw [ih (k + 1) y (row :: rows) _ _ w.1 w.2.2.1, List.length_cons]
      ring
  obtain ⟨x, hx, w, p⟩ := first_elastic a c hr ha hi hs hq C hm hC hn
  refine ⟨_, _, by rw [run, if_neg (by simp [hn, hh]), hx], ?_⟩
  rw [List.length_reverse, cycs _ _ _ _ _ _ w p]
  simp

/-- **C123, disagreement.** A test stopped by the limit on the strain increment returns one time more than strains and
stresses, although no cycle was completed. -/
theorem C123_stopped (a : StressCyclic) (c : Setup H) (hr : c.rtol = 0) (ha : c.atol = 0) (hi : 0 < c.miter)
    (hs : norm2 a.sdir = 1) (hq : 1 / 10 ^ 8 < |a.srate|) (C : Matrix (Fin 6) (Fin 6) ℝ) (hm : IsElastic c.model C)
    (hC : C.det ≠ 0) (hn : a.nsteps ≠ 0) (hh : a.nhold ≠ 0) (h0 : a.hold0 ≤ 0) (hc : a.ncycles ≠ 0)
    (hl : a.etol < |a.smax - a.smin| / a.nsteps * norm2 (C⁻¹ *ᵥ a.sdir)) :
    ∃ r, a.run c = some (r, []) ∧ r.strain.toList.length = a.nsteps + 1 ∧ r.stress.toList.length = a.nsteps + 1 ∧
      r.d.t.toList.length = a.nsteps + 2 := by
  have hnr : (a.nsteps : ℝ) ≠ 0 := by exact_mod_cast hn
  have hnp : (0 : ℝ) < a.nsteps := lt_of_le_of_ne (Nat.cast_nonneg _) hnr.symm
  obtain ⟨x, hx, w, p⟩ := first_elastic a c hr ha hi hs hq C hm hC hn
  obtain ⟨n, hnc⟩ := Nat.exists_eq_succ_of_ne_zero hc
  obtain ⟨m, hnm⟩ := Nat.exists_eq_succ_of_ne_zero hn
  obtain ⟨d', hd, hz⟩ := srateSinc_step hr ha hi C hm hC hs a.srate ((a.smax * a.R - a.smax) / a.nsteps) hq w
  have hd1 : |(a.smax * a.R - a.smax) / a.nsteps| = |a.smax - a.smin| / a.nsteps := by
    rw [smin, abs_div, abs_of_pos hnp, abs_sub_comm]
  have hstop : a.ramp ((a.smax * a.R - a.smax) / a.nsteps) x = .stop { x with d := d' } := by
    unfold ramp
    rw [hd1] at hz
    conv_lhs => arg 2; rw [hnm]
    simp only [loop, hd, check, hz, if_pos hl, Ended.andThen]
  have hcyc : a.cycles a.ncycles 0 x [] = ({ x with d := d' }, []) := by
    rw [hnc, cycles, cycle]
    simp only [hold, if_neg (not_lt.2 h0), Ended.andThen, gt_iff_lt, hstop]
  refine ⟨{ x with d := d' }, by rw [run, if_neg (by simp [hn, hh]), hx]; simp only [hcyc]; rfl, ?_, ?_, ?_⟩
  · rw [(w.off rfl).lengths, program_length]; ring
  · rw [w.stress, List.length_map, program_length]; ring
  · obtain ⟨e1, t2, hst, -⟩ := step_strain x.d d' (.srateSinc a.sdir a.srate _ a.T) hd
    obtain ⟨_, -, -, -, -, -, -, -, -, -, -, -, -, -, h7, -⟩ := strainStep_spec x.d d' e1 t2 _ hst
    simp only [h7, Series.push_toList, List.length_append, w.times, w.time, List.length_map, program_length,
      List.length_cons, List.length_nil]
    ring

end StressCyclic

/-- A concrete test: three cycles between stresses 1/100 and -1/200 with holds, on the identity stiffness. -/
example : ∃ r rows, (⟨1 / 100, -1 / 2, 1 / 1000, 3, 300, 5, ![1, 0, 0, 0, 0, 0], 10, 20, 3, 1 / 10⟩ : StressCyclic).run
    (⟨counter, 0, 0, 25, 0⟩ : Setup ℕ) = some (r, rows) ∧ rows.length = 3 := by
  have hs : norm2 (![1, 0, 0, 0, 0, 0] : Fin 6 → ℝ) = 1 := by simp [norm2, Fin.sum_univ_six]
  refine StressCyclic.C123_elastic _ _ rfl rfl (by norm_num) hs (by norm_num [abs_of_pos]) 1 counter_elastic (by simp)
    (by norm_num) (by norm_num) ?_
  simp only [inv_one, one_mulVec, hs, StressCyclic.smin]
  norm_num [abs_of_pos]

/-- A concrete test that is stopped: steps of one half where one tenth is allowed. -/
example : ∃ r, (⟨1, 0, 1, 3, 300, 2, ![1, 0, 0, 0, 0, 0], 0, 0, 3, 1 / 10⟩ : StressCyclic).run
    (⟨counter, 0, 0, 25, 0⟩ : Setup ℕ) = some (r, []) ∧ r.strain.toList.length = 3 ∧ r.stress.toList.length = 3 ∧
    r.d.t.toList.length = 4 := by
  have hs : norm2 (![1, 0, 0, 0, 0, 0] : Fin 6 → ℝ) = 1 := by simp [norm2, Fin.sum_univ_six]
  refine StressCyclic.C123_stopped _ _ rfl rfl (by norm_num) hs (by norm_num [abs_of_pos]) 1 counter_elastic (by simp)
    (by norm_num) (by norm_num) (by norm_num) (by norm_num) ?_
  simp only [inv_one, one_mulVec, hs, StressCyclic.smin]
  norm_num [abs_of_pos]

end Neml.DriverTests
