import Verif.Model.DriverTests
import Verif.Props.DriverElastic

/-!
# C121: strain controlled cycles follow their program

The statement compares what the test returns with the loading program a user has in mind: a ramp to the largest strain,
then cycles of hold, ramp down, hold and ramp up. -/

namespace Neml.DriverTests

open Matrix Neml.Driver Neml.PySolve Neml.Uniaxial

variable {H : Type}

/-! ## Loading programs -/

/-- `n` equal steps of time and strain from a point. -/
def leg (t e dt de : ℝ) (n : ℕ) : List (ℝ × ℝ) := (List.range n).map fun k : ℕ => (t + ((k : ℝ) + 1) * dt, e + ((k : ℝ) + 1) * de)

theorem leg_succ (t e dt de : ℝ) (n : ℕ) :
    leg t e dt de (n + 1) = (t + dt, e + de) :: leg (t + dt) (e + de) dt de n := by
  simp only [leg, List.range_succ_eq_map, List.map_cons, List.map_map, Nat.cast_zero, zero_add, one_mul]
  congr 1
  refine List.map_congr_left fun k _ => ?_
  simp only [Function.comp_apply, Nat.succ_eq_add_one, Nat.cast_add, Nat.cast_one, Prod.mk.injEq]
  constructor <;> ring

theorem leg_length (t e dt de : ℝ) (n : ℕ) : (leg t e dt de n).length = n := by simp [leg]

theorem leg_last (path : List (ℝ × ℝ)) (t e dt de : ℝ) (n : ℕ) (h : path.getLast? = some (t, e)) :
    (path ++ leg t e dt de n).getLast? = some (t + n * dt, e + n * de) := by
  cases n with
  | zero => simpa [leg] using h
  | succ n => simp [leg, List.range_succ]

/-! ## What is kept while a test runs -/

/-- The lists of the test are the points of `path` (the strains times the length of the direction), and they are the
driver's series along the direction; the driver has made steps at temperature `T` from its initial state `d0`. -/
structure On (d0 : Driver H) (T : ℝ) (sdir : Fin 6 → ℝ) (r : Rec H) (path : List (ℝ × ℝ)) : Prop where
  time : r.time.toList = path.map Prod.fst
  strain : r.strain.toList = path.map fun p => norm2 sdir * p.2
  times : r.d.t.toList = r.time.toList
  strains : r.d.strain.toList.map (· ⬝ᵥ sdir) = r.strain.toList
  stresses : r.d.stress.toList.map (· ⬝ᵥ sdir) = r.stress.toList
  run : ∃ ops, d0.run ops = some r.d ∧ ∀ o ∈ ops, o.temp = T

/-- The same, but the driver may have made one step more. -/
structure Off (d0 : Driver H) (T : ℝ) (sdir : Fin 6 → ℝ) (r : Rec H) (path : List (ℝ × ℝ)) : Prop where
  time : r.time.toList = path.map Prod.fst
  strain : r.strain.toList = path.map fun p => norm2 sdir * p.2
  times : r.time.toList <+: r.d.t.toList
  strains : r.strain.toList <+: r.d.strain.toList.map (· ⬝ᵥ sdir)
  stresses : r.stress.toList <+: r.d.stress.toList.map (· ⬝ᵥ sdir)
  lengths : r.stress.toList.length = path.length
  more : r.d.t.toList.length ≤ path.length + 1
  run : ∃ ops, d0.run ops = some r.d ∧ ∀ o ∈ ops, o.temp = T

theorem toList_last {α : Type} {s : Series α} {l : List α} {x : α} (h : s.toList = l) (hl : l.getLast? = some x) :
    s.last = x := by
  subst h
  simpa [Series.toList] using hl

theorem toList_len {α : Type} (s : Series α) : s.toList.length = s.before.length + 1 := by simp [Series.toList]

theorem run_append (d : Driver H) (ops : List Op) (o : Op) :
    d.run (ops ++ [o]) = (d.run ops).bind fun d' => d'.step o := by
  induction ops generalizing d with
  | nil => cases h : d.step o <;> simp [Driver.run, h]
  | cons p ps ih =>
    simp only [List.cons_append, Driver.run]
    cases h : d.step p with
    | none => simp
    | some d' => simpa using ih d'

theorem run_tol (d d' : Driver H) (ops : List Op) (h : d.run ops = some d') :
    d'.rtol = d.rtol ∧ d'.atol = d.atol ∧ d'.model = d.model := by
  induction ops generalizing d with
  | nil => simp only [Driver.run, Option.some.injEq] at h; subst h; exact ⟨rfl, rfl, rfl⟩
  | cons o os ih =>
    simp only [Driver.run, Option.bind_eq_some_iff] at h
    obtain ⟨d1, h1, h2⟩ := h
    obtain ⟨e, t, hs, -⟩ := step_strain d d1 o h1
    obtain ⟨_, -, e1, -, e2, e3, -⟩ := strainStep_spec d d1 e t _ hs
    obtain ⟨f2, f3, f1⟩ := ih d1 h2
    exact ⟨f2.trans e2, f3.trans e3, f1.trans e1⟩

/-- Lengths of the driver's series. -/
theorem run_lengths (d d' : Driver H) (ops : List Op) (h : d.run ops = some d') :
    d'.t.before.length = d.t.before.length + ops.length ∧ d'.u.before.length = d.u.before.length + ops.length ∧
    d'.p.before.length = d.p.before.length + ops.length ∧
    d'.stress.before.length = d.stress.before.length + ops.length ∧
    d'.strain.before.length = d.strain.before.length + ops.length ∧
    d'.stored.before.length = d.stored.before.length + ops.length := by
  induction ops generalizing d with
  | nil => simp only [Driver.run, Option.some.injEq] at h; subst h; simp
  | cons o os ih =>
    simp only [Driver.run, Option.bind_eq_some_iff] at h
    obtain ⟨d1, h1, h2⟩ := h
    obtain ⟨e, t, hs, -⟩ := step_strain d d1 o h1
    obtain ⟨_, -, -, -, -, -, -, -, h1, -, -, h4, h5, -, h7, h8, h9⟩ := strainStep_spec d d1 e t _ hs
    obtain ⟨f1, f2, f3, f4, f5, f6⟩ := ih d1 h2
    simp only [f1, f2, f3, f4, f5, f6, h1, h4, h5, h7, h8, h9, Series.push, List.length_cons]
    omega

theorem On.off {d0 : Driver H} {T : ℝ} {sdir : Fin 6 → ℝ} {r : Rec H} {path : List (ℝ × ℝ)} (h : On d0 T sdir r path)
    (h0 : d0.t.before.length = d0.stress.before.length) : Off d0 T sdir r path := by
  have hl : r.d.t.toList.length = path.length := by rw [h.times, h.time, List.length_map]
  refine ⟨h.time, h.strain, by rw [h.times], by rw [h.strains], by rw [h.stresses], ?_, by omega, h.run⟩
  obtain ⟨ops, ho, -⟩ := h.run
  have := run_lengths _ _ _ ho
  rw [← h.stresses, List.length_map, ← hl, toList_len, toList_len]
  omega

/-- One more step, noted. -/
theorem On.note {d0 : Driver H} {T : ℝ} {sdir : Fin 6 → ℝ} {r : Rec H} {path : List (ℝ × ℝ)} (h : On d0 T sdir r path)
    {t e : ℝ} (hp : path.getLast? = some (t, e)) (o : Op) (d' : Driver H) (hs : r.d.step o = some d') (hT : o.temp = T)
    (t1 de : ℝ) (ht : d'.t.last = t1) (he : (d'.strain.last - r.d.strain.last) ⬝ᵥ sdir = norm2 sdir * de) :
    On d0 T sdir (r.note sdir d' t1) (path ++ [(t1, e + de)]) := by
  obtain ⟨e1, t2, hst, -⟩ := step_strain r.d d' o hs
  obtain ⟨_, -, -, -, -, -, -, -, h1, -, -, h4, -, -, h7, -⟩ := strainStep_spec r.d d' e1 t2 _ hst
  have ht2 : t2 = t1 := by rw [← ht, h7]; rfl
  have hlast : r.d.strain.last ⬝ᵥ sdir = norm2 sdir * e := by
    have h2 : r.strain.last = norm2 sdir * e := by
      refine toList_last h.strain ?_
      rw [List.getLast?_map, hp]
      rfl
    have h3 : (r.d.strain.toList.map (· ⬝ᵥ sdir)).getLast? = some (r.d.strain.last ⬝ᵥ sdir) := by
      simp [Series.toList]
    rw [← h2]
    exact (toList_last h.strains.symm h3).symm
  refine ⟨?_, ?_, ?_, ?_, ?_, ?_⟩
  · simp [Rec.note, Series.push_toList, h.time]
  · simp only [Rec.note, Series.push_toList, h.strain, List.map_append, List.map_cons, List.map_nil]
    rw [mul_add, ← he, ← hlast, sub_dotProduct]
    simp
  · simp [Rec.note, h7, ht2, Series.push_toList, h.times]
  · simp only [Rec.note, h1, Series.push_toList, List.map_append, h.strains, List.map_cons, List.map_nil]; rfl
  · simp only [Rec.note, h4, Series.push_toList, List.map_append, h.stresses, List.map_cons, List.map_nil]; rfl
  · obtain ⟨ops, ho, hops⟩ := h.run
    refine ⟨ops ++ [o], by rw [run_append, ho]; exact hs, fun o' ho' => ?_⟩
    rcases List.mem_append.1 ho' with h | h
    · exact hops o' h
    · rw [List.mem_singleton.1 h, hT]

/-- One more step, not noted. -/
theorem On.over {d0 : Driver H} {T : ℝ} {sdir : Fin 6 → ℝ} {r : Rec H} {path : List (ℝ × ℝ)} (h : On d0 T sdir r path)
    (h0 : d0.t.before.length = d0.stress.before.length) (o : Op) (d' : Driver H) (hs : r.d.step o = some d')
    (hT : o.temp = T) : Off d0 T sdir { r with d := d' } path := by
  obtain ⟨e1, t2, hst, -⟩ := step_strain r.d d' o hs
  obtain ⟨_, -, -, -, -, -, -, -, h1, -, -, h4, -, -, h7, -⟩ := strainStep_spec r.d d' e1 t2 _ hst
  have hf := h.off h0
  refine ⟨h.time, h.strain, ?_, ?_, ?_, hf.lengths, ?_, ?_⟩
  · simp [h7, Series.push_toList, h.times]
  · simp [h1, Series.push_toList, h.strains]
  · simp [h4, Series.push_toList, h.stresses]
  · have hl : r.d.t.toList.length = path.length := by rw [h.times, h.time, List.length_map]
    simp only [h7, Series.push_toList, List.length_append, List.length_cons, List.length_nil]
    omega
  · obtain ⟨ops, ho, hops⟩ := h.run
    refine ⟨ops ++ [o], by rw [run_append, ho]; exact hs, fun o' ho' => ?_⟩
    rcases List.mem_append.1 ho' with h | h
    · exact hops o' h
    · rw [List.mem_singleton.1 h, hT]

/-- Nothing recorded is lost. -/
structure Ext (r r' : Rec H) : Prop where
  strain : r.strain.toList <+: r'.strain.toList
  stress : r.stress.toList <+: r'.stress.toList
  u : r.d.u.toList <+: r'.d.u.toList
  p : r.d.p.toList <+: r'.d.p.toList

theorem Ext.refl (r : Rec H) : Ext r r :=
  ⟨List.prefix_refl _, List.prefix_refl _, List.prefix_refl _, List.prefix_refl _⟩

theorem Ext.trans {a b c : Rec H} (h1 : Ext a b) (h2 : Ext b c) : Ext a c :=
  ⟨h1.1.trans h2.1, h1.2.trans h2.2, h1.3.trans h2.3, h1.4.trans h2.4⟩

theorem Ext.note (r : Rec H) (sdir : Fin 6 → ℝ) (o : Op) (d' : Driver H) (hs : r.d.step o = some d') (t : ℝ) :
    Ext r (r.note sdir d' t) := by
  obtain ⟨e1, t2, hst, -⟩ := step_strain r.d d' o hs
  obtain ⟨_, -, -, -, -, -, -, -, -, -, -, -, -, -, -, h8, h9⟩ := strainStep_spec r.d d' e1 t2 _ hst
  exact ⟨by simp [Rec.note, Series.push_toList], by simp [Rec.note, Series.push_toList], by simp [Rec.note, h8, Series.push_toList],
    by simp [Rec.note, h9, Series.push_toList]⟩

theorem Ext.over (r : Rec H) (o : Op) (d' : Driver H) (hs : r.d.step o = some d') : Ext r { r with d := d' } := by
  obtain ⟨e1, t2, hst, -⟩ := step_strain r.d d' o hs
  obtain ⟨_, -, -, -, -, -, -, -, -, -, -, -, -, -, -, h8, h9⟩ := strainStep_spec r.d d' e1 t2 _ hst
  exact ⟨List.prefix_refl _, List.prefix_refl _, by simp [h8, Series.push_toList], by simp [h9, Series.push_toList]⟩

/-- A phase of a test from `r0` has gone through all the points `new`, or has stopped at some of them. -/
def Went (d0 : Driver H) (T : ℝ) (sdir : Fin 6 → ℝ) (r0 : Rec H) (path new : List (ℝ × ℝ)) :
    Ended (Rec H) (Rec H × Guess) → Prop
  | .ok y => On d0 T sdir y.1 (path ++ new) ∧ Ext r0 y.1
  | .stop r => ∃ k, Off d0 T sdir r (path ++ new.take k) ∧ Ext r0 r

/-- A loop of equal steps goes along a leg. -/
theorem loop_leg {d0 : Driver H} {T : ℝ} {sdir : Fin 6 → ℝ} {f : Rec H × Guess → Ended (Rec H) (Rec H × Guess)}
    {dt de : ℝ} (hf : ∀ x path t e, On d0 T sdir x.1 path → path.getLast? = some (t, e) →
      Went d0 T sdir x.1 path [(t + dt, e + de)] (f x)) (n : ℕ) (x : Rec H × Guess) (path : List (ℝ × ℝ)) (t e : ℝ)
    (h : On d0 T sdir x.1 path) (hp : path.getLast? = some (t, e)) :
    Went d0 T sdir x.1 path (leg t e dt de n) (loop f n x) := by
  induction n generalizing x path t e with
  | zero => exact ⟨by simpa [leg] using h, Ext.refl _⟩
  | succ n ih =>
    have h1 := hf x path t e h hp
    rw [leg_succ]
    simp only [loop, Ended.andThen]
    cases hx : f x with
    | stop r =>
      rw [hx] at h1
      obtain ⟨k, h2, h3⟩ := h1
      rcases k with _ | k
      · exact ⟨0, by simpa using h2, h3⟩
      · exact ⟨1, by simpa using h2, h3⟩
    | ok y =>
      rw [hx] at h1
      obtain ⟨h2, h3⟩ := h1
      have h4 := ih y _ (t + dt) (e + de) h2 (by simp)
      simp only
      cases hy : loop f n y with
      | ok z =>
        rw [hy] at h4
        exact ⟨by simpa using h4.1, h3.trans h4.2⟩
      | stop r =>
        rw [hy] at h4
        obtain ⟨k, h5, h6⟩ := h4
        exact ⟨k + 1, by simpa using h5, h3.trans h6⟩

/-- One step of a ramp: along the direction if `s` is one, against it if `s` is minus one. -/
theorem eincStep_went {d0 : Driver H} {T : ℝ} {sdir : Fin 6 → ℝ} (hr : d0.rtol = 0) (ha : d0.atol = 0)
    (h0 : d0.t.before.length = d0.stress.before.length) (bad : H → Bool) (s : ℝ) (hs : s = 1 ∨ s = -1) (erate einc : ℝ)
    (x : Rec H × Guess) (path : List (ℝ × ℝ)) (t e : ℝ) (h : On d0 T sdir x.1 path) (hp : path.getLast? = some (t, e)) :
    Went d0 T sdir x.1 path [(t + einc / erate, e + s * einc)] (eincStep bad sdir (s • sdir) erate einc T x) := by
  have htime : x.1.time.last = t := toList_last h.time (by rw [List.getLast?_map, hp]; rfl)
  have hdt : x.1.d.t.last = t := by
    refine toList_last (h.times.trans h.time) ?_
    rw [List.getLast?_map, hp]; rfl
  obtain ⟨ops, ho, -⟩ := h.run
  obtain ⟨tr, ta, -⟩ := run_tol _ _ _ ho
  unfold eincStep
  cases hx : x.1.d.erateEincStep (s • sdir) erate einc T (x.2.map Prod.fst) (x.2.map Prod.snd) with
  | none => exact ⟨0, by simpa using h.off h0, Ext.refl _⟩
  | some q =>
    obtain ⟨d', de, a⟩ := q
    have hstep : x.1.d.step (.erateEinc (s • sdir) erate einc T (x.2.map Prod.fst) (x.2.map Prod.snd)) = some d' := by
      simp [Driver.step, hx]
    simp only
    split
    · exact ⟨0, by simpa using h.over h0 _ d' hstep rfl, Ext.over _ _ _ hstep⟩
    · have hx' := hx
      simp only [Driver.erateEincStep] at hx'
      split_ifs at hx' with he
      obtain ⟨-, -, h3, h4⟩ := C71_erate _ (tr.trans hr) (ta.trans ha) _ _ _ _ _ _ _ _ _ hx'
      rw [htime]
      refine ⟨h.note hp _ d' hstep rfl _ _ (by rw [h4, hdt]) ?_, Ext.note _ _ _ _ hstep _⟩
      rw [dotProduct_smul, norm2_smul, add_sub_cancel_left, smul_eq_mul, mul_div_cancel₀ _ he] at h3
      rcases hs with rfl | rfl
      · rw [one_mul, abs_one] at h3
        rw [h3]; ring
      · rw [abs_neg, abs_one] at h3
        linarith

/-- One step of a hold. -/
theorem holdStep_went {d0 : Driver H} {T : ℝ} {sdir : Fin 6 → ℝ} (hr : d0.rtol = 0) (ha : d0.atol = 0)
    (h0 : d0.t.before.length = d0.stress.before.length) (bad : H → Bool) (dt : ℝ)
    (x : Rec H × Guess) (path : List (ℝ × ℝ)) (t e : ℝ) (h : On d0 T sdir x.1 path) (hp : path.getLast? = some (t, e)) :
    Went d0 T sdir x.1 path [(t + dt, e + 0)] (holdStep bad sdir dt T x) := by
  have htime : x.1.time.last = t := toList_last h.time (by rw [List.getLast?_map, hp]; rfl)
  obtain ⟨ops, ho, -⟩ := h.run
  obtain ⟨tr, ta, -⟩ := run_tol _ _ _ ho
  unfold holdStep
  cases hx : x.1.d.erateStep sdir 0 (x.1.time.last + dt) T (some 0) (some (-1)) with
  | none => exact ⟨0, by simpa using h.off h0, Ext.refl _⟩
  | some q =>
    obtain ⟨d', de, a⟩ := q
    have hstep : x.1.d.step (.erate sdir 0 (x.1.time.last + dt) T (some 0) (some (-1))) = some d' := by
      simp [Driver.step, hx]
    simp only
    split
    · exact ⟨0, by simpa using h.over h0 _ d' hstep rfl, Ext.over _ _ _ hstep⟩
    · obtain ⟨-, -, h3, h4⟩ := C71_erate _ (tr.trans hr) (ta.trans ha) _ _ _ _ _ _ _ _ _ hx
      rw [htime] at hstep h4 ⊢
      exact ⟨h.note hp _ d' hstep rfl _ _ h4 (by rw [h3]; ring), Ext.note _ _ _ _ hstep _⟩

/-! ## The program of a strain controlled cyclic test -/

namespace Cyclic

/-- The length in time, and the number of steps, of a hold of `h`: a hold that is not positive is left out. -/
noncomputable def holdTime (h : ℝ) : ℝ := max h 0

open Classical in
noncomputable def holdSteps (a : Cyclic H) (h : ℝ) : ℕ := if 0 < h then a.nhold else 0

/-- The points of the first ramp. -/
noncomputable def start (a : Cyclic H) : List (ℝ × ℝ) :=
  (0, 0) :: leg 0 0 (a.emax / a.nsteps / a.erate) (a.emax / a.nsteps) a.nsteps

/-- The points of a cycle between `emax` and `low` that starts at time `t`: hold, ramp down, hold, ramp up. -/
noncomputable def block (a : Cyclic H) (low t : ℝ) : List (ℝ × ℝ) :=
  let D := a.emax - low
  let t1 := t + holdTime a.hold0
  let t2 := t1 + D / a.erate
  let t3 := t2 + holdTime a.hold1
  leg t a.emax (a.hold0 / a.nhold) 0 (a.holdSteps a.hold0) ++
  leg t1 a.emax (D / a.nsteps / a.erate) (-(D / a.nsteps)) a.nsteps ++
  leg t2 low (a.hold1 / a.nhold) 0 (a.holdSteps a.hold1) ++
  leg t3 low (D / a.nsteps / a.erate) (D / a.nsteps) a.nsteps

/-- The length of a cycle, in time and in points. -/
noncomputable def period (a : Cyclic H) (low : ℝ) : ℝ :=
  holdTime a.hold0 + holdTime a.hold1 + 2 * (a.emax - low) / a.erate

noncomputable def points (a : Cyclic H) : ℕ := a.holdSteps a.hold0 + a.holdSteps a.hold1 + 2 * a.nsteps

/-- The first ramp and `n` cycles. -/
noncomputable def program (a : Cyclic H) (low : ℝ) (n : ℕ) : List (ℝ × ℝ) :=
  a.start ++ (List.range n).flatMap fun c : ℕ => a.block low (a.emax / a.erate + (c : ℝ) * a.period low)

theorem block_length (a : Cyclic H) (low t : ℝ) : (a.block low t).length = a.points := by
  simp only [block, List.length_append, leg_length, points]
  ring

theorem program_length (a : Cyclic H) (low : ℝ) (n : ℕ) :
    (a.program low n).length = a.nsteps + 1 + n * a.points := by
  simp only [program, start, List.length_append, List.length_cons, leg_length, List.length_flatMap, block_length,
    List.map_const', List.length_range, List.sum_replicate, smul_eq_mul]

theorem program_succ (a : Cyclic H) (low : ℝ) (n : ℕ) :
    a.program low (n + 1) = a.program low n ++ a.block low (a.emax / a.erate + n * a.period low) := by
  simp [program, List.range_succ]

theorem hold_went {d0 : Driver H} (hr : d0.rtol = 0) (ha : d0.atol = 0)
    (h0 : d0.t.before.length = d0.stress.before.length) (a : Cyclic H) (ht : ℝ) (x : Rec H × Guess)
    (path : List (ℝ × ℝ)) (t e : ℝ) (h : On d0 a.T a.sdir x.1 path) (hp : path.getLast? = some (t, e)) :
    Went d0 a.T a.sdir x.1 path (leg t e (ht / a.nhold) 0 (a.holdSteps ht)) (a.hold ht x) := by
  unfold hold holdSteps
  by_cases h1 : 0 < ht
  · rw [if_pos h1, if_pos h1]
    split_ifs
    · exact ⟨0, by simpa using h.off h0, Ext.refl _⟩
    · exact loop_leg (holdStep_went hr ha h0 a.bad (ht / a.nhold)) a.nhold x path t e h hp
  · rw [if_neg h1, if_neg h1]
    exact ⟨by simpa [leg] using h, Ext.refl _⟩

theorem hold_end (a : Cyclic H) (ht t : ℝ) (x y : Rec H × Guess) (h : a.hold ht x = .ok y) :
    t + a.holdSteps ht * (ht / a.nhold) = t + holdTime ht := by
  unfold hold at h
  unfold holdSteps holdTime
  by_cases h1 : 0 < ht
  · rw [if_pos h1] at h ⊢
    split_ifs at h with h2
    rw [mul_div_cancel₀ _ (by exact_mod_cast h2), max_eq_left h1.le]
  · rw [if_neg h1, max_eq_right (not_lt.1 h1)]
    simp

theorem ramp_went {d0 : Driver H} (hr : d0.rtol = 0) (ha : d0.atol = 0)
    (h0 : d0.t.before.length = d0.stress.before.length) (a : Cyclic H) (s : ℝ) (hs : s = 1 ∨ s = -1) (einc : ℝ)
    (x : Rec H × Guess) (path : List (ℝ × ℝ)) (t e : ℝ) (h : On d0 a.T a.sdir x.1 path)
    (hp : path.getLast? = some (t, e)) :
    Went d0 a.T a.sdir x.1 path (leg t e (einc / a.erate) (s * einc) a.nsteps) (a.ramp (s • a.sdir) einc x) :=
  loop_leg (eincStep_went hr ha h0 a.bad s hs a.erate einc) a.nsteps (x.1, x.2.neg) path t e h hp

/-- The row of a cycle: its number, the extremes of the values `xs` recorded from point `lo` up to point `hi`, their mean, and
the energy and the work at the last point. -/
structure RowOf (xs us ps : List ℝ) (c lo hi : ℕ) (row : Row) : Prop where
  cycle : row.cycle = c
  within : hi ≤ xs.length
  max : IsGreatest {s | s ∈ (xs.take hi).drop lo} row.max
  min : IsLeast {s | s ∈ (xs.take hi).drop lo} row.min
  mean : row.mean = (row.max + row.min) / 2
  energy : us[hi - 1]? = some row.u
  work : ps[hi - 1]? = some row.p

theorem prefix_get {α : Type} {l l' : List α} (h : l <+: l') {i : ℕ} {x : α} (hx : l[i]? = some x) : l'[i]? = some x := by
  obtain ⟨m, rfl⟩ := h
  rw [List.getElem?_append_left (List.getElem?_eq_some_iff.1 hx).1, hx]

theorem RowOf.ext {xs us ps xs' us' ps' : List ℝ} {c lo hi : ℕ} {row : Row} (h : RowOf xs us ps c lo hi row)
    (hx : xs <+: xs') (hu : us <+: us') (hp : ps <+: ps') : RowOf xs' us' ps' c lo hi row := by
  have ht : xs'.take hi = xs.take hi := by
    obtain ⟨l, hl⟩ := hx
    rw [← hl, List.take_append_of_le_length h.within]
  exact ⟨h.cycle, h.within.trans hx.length_le, by rw [ht]; exact h.max, by rw [ht]; exact h.min, h.mean,
    prefix_get hu h.energy, prefix_get hp h.work⟩

theorem maxOf_spec (l : List ℝ) (h : l ≠ []) : IsGreatest {s | s ∈ l} (maxOf l) := by
  cases l with
  | nil => exact absurd rfl h
  | cons x xs =>
    simp only [maxOf]
    clear h
    induction xs generalizing x with
    | nil => simp [IsGreatest, upperBounds]
    | cons y ys ih =>
      obtain ⟨h1, h2⟩ := ih (Max.max x y)
      rw [List.foldl_cons]
      refine ⟨?_, fun s hs => ?_⟩
      · rcases List.mem_cons.1 h1 with h | h
        · rw [h]
          rcases max_choice x y with h | h <;> simp [h]
        · exact List.mem_cons_of_mem _ (List.mem_cons_of_mem _ h)
      · have hm := h2 (show Max.max x y ∈ Max.max x y :: ys from List.mem_cons_self)
        rcases List.mem_cons.1 hs with rfl | hs
        · exact (le_max_left _ _).trans hm
        · rcases List.mem_cons.1 hs with rfl | hs
          · exact (le_max_right _ _).trans hm
          · exact h2 (List.mem_cons_of_mem _ hs)

theorem minOf_spec (l : List ℝ) (h : l ≠ []) : IsLeast {s | s ∈ l} (minOf l) := by
  cases l with
  | nil => exact absurd rfl h
  | cons x xs =>
    simp only [minOf]
    clear h
    induction xs generalizing x with
    | nil => simp [IsLeast, lowerBounds]
    | cons y ys ih =>
      obtain ⟨h1, h2⟩ := ih (Min.min x y)
      rw [List.foldl_cons]
      refine ⟨?_, fun s hs => ?_⟩
      · rcases List.mem_cons.1 h1 with h | h
        · rw [h]
          rcases min_choice x y with h | h <;> simp [h]
        · exact List.mem_cons_of_mem _ (List.mem_cons_of_mem _ h)
      · have hm := h2 (show Min.min x y ∈ Min.min x y :: ys from List.mem_cons_self)
        rcases List.mem_cons.1 hs with rfl | hs
        · exact hm.trans (min_le_left _ _)
        · rcases List.mem_cons.1 hs with rfl | hs
          · exact hm.trans (min_le_right _ _)
          · exact h2 (List.mem_cons_of_mem _ hs)

theorem last_get {α : Type} (s : Series α) : s.toList[s.toList.length - 1]? = some s.last := by
  rw [← List.getLast?_eq_getElem?]
  simp [Series.toList]

/-- One cycle from a point at `emax`: the first point of the row is after the first hold. -/
theorem cycle_went {d0 : Driver H} (hr : d0.rtol = 0) (ha : d0.atol = 0) (h0 : d0.t.before.length = 0)
    (h1 : d0.stress.before.length = 0) (h2 : d0.u.before.length = 0) (h3 : d0.p.before.length = 0)
    (h4 : d0.strain.before.length = 0) (a : Cyclic H) (hn : a.nsteps ≠ 0) (low : ℝ)
    (hlow : a.emax - low = |a.emax - a.emin|) (s : ℕ) (x : Rec H × Guess) (path : List (ℝ × ℝ)) (t : ℝ)
    (h : On d0 a.T a.sdir x.1 path) (hp : path.getLast? = some (t, a.emax)) :
    match a.cycle s x with
    | .ok (y, row) => On d0 a.T a.sdir y.1 (path ++ a.block low t) ∧ Ext x.1 y.1 ∧
        (path ++ a.block low t).getLast? = some (t + a.period low, a.emax) ∧
        RowOf y.1.stress.toList y.1.d.u.toList y.1.d.p.toList s (path.length + a.holdSteps a.hold0) (path.length + a.points) row
    | .stop r => ∃ k, Off d0 a.T a.sdir r (path ++ (a.block low t).take k) ∧ Ext x.1 r := by
  have h01 : d0.t.before.length = d0.stress.before.length := h0.trans h1.symm
  have hnr : (a.nsteps : ℝ) ≠ 0 := by exact_mod_cast hn
  have hlow' : |a.emin - a.emax| = a.emax - low := by rw [hlow, abs_sub_comm]
  obtain ⟨L1, hL1⟩ : ∃ L, L = leg t a.emax (a.hold0 / a.nhold) 0 (a.holdSteps a.hold0) := ⟨_, rfl⟩
  obtain ⟨L2, hL2⟩ : ∃ L, L = leg (t + holdTime a.hold0) a.emax ((a.emax - low) / a.nsteps / a.erate)
    (-((a.emax - low) / a.nsteps)) a.nsteps := ⟨_, rfl⟩
  obtain ⟨L3, hL3⟩ : ∃ L, L = leg (t + holdTime a.hold0 + (a.emax - low) / a.erate) low (a.hold1 / a.nhold) 0
    (a.holdSteps a.hold1) := ⟨_, rfl⟩
  obtain ⟨L4, hL4⟩ : ∃ L, L = leg (t + holdTime a.hold0 + (a.emax - low) / a.erate + holdTime a.hold1) low
    ((a.emax - low) / a.nsteps / a.erate) ((a.emax - low) / a.nsteps) a.nsteps := ⟨_, rfl⟩
  have hb : a.block low t = L1 ++ L2 ++ L3 ++ L4 := by rw [hL1, hL2, hL3, hL4]; rfl
  have hoff : ∀ (K L M : List (ℝ × ℝ)) (r : Rec H) (k : ℕ), Off d0 a.T a.sdir r (path ++ K ++ L.take k) →
      a.block low t = K ++ L ++ M → ∃ k, Off d0 a.T a.sdir r (path ++ (a.block low t).take k) := by
    intro K L M r k hk he
    refine ⟨K.length + min k L.length, ?_⟩
    rw [he, List.append_assoc, List.take_length_add_append, List.take_append_of_le_length (min_le_right _ _),
      ← List.take_take, List.take_length, ← List.append_assoc]
    exact hk
  unfold cycle
  have w1 := hold_went hr ha h01 a a.hold0 x path t a.emax h hp
  have p1 := leg_last path t a.emax (a.hold0 / a.nhold) 0 (a.holdSteps a.hold0) hp
  rw [← hL1] at w1 p1
  have e1 := fun y hy => hold_end a a.hold0 t x y hy
  cases hx1 : a.hold a.hold0 x with
  | stop r =>
    rw [hx1] at w1
    obtain ⟨k, w, we⟩ := w1
    obtain ⟨k', w'⟩ := hoff [] L1 (L2 ++ L3 ++ L4) r k (by simpa using w) (by simp [hb])
    exact ⟨k', w', we⟩
  | ok x1 =>
    rw [hx1] at w1
    obtain ⟨w1, we1⟩ := w1
    rw [e1 x1 hx1, mul_zero, add_zero] at p1
    have w2 := ramp_went hr ha h01 a (-1) (Or.inr rfl) (|a.emin - a.emax| / a.nsteps) x1 _ _ _ w1 p1
    have p2 := leg_last _ _ _ (|a.emin - a.emax| / a.nsteps / a.erate) (-1 * (|a.emin - a.emax| / a.nsteps)) a.nsteps p1
    rw [hlow', neg_one_mul] at w2 p2
    rw [← hL2] at w2 p2
    rw [neg_one_smul] at w2
    have t2 : t + holdTime a.hold0 + (a.nsteps : ℝ) * ((a.emax - low) / a.nsteps / a.erate) =
        t + holdTime a.hold0 + (a.emax - low) / a.erate := by field_simp
    have l2 : a.emax + (a.nsteps : ℝ) * -((a.emax - low) / a.nsteps) = low := by field_simp; ring
    rw [t2, l2] at p2
    simp only [Ended.andThen, hlow', ← hlow]
    cases hx2 : a.ramp (-a.sdir) ((a.emax - low) / a.nsteps) x1 with
    | stop r =>
      rw [hx2] at w2
      obtain ⟨k, w, we⟩ := w2
      obtain ⟨k', w'⟩ := hoff L1 L2 (L3 ++ L4) r k w (by simp [hb])
      exact ⟨k', w', we1.trans we⟩
    | ok x2 =>
      rw [hx2] at w2
      obtain ⟨w2, we2⟩ := w2
      have w3 := hold_went hr ha h01 a a.hold1 x2 _ _ _ w2 p2
      have p3 := leg_last _ _ _ (a.hold1 / a.nhold) 0 (a.holdSteps a.hold1) p2
      rw [← hL3] at w3 p3
      simp only
      cases hx3 : a.hold a.hold1 x2 with
      | stop r =>
        rw [hx3] at w3
        obtain ⟨k, w, we⟩ := w3
        obtain ⟨k', w'⟩ := hoff (L1 ++ L2) L3 L4 r k (by simpa using w) (by simp [hb])
        exact ⟨k', w', we1.trans (we2.trans we)⟩
      | ok x3 =>
        rw [hx3] at w3
        obtain ⟨w3, we3⟩ := w3
        rw [hold_end a a.hold1 _ x2 x3 hx3, mul_zero, add_zero] at p3
        have w4 := ramp_went hr ha h01 a 1 (Or.inl rfl) ((a.emax - low) / a.nsteps) x3 _ _ _ w3 p3
        have p4 := leg_last _ _ _ ((a.emax - low) / a.nsteps / a.erate) (1 * ((a.emax - low) / a.nsteps)) a.nsteps p3
        rw [one_mul] at w4 p4
        rw [← hL4] at w4 p4
        rw [one_smul] at w4
        simp only
        cases hx4 : a.ramp a.sdir ((a.emax - low) / a.nsteps) x3 with
        | stop r =>
          rw [hx4] at w4
          obtain ⟨k, w, we⟩ := w4
          obtain ⟨k', w'⟩ := hoff (L1 ++ L2 ++ L3) L4 [] r k (by simpa using w) (by simp [hb])
          exact ⟨k', w', we1.trans (we2.trans (we3.trans we))⟩
        | ok x4 =>
          rw [hx4] at w4
          obtain ⟨w4, we4⟩ := w4
          have hpath : path ++ L1 ++ L2 ++ L3 ++ L4 = path ++ a.block low t := by simp [hb]
          rw [hpath] at w4 p4
          simp only
          refine ⟨w4, we1.trans (we2.trans (we3.trans we4)), ?_, ?_⟩
          · rw [p4]
            simp only [Option.some.injEq, Prod.mk.injEq]
            refine ⟨?_, by field_simp; ring⟩
            rw [period]
            field_simp
            ring
          · have hlen : (path ++ a.block low t).length = path.length + a.points := by
              rw [List.length_append, block_length]
            have hpos : 0 < a.points - a.holdSteps a.hold0 := by
              have : a.points = a.holdSteps a.hold0 + a.holdSteps a.hold1 + 2 * a.nsteps := rfl
              omega
            obtain ⟨ops, ho, -⟩ := w4.run
            obtain ⟨m1, m2, m3, m4, -⟩ := run_lengths _ _ _ ho
            have mt : x4.1.d.t.toList.length = path.length + a.points := by
              rw [w4.times, w4.time, List.length_map, hlen]
            rw [toList_len, m1, h0] at mt
            have ms : x4.1.stress.toList.length = path.length + a.points := by
              rw [← w4.stresses, List.length_map, toList_len, m4, h1, mt]
            have mu : x4.1.d.u.toList.length = path.length + a.points := by rw [toList_len, m2, h2, mt]
            have mp : x4.1.d.p.toList.length = path.length + a.points := by rw [toList_len, m3, h3, mt]
            obtain ⟨ops1, ho1, -⟩ := w1.run
            obtain ⟨q1, -, -, -, q5, -⟩ := run_lengths _ _ _ ho1
            have hsi : x1.1.d.strain.toList.length = path.length + a.holdSteps a.hold0 := by
              have : x1.1.d.t.toList.length = path.length + a.holdSteps a.hold0 := by
                rw [w1.times, w1.time, List.length_map, List.length_append, hL1, leg_length]
              rw [toList_len] at this ⊢
              omega
            have hne : since x4.1.stress (path.length + a.holdSteps a.hold0) ≠ [] := by
              refine List.ne_nil_of_length_pos ?_
              rw [since, List.length_drop, ms]
              omega
            have htake : x4.1.stress.toList.take (path.length + a.points) = x4.1.stress.toList :=
              List.take_of_length_le ms.le
            rw [hsi]
            refine ⟨rfl, ms.ge, ?_, ?_, rfl, ?_, ?_⟩
            · rw [htake]; exact maxOf_spec _ hne
            · rw [htake]; exact minOf_spec _ hne
            · rw [← mu]; exact last_get _
            · rw [← mp]; exact last_get _

/-- The rows, oldest first, from cycle number 0. -/
def RowsOf (a : Cyclic H) (r : Rec H) (rows : List Row) : Prop :=
  ∀ c row, rows[c]? = some row →
    RowOf r.stress.toList r.d.u.toList r.d.p.toList c (a.nsteps + 1 + c * a.points + a.holdSteps a.hold0) (a.nsteps + 1 + (c + 1) * a.points) row

theorem cycles_went {d0 : Driver H} (hr : d0.rtol = 0) (ha : d0.atol = 0) (h0 : d0.t.before.length = 0)
    (h1 : d0.stress.before.length = 0) (h2 : d0.u.before.length = 0) (h3 : d0.p.before.length = 0)
    (h4 : d0.strain.before.length = 0) (a : Cyclic H) (hn : a.nsteps ≠ 0) (low : ℝ)
    (hlow : a.emax - low = |a.emax - a.emin|) (n s : ℕ) (x : Rec H × Guess) (rows : List Row)
    (h : On d0 a.T a.sdir x.1 (a.program low s))
    (hp : (a.program low s).getLast? = some (a.emax / a.erate + s * a.period low, a.emax))
    (hl : rows.length = s) (hrows : RowsOf a x.1 rows.reverse) (r : Rec H) (out : List Row)
    (ho : a.cycles n s x rows = (r, out)) :
    (∃ k, Off d0 a.T a.sdir r ((a.program low (s + n)).take k)) ∧ RowsOf a r out.reverse ∧ out.length ≤ s + n ∧
      (out.length = s + n → On d0 a.T a.sdir r (a.program low (s + n))) := by
  induction n generalizing s x rows with
  | zero =>
    simp only [cycles, Prod.mk.injEq] at ho
    obtain ⟨rfl, rfl⟩ := ho
    refine ⟨⟨(a.program low s).length, ?_⟩, hrows, hl.le, fun _ => h⟩
    rw [Nat.add_zero, List.take_length]
    exact h.off (h0.trans h1.symm)
  | succ n ih =>
    have hc := cycle_went hr ha h0 h1 h2 h3 h4 a hn low hlow s x _ _ h hp
    rw [cycles] at ho
    cases hx : a.cycle s x with
    | ok q =>
      obtain ⟨y, row⟩ := q
      rw [hx] at hc ho
      obtain ⟨c1, c2, c3, c4⟩ := hc
      rw [← program_succ] at c1 c3
      have hs1 : s + 1 + n = s + (n + 1) := by omega
      rw [← hs1]
      refine ih (s + 1) y (row :: rows) c1 ?_ (by simp [hl]) ?_ ho
      · rw [c3]; push_cast; congr 2; ring
      · intro c row' hrow
        rw [List.reverse_cons] at hrow
        rcases Nat.lt_or_ge c rows.reverse.length with hcl | hcl
        · rw [List.getElem?_append_left hcl] at hrow
          exact (hrows c row' hrow).ext c2.stress c2.u c2.p
        · rw [List.getElem?_append_right hcl] at hrow
          have hc0 : c - rows.reverse.length = 0 := by
            by_contra hne
            obtain ⟨m, hm⟩ := Nat.exists_eq_succ_of_ne_zero hne
            rw [hm] at hrow
            simp at hrow
          rw [hc0] at hrow
          simp only [List.getElem?_cons_zero, Option.some.injEq] at hrow
          subst hrow
          have hcs : c = s := by
            rw [List.length_reverse] at hcl hc0
            omega
          subst hcs
          rw [program_length] at c4
          convert c4 using 1
          ring
    | stop r' =>
      rw [hx] at hc ho
      simp only [Prod.mk.injEq] at ho
      obtain ⟨rfl, rfl⟩ := ho
      obtain ⟨k, c1, c2⟩ := hc
      have hpre : a.program low (s + 1) <+: a.program low (s + (n + 1)) := by
        clear ih
        induction n with
        | zero => exact List.prefix_refl _
        | succ n ih =>
          refine ih.trans ?_
          rw [show s + (n + 1 + 1) = (s + (n + 1)) + 1 by omega, program_succ a low (s + (n + 1))]
          exact List.prefix_append _ _
      refine ⟨⟨(a.program low s ++ (a.block low (a.emax / a.erate + s * a.period low)).take k).length, ?_⟩, ?_, ?_, ?_⟩
      · have hp2 : a.program low s ++ (a.block low (a.emax / a.erate + s * a.period low)).take k <+:
            a.program low (s + (n + 1)) := by
          refine List.IsPrefix.trans ?_ hpre
          rw [program_succ]
          exact (List.prefix_append_right_inj _).2 (List.take_prefix _ _)
        rw [← List.prefix_iff_eq_take.1 hp2]
        exact c1
      · intro c row hrow
        exact (hrows c row hrow).ext c2.stress c2.u c2.p
      · omega
      · intro hlen; omega

/-- The general statement: the cycles run between `emax` and `emax` less the size of the range. -/
theorem run_went (a : Cyclic H) (c : Setup H) (hr : c.rtol = 0) (ha : c.atol = 0) (low : ℝ)
    (hlow : a.emax - low = |a.emax - a.emin|) (r : Rec H) (rows : List Row) (h : a.run c = some (r, rows)) :
    (∃ k, Off (c.driver a.T none) a.T a.sdir r ((a.program low a.ncycles).take k)) ∧ RowsOf a r rows ∧
      rows.length ≤ a.ncycles ∧ (rows.length = a.ncycles → On (c.driver a.T none) a.T a.sdir r (a.program low a.ncycles)) := by
  unfold run at h
  split_ifs at h with hn
  have hnr : (a.nsteps : ℝ) ≠ 0 := by exact_mod_cast hn
  have w0 : On (c.driver a.T none) a.T a.sdir (Rec.new (c.driver a.T none)) [(0, 0)] := by
    refine ⟨?_, ?_, ?_, ?_, ?_, [], rfl, by simp⟩ <;>
      simp [Rec.new, Setup.driver, Driver.new, Series.toList]
  have w := loop_leg (eincStep_went (d0 := c.driver a.T none) (T := a.T) (sdir := a.sdir) hr ha rfl a.bad 1 (Or.inl rfl)
    a.erate (a.emax / a.nsteps)) a.nsteps (Rec.new (c.driver a.T none), none) [(0, 0)] 0 0 w0 rfl
  rw [one_smul, one_mul] at w
  cases hx : loop (eincStep a.bad a.sdir a.sdir a.erate (a.emax / a.nsteps) a.T) a.nsteps
      (Rec.new (c.driver a.T none), none) with
  | stop r' => rw [hx] at h; cases h
  | ok x =>
    rw [hx] at h w
    obtain ⟨w1, -⟩ := w
    simp only [Option.some.injEq, Prod.mk.injEq] at h
    obtain ⟨rfl, rfl⟩ := h
    have hstart : [((0 : ℝ), (0 : ℝ))] ++ leg 0 0 (a.emax / a.nsteps / a.erate) (a.emax / a.nsteps) a.nsteps =
        a.program low 0 := by simp [program, start]
    have p1 := leg_last [((0 : ℝ), (0 : ℝ))] 0 0 (a.emax / a.nsteps / a.erate) (a.emax / a.nsteps) a.nsteps rfl
    rw [hstart] at w1 p1
    have := cycles_went (d0 := c.driver a.T none) hr ha rfl rfl rfl rfl rfl a hn low hlow a.ncycles 0 x [] w1 (by
      rw [p1]
      simp only [Option.some.injEq, Prod.mk.injEq, Nat.cast_zero, zero_mul, add_zero, zero_add]
      constructor
      · field_simp
      · field_simp) rfl (by intro c row h; simp at h) _ _ rfl
    rw [Nat.zero_add] at this
    simpa using this

end Cyclic

/-- **C121.** A strain controlled cyclic test whose smallest strain is not above its largest, with exactly solved steps,
goes along its program: a ramp to the largest strain, then cycles of hold, ramp down to `emax R`, hold and ramp up to
`emax`, at the given rate and with the given number of steps. If it is stopped, the strains and times returned are the first
points of the program, and the stresses are those of the driver at these points. If there is a row of results for every
cycle, all of the program has been run. -/
theorem C121_program (a : Cyclic H) (c : Setup H) (hr : c.rtol = 0) (ha : c.atol = 0) (hR : a.emax * a.R ≤ a.emax)
    (hs : norm2 a.sdir = 1) (r : Rec H) (rows : List Cyclic.Row) (h : a.run c = some (r, rows)) :
    (∃ k, r.time.toList = ((a.program (a.emax * a.R) a.ncycles).take k).map Prod.fst ∧
      r.strain.toList = ((a.program (a.emax * a.R) a.ncycles).take k).map Prod.snd) ∧
    r.time.toList <+: r.d.t.toList ∧ r.strain.toList <+: r.d.strain.toList.map (· ⬝ᵥ a.sdir) ∧
    r.stress.toList <+: r.d.stress.toList.map (· ⬝ᵥ a.sdir) ∧ r.stress.toList.length = r.time.toList.length ∧
    r.d.t.toList.length ≤ r.time.toList.length + 1 ∧
    (rows.length = a.ncycles → r.time.toList = (a.program (a.emax * a.R) a.ncycles).map Prod.fst ∧
      r.strain.toList = (a.program (a.emax * a.R) a.ncycles).map Prod.snd) := by
  obtain ⟨⟨k, h1⟩, -, -, h4⟩ := Cyclic.run_went a c hr ha (a.emax * a.R)
    (by rw [Cyclic.emin, abs_of_nonneg (sub_nonneg.2 hR)]) r rows h
  refine ⟨⟨k, h1.time, ?_⟩, h1.times, h1.strains, h1.stresses, ?_, ?_, fun hl => ⟨(h4 hl).time, ?_⟩⟩
  · rw [h1.strain, hs]; simp
  · rw [h1.lengths, h1.time, List.length_map]
  · rw [h1.time, List.length_map]; exact h1.more
  · rw [(h4 hl).strain, hs]; simp

/-- **C121.** There is one row of results for each completed cycle, numbered from zero. The row of cycle `c` has the largest
and the smallest stress recorded on the two ramps and the second hold of the cycle, the mean of the two, and the energy and
the dissipation at the end of the cycle. (The first hold of a cycle is not counted.) -/
theorem C121_rows (a : Cyclic H) (c : Setup H) (hr : c.rtol = 0) (ha : c.atol = 0) (r : Rec H) (rows : List Cyclic.Row)
    (h : a.run c = some (r, rows)) (i : ℕ) (row : Cyclic.Row) (hrow : rows[i]? = some row) :
    row.cycle = i ∧
    IsGreatest {s | s ∈ (r.stress.toList.take (a.nsteps + 1 + (i + 1) * a.points)).drop
      (a.nsteps + 1 + i * a.points + a.holdSteps a.hold0)} row.max ∧
    IsLeast {s | s ∈ (r.stress.toList.take (a.nsteps + 1 + (i + 1) * a.points)).drop
      (a.nsteps + 1 + i * a.points + a.holdSteps a.hold0)} row.min ∧
    row.mean = (row.max + row.min) / 2 ∧
    r.d.u.toList[a.nsteps + (i + 1) * a.points]? = some row.u ∧
    r.d.p.toList[a.nsteps + (i + 1) * a.points]? = some row.p := by
  obtain ⟨-, h2, -⟩ := Cyclic.run_went a c hr ha (a.emax - |a.emax - a.emin|) (by ring) r rows h
  have := h2 i row hrow
  have he : a.nsteps + 1 + (i + 1) * a.points - 1 = a.nsteps + (i + 1) * a.points := by omega
  exact ⟨this.cycle, this.max, this.min, this.mean, he ▸ this.energy, he ▸ this.work⟩

/-- **C121, disagreement.** If the smallest strain asked for, `emax R`, is above `emax`, the cycles run down from `emax`
instead, to `2 emax - emax R`. -/
theorem C121_above (a : Cyclic H) (c : Setup H) (hr : c.rtol = 0) (ha : c.atol = 0) (hR : a.emax < a.emax * a.R)
    (hs : norm2 a.sdir = 1) (r : Rec H) (rows : List Cyclic.Row) (h : a.run c = some (r, rows))
    (hl : rows.length = a.ncycles) :
    r.strain.toList = (a.program (2 * a.emax - a.emax * a.R) a.ncycles).map Prod.snd := by
  obtain ⟨-, -, -, h4⟩ := Cyclic.run_went a c hr ha (2 * a.emax - a.emax * a.R)
    (by rw [Cyclic.emin, abs_of_neg (sub_neg.2 hR)]; ring) r rows h
  rw [(h4 hl).strain, hs]; simp

/-- **C121, disagreement.** For a direction vector of another length than one, the strains returned are those of the program
times the length. -/
theorem C121_direction (a : Cyclic H) (c : Setup H) (hr : c.rtol = 0) (ha : c.atol = 0) (hR : a.emax * a.R ≤ a.emax)
    (r : Rec H) (rows : List Cyclic.Row) (h : a.run c = some (r, rows)) (hl : rows.length = a.ncycles) :
    r.strain.toList = (a.program (a.emax * a.R) a.ncycles).map fun p => norm2 a.sdir * p.2 := by
  obtain ⟨-, -, -, h4⟩ := Cyclic.run_went a c hr ha (a.emax * a.R)
    (by rw [Cyclic.emin, abs_of_nonneg (sub_nonneg.2 hR)]) r rows h
  exact (h4 hl).strain

/-! ## The test goes through with an elastic material -/

theorem loop_ok {d0 : Driver H} {T : ℝ} {sdir : Fin 6 → ℝ} {f : Rec H × Guess → Ended (Rec H) (Rec H × Guess)}
    {dt de : ℝ} (hf : ∀ x path t e, On d0 T sdir x.1 path → path.getLast? = some (t, e) →
      Went d0 T sdir x.1 path [(t + dt, e + de)] (f x))
    (hok : ∀ x path, On d0 T sdir x.1 path → ∃ y, f x = .ok y) (n : ℕ) (x : Rec H × Guess) (path : List (ℝ × ℝ)) (t e : ℝ)
    (h : On d0 T sdir x.1 path) (hp : path.getLast? = some (t, e)) : ∃ y, loop f n x = .ok y := by
  induction n generalizing x path t e with
  | zero => exact ⟨x, rfl⟩
  | succ n ih =>
    obtain ⟨y, hy⟩ := hok x path h
    have h1 := hf x path t e h hp
    rw [hy] at h1
    obtain ⟨z, hz⟩ := ih y _ (t + dt) (e + de) h1.1 (by simp)
    exact ⟨z, by simp only [loop, hy, Ended.andThen, hz]⟩

theorem On.model {d0 : Driver H} {T : ℝ} {sdir : Fin 6 → ℝ} {r : Rec H} {path : List (ℝ × ℝ)} (h : On d0 T sdir r path) :
    r.d.rtol = d0.rtol ∧ r.d.atol = d0.atol ∧ r.d.model = d0.model ∧ r.d.miter = d0.miter := by
  obtain ⟨ops, ho, -⟩ := h.run
  obtain ⟨h1, h2, h3⟩ := run_tol _ _ _ ho
  refine ⟨h1, h2, h3, ?_⟩
  clear h1 h2 h3
  generalize r.d = d' at ho
  clear h
  induction ops generalizing d0 with
  | nil => simp only [Driver.run, Option.some.injEq] at ho; rw [← ho]
  | cons o os ih =>
    simp only [Driver.run, Option.bind_eq_some_iff] at ho
    obtain ⟨d1, h1, h2⟩ := ho
    obtain ⟨e, t, hs, -⟩ := step_strain _ d1 o h1
    obtain ⟨_, -, -, -, -, -, e4, -⟩ := strainStep_spec _ d1 e t _ hs
    rw [ih h2, e4]

namespace Cyclic

/-- **C121.** With a linear elastic material, exact solves and no damage check, all cycles are run (if there is something to
run in each phase). -/
theorem C121_elastic (a : Cyclic H) (c : Setup H) (hr : c.rtol = 0) (ha : c.atol = 0) (hi : 0 < c.miter)
    (C : Matrix (Fin 6) (Fin 6) ℝ) (hm : IsElastic c.model C) (hC : C.det ≠ 0) (hd : a.sdir ⬝ᵥ C⁻¹ *ᵥ a.sdir ≠ 0)
    (hn : a.nsteps ≠ 0) (hh : a.nhold ≠ 0) (he : a.erate ≠ 0) (h1 : a.emax ≠ 0) (h2 : a.emax * a.R ≠ a.emax)
    (hb : ∀ h, a.bad h = false) : ∃ r rows, a.run c = some (r, rows) ∧ rows.length = a.ncycles := by
  have hnr : (a.nsteps : ℝ) ≠ 0 := by exact_mod_cast hn
  have hhr : (a.nhold : ℝ) ≠ 0 := by exact_mod_cast hh
  have step : ∀ (s : ℝ) (hs : s = 1 ∨ s = -1) (einc : ℝ) (hq : einc ≠ 0) (x : Rec H × Guess) (path : List (ℝ × ℝ)),
      On (c.driver a.T none) a.T a.sdir x.1 path → ∃ y, eincStep a.bad a.sdir (s • a.sdir) a.erate einc a.T x = .ok y := by
    intro s hs einc hq x path h
    obtain ⟨m1, m2, m3, m4⟩ := h.model
    obtain ⟨q, hx⟩ := C71_elastic_einc x.1.d (m1.trans hr).ge (m2.trans ha).ge (by rw [m4]; exact hi) C
      (by rw [m3]; exact hm) hC (s • a.sdir) (by
        rw [mulVec_smul, dotProduct_smul, smul_dotProduct, smul_eq_mul, smul_eq_mul]
        rcases hs with rfl | rfl <;> simpa using hd) a.erate einc a.T he hq (x.2.map Prod.fst) (x.2.map Prod.snd)
    exact ⟨_, by rw [eincStep, hx]; simp only [hb, Bool.false_eq_true, if_false]; rfl⟩
  have hold1 : ∀ (dt : ℝ) (hq : dt ≠ 0) (x : Rec H × Guess) (path : List (ℝ × ℝ)),
      On (c.driver a.T none) a.T a.sdir x.1 path → ∃ y, DriverTests.holdStep a.bad a.sdir dt a.T x = .ok y := by
    intro dt hq x path h
    obtain ⟨m1, m2, m3, m4⟩ := h.model
    have htl : x.1.time.last = x.1.d.t.last := by
      refine toList_last h.times.symm ?_
      simp [Series.toList]
    obtain ⟨q, hx⟩ := C71_elastic_erate x.1.d (m1.trans hr).ge (m2.trans ha).ge (by rw [m4]; exact hi) C
      (by rw [m3]; exact hm) hC a.sdir hd 0 (x.1.time.last + dt) a.T (by rw [htl]; simpa using hq) (some 0) (some (-1))
    exact ⟨_, by rw [DriverTests.holdStep, hx]; simp only [hb, Bool.false_eq_true, if_false]; rfl⟩
  have hold : ∀ (ht : ℝ) (x : Rec H × Guess) (path : List (ℝ × ℝ)) (t e : ℝ),
      On (c.driver a.T none) a.T a.sdir x.1 path → path.getLast? = some (t, e) → ∃ y, a.hold ht x = .ok y := by
    intro ht x path t e h hp
    unfold hold
    split_ifs with h3
    · exact loop_ok (holdStep_went hr ha rfl a.bad _) (hold1 (ht / a.nhold) (div_ne_zero h3.ne' hhr)) _ _ _ _ _ h hp
    · exact ⟨x, rfl⟩
  have ramp : ∀ (s : ℝ) (hs : s = 1 ∨ s = -1) (einc : ℝ) (hq : einc ≠ 0) (x : Rec H × Guess) (path : List (ℝ × ℝ))
      (t e : ℝ), On (c.driver a.T none) a.T a.sdir x.1 path → path.getLast? = some (t, e) →
      ∃ y, a.ramp (s • a.sdir) einc x = .ok y := by
    intro s hs einc hq x path t e h hp
    exact loop_ok (eincStep_went hr ha rfl a.bad s hs a.erate einc) (step s hs einc hq) _ (x.1, x.2.neg) _ _ _ h hp
  have hlen : ∀ ht : ℝ, ∀ path : List (ℝ × ℝ), ∀ t e dt, path.getLast? = some (t, e) →
      ∃ t' e', (path ++ leg t e dt 0 (a.holdSteps ht)).getLast? = some (t', e') :=
    fun ht path t e dt h => ⟨_, _, leg_last path t e dt 0 _ h⟩
  have hq : |a.emin - a.emax| / a.nsteps ≠ 0 := div_ne_zero (abs_ne_zero.2 (sub_ne_zero.2 h2)) hnr
  have hq' : |a.emax - a.emin| / a.nsteps ≠ 0 := by rwa [abs_sub_comm]
  have cyc : ∀ (s : ℕ) (x : Rec H × Guess) (path : List (ℝ × ℝ)) (t e : ℝ),
      On (c.driver a.T none) a.T a.sdir x.1 path → path.getLast? = some (t, e) → ∃ y, a.cycle s x = .ok y := by
    intro s x path t e h hp
    obtain ⟨x1, hx1⟩ := hold a.hold0 x path t e h hp
    have w1 := hold_went (d0 := c.driver a.T none) hr ha rfl a a.hold0 x path t e h hp
    rw [hx1] at w1
    have p1 := leg_last path t e (a.hold0 / a.nhold) 0 (a.holdSteps a.hold0) hp
    obtain ⟨x2, hx2⟩ := ramp (-1) (Or.inr rfl) _ hq x1 _ _ _ w1.1 p1
    have w2 := ramp_went (d0 := c.driver a.T none) hr ha rfl a (-1) (Or.inr rfl) (|a.emin - a.emax| / a.nsteps) x1 _ _ _
      w1.1 p1
    have p2 := leg_last _ _ _ (|a.emin - a.emax| / a.nsteps / a.erate) (-1 * (|a.emin - a.emax| / a.nsteps)) a.nsteps p1
    rw [hx2] at w2
    obtain ⟨x3, hx3⟩ := hold a.hold1 x2 _ _ _ w2.1 p2
    have w3 := hold_went (d0 := c.driver a.T none) hr ha rfl a a.hold1 x2 _ _ _ w2.1 p2
    rw [hx3] at w3
    have p3 := leg_last _ _ _ (a.hold1 / a.nhold) 0 (a.holdSteps a.hold1) p2
    obtain ⟨x4, hx4⟩ := ramp 1 (Or.inl rfl) _ hq' x3 _ _ _ w3.1 p3
    rw [neg_one_smul] at hx2
    rw [one_smul] at hx4
    exact ⟨_, by simp only [cycle, hx1, hx2, hx3, hx4, Ended.andThen]; rfl⟩
  have cycs : ∀ (n s : ℕ) (x : Rec H × Guess) (rows : List Row) (path : List (ℝ × ℝ)) (t : ℝ),
      On (c.driver a.T none) a.T a.sdir x.1 path → path.getLast? = some (t, a.emax) →
      (a.cycles n s x rows).2.length = rows.length + n := by
    intro n
    induction n with
    | zero => intro s x rows path t _ _; rfl
    | succ n ih =>
      intro s x rows path t h hp
      obtain ⟨⟨y, row⟩, hy⟩ := cyc s x path t _ h hp
      have w := cycle_went (d0 := c.driver a.T none) hr ha rfl rfl rfl rfl rfl a hn (a.emax - |a.emax - a.emin|) (by ring)
        s x path t h hp
      rw [hy] at w
      rw [cycles, hy]
      simp only
      rw [ih (s + 1) y (row :: rows) _ _ w.1 w.2.2.1, List.length_cons]
      ring
  have w0 : On (c.driver a.T none) a.T a.sdir (Rec.new (c.driver a.T none)) [(0, 0)] := by
    refine ⟨?_, ?_, ?_, ?_, ?_, [], rfl, by simp⟩ <;>
      simp [Rec.new, Setup.driver, Driver.new, Series.toList]
  have hf := eincStep_went (d0 := c.driver a.T none) (T := a.T) (sdir := a.sdir) hr ha rfl a.bad 1 (Or.inl rfl)
    a.erate (a.emax / a.nsteps)
  obtain ⟨y, hy⟩ := loop_ok hf (step 1 (Or.inl rfl) _ (div_ne_zero h1 hnr)) a.nsteps
    (Rec.new (c.driver a.T none), none) _ 0 0 w0 rfl
  have w := loop_leg hf a.nsteps (Rec.new (c.driver a.T none), none) _ 0 0 w0 rfl
  rw [hy] at w
  rw [one_smul] at hy
  have p1 := leg_last [((0 : ℝ), (0 : ℝ))] 0 0 (a.emax / a.nsteps / a.erate) (1 * (a.emax / a.nsteps)) a.nsteps rfl
  rw [one_mul, zero_add _, mul_div_cancel₀ _ hnr] at p1
  rw [one_mul] at w
  refine ⟨_, _, by rw [run, if_neg hn, hy], ?_⟩
  rw [List.length_reverse, cycs _ _ _ _ _ _ w.1 (by rw [p1, zero_add])]
  simp

end Cyclic

/-- A concrete test: two cycles between 1% and -1% with holds, on the identity stiffness. All of the program is run. -/
example : ∃ r rows, (⟨1 / 100, -1, 1 / 1000, 2, 300, 5, ![1, 0, 0, 0, 0, 0], 10, 20, 3, fun _ => false⟩ : Cyclic ℕ).run
    ⟨counter, 0, 0, 25, 0⟩ = some (r, rows) ∧ rows.length = 2 := by
  refine Cyclic.C121_elastic _ _ rfl rfl (by norm_num) 1 counter_elastic (by simp) ?_ (by norm_num) (by norm_num)
    (by norm_num) (by norm_num) (by norm_num) fun _ => rfl
  simp [dotProduct, Fin.sum_univ_six]

end Neml.DriverTests
