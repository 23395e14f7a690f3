import Verif.Model.DriverCycles
import Verif.Props.DriverTests

/-!
# C163: strain controlled cycles with extrapolation

The specification is the table of results: which rows come from cycles that were run, and how the others continue the rows
before them. -/

namespace Neml.DriverTests

open Matrix Neml.Driver Neml.PySolve Neml.Uniaxial

variable {H : Type}

namespace Extra

/-- The number of the newest row; zero before the first. -/
def top : List Row → ℕ
  | [] => 0
  | r :: _ => r.cycle

/-- How many cycles are jumped after cycle `s`. -/
def by_ (unit jump s : ℕ) : ℕ := if s ≤ unit then 1 else jump

/-- A table of results, newest row first, from the recorded stresses `xs`, of which the first `start` are from the first ramp
and every `points` after that from a cycle; the first `skip` of these are not looked at. `k` cycles have been run; the flag
tells whether the last thing that was done was to run one. Rows are added by running a cycle, and then perhaps by
continuing the last two rows. -/
inductive Table (xs : List ℝ) (start points skip minCycle unit jump ncycles : ℕ) : ℕ → Bool → List Row → Prop
  | nil : Table xs start points skip minCycle unit jump ncycles 0 false []
  | run (k : ℕ) (b : Bool) (rows : List Row) (row : Row)
      (h : Table xs start points skip minCycle unit jump ncycles k b rows)
      (hc : row.cycle = top rows + 1) (hn : row.cycle ≤ ncycles) (hl : start + (k + 1) * points ≤ xs.length)
      (hmax : IsGreatest {v | v ∈ (xs.take (start + (k + 1) * points)).drop (start + k * points + skip)} row.max)
      (hmin : IsLeast {v | v ∈ (xs.take (start + (k + 1) * points)).drop (start + k * points + skip)} row.min) :
      Table xs start points skip minCycle unit jump ncycles (k + 1) true (row :: rows)
  | jump (k : ℕ) (r1 r0 row : Row) (rows : List Row)
      (h : Table xs start points skip minCycle unit jump ncycles k true (r1 :: r0 :: rows))
      (hm : minCycle ≤ r1.cycle) (hc : row.cycle = r1.cycle + by_ unit jump r1.cycle) (hn : row.cycle ≤ ncycles)
      (hmax : row.max = r1.max + by_ unit jump r1.cycle * (r1.max - r0.max))
      (hmin : row.min = r1.min + by_ unit jump r1.cycle * (r1.min - r0.min)) :
      Table xs start points skip minCycle unit jump ncycles k false (row :: r1 :: r0 :: rows)
  | refuse (k : ℕ) (rows : List Row) (h : Table xs start points skip minCycle unit jump ncycles k true rows) :
      Table xs start points skip minCycle unit jump ncycles k false rows

section table

variable {xs : List ℝ} {start points skip minCycle unit jump ncycles : ℕ}

theorem Table.ext {ys : List ℝ} (hp : xs <+: ys) {k : ℕ} {b : Bool} {rows : List Row}
    (h : Table xs start points skip minCycle unit jump ncycles k b rows) :
    Table ys start points skip minCycle unit jump ncycles k b rows := by
  induction h with
  | nil => exact .nil
  | run k b rows row h hc hn hl hmax hmin ih =>
    obtain ⟨zs, rfl⟩ := hp
    refine .run k b rows row ih hc hn (by rw [List.length_append]; omega) ?_ ?_
    · rwa [List.take_append_of_le_length hl]
    · rwa [List.take_append_of_le_length hl]
  | jump k r1 r0 row rows h hm hc hn hmax hmin ih => exact .jump k r1 r0 row rows ih hm hc hn hmax hmin
  | refuse k rows h ih => exact .refuse k rows ih

theorem Table.ran {k : ℕ} {rows : List Row} (h : Table xs start points skip minCycle unit jump ncycles k true rows) :
    ∃ r1 rest, rows = r1 :: rest ∧ r1.cycle = top rest + 1 ∧ 0 < k := by
  cases h with
  | run k b rows row h hc hn hl hmax hmin => exact ⟨row, rows, rfl, hc, by omega⟩

theorem Table.nil_zero {k : ℕ} {b : Bool} (h : Table xs start points skip minCycle unit jump ncycles k b []) :
    k = 0 ∧ b = false := by
  generalize hr : ([] : List Row) = rows at h
  induction h with
  | nil => exact ⟨rfl, rfl⟩
  | run => cases hr
  | jump => cases hr
  | refuse k rows h ih =>
    subst hr
    exact absurd (ih rfl).2 (by simp)

/-- With two rows two cycles have been run. -/
theorem Table.two {k : ℕ} {b : Bool} {r1 r0 : Row} {rows : List Row}
    (h : Table xs start points skip minCycle unit jump ncycles k b (r1 :: r0 :: rows)) : 2 ≤ k := by
  generalize hr : r1 :: r0 :: rows = l at h
  induction h generalizing r1 r0 rows with
  | nil => cases hr
  | run k b rows' row h hc hn hl hmax hmin ih =>
    cases hr
    rcases Nat.eq_zero_or_pos k with rfl | hk
    · exfalso
      clear ih hmax hmin hl hn hc
      generalize hk : 0 = k0 at h
      generalize hl : r0 :: rows = l at h
      induction h generalizing r0 rows with
      | nil => cases hl
      | run => omega
      | jump k r1 r0 row rows h =>
        obtain ⟨_, _, _, _, h0⟩ := h.ran
        omega
      | refuse k rows h ih =>
        obtain ⟨_, _, _, _, h0⟩ := h.ran
        omega
    · omega
  | jump k r1 r0 row rows h hm hc hn hmax hmin ih => exact ih rfl
  | refuse k rows h ih => exact ih hr

end table

/-! ## What a cycle adds to the lists -/

/-- `n` points have been added. -/
structure Grown (n : ℕ) (r r' : Rec H) : Prop where
  stress : ∃ l, r'.stress.toList = r.stress.toList ++ l ∧ l.length = n
  strain : r'.d.strain.toList.length = r.d.strain.toList.length + n
  stored : ∃ l, r'.d.stored.toList = r.d.stored.toList ++ l ∧ l.length = n
  dstress : ∃ l, r'.d.stress.toList = r.d.stress.toList ++ l ∧ l.length = n
  time : r'.time.toList.length = r.time.toList.length + n

theorem Grown.refl (r : Rec H) : Grown 0 r r :=
  ⟨⟨[], by simp, rfl⟩, rfl, ⟨[], by simp, rfl⟩, ⟨[], by simp, rfl⟩, rfl⟩

theorem Grown.trans {n m : ℕ} {r r' r'' : Rec H} (h1 : Grown n r r') (h2 : Grown m r' r'') : Grown (n + m) r r'' := by
  obtain ⟨⟨l1, a1, b1⟩, c1, ⟨l2, a2, b2⟩, ⟨l3, a3, b3⟩, d1⟩ := h1
  obtain ⟨⟨k1, e1, f1⟩, g1, ⟨k2, e2, f2⟩, ⟨k3, e3, f3⟩, i1⟩ := h2
  exact ⟨⟨l1 ++ k1, by rw [e1, a1, List.append_assoc], by simp [b1, f1]⟩, by omega,
    ⟨l2 ++ k2, by rw [e2, a2, List.append_assoc], by simp [b2, f2]⟩,
    ⟨l3 ++ k3, by rw [e3, a3, List.append_assoc], by simp [b3, f3]⟩, by omega⟩

theorem Grown.note (r : Rec H) (sdir : Fin 6 → ℝ) (o : Op) (d' : Driver H) (hs : r.d.step o = some d') (t : ℝ) :
    Grown 1 r (r.note sdir d' t) := by
  obtain ⟨e, t', hst, -⟩ := step_strain _ d' o hs
  obtain ⟨q, -, -, -, -, -, -, -, h7, -, -, h10, h11, -⟩ := strainStep_spec _ d' e t' _ hst
  refine ⟨⟨[_], by rw [Rec.note, Series.push_toList], rfl⟩, ?_, ⟨[q.h], ?_, rfl⟩, ⟨[q.s], ?_, rfl⟩, ?_⟩
  · rw [Rec.note, h7, Series.push_toList]; simp
  · rw [Rec.note, h11, Series.push_toList]
  · rw [Rec.note, h10, Series.push_toList]
  · rw [Rec.note, Series.push_toList]; simp

/-- A phase has added `n` points, none of them bad, or has been stopped. -/
def Grows (bad : H → Bool) (n : ℕ) (r0 : Rec H) : Ended (Rec H) (Rec H × Guess) → Prop
  | .ok y => Grown n r0 y.1 ∧ (n ≠ 0 → bad y.1.d.stored.last = false)
  | .stop r => r0.stress.toList <+: r.stress.toList

theorem loop_grows (bad : H → Bool) (f : Rec H × Guess → Ended (Rec H) (Rec H × Guess)) (hf : ∀ x, Grows bad 1 x.1 (f x))
    (n : ℕ) (x : Rec H × Guess) : Grows bad n x.1 (loop f n x) := by
  induction n generalizing x with
  | zero => exact ⟨Grown.refl _, fun h => absurd rfl h⟩
  | succ n ih =>
    have h1 := hf x
    simp only [loop, Ended.andThen]
    cases hx : f x with
    | stop r => rw [hx] at h1; exact h1
    | ok y =>
      rw [hx] at h1
      have h2 := ih y
      simp only
      cases hy : loop f n y with
      | stop r =>
        rw [hy] at h2
        obtain ⟨l, hl, -⟩ := h1.1.stress
        exact List.IsPrefix.trans ⟨l, hl.symm⟩ h2
      | ok z =>
        rw [hy] at h2
        refine ⟨by rw [Nat.add_comm]; exact h1.1.trans h2.1, fun _ => ?_⟩
        rcases Nat.eq_zero_or_pos n with rfl | hn
        · simp only [loop, Ended.ok.injEq] at hy
          rw [← hy]
          exact h1.2 one_ne_zero
        · exact h2.2 hn.ne'

theorem eincStep_grows (bad : H → Bool) (sdir dir : Fin 6 → ℝ) (erate einc T : ℝ) (x : Rec H × Guess) :
    Grows bad 1 x.1 (eincStep bad sdir dir erate einc T x) := by
  unfold eincStep
  cases hx : x.1.d.erateEincStep dir erate einc T (x.2.map Prod.fst) (x.2.map Prod.snd) with
  | none => exact List.prefix_refl _
  | some q =>
    obtain ⟨d', de, g⟩ := q
    have hstep : x.1.d.step (.erateEinc dir erate einc T (x.2.map Prod.fst) (x.2.map Prod.snd)) = some d' := by
      simp [Driver.step, hx]
    simp only
    by_cases hb : bad d'.stored.last = true
    · rw [if_pos hb]; exact List.prefix_refl _
    · rw [if_neg hb]
      exact ⟨Grown.note _ _ _ _ hstep _, fun _ => by simpa [Rec.note] using hb⟩

theorem holdStep_grows (bad : H → Bool) (sdir : Fin 6 → ℝ) (dt T : ℝ) (x : Rec H × Guess) :
    Grows bad 1 x.1 (holdStep bad sdir dt T x) := by
  unfold holdStep
  cases hx : x.1.d.erateStep sdir 0 (x.1.time.last + dt) T (some 0) (some (-1)) with
  | none => exact List.prefix_refl _
  | some q =>
    obtain ⟨d', de, g⟩ := q
    have hstep : x.1.d.step (.erate sdir 0 (x.1.time.last + dt) T (some 0) (some (-1))) = some d' := by
      simp [Driver.step, hx]
    simp only
    by_cases hb : bad d'.stored.last = true
    · rw [if_pos hb]; exact List.prefix_refl _
    · rw [if_neg hb]
      exact ⟨Grown.note _ _ _ _ hstep _, fun _ => by simpa [Rec.note] using hb⟩

theorem hold_grows (a : Cyclic H) (ht : ℝ) (x : Rec H × Guess) : Grows a.bad (a.holdSteps ht) x.1 (a.hold ht x) := by
  unfold Cyclic.hold Cyclic.holdSteps
  by_cases h : 0 < ht
  · rw [if_pos h, if_pos h]
    split_ifs
    · exact List.prefix_refl _
    · exact loop_grows _ _ (holdStep_grows _ _ _ _) _ _
  · rw [if_neg h, if_neg h]
    exact ⟨Grown.refl _, fun h => absurd rfl h⟩

theorem ramp_grows (a : Cyclic H) (dir : Fin 6 → ℝ) (einc : ℝ) (x : Rec H × Guess) :
    Grows a.bad a.nsteps x.1 (a.ramp dir einc x) :=
  loop_grows _ _ (eincStep_grows _ _ _ _ _ _) _ (x.1, x.2.neg)

/-- A cycle that is run. -/
theorem cycle_grows (a : Cyclic H) (hn : a.nsteps ≠ 0) (s : ℕ) (x : Rec H × Guess)
    (hx : x.1.d.strain.toList.length = x.1.stress.toList.length) :
    match a.cycle s x with
    | .ok (y, row) => Grown a.points x.1 y.1 ∧ a.bad y.1.d.stored.last = false ∧ row.cycle = s ∧
        IsGreatest {v | v ∈ y.1.stress.toList.drop (x.1.stress.toList.length + a.holdSteps a.hold0)} row.max ∧
        IsLeast {v | v ∈ y.1.stress.toList.drop (x.1.stress.toList.length + a.holdSteps a.hold0)} row.min
    | .stop r => x.1.stress.toList <+: r.stress.toList := by
  have pre : ∀ {n : ℕ} {r r' : Rec H}, Grown n r r' → r.stress.toList <+: r'.stress.toList := by
    rintro n r r' h
    obtain ⟨l, hl, -⟩ := h.stress
    exact ⟨l, hl.symm⟩
  unfold Cyclic.cycle
  have w1 := hold_grows a a.hold0 x
  cases h1 : a.hold a.hold0 x with
  | stop r => rw [h1] at w1; exact w1
  | ok x1 =>
    rw [h1] at w1
    simp only [Ended.andThen]
    have w2 := ramp_grows a (-a.sdir) (|a.emin - a.emax| / a.nsteps) x1
    cases h2 : a.ramp (-a.sdir) (|a.emin - a.emax| / a.nsteps) x1 with
    | stop r => rw [h2] at w2; exact (pre w1.1).trans w2
    | ok x2 =>
      rw [h2] at w2
      simp only
      have w3 := hold_grows a a.hold1 x2
      cases h3 : a.hold a.hold1 x2 with
      | stop r => rw [h3] at w3; exact ((pre w1.1).trans (pre w2.1)).trans w3
      | ok x3 =>
        rw [h3] at w3
        simp only
        have w4 := ramp_grows a a.sdir (|a.emax - a.emin| / a.nsteps) x3
        cases h4 : a.ramp a.sdir (|a.emax - a.emin| / a.nsteps) x3 with
        | stop r => rw [h4] at w4; exact (((pre w1.1).trans (pre w2.1)).trans (pre w3.1)).trans w4
        | ok x4 =>
          rw [h4] at w4
          have hg := ((w1.1.trans w2.1).trans w3.1).trans w4.1
          have hsi : x1.1.d.strain.toList.length = x.1.stress.toList.length + a.holdSteps a.hold0 := by
            rw [w1.1.strain, hx]
          have hne : Cyclic.since x4.1.stress (x.1.stress.toList.length + a.holdSteps a.hold0) ≠ [] := by
            obtain ⟨l, hl, hl'⟩ := hg.stress
            intro h0
            have := congrArg List.length h0
            rw [Cyclic.since, List.length_drop, hl, List.length_append, hl', List.length_nil] at this
            omega
          refine ⟨?_, w4.2 hn, rfl, ?_, ?_⟩
          · have : a.points = a.holdSteps a.hold0 + a.nsteps + a.holdSteps a.hold1 + a.nsteps := by
              rw [Cyclic.points]; ring
            rw [this]; exact hg
          · rw [hsi]; exact Cyclic.maxOf_spec _ hne
          · rw [hsi]; exact Cyclic.minOf_spec _ hne

/-! ## What is kept while the test runs -/

variable [AddCommGroup H] [Module ℝ H]

/-- The points of the test so far. -/
structure Inv (a : Extra H) (st : State H) (k : ℕ) : Prop where
  table : Table st.x.1.stress.toList (a.nsteps + 1) a.points (a.holdSteps a.hold0) a.minCycle a.unit a.jump a.ncycles k st.ex
    st.rows
  top : top st.rows = st.s
  length : st.x.1.stress.toList.length = a.nsteps + 1 + k * a.points
  strains : st.x.1.d.strain.toList.length = st.x.1.stress.toList.length
  stored : st.x.1.stress.toList.length ≤ st.x.1.d.stored.toList.length
  dstress : st.x.1.d.stress.toList.length = st.x.1.d.stored.toList.length
  times : st.x.1.time.toList.length = st.x.1.stress.toList.length

theorem pyGet_nat {α : Type} (xs : List α) (i : ℕ) : pyGet xs (i : Int) = xs[i]? := by
  unfold pyGet
  rw [if_pos (Int.natCast_nonneg _), Int.toNat_natCast]

theorem dN_eq (a : Extra H) (s : ℕ) : a.dN s = by_ a.unit a.jump s := rfl

theorem steps_eq (a : Extra H) (h0 : 0 ≤ a.hold0) (h1 : 0 ≤ a.hold1) : a.steps = a.points := by
  unfold steps Cyclic.points Cyclic.holdSteps
  rcases h0.eq_or_lt with e0 | p0 <;> rcases h1.eq_or_lt with e1 | p1
  · simp [← e0, ← e1]
  · simp [← e0, p1, p1.ne]; ring
  · simp [← e1, p0]; ring
  · simp [p0, p1, p0.ne', p1.ne']; ring

/-- The state after an accepted extrapolation from the history `hp` and the stress `sp`. -/
noncomputable def after (a : Extra H) (st : State H) (r1 r0 : Row) (hp : H) (sp : Fin 6 → ℝ) : State H :=
  ⟨({ st.x.1 with d := { st.x.1.d with
      stored := st.x.1.d.stored.push (st.x.1.d.stored.last + (by_ a.unit a.jump st.s : ℝ) • (st.x.1.d.stored.last - hp)),
      stress := st.x.1.d.stress.push (st.x.1.d.stress.last + (by_ a.unit a.jump st.s : ℝ) • (st.x.1.d.stress.last - sp)) } },
      st.x.2),
    ⟨st.s + by_ a.unit a.jump st.s, r1.max + by_ a.unit a.jump st.s * (r1.max - r0.max),
      r1.min + by_ a.unit a.jump st.s * (r1.min - r0.min)⟩ :: st.rows, st.s + by_ a.unit a.jump st.s, false⟩

/-- What a leap does. -/
theorem leap_spec (a : Extra H) (h0 : 0 ≤ a.hold0) (h1 : 0 ≤ a.hold1) (st : State H) (k : ℕ) (h : Inv a st k)
    (hex : st.ex = true) (r1 r0 : Row) (rest : List Row) (hrows : st.rows = r1 :: r0 :: rest) :
    ∃ hp sp, st.x.1.d.stored.toList[st.x.1.d.stored.toList.length - 1 - a.points]? = some hp ∧
      st.x.1.d.stress.toList[st.x.1.d.stress.toList.length - 1 - 2 * a.points]? = some sp ∧
      ((a.allow < |(by_ a.unit a.jump st.s : ℝ) * (st.x.1.d.stress.last - sp) 0| ∧ a.leap st = .go { st with ex := false }) ∨
        |(by_ a.unit a.jump st.s : ℝ) * (st.x.1.d.stress.last - sp) 0| ≤ a.allow ∧
          ((a.ncycles < st.s + by_ a.unit a.jump st.s ∧ a.leap st = .stop { st with s := st.s + by_ a.unit a.jump st.s }) ∨
            st.s + by_ a.unit a.jump st.s ≤ a.ncycles ∧ a.leap st = .go (after a st r1 r0 hp sp))) := by
  have hk : 2 ≤ k := by
    have := h.table
    rw [hrows] at this
    exact this.two
  have hlen : 2 * a.points ≤ k * a.points := Nat.mul_le_mul_right _ hk
  have hl := h.length
  have hs := h.stored
  have hd := h.dstress
  have hone : (r1.cycle : ℝ) - r0.cycle = 1 := by
    have ht := h.table
    rw [hex] at ht
    obtain ⟨q, rs, e1, e2, -⟩ := ht.ran
    rw [hrows] at e1
    cases e1
    rw [e2, top]
    push_cast
    ring
  obtain ⟨hp, ehp⟩ : ∃ hp, st.x.1.d.stored.toList[st.x.1.d.stored.toList.length - 1 - a.points]? = some hp :=
    ⟨_, List.getElem?_eq_getElem (by omega)⟩
  obtain ⟨sp, esp⟩ : ∃ sp, st.x.1.d.stress.toList[st.x.1.d.stress.toList.length - 1 - 2 * a.points]? = some sp :=
    ⟨_, List.getElem?_eq_getElem (by omega)⟩
  refine ⟨hp, sp, ehp, esp, ?_⟩
  have g1 : pyGet st.x.1.d.stored.toList ((st.x.1.d.stored.toList.length : Int) - 1 - a.steps) = some hp := by
    rw [steps_eq a h0 h1, show (st.x.1.d.stored.toList.length : Int) - 1 - a.points =
      ((st.x.1.d.stored.toList.length - 1 - a.points : ℕ) : Int) by omega, pyGet_nat, ehp]
  have g2 : pyGet st.x.1.d.stress.toList ((st.x.1.d.stored.toList.length : Int) - 1 - 2 * a.steps) = some sp := by
    rw [steps_eq a h0 h1, show (st.x.1.d.stored.toList.length : Int) - 1 - 2 * a.points =
      ((st.x.1.d.stress.toList.length - 1 - 2 * a.points : ℕ) : Int) by omega, pyGet_nat, esp]
  have g3 : pyGet st.x.1.d.stress.toList ((st.x.1.d.stored.toList.length : Int) - 1) = some st.x.1.d.stress.last := by
    rw [show (st.x.1.d.stored.toList.length : Int) - 1 = ((st.x.1.d.stress.toList.length - 1 : ℕ) : Int) by omega, pyGet_nat,
      Cyclic.last_get]
  have hj : ((st.x.1.d.stress.last + (by_ a.unit a.jump st.s : ℝ) • (st.x.1.d.stress.last - sp)) 0 - st.x.1.d.stress.last 0) =
      (by_ a.unit a.jump st.s : ℝ) * (st.x.1.d.stress.last - sp) 0 := by
    simp
  by_cases hc : |(by_ a.unit a.jump st.s : ℝ) * (st.x.1.d.stress.last - sp) 0| ≤ a.allow
  · refine Or.inr ⟨hc, ?_⟩
    by_cases hn : a.ncycles < st.s + by_ a.unit a.jump st.s
    · refine Or.inl ⟨hn, ?_⟩
      unfold leap
      simp only [g1, g2, g3, hrows, hone, div_one, dN_eq]
      rw [if_pos (by rw [hj]; exact hc), if_pos hn]
    · refine Or.inr ⟨not_lt.1 hn, ?_⟩
      unfold leap
      simp only [g1, g2, g3, hrows, hone, div_one, dN_eq]
      rw [if_pos (by rw [hj]; exact hc), if_neg hn]
      unfold after
      rw [← hrows]
      congr 3 <;> ring
  · refine Or.inl ⟨not_le.1 hc, ?_⟩
    unfold leap
    simp only [g1, g2, g3, hrows, hone, div_one, dN_eq]
    rw [if_neg (by rw [hj]; exact hc)]

theorem push_length {α : Type} (s : Series α) (x : α) : (s.push x).toList.length = s.toList.length + 1 := by
  rw [Series.push_toList]; simp

/-- What a round does to what is kept. -/
theorem round_inv (a : Extra H) (h0 : 0 ≤ a.hold0) (h1 : 0 ≤ a.hold1) (hm : 2 ≤ a.minCycle) (hn : a.nsteps ≠ 0) (st : State H)
    (k : ℕ) (h : Inv a st k) (hs : st.s < a.ncycles) :
    match a.round st with
    | .raise => False
    | .stop st' => ∃ k b, Table st'.x.1.stress.toList (a.nsteps + 1) a.points (a.holdSteps a.hold0) a.minCycle a.unit a.jump
        a.ncycles k b st'.rows
    | .go st' => (∃ k', Inv a st' k') ∧
        2 * (a.ncycles - st'.s) + (if st'.ex then 1 else 0) < 2 * (a.ncycles - st.s) + (if st.ex then 1 else 0) := by
  unfold round
  by_cases hb : a.bad st.x.1.d.stored.last = true
  · rw [if_pos hb]
    exact ⟨_, _, h.table⟩
  rw [if_neg hb]
  by_cases hc : a.minCycle ≤ st.s ∧ st.ex = true
  · rw [if_pos hc]
    obtain ⟨hc1, hex⟩ := hc
    have ht := h.table
    rw [hex] at ht
    obtain ⟨r1, rest, e1, e2, -⟩ := ht.ran
    have htop := h.top
    rw [e1, top] at htop
    cases rest with
    | nil => rw [top] at e2; omega
    | cons r0 rest =>
      obtain ⟨hp, sp, -, -, hl⟩ := leap_spec a h0 h1 st k h hex r1 r0 rest e1
      rw [e1] at ht
      rcases hl with ⟨-, hl⟩ | ⟨-, ⟨-, hl⟩ | ⟨hle, hl⟩⟩
      · rw [hl]
        refine ⟨⟨k, ⟨?_, h.top, h.length, h.strains, h.stored, h.dstress, h.times⟩⟩, ?_⟩
        · simp only [e1]; exact .refuse _ _ ht
        · simp [hex]
      · rw [hl]
        exact ⟨_, _, h.table⟩
      · rw [hl]
        refine ⟨⟨k, ⟨?_, rfl, h.length, h.strains, ?_, ?_, h.times⟩⟩, ?_⟩
        · simp only [after, e1]
          refine .jump k r1 r0 _ rest ht (by rw [htop]; exact hc1) ?_ ?_ ?_ ?_
          · simp [htop]
          · exact hle
          · simp [htop]
          · simp [htop]
        · simp only [after, push_length]
          exact h.stored.trans (Nat.le_succ _)
        · simp only [after, push_length, h.dstress]
        · simp only [after, hex, if_true, Bool.false_eq_true, if_false]
          omega
  · rw [if_neg hc]
    have hg := cycle_grows a.toCyclic hn st.s st.x h.strains
    cases hx : a.toCyclic.cycle st.s st.x with
    | stop r =>
      rw [hx] at hg
      exact ⟨_, _, h.table.ext hg⟩
    | ok q =>
      obtain ⟨y, row⟩ := q
      rw [hx] at hg
      obtain ⟨g1, g2, g3, g4, g5⟩ := hg
      obtain ⟨l1, e1, f1⟩ := g1.stress
      obtain ⟨l2, e2, f2⟩ := g1.stored
      obtain ⟨l3, e3, f3⟩ := g1.dstress
      have hlen : y.1.stress.toList.length = a.nsteps + 1 + (k + 1) * a.points := by
        rw [e1, List.length_append, h.length, f1]; ring
      refine ⟨⟨k + 1, ⟨?_, rfl, hlen, ?_, ?_, ?_, ?_⟩⟩, ?_⟩
      · refine .run k st.ex st.rows _ (h.table.ext ⟨l1, e1.symm⟩) (by rw [h.top]) hs hlen.ge ?_ ?_
        · rw [← hlen, List.take_length, ← h.length]; exact g4
        · rw [← hlen, List.take_length, ← h.length]; exact g5
      · rw [g1.strain, h.strains, e1, List.length_append, f1]
      · rw [e1, e2, List.length_append, List.length_append, f1, f2]
        have := h.stored
        omega
      · rw [e3, e2, List.length_append, List.length_append, f3, f2, h.dstress]
      · rw [g1.time, h.times, e1, List.length_append, f1]
      · dsimp only; split_ifs <;> omega

/-- The states the test goes through. -/
inductive Reach (a : Extra H) (c : Setup H) : State H → Prop
  | start (x : Rec H × Guess) (hn : a.nsteps ≠ 0)
      (hx : loop (eincStep a.bad a.sdir a.sdir a.erate (a.emax / a.nsteps) a.T) a.nsteps
        (Rec.new (c.driver a.T none), none) = .ok x) : Reach a c ⟨x, [], 0, false⟩
  | step (st st' : State H) (h : Reach a c st) (hs : st.s < a.ncycles) (hr : a.round st = .go st') : Reach a c st'

theorem start_inv (a : Extra H) (c : Setup H) (x : Rec H × Guess)
    (hx : loop (eincStep a.bad a.sdir a.sdir a.erate (a.emax / a.nsteps) a.T) a.nsteps
        (Rec.new (c.driver a.T none), none) = .ok x) : Inv a ⟨x, [], 0, false⟩ 0 := by
  have hg := loop_grows a.bad _ (eincStep_grows a.bad a.sdir a.sdir a.erate (a.emax / a.nsteps) a.T) a.nsteps
    (Rec.new (c.driver a.T none), none)
  rw [hx] at hg
  obtain ⟨g1, -⟩ := hg
  obtain ⟨l1, e1, f1⟩ := g1.stress
  obtain ⟨l2, e2, f2⟩ := g1.stored
  obtain ⟨l3, e3, f3⟩ := g1.dstress
  have n1 : (Rec.new (c.driver a.T none)).stress.toList.length = 1 := rfl
  have n2 : (Rec.new (c.driver a.T none)).d.stored.toList.length = 1 := rfl
  have n3 : (Rec.new (c.driver a.T none)).d.stress.toList.length = 1 := rfl
  have n4 : (Rec.new (c.driver a.T none)).d.strain.toList.length = 1 := rfl
  have n5 : (Rec.new (c.driver a.T none)).time.toList.length = 1 := rfl
  refine ⟨.nil, rfl, ?_, ?_, ?_, ?_, ?_⟩
  · rw [e1, List.length_append, f1, n1]; ring
  · rw [g1.strain, e1, List.length_append, f1]; rfl
  · rw [e1, e2, List.length_append, List.length_append, f1, f2]; exact le_rfl
  · rw [e3, e2, List.length_append, List.length_append, f3, f2]; rfl
  · rw [g1.time, e1, List.length_append, f1]; rfl

theorem reach_inv (a : Extra H) (c : Setup H) (h0 : 0 ≤ a.hold0) (h1 : 0 ≤ a.hold1) (hm : 2 ≤ a.minCycle) (st : State H)
    (h : Reach a c st) : a.nsteps ≠ 0 ∧ ∃ k, Inv a st k := by
  induction h with
  | start x hn hx => exact ⟨hn, 0, start_inv a c x hx⟩
  | step st st' h hs hr ih =>
    obtain ⟨hn, k, hi⟩ := ih
    have := round_inv a h0 h1 hm hn st k hi hs
    rw [hr] at this
    exact ⟨hn, this.1⟩

/-- The rounds, in full. -/
theorem rounds_spec (a : Extra H) (h0 : 0 ≤ a.hold0) (h1 : 0 ≤ a.hold1) (hm : 2 ≤ a.minCycle) (hn : a.nsteps ≠ 0) (n : ℕ)
    (st : State H) (k : ℕ) (h : Inv a st k) (hf : 2 * (a.ncycles - st.s) + (if st.ex then 1 else 0) ≤ n) :
    ∃ st', a.rounds n st = some (st', true) ∧ ∃ k b, Table st'.x.1.stress.toList (a.nsteps + 1) a.points (a.holdSteps a.hold0)
      a.minCycle a.unit a.jump a.ncycles k b st'.rows := by
  induction n generalizing st k with
  | zero =>
    refine ⟨st, ?_, k, st.ex, h.table⟩
    rw [rounds, decide_eq_true (by omega)]
  | succ n ih =>
    rw [rounds]
    by_cases hs : st.s < a.ncycles
    · rw [if_pos hs]
      have := round_inv a h0 h1 hm hn st k h hs
      cases hr : a.round st with
      | raise => rw [hr] at this; exact this.elim
      | stop st' => rw [hr] at this; exact ⟨st', rfl, this⟩
      | go st' =>
        rw [hr] at this
        obtain ⟨⟨k', hi⟩, hlt⟩ := this
        exact ih st' k' hi (by omega)
    · rw [if_neg hs]
      exact ⟨st, rfl, k, st.ex, h.table⟩

end Extra

open Extra in
/-- **C163.** Once the first ramp is made, a test with at least two cycles before the first extrapolation ends without an
exception, after at most two rounds per cycle, and its results are a table of cycles that were run and of linear
continuations. -/
theorem C163_table [AddCommGroup H] [Module ℝ H] (a : Extra H) (c : Setup H) (h0 : 0 ≤ a.hold0) (h1 : 0 ≤ a.hold1)
    (hm : 2 ≤ a.minCycle) (hn : a.nsteps ≠ 0) (x : Rec H × Guess)
    (hx : loop (eincStep a.bad a.sdir a.sdir a.erate (a.emax / a.nsteps) a.T) a.nsteps
      (Rec.new (c.driver a.T none), none) = .ok x) (fuel : ℕ) (hf : 2 * a.ncycles ≤ fuel) :
    ∃ st, a.run c fuel = some (st, true) ∧ ∃ k b, Table st.x.1.stress.toList (a.nsteps + 1) a.points (a.holdSteps a.hold0)
      a.minCycle a.unit a.jump a.ncycles k b st.rows := by
  unfold Extra.run
  rw [if_neg hn, hx]
  exact rounds_spec a h0 h1 hm hn fuel _ 0 (start_inv a c x hx) (by simpa using hf)

open Extra in
/-- **C163.** In such a table the numbers of the cycles increase, if jumps are not empty, from one to at most the number of
cycles asked for. -/
theorem C163_numbers {xs : List ℝ} {start points skip minCycle unit jump ncycles k : ℕ} {b : Bool} {rows : List Row}
    (hj : 1 ≤ jump) (h : Table xs start points skip minCycle unit jump ncycles k b rows) :
    (rows.reverse.map Row.cycle).Pairwise (· < ·) ∧ (∀ r ∈ rows, 1 ≤ r.cycle ∧ r.cycle ≤ ncycles) ∧
      (∀ r, rows.reverse[0]? = some r → r.cycle = 1) := by
  have hby : ∀ s, 1 ≤ by_ unit jump s := by intro s; unfold by_; split_ifs <;> omega
  have key : (rows.map Row.cycle).Pairwise (· > ·) ∧ (∀ r ∈ rows, 1 ≤ r.cycle ∧ r.cycle ≤ ncycles ∧ r.cycle ≤ top rows) ∧
      (∀ r, rows.getLast? = some r → r.cycle = 1) := by
    induction h with
    | nil => simp
    | run k b rows row h hc hn hl hmax hmin ih =>
      obtain ⟨i1, i2, i3⟩ := ih
      refine ⟨?_, ?_, ?_⟩
      · rw [List.map_cons, List.pairwise_cons]
        refine ⟨fun n hn => ?_, i1⟩
        obtain ⟨r, hr, rfl⟩ := List.mem_map.1 hn
        have := (i2 r hr).2.2
        omega
      · intro r hr
        rcases List.mem_cons.1 hr with rfl | hr
        · exact ⟨by omega, hn, le_rfl⟩
        · obtain ⟨j1, j2, j3⟩ := i2 r hr
          exact ⟨j1, j2, by rw [top]; omega⟩
      · intro r hr
        cases rows with
        | nil => simp only [List.getLast?_singleton, Option.some.injEq] at hr; rw [← hr, hc]; rfl
        | cons r1 rs => exact i3 r (by rwa [List.getLast?_cons_cons] at hr)
    | jump k r1 r0 row rows h hm hc hn hmax hmin ih =>
      obtain ⟨i1, i2, i3⟩ := ih
      have hb := hby r1.cycle
      refine ⟨?_, ?_, ?_⟩
      · rw [List.map_cons, List.pairwise_cons]
        refine ⟨fun n hn => ?_, i1⟩
        obtain ⟨r, hr, rfl⟩ := List.mem_map.1 hn
        have := (i2 r hr).2.2
        rw [top] at this
        omega
      · intro r hr
        rcases List.mem_cons.1 hr with rfl | hr
        · exact ⟨by omega, hn, le_rfl⟩
        · obtain ⟨j1, j2, j3⟩ := i2 r hr
          rw [top] at j3
          exact ⟨j1, j2, by rw [top]; omega⟩
      · intro r hr
        exact i3 r (by rwa [List.getLast?_cons_cons] at hr)
    | refuse k rows h ih => exact ih
  refine ⟨?_, fun r hr => ⟨(key.2.1 r hr).1, (key.2.1 r hr).2.1⟩, fun r hr => key.2.2 r ?_⟩
  · rw [List.map_reverse, List.pairwise_reverse]
    exact key.1
  · rw [← hr, List.getLast?_eq_head?_reverse, List.head?_eq_getElem?]

/-! ## What an extrapolation starts from -/

namespace Extra

variable [AddCommGroup H] [Module ℝ H]

theorem leap_flag (a : Extra H) (st st' : State H) (h : a.leap st = .go st') : st'.ex = false := by
  unfold leap at h
  dsimp only at h
  split at h
  · split_ifs at h
    · cases h; rfl
    · cases h; rfl
  · cases h

/-- A round after which an extrapolation is possible has run a cycle. -/
theorem round_cycle (a : Extra H) (st st' : State H) (h : a.round st = .go st') (hex : st'.ex = true) :
    ∃ row, a.toCyclic.cycle st.s st.x = .ok (st'.x, row) ∧ st'.rows = ⟨st.s + 1, row.max, row.min⟩ :: st.rows ∧
      st'.s = st.s + 1 := by
  unfold round at h
  split_ifs at h
  · have := leap_flag a st st' h
    rw [hex] at this
    cases this
  · cases hx : a.toCyclic.cycle st.s st.x with
    | stop r => rw [hx] at h; cases h
    | ok q =>
      rw [hx] at h
      cases h
      exact ⟨_, rfl, rfl, rfl⟩

theorem append_get {α : Type} (s : Series α) (l xs : List α) (k : ℕ) (h : xs = s.toList ++ l) (hk : l.length = k) :
    xs[xs.length - 1 - k]? = some s.last := by
  have hl : 0 < s.toList.length := by simp [Series.toList]
  rw [h, List.length_append, hk, show s.toList.length + k - 1 - k = s.toList.length - 1 by omega,
    List.getElem?_append_left (by omega)]
  exact Cyclic.last_get s

/-- A round that extrapolates. -/
theorem round_leap (a : Extra H) (h0 : 0 ≤ a.hold0) (h1 : 0 ≤ a.hold1) (hm : 2 ≤ a.minCycle) (st st' : State H) (k : ℕ)
    (h : Inv a st k) (hr : a.round st = .go st') (hex : st.ex = true) (hex' : st'.ex = false) :
    ∃ r1 r0 rest hp sp, st.rows = r1 :: r0 :: rest ∧
      st.x.1.d.stored.toList[st.x.1.d.stored.toList.length - 1 - a.points]? = some hp ∧
      st.x.1.d.stress.toList[st.x.1.d.stress.toList.length - 1 - 2 * a.points]? = some sp ∧
      ((a.allow < |(by_ a.unit a.jump st.s : ℝ) * (st.x.1.d.stress.last - sp) 0| ∧ st' = { st with ex := false }) ∨
        |(by_ a.unit a.jump st.s : ℝ) * (st.x.1.d.stress.last - sp) 0| ≤ a.allow ∧ st' = after a st r1 r0 hp sp) := by
  unfold round at hr
  split_ifs at hr with hb hc
  · have ht := h.table
    rw [hex] at ht
    obtain ⟨r1, rest, e1, e2, -⟩ := ht.ran
    have htop := h.top
    rw [e1, top] at htop
    cases rest with
    | nil => rw [top] at e2; omega
    | cons r0 rest =>
      obtain ⟨hp, sp, g1, g2, hl⟩ := leap_spec a h0 h1 st k h hex r1 r0 rest e1
      refine ⟨r1, r0, rest, hp, sp, e1, g1, g2, ?_⟩
      rcases hl with ⟨hl1, hl⟩ | ⟨hl1, ⟨-, hl⟩ | ⟨-, hl⟩⟩
      · rw [hl] at hr; cases hr; exact Or.inl ⟨hl1, rfl⟩
      · rw [hl] at hr; cases hr
      · rw [hl] at hr; cases hr; exact Or.inr ⟨hl1, rfl⟩
  · cases hx : a.toCyclic.cycle st.s st.x with
    | stop r => rw [hx] at hr; cases hr
    | ok q =>
      rw [hx] at hr
      cases hr
      cases hex'

end Extra

open Extra in
/-- **C163.** An extrapolation that follows a cycle either leaves everything as it is, or continues the history at the end of
the cycle by the change over the cycle times the number of cycles jumped, and counts these cycles. Strains, recorded stresses
and times are left as they are. -/
theorem C163_history [AddCommGroup H] [Module ℝ H] (a : Extra H) (c : Setup H) (h0 : 0 ≤ a.hold0) (h1 : 0 ≤ a.hold1)
    (hm : 2 ≤ a.minCycle) (st st1 st2 : State H) (h : Reach a c st) (hs : st.s < a.ncycles) (hr1 : a.round st = .go st1)
    (hex1 : st1.ex = true) (hr2 : a.round st1 = .go st2) (hex2 : st2.ex = false) :
    (st2.x = st1.x ∧ st2.rows = st1.rows ∧ st2.s = st1.s) ∨
    (st2.x.1.d.stored.toList = st1.x.1.d.stored.toList ++
        [st1.x.1.d.stored.last + (by_ a.unit a.jump st1.s : ℝ) • (st1.x.1.d.stored.last - st.x.1.d.stored.last)] ∧
      st2.s = st1.s + by_ a.unit a.jump st1.s ∧ st2.x.1.strain = st1.x.1.strain ∧ st2.x.1.stress = st1.x.1.stress ∧
      st2.x.1.time = st1.x.1.time ∧ st2.x.1.d.strain = st1.x.1.d.strain ∧ st2.x.1.d.t = st1.x.1.d.t) := by
  obtain ⟨hn, k, hi⟩ := reach_inv a c h0 h1 hm st h
  obtain ⟨-, k1, hi1⟩ := reach_inv a c h0 h1 hm st1 (.step st st1 h hs hr1)
  obtain ⟨row, hc, -, -⟩ := round_cycle a st st1 hr1 hex1
  have hg := cycle_grows a.toCyclic hn st.s st.x hi.strains
  rw [hc] at hg
  obtain ⟨l, e, f⟩ := hg.1.stored
  obtain ⟨r1, r0, rest, hp, sp, -, ehp, -, hl⟩ := round_leap a h0 h1 hm st1 st2 k1 hi1 hr2 hex1 hex2
  rw [append_get st.x.1.d.stored l _ _ e f, Option.some.injEq] at ehp
  rcases hl with ⟨-, rfl⟩ | ⟨-, rfl⟩
  · exact Or.inl ⟨rfl, rfl, rfl⟩
  · refine Or.inr ⟨?_, rfl, rfl, rfl, rfl, rfl, rfl⟩
    rw [ehp]
    simp only [after, Series.push_toList]

open Extra in
/-- **C163, disagreement.** The stress the test goes on from is not the linear continuation of the cycle: after two cycles it
is continued by the change over both of them for every cycle jumped. The check of the jump is on this, and on the first
component whatever the direction of the test. -/
theorem C163_stress_disagreement [AddCommGroup H] [Module ℝ H] (a : Extra H) (c : Setup H) (h0 : 0 ≤ a.hold0)
    (h1 : 0 ≤ a.hold1) (hm : 2 ≤ a.minCycle) (st st1 st2 st3 : State H) (h : Reach a c st) (hs : st.s < a.ncycles)
    (hr1 : a.round st = .go st1) (hex1 : st1.ex = true) (hs1 : st1.s < a.ncycles) (hr2 : a.round st1 = .go st2)
    (hex2 : st2.ex = true) (hr3 : a.round st2 = .go st3) (hex3 : st3.ex = false) :
    (a.allow < by_ a.unit a.jump st2.s * |st2.x.1.d.stress.last 0 - st.x.1.d.stress.last 0| ∧ st3.x = st2.x) ∨
    (by_ a.unit a.jump st2.s * |st2.x.1.d.stress.last 0 - st.x.1.d.stress.last 0| ≤ a.allow ∧
      st3.x.1.d.stress.toList = st2.x.1.d.stress.toList ++
        [st2.x.1.d.stress.last + (by_ a.unit a.jump st2.s : ℝ) • (st2.x.1.d.stress.last - st.x.1.d.stress.last)]) := by
  obtain ⟨hn, k, hi⟩ := reach_inv a c h0 h1 hm st h
  have hreach1 : Reach a c st1 := .step st st1 h hs hr1
  obtain ⟨-, k1, hi1⟩ := reach_inv a c h0 h1 hm st1 hreach1
  obtain ⟨-, k2, hi2⟩ := reach_inv a c h0 h1 hm st2 (.step st1 st2 hreach1 hs1 hr2)
  obtain ⟨row, hc, -, -⟩ := round_cycle a st st1 hr1 hex1
  obtain ⟨row1, hc1, -, -⟩ := round_cycle a st1 st2 hr2 hex2
  have hg := cycle_grows a.toCyclic hn st.s st.x hi.strains
  rw [hc] at hg
  have hg1 := cycle_grows a.toCyclic hn st1.s st1.x hi1.strains
  rw [hc1] at hg1
  obtain ⟨l, e, f⟩ := (hg.1.trans hg1.1).dstress
  obtain ⟨r1, r0, rest, hp, sp, -, -, esp, hl⟩ := round_leap a h0 h1 hm st2 st3 k2 hi2 hr3 hex2 hex3
  rw [two_mul, append_get st.x.1.d.stress l _ _ e f, Option.some.injEq] at esp
  rw [← esp, abs_mul, Pi.sub_apply, abs_of_nonneg (Nat.cast_nonneg _)] at hl
  rcases hl with ⟨hj, rfl⟩ | ⟨hj, rfl⟩
  · exact Or.inl ⟨hj, rfl⟩
  · refine Or.inr ⟨hj, ?_⟩
    simp only [after, Series.push_toList, esp]

open Extra in
/-- **C163, disagreement.** After an earlier extrapolation the continuation is from the first point after the start of the
cycle before that extrapolation, not from the start of a cycle. -/
theorem C163_shift_disagreement [AddCommGroup H] [Module ℝ H] (a : Extra H) (c : Setup H) (h0 : 0 ≤ a.hold0)
    (h1 : 0 ≤ a.hold1) (hm : 2 ≤ a.minCycle) (st st1 st2 st3 st4 : State H) (h : Reach a c st) (hs : st.s < a.ncycles)
    (hr1 : a.round st = .go st1) (hex1 : st1.ex = true) (hs1 : st1.s < a.ncycles) (hr2 : a.round st1 = .go st2)
    (hex2 : st2.ex = false) (hrow : st2.rows ≠ st1.rows) (hs2 : st2.s < a.ncycles) (hr3 : a.round st2 = .go st3)
    (hex3 : st3.ex = true) (hr4 : a.round st3 = .go st4) (hex4 : st4.ex = false) (hrow4 : st4.rows ≠ st3.rows) :
    ∃ sp, st1.x.1.d.stress.toList[st.x.1.d.stress.toList.length]? = some sp ∧
      st4.x.1.d.stress.toList = st3.x.1.d.stress.toList ++
        [st3.x.1.d.stress.last + (by_ a.unit a.jump st3.s : ℝ) • (st3.x.1.d.stress.last - sp)] := by
  obtain ⟨hn, k, hi⟩ := reach_inv a c h0 h1 hm st h
  have hreach1 : Reach a c st1 := .step st st1 h hs hr1
  obtain ⟨-, k1, hi1⟩ := reach_inv a c h0 h1 hm st1 hreach1
  have hreach2 : Reach a c st2 := .step st1 st2 hreach1 hs1 hr2
  obtain ⟨-, k2, hi2⟩ := reach_inv a c h0 h1 hm st2 hreach2
  obtain ⟨-, k3, hi3⟩ := reach_inv a c h0 h1 hm st3 (.step st2 st3 hreach2 hs2 hr3)
  obtain ⟨row, hc, -, -⟩ := round_cycle a st st1 hr1 hex1
  obtain ⟨row2, hc2, -, -⟩ := round_cycle a st2 st3 hr3 hex3
  have hg := cycle_grows a.toCyclic hn st.s st.x hi.strains
  rw [hc] at hg
  have hg2 := cycle_grows a.toCyclic hn st2.s st2.x hi2.strains
  rw [hc2] at hg2
  obtain ⟨l, e, f⟩ := hg.1.dstress
  obtain ⟨l2, e2, f2⟩ := hg2.1.dstress
  obtain ⟨q1, q0, rst, hp', sp', -, -, -, hl'⟩ := round_leap a h0 h1 hm st1 st2 k1 hi1 hr2 hex1 hex2
  obtain ⟨r1, r0, rest, hp, sp, -, -, esp, hl⟩ := round_leap a h0 h1 hm st3 st4 k3 hi3 hr4 hex3 hex4
  rcases hl' with ⟨-, rfl⟩ | ⟨-, rfl⟩
  · exact absurd rfl hrow
  rcases hl with ⟨-, rfl⟩ | ⟨-, rfl⟩
  · exact absurd rfl hrow4
  refine ⟨sp, ?_, by simp only [after, Series.push_toList]⟩
  have hp0 : 0 < a.points := by rw [Cyclic.points]; omega
  simp only [after, Series.push_toList] at e2
  rw [e2, List.length_append, List.length_append, f2, e, List.length_append, f, List.length_singleton,
    show st.x.1.d.stress.toList.length + a.points + 1 + a.points - 1 - 2 * a.points = st.x.1.d.stress.toList.length by omega,
    List.getElem?_append_left (by simp [f]), List.getElem?_append_left (by simp [f]; omega)] at esp
  rw [e]
  exact esp

/-! ## Against the test without extrapolation -/

namespace Extra

/-- A row of the plain test as a row of this one: the cycles are counted from one. -/
def fromPlain (w : Cyclic.Row) : Row := ⟨w.cycle + 1, w.max, w.min⟩

theorem start_good (a : Cyclic H) (hn : a.nsteps ≠ 0) (dir : Fin 6 → ℝ) (einc : ℝ) (x y : Rec H × Guess)
    (h : loop (eincStep a.bad a.sdir dir a.erate einc a.T) a.nsteps x = .ok y) : a.bad y.1.d.stored.last = false := by
  have hg := loop_grows a.bad _ (eincStep_grows a.bad a.sdir dir a.erate einc a.T) a.nsteps x
  rw [h] at hg
  exact hg.2 hn

theorem cycle_good (a : Cyclic H) (hn : a.nsteps ≠ 0) (s : ℕ) (x y : Rec H × Guess) (row : Cyclic.Row)
    (h : a.cycle s x = .ok (y, row)) : a.bad y.1.d.stored.last = false ∧ row.cycle = s := by
  unfold Cyclic.cycle at h
  cases h1 : a.hold a.hold0 x with
  | stop r => rw [h1] at h; cases h
  | ok x1 =>
    rw [h1] at h
    simp only [Ended.andThen] at h
    cases h2 : a.ramp (-a.sdir) (|a.emin - a.emax| / a.nsteps) x1 with
    | stop r => rw [h2] at h; cases h
    | ok x2 =>
      rw [h2] at h
      simp only at h
      cases h3 : a.hold a.hold1 x2 with
      | stop r => rw [h3] at h; cases h
      | ok x3 =>
        rw [h3] at h
        simp only at h
        cases h4 : a.ramp a.sdir (|a.emax - a.emin| / a.nsteps) x3 with
        | stop r => rw [h4] at h; cases h
        | ok x4 =>
          rw [h4] at h
          cases h
          exact ⟨start_good a hn _ _ _ _ h4, rfl⟩

variable [AddCommGroup H] [Module ℝ H]

theorem rounds_plain (a : Extra H) (hm : a.ncycles ≤ a.minCycle) (hn : a.nsteps ≠ 0) (m : ℕ) (st : State H) (fuel : ℕ)
    (rows : List Cyclic.Row) (hs : a.ncycles - st.s = m) (hf : m ≤ fuel) (hb : a.bad st.x.1.d.stored.last = false)
    (hr : st.rows = rows.map fromPlain) :
    ∃ st', a.rounds fuel st = some (st', true) ∧ st'.x.1 = (a.toCyclic.cycles m st.s st.x rows).1 ∧
      st'.rows = (a.toCyclic.cycles m st.s st.x rows).2.map fromPlain := by
  induction m generalizing st fuel rows with
  | zero =>
    refine ⟨st, ?_, rfl, hr⟩
    cases fuel with
    | zero => rw [rounds, decide_eq_true (by omega)]
    | succ n => rw [rounds, if_neg (by omega)]
  | succ m ih =>
    cases fuel with
    | zero => omega
    | succ n =>
      rw [rounds, if_pos (by omega), round, hb, if_neg (by simp), if_neg (by omega)]
      simp only [Cyclic.cycles]
      cases hx : a.toCyclic.cycle st.s st.x with
      | stop r => exact ⟨_, rfl, rfl, hr⟩
      | ok q =>
        obtain ⟨y, row⟩ := q
        obtain ⟨g1, g2⟩ := cycle_good a.toCyclic hn _ _ _ _ hx
        exact ih ⟨y, _, st.s + 1, true⟩ n (row :: rows) (by simp only; omega) (by omega) g1 (by
          simp only [List.map_cons, fromPlain, g2, hr])

end Extra

open Extra in
/-- **C163.** With all cycles before the first extrapolation the results are those of `strain_cyclic`, but for the count of the
cycles, which starts at one. -/
theorem C163_plain [AddCommGroup H] [Module ℝ H] (a : Extra H) (c : Setup H) (hm : a.ncycles ≤ a.minCycle) (fuel : ℕ)
    (hf : a.ncycles ≤ fuel) :
    (a.toCyclic.run c = none → a.run c fuel = none) ∧
    ∀ r rows, a.toCyclic.run c = some (r, rows) → ∃ st, a.run c fuel = some (st, true) ∧ st.x.1 = r ∧
      st.rows.reverse = rows.map fromPlain := by
  unfold Cyclic.run Extra.run
  by_cases hn : a.nsteps = 0
  · rw [if_pos hn, if_pos hn]
    exact ⟨fun _ => rfl, fun r rows h => by cases h⟩
  rw [if_neg hn, if_neg hn]
  cases hx : loop (eincStep a.bad a.sdir a.sdir a.erate (a.emax / a.nsteps) a.T) a.nsteps
      (Rec.new (c.driver a.T none), none) with
  | stop r => exact ⟨fun _ => rfl, fun r rows h => by cases h⟩
  | ok x =>
    refine ⟨fun h => by simp at h, fun r rows h => ?_⟩
    simp only [Option.some.injEq, Prod.mk.injEq] at h
    obtain ⟨rfl, rfl⟩ := h
    obtain ⟨st, g1, g2, g3⟩ := rounds_plain a hm hn a.ncycles ⟨x, [], 0, false⟩ fuel [] rfl hf
      (start_good a.toCyclic hn _ _ _ _ hx) rfl
    exact ⟨st, g1, g2, by rw [g3, List.map_reverse]⟩

open Extra in
/-- **C163, disagreement.** With fewer than two cycles before the first extrapolation the test raises as soon as its first
cycle is done, if there are to be more. -/
theorem C163_min_disagreement [AddCommGroup H] [Module ℝ H] (a : Extra H) (c : Setup H) (hm : a.minCycle ≤ 1)
    (hn : 2 ≤ a.ncycles) (r : Rec H) (rows : List Cyclic.Row) (h : a.toCyclic.run c = some (r, rows)) (hne : rows ≠ [])
    (fuel : ℕ) (hf : 2 ≤ fuel) : a.run c fuel = none := by
  unfold Cyclic.run at h
  unfold Extra.run
  by_cases hn0 : a.nsteps = 0
  · rw [if_pos hn0]
  rw [if_neg hn0] at h ⊢
  cases hx : loop (eincStep a.bad a.sdir a.sdir a.erate (a.emax / a.nsteps) a.T) a.nsteps
      (Rec.new (c.driver a.T none), none) with
  | stop r => rfl
  | ok x =>
    rw [hx] at h
    simp only [Option.some.injEq, Prod.mk.injEq] at h
    obtain ⟨-, h2⟩ := h
    have hb := start_good a.toCyclic hn0 _ _ _ _ hx
    obtain ⟨f, rfl⟩ : ∃ f, fuel = f + 1 + 1 := ⟨fuel - 2, by omega⟩
    obtain ⟨n, hnn⟩ : ∃ n, a.ncycles = n + 1 := ⟨a.ncycles - 1, by omega⟩
    simp only
    rw [rounds, if_pos (by simp only; omega), Extra.round, hb, if_neg (by simp), if_neg (by simp)]
    simp only
    rw [hnn, Cyclic.cycles] at h2
    cases hy : a.toCyclic.cycle 0 x with
    | stop r' =>
      rw [hy] at h2
      exact absurd h2.symm (by simpa using hne)
    | ok q =>
      obtain ⟨y, row⟩ := q
      obtain ⟨g1, -⟩ := cycle_good a.toCyclic hn0 _ _ _ _ hy
      simp only
      rw [rounds, if_pos (by simp only; omega), Extra.round, g1, if_neg (by simp), if_pos ⟨by simpa using hm, rfl⟩]
      have : a.leap ⟨y, [⟨0 + 1, row.max, row.min⟩], 0 + 1, true⟩ = .raise := by
        unfold leap
        dsimp only
        split
        · rename_i e _ _
          simp at e
        · rfl
      rw [this]

/-! ## Tests that run -/

namespace Extra

/-- A linear elastic material with a stress that depends on time. -/
def IsAffine (m : Model3 H) (C : Matrix (Fin 6) (Fin 6) ℝ) (f : ℝ → Fin 6 → ℝ) : Prop :=
  ∀ i, ∃ h u p, m.update i = some ⟨C *ᵥ i.e1 + f i.t1, h, C, u, p⟩

theorem affine_erate (d : Driver H) (hr : 0 ≤ d.rtol) (ha : 0 ≤ d.atol) (hi : 0 < d.miter)
    (C : Matrix (Fin 6) (Fin 6) ℝ) (f : ℝ → Fin 6 → ℝ) (hm : IsAffine d.model C f) (hC : C.det ≠ 0) (sdir : Fin 6 → ℝ)
    (hn : sdir ⬝ᵥ C⁻¹ *ᵥ sdir ≠ 0) (erate t1 T1 : ℝ) (ht : t1 ≠ d.t.last) (eg : Option (Fin 6 → ℝ)) (ag : Option ℝ) :
    ∃ q, d.erateStep sdir erate t1 T1 eg ag = some q := by
  have hs : norm2 sdir ≠ 0 := fun h => hn (by rw [norm2_eq_zero.1 h]; simp)
  have hdt : t1 - d.t.last ≠ 0 := sub_ne_zero.2 ht
  have hu : Neml.Driver.unit sdir ⬝ᵥ C⁻¹ *ᵥ Neml.Driver.unit sdir ≠ 0 := by
    rw [Neml.Driver.unit, mulVec_smul, dotProduct_smul, smul_dotProduct]
    exact mul_ne_zero (inv_ne_zero hs) (mul_ne_zero (inv_ne_zero hs) hn)
  have hrj : ∀ x, d.erateRJ (Neml.Driver.unit sdir) erate t1 T1 x =
      some (erateMat C (Neml.Driver.unit sdir) (t1 - d.t.last) *ᵥ x - Fin.snoc (α := fun _ => ℝ)
        (fun k => d.stress.last k - (C *ᵥ (d.strain.last - d.thermalNext T1)) k - f t1 k) erate,
        erateMat C (Neml.Driver.unit sdir) (t1 - d.t.last)) := by
    intro x
    obtain ⟨h, u, p, hc⟩ := hm ⟨d.strain.last + (fun k => x k.succ) - d.thermalNext T1, d.mech.last, T1, d.T.last, t1,
      d.t.last, d.stress.last, d.stored.last, d.u.last, d.p.last⟩
    unfold Driver.erateRJ
    rw [if_neg hdt, Driver.call, hc]
    simp only [Option.map_some, Option.some.injEq, Prod.mk.injEq]
    refine ⟨?_, by unfold erateMat; congr⟩
    funext i
    refine Fin.lastCases ?_ (fun k => ?_) i
    · rw [Fin.snoc_last, Pi.sub_apply, erateMat_last, Fin.snoc_last]
    · rw [Fin.snoc_castSucc, Pi.sub_apply, erateMat_row, Fin.snoc_castSucc, add_sub_right_comm, mulVec_add, Pi.add_apply,
        Pi.add_apply]
      ring
  unfold Driver.erateStep
  rw [if_neg hs]
  obtain ⟨x, hx⟩ := solveTry_linear d hr ha hi _ _ (erateMat_det C hC _ hu _ hdt) _ hrj
    (Fin.cons (ag.getD 1) (eg.getD ((1 / 10000 : ℝ) • Neml.Driver.unit sdir))) []
  simp only [hx]
  obtain ⟨h, u, p, hc⟩ := hm ⟨(d.strain.last + fun k => x k.succ) - d.thermalNext T1, d.mech.last, T1, d.T.last, t1,
    d.t.last, d.stress.last, d.stored.last, d.u.last, d.p.last⟩
  rw [Driver.strainStep, Driver.call, hc]
  exact ⟨_, rfl⟩

/-- Ready for another step. -/
def Ok (c : Setup H) (r : Rec H) : Prop :=
  r.d.rtol = 0 ∧ r.d.atol = 0 ∧ 0 < r.d.miter ∧ r.d.model = c.model ∧ r.time.last = r.d.t.last

section runs

variable (a : Cyclic H) (c : Setup H) (C : Matrix (Fin 6) (Fin 6) ℝ) (f : ℝ → Fin 6 → ℝ) (hm : IsAffine c.model C f)
  (hC : C.det ≠ 0) (hd : a.sdir ⬝ᵥ C⁻¹ *ᵥ a.sdir ≠ 0) (hb : ∀ h, a.bad h = false)

include hm hC hd hb

theorem ramp_ok (he : a.erate ≠ 0) (s : ℝ) (hs : s = 1 ∨ s = -1) (einc : ℝ) (hq : einc ≠ 0) (n : ℕ) (x : Rec H × Guess)
    (hx : Ok c x.1) : ∃ y, loop (eincStep a.bad a.sdir (s • a.sdir) a.erate einc a.T) n x = .ok y ∧ Ok c y.1 := by
  induction n generalizing x with
  | zero => exact ⟨x, rfl, hx⟩
  | succ n ih =>
    obtain ⟨m1, m2, m3, m4, m5⟩ := hx
    obtain ⟨⟨d', de, g⟩, hx⟩ := affine_erate x.1.d m1.ge m2.ge m3 C f (by rw [m4]; exact hm) hC (s • a.sdir) (by
      rw [mulVec_smul, dotProduct_smul, smul_dotProduct, smul_eq_mul, smul_eq_mul]
      rcases hs with rfl | rfl <;> simpa using hd) a.erate (x.1.d.t.last + einc / a.erate) a.T
      (by simpa using div_ne_zero hq he) (x.2.map Prod.fst) (x.2.map Prod.snd)
    have hx' : x.1.d.erateEincStep (s • a.sdir) a.erate einc a.T (x.2.map Prod.fst) (x.2.map Prod.snd) = some (d', de, g) := by
      rw [Driver.erateEincStep, if_neg he]
      exact hx
    have hstep : x.1.d.step (.erate (s • a.sdir) a.erate (x.1.d.t.last + einc / a.erate) a.T (x.2.map Prod.fst)
        (x.2.map Prod.snd)) = some d' := by simp [Driver.step, hx]
    obtain ⟨e1, t2, hst, ht2⟩ := step_strain _ d' _ hstep
    obtain ⟨_, -, q1, -, q2, q3, q4, -, -, -, -, -, -, -, q5, -⟩ := strainStep_spec _ d' e1 t2 _ hst
    simp only [loop, eincStep, hx', hb, Bool.false_eq_true, if_false, Ended.andThen]
    refine ih _ ⟨q2.trans m1, q3.trans m2, q4.symm ▸ m3, q1.trans m4, ?_⟩
    simp only [Rec.note, Series.push, q5]
    rw [ht2 _ rfl, m5]

theorem hold_ok (hh : a.nhold ≠ 0) (ht : ℝ) (x : Rec H × Guess) (hx : Ok c x.1) : ∃ y, a.hold ht x = .ok y ∧ Ok c y.1 := by
  have hhr : (a.nhold : ℝ) ≠ 0 := by exact_mod_cast hh
  unfold Cyclic.hold
  by_cases h0 : ht > 0
  · rw [if_pos h0, if_neg hh]
    have key : ∀ (n : ℕ) (x : Rec H × Guess), Ok c x.1 →
        ∃ y, loop (holdStep a.bad a.sdir (ht / a.nhold) a.T) n x = .ok y ∧ Ok c y.1 := by
      intro n
      induction n with
      | zero => intro x hx; exact ⟨x, rfl, hx⟩
      | succ n ih =>
        rintro x ⟨m1, m2, m3, m4, m5⟩
        obtain ⟨⟨d', de, g⟩, hx⟩ := affine_erate x.1.d m1.ge m2.ge m3 C f (by rw [m4]; exact hm) hC a.sdir hd 0
          (x.1.time.last + ht / a.nhold) a.T (by rw [m5]; simpa using ⟨h0.ne', hh⟩) (some 0) (some (-1))
        have hstep : x.1.d.step (.erate a.sdir 0 (x.1.time.last + ht / a.nhold) a.T (some 0) (some (-1))) = some d' := by
          simp [Driver.step, hx]
        obtain ⟨e1, t2, hst, ht2⟩ := step_strain _ d' _ hstep
        obtain ⟨_, -, q1, -, q2, q3, q4, -, -, -, -, -, -, -, q5, -⟩ := strainStep_spec _ d' e1 t2 _ hst
        simp only [loop, holdStep, hx, hb, Bool.false_eq_true, if_false, Ended.andThen]
        refine ih _ ⟨q2.trans m1, q3.trans m2, q4.symm ▸ m3, q1.trans m4, ?_⟩
        simp only [Rec.note, Series.push, q5]
        rw [ht2 _ rfl]
    exact key _ x hx
  · rw [if_neg h0]
    exact ⟨x, rfl, hx⟩

theorem cycle_ok (he : a.erate ≠ 0) (hn : a.nsteps ≠ 0) (hh : a.nhold ≠ 0) (h2 : a.emax * a.R ≠ a.emax) (s : ℕ)
    (x : Rec H × Guess) (hx : Ok c x.1) : ∃ y row, a.cycle s x = .ok (y, row) ∧ Ok c y.1 := by
  have hnr : (a.nsteps : ℝ) ≠ 0 := by exact_mod_cast hn
  have hq : |a.emin - a.emax| / a.nsteps ≠ 0 := div_ne_zero (abs_ne_zero.2 (sub_ne_zero.2 h2)) hnr
  obtain ⟨x1, e1, o1⟩ := hold_ok a c C f hm hC hd hb hh a.hold0 x hx
  obtain ⟨x2, e2, o2⟩ := ramp_ok a c C f hm hC hd hb he (-1) (Or.inr rfl) _ hq a.nsteps (x1.1, x1.2.neg) o1
  obtain ⟨x3, e3, o3⟩ := hold_ok a c C f hm hC hd hb hh a.hold1 x2 o2
  obtain ⟨x4, e4, o4⟩ := ramp_ok a c C f hm hC hd hb he 1 (Or.inl rfl) _ hq a.nsteps (x3.1, x3.2.neg) o3
  rw [neg_one_smul] at e2
  rw [one_smul, abs_sub_comm] at e4
  unfold Cyclic.cycle Cyclic.ramp
  simp only [e1, e2, e3, e4, Ended.andThen]
  exact ⟨_, _, rfl, o4⟩

theorem start_ok (he : a.erate ≠ 0) (hn : a.nsteps ≠ 0) (h1 : a.emax ≠ 0) (hr : c.rtol = 0) (ha : c.atol = 0)
    (hi : 0 < c.miter) : ∃ x, loop (eincStep a.bad a.sdir a.sdir a.erate (a.emax / a.nsteps) a.T) a.nsteps
      (Rec.new (c.driver a.T none), none) = .ok x ∧ Ok c x.1 := by
  have hnr : (a.nsteps : ℝ) ≠ 0 := by exact_mod_cast hn
  obtain ⟨x, e, o⟩ := ramp_ok a c C f hm hC hd hb he 1 (Or.inl rfl) (a.emax / a.nsteps) (div_ne_zero h1 hnr) a.nsteps
    (Rec.new (c.driver a.T none), none) ⟨hr, ha, hi, rfl, rfl⟩
  rw [one_smul] at e
  exact ⟨x, e, o⟩

end runs

end Extra

open Extra in
/-- **C163.** With a linear elastic material whose stress may drift in time, exact solves and no damage check the test covers
all its cycles. -/
theorem C163_elastic [AddCommGroup H] [Module ℝ H] (a : Extra H) (c : Setup H) (hr : c.rtol = 0) (ha : c.atol = 0)
    (hi : 0 < c.miter) (C : Matrix (Fin 6) (Fin 6) ℝ) (f : ℝ → Fin 6 → ℝ) (hm : IsAffine c.model C f) (hC : C.det ≠ 0)
    (hd : a.sdir ⬝ᵥ C⁻¹ *ᵥ a.sdir ≠ 0) (hn : a.nsteps ≠ 0) (hh : a.nhold ≠ 0) (he : a.erate ≠ 0) (h1 : a.emax ≠ 0)
    (h2 : a.emax * a.R ≠ a.emax) (hb : ∀ h, a.bad h = false) (h3 : 0 ≤ a.hold0) (h4 : 0 ≤ a.hold1) (h5 : 2 ≤ a.minCycle) :
    ∃ st, a.run c (2 * a.ncycles) = some (st, true) ∧ a.ncycles ≤ st.s := by
  obtain ⟨x, hx, ox⟩ := start_ok a.toCyclic c C f hm hC hd hb he hn h1 hr ha hi
  have key : ∀ (n : ℕ) (st : State H) (k : ℕ), Inv a st k → Ok c st.x.1 →
      2 * (a.ncycles - st.s) + (if st.ex then 1 else 0) ≤ n → ∃ st', a.rounds n st = some (st', true) ∧ a.ncycles ≤ st'.s := by
    intro n
    induction n with
    | zero =>
      intro st k hI hO hf
      exact ⟨st, by rw [rounds, decide_eq_true (by omega)], by omega⟩
    | succ n ih =>
      intro st k hI hO hf
      rw [rounds]
      by_cases hs : st.s < a.ncycles
      · rw [if_pos hs]
        have hinv := round_inv a h3 h4 h5 hn st k hI hs
        have hround : (∃ st', a.round st = .stop st' ∧ a.ncycles ≤ st'.s) ∨ ∃ st', a.round st = .go st' ∧ Ok c st'.x.1 := by
          unfold Extra.round
          rw [hb, if_neg (by simp)]
          by_cases hc : a.minCycle ≤ st.s ∧ st.ex = true
          · rw [if_pos hc]
            have ht := hI.table
            rw [hc.2] at ht
            obtain ⟨r1, rest, e1, e2, -⟩ := ht.ran
            have htop := hI.top
            rw [e1, top] at htop
            cases rest with
            | nil => rw [top] at e2; omega
            | cons r0 rest =>
              obtain ⟨hp, sp, -, -, hl⟩ := leap_spec a h3 h4 st k hI hc.2 r1 r0 rest e1
              rcases hl with ⟨-, hl⟩ | ⟨-, ⟨hlt, hl⟩ | ⟨-, hl⟩⟩
              · exact Or.inr ⟨_, hl, hO⟩
              · exact Or.inl ⟨_, hl, hlt.le⟩
              · exact Or.inr ⟨_, hl, hO⟩
          · rw [if_neg hc]
            obtain ⟨y, row, e, o⟩ := cycle_ok a.toCyclic c C f hm hC hd hb he hn hh h2 st.s st.x hO
            rw [e]
            exact Or.inr ⟨_, rfl, o⟩
        rcases hround with ⟨st', e, hle⟩ | ⟨st', e, o⟩
        · rw [e]
          exact ⟨st', rfl, hle⟩
        · rw [e] at hinv ⊢
          obtain ⟨⟨k', hi'⟩, hlt⟩ := hinv
          exact ih st' k' hi' o (by omega)
      · rw [if_neg hs]
        exact ⟨st, rfl, by omega⟩
  unfold Extra.run
  rw [if_neg hn, hx]
  exact key _ _ 0 (start_inv a c x hx) ox (by simp)

/-! ## A material that drifts -/

namespace Extra

/-- Unit stiffness; the stress along x falls with time, and the store counts the steps. -/
noncomputable def drift : Model3 ℝ := ⟨fun i => some ⟨i.e1 - i.t1 • Pi.single 0 1, i.h0 + 1, 1, 0, 0⟩, fun _ => 0, 0⟩

theorem drift_affine : IsAffine drift 1 fun t => -(t • Pi.single 0 1) := fun i =>
  ⟨_, _, _, by rw [one_mulVec, ← sub_eq_add_neg]; rfl⟩

theorem drift_run (d0 d : Driver ℝ) (ops : List Op) (h : d0.run ops = some d) (hm : d0.model = drift)
    (h0 : d0.thermal.last = 0) (h1 : d0.stress.last = d0.strain.last - d0.t.last • Pi.single 0 1) :
    d.stress.last = d.strain.last - d.t.last • Pi.single 0 1 := by
  induction ops generalizing d0 with
  | nil => cases h; exact h1
  | cons o os ih =>
    simp only [Driver.run, Option.bind_eq_some_iff] at h
    obtain ⟨d1, e1, e2⟩ := h
    obtain ⟨e, t, hs, -⟩ := step_strain _ d1 o e1
    obtain ⟨q, hq, q1, -, -, -, -, -, q2, q3, q4, q5, -, -, q6, -⟩ := strainStep_spec _ d1 e t _ hs
    have hth : d0.thermalNext o.temp = 0 := by
      unfold Driver.thermalNext
      rw [hm, h0]
      simp [drift]
    refine ih d1 e2 (q1.trans hm) (by rw [q4, hth]; rfl) ?_
    rw [Driver.call, hm, hth] at hq
    simp only [drift, Option.some.injEq] at hq
    rw [q5, q2, q6, ← hq]
    simp [Series.push]

theorem on_last {d0 : Driver H} {T : ℝ} {sdir : Fin 6 → ℝ} {r : Rec H} {path : List (ℝ × ℝ)} (h : On d0 T sdir r path)
    (t e : ℝ) (hp : path.getLast? = some (t, e)) : r.d.t.last = t ∧ r.d.strain.last ⬝ᵥ sdir = norm2 sdir * e := by
  refine ⟨toList_last (h.times.trans h.time) (by rw [List.getLast?_map, hp]; rfl), ?_⟩
  have h2 := h.strains.trans h.strain
  have h3 := congrArg List.getLast? h2
  rw [List.getLast?_map, List.getLast?_map, hp] at h3
  simpa [Series.toList] using h3

/-- Cycles between 1% and -1% in single steps, with extrapolation after two of them. -/
noncomputable def driftTest : Extra ℝ :=
  { emax := 1 / 100, R := -1, erate := 1 / 1000, ncycles := 4, T := 300, nsteps := 1, sdir := Pi.single 0 1, hold0 := 0,
    hold1 := 0, nhold := 1, bad := fun _ => false, minCycle := 2, unit := 10, jump := 5, allow := 1000 }

end Extra

open Extra in
/-- **C163, disagreement.** A run in which the stress at the end of the cycles falls by 40 every cycle, and by 80 in the one cycle
that is extrapolated. -/
theorem C163_drift_disagreement : ∃ st st1 st2 st3 : State ℝ,
    Reach driftTest ⟨drift, 0, 0, 25, 0⟩ st ∧ driftTest.round st = .go st1 ∧ driftTest.round st1 = .go st2 ∧
    driftTest.round st2 = .go st3 ∧ st.s = 0 ∧ st1.s = 1 ∧ st2.s = 2 ∧ st3.s = 3 ∧
    st1.x.1.d.stress.last 0 = st.x.1.d.stress.last 0 - 40 ∧ st2.x.1.d.stress.last 0 = st1.x.1.d.stress.last 0 - 40 ∧
    st3.x.1.d.stress.last 0 = st2.x.1.d.stress.last 0 - 80 := by
  obtain ⟨c, hc⟩ : ∃ c : Setup ℝ, c = ⟨drift, 0, 0, 25, 0⟩ := ⟨_, rfl⟩
  have hcr : c.rtol = 0 := by rw [hc]
  have hca : c.atol = 0 := by rw [hc]
  have hcm : c.model = drift := by rw [hc]
  have hd1 : norm2 (Pi.single (0 : Fin 6) (1 : ℝ)) = 1 := by
    have h1 : norm2 (Pi.single (0 : Fin 6) (1 : ℝ)) ^ 2 = 1 := by
      rw [← dot_self_norm]; simp
    exact (pow_eq_one_iff_of_nonneg (norm2_nonneg _) two_ne_zero).1 h1
  have haff : IsAffine c.model 1 fun t => -(t • Pi.single 0 1) := by rw [hcm]; exact drift_affine
  have hdd : driftTest.sdir ⬝ᵥ (1 : Matrix (Fin 6) (Fin 6) ℝ)⁻¹ *ᵥ driftTest.sdir ≠ 0 := by simp [driftTest]
  obtain ⟨x, hx, ox⟩ := start_ok driftTest.toCyclic c 1 _ haff (by simp) hdd (fun _ => rfl) (by norm_num [driftTest])
    (by simp [driftTest]) (by norm_num [driftTest]) hcr hca (by rw [hc]; norm_num)
  obtain ⟨y, row, hy, oy⟩ := cycle_ok driftTest.toCyclic c 1 _ haff (by simp) hdd (fun _ => rfl) (by norm_num [driftTest])
    (by simp [driftTest]) (by simp [driftTest]) (by norm_num [driftTest]) 0 x ox
  obtain ⟨z, row', hz, oz⟩ := cycle_ok driftTest.toCyclic c 1 _ haff (by simp) hdd (fun _ => rfl) (by norm_num [driftTest])
    (by simp [driftTest]) (by simp [driftTest]) (by norm_num [driftTest]) 1 y oy
  have h0 : (⟨x, [], 0, false⟩ : State ℝ).s < driftTest.ncycles := by simp [driftTest]
  have hr1 : driftTest.round ⟨x, [], 0, false⟩ = .go ⟨y, [⟨1, row.max, row.min⟩], 1, true⟩ := by
    unfold Extra.round
    rw [show driftTest.bad x.1.d.stored.last = false from rfl, if_neg (by simp), if_neg (by simp)]
    simp only [hy]
  have hr2 : driftTest.round ⟨y, [⟨1, row.max, row.min⟩], 1, true⟩ =
      .go ⟨z, [⟨2, row'.max, row'.min⟩, ⟨1, row.max, row.min⟩], 2, true⟩ := by
    unfold Extra.round
    rw [show driftTest.bad y.1.d.stored.last = false from rfl, if_neg (by simp), if_neg (by simp [driftTest])]
    simp only [hz]
  have R0 : Reach driftTest c ⟨x, [], 0, false⟩ := .start x (by simp [driftTest]) hx
  have R1 := Reach.step _ _ R0 h0 hr1
  have h1 : (⟨y, [⟨1, row.max, row.min⟩], 1, true⟩ : State ℝ).s < driftTest.ncycles := by simp [driftTest]
  have R2 := Reach.step _ _ R1 h1 hr2
  -- the stresses at the ends of the cycles
  have hn1 : driftTest.toCyclic.nsteps ≠ 0 := by simp [driftTest]
  have hlow : driftTest.emax - (-1 / 100) = |driftTest.emax - driftTest.toCyclic.emin| := by
    rw [Cyclic.emin]
    norm_num [driftTest]
  have hper : driftTest.toCyclic.period (-1 / 100) = 40 := by
    norm_num [Cyclic.period, driftTest, Cyclic.holdTime]
  have w0 : On (c.driver driftTest.T none) driftTest.T driftTest.sdir (Rec.new (c.driver driftTest.T none)) [(0, 0)] := by
    refine ⟨?_, ?_, ?_, ?_, ?_, [], rfl, by simp⟩ <;>
      simp [Rec.new, Setup.driver, Driver.new, Series.toList]
  have w := loop_leg (eincStep_went (d0 := c.driver driftTest.T none) (T := driftTest.T) (sdir := driftTest.sdir) hcr hca rfl
    driftTest.bad 1 (Or.inl rfl) driftTest.erate (driftTest.emax / driftTest.nsteps)) driftTest.nsteps
    (Rec.new (c.driver driftTest.T none), none) [(0, 0)] 0 0 w0 rfl
  rw [one_smul, hx] at w
  have p0 := leg_last [((0 : ℝ), (0 : ℝ))] 0 0 (driftTest.emax / driftTest.nsteps / driftTest.erate)
    (1 * (driftTest.emax / driftTest.nsteps)) driftTest.nsteps rfl
  rw [show (0 : ℝ) + driftTest.nsteps * (driftTest.emax / driftTest.nsteps / driftTest.erate) = 10 by norm_num [driftTest],
    show (0 : ℝ) + driftTest.nsteps * (1 * (driftTest.emax / driftTest.nsteps)) = driftTest.emax by norm_num [driftTest]] at p0
  have wy := Cyclic.cycle_went (d0 := c.driver driftTest.T none) hcr hca rfl rfl rfl rfl rfl driftTest.toCyclic hn1 (-1 / 100) hlow 0 x
    _ _ w.1 p0
  rw [hy] at wy
  obtain ⟨wy1, -, py, -⟩ := wy
  have wz := Cyclic.cycle_went (d0 := c.driver driftTest.T none) hcr hca rfl rfl rfl rfl rfl driftTest.toCyclic hn1 (-1 / 100) hlow 1 y
    _ _ wy1 py
  rw [hz] at wz
  obtain ⟨wz1, -, pz, -⟩ := wz
  have hstress : ∀ (r : Rec ℝ) (path : List (ℝ × ℝ)) (t : ℝ), On (c.driver driftTest.T none) driftTest.T driftTest.sdir r path →
      path.getLast? = some (t, driftTest.emax) → r.d.stress.last 0 = driftTest.emax - t := by
    intro r path t hon hl
    obtain ⟨g1, g2⟩ := on_last hon t _ hl
    obtain ⟨ops, ho, -⟩ := hon.run
    have hnorm : norm2 driftTest.sdir = 1 := hd1
    rw [hnorm, one_mul, show driftTest.sdir = Pi.single 0 1 from rfl, dotProduct_single, mul_one] at g2
    rw [drift_run _ _ ops ho hcm rfl (by simp [Setup.driver, Driver.new]), g1]
    simp [g2]
  have s0 := hstress _ _ _ w.1 p0
  have s1 := hstress _ _ _ wy1 py
  have s2 := hstress _ _ _ wz1 pz
  rw [hper] at s1 s2
  -- the extrapolation
  obtain ⟨-, k2, hi2⟩ := reach_inv driftTest c (by simp [driftTest]) (by simp [driftTest]) (by simp [driftTest]) _ R2
  obtain ⟨hp, sp, -, -, hl⟩ := leap_spec driftTest (by simp [driftTest]) (by simp [driftTest]) _ k2 hi2 rfl _ _ _ rfl
  have hby : by_ driftTest.unit driftTest.jump 2 = 1 := by simp [by_, driftTest]
  have hr3' : ∀ st : State ℝ, driftTest.leap ⟨z, [⟨2, row'.max, row'.min⟩, ⟨1, row.max, row.min⟩], 2, true⟩ = .go st →
      driftTest.round ⟨z, [⟨2, row'.max, row'.min⟩, ⟨1, row.max, row.min⟩], 2, true⟩ = .go st := by
    intro st h
    unfold Extra.round
    rw [show driftTest.bad z.1.d.stored.last = false from rfl, if_neg (by simp), if_pos (by simp [driftTest])]
    exact h
  have dis : ∀ st3, driftTest.round ⟨z, [⟨2, row'.max, row'.min⟩, ⟨1, row.max, row.min⟩], 2, true⟩ = .go st3 → st3.ex = false →
      _ := fun st3 h hf => C163_stress_disagreement driftTest c (by simp [driftTest]) (by simp [driftTest])
        (by simp [driftTest]) _ _ _ st3 R0 h0 hr1 rfl h1 hr2 rfl h hf
  have hdiff : z.1.d.stress.last 0 - x.1.d.stress.last 0 = -80 := by rw [s2, s0]; ring
  have hallow : driftTest.allow = 1000 := rfl
  simp only [hby, hdiff, hallow] at dis
  have fin : ∀ st3 : State ℝ, driftTest.round ⟨z, [⟨2, row'.max, row'.min⟩, ⟨1, row.max, row.min⟩], 2, true⟩ = .go st3 →
      st3.ex = false → st3.x.1.d.stress.last 0 = z.1.d.stress.last 0 - 80 := by
    intro st3 h hf
    rcases dis st3 h hf with ⟨h, -⟩ | ⟨-, h⟩
    · norm_num [abs_of_pos] at h
    · have := toList_last h (List.getLast?_concat ..)
      rw [this]
      simp only [Nat.cast_one, one_smul, Pi.add_apply, Pi.sub_apply]
      linarith
  rw [← hc]
  rcases hl with ⟨hl1, hl⟩ | ⟨hl1, ⟨hlt, hl⟩ | ⟨-, hl⟩⟩
  · exfalso
    rcases dis _ (hr3' _ hl) rfl with ⟨h, -⟩ | ⟨-, h⟩
    · norm_num [abs_of_pos] at h
    · have := congrArg List.length h
      simp at this
  · simp only [hby] at hlt
    norm_num [driftTest] at hlt
  · refine ⟨_, _, _, _, R0, hr1, hr2, hr3' _ hl, rfl, rfl, rfl, ?_, ?_, ?_, fin _ (hr3' _ hl) rfl⟩
    · simp only [after, hby]
    · rw [s1, s0]; ring
    · rw [s2, s1]; ring

/-- The same test covers its cycles. -/
example : ∃ st, Extra.driftTest.run ⟨Extra.drift, 0, 0, 25, 0⟩ 8 = some (st, true) ∧ 4 ≤ st.s :=
  C163_elastic Extra.driftTest ⟨Extra.drift, 0, 0, 25, 0⟩ rfl rfl (by norm_num) 1 _ Extra.drift_affine (by simp)
    (by simp [Extra.driftTest]) (by simp [Extra.driftTest]) (by simp [Extra.driftTest]) (by norm_num [Extra.driftTest])
    (by norm_num [Extra.driftTest]) (by norm_num [Extra.driftTest]) (fun _ => rfl) (by simp [Extra.driftTest])
    (by simp [Extra.driftTest]) (by simp [Extra.driftTest])

/-! ## An elastic material -/

namespace Extra

/-- Unit stiffness; the store counts the steps. -/
def still : Model3 ℝ := ⟨fun i => some ⟨i.e1, i.h0 + 1, 1, 0, 0⟩, fun _ => 0, 0⟩

theorem still_affine : IsAffine still 1 fun _ => 0 := fun i => ⟨_, _, _, by rw [one_mulVec, add_zero]; rfl⟩

/-- Cycles between 1% and -1% in single steps, with extrapolation after two of them. -/
noncomputable def stillTest : Extra ℝ :=
  { emax := 1 / 100, R := -1, erate := 1 / 1000, ncycles := 9, T := 300, nsteps := 1, sdir := Pi.single 0 1, hold0 := 0,
    hold1 := 0, nhold := 1, bad := fun _ => false, minCycle := 2, unit := 10, jump := 5, allow := 1000 }

theorem still_dir (s : ℝ) (hs : s = 1 ∨ s = -1) : norm2 (s • Pi.single (0 : Fin 6) (1 : ℝ)) = 1 := by
  have h1 : norm2 (s • Pi.single (0 : Fin 6) (1 : ℝ)) ^ 2 = 1 := by
    rw [← dot_self_norm]
    rcases hs with rfl | rfl <;> simp
  exact (pow_eq_one_iff_of_nonneg (norm2_nonneg _) two_ne_zero).1 h1

theorem still_step (c : Setup ℝ) (hc : c.model = still) (s : ℝ) (hs : s = 1 ∨ s = -1) (einc : ℝ) (x y : Rec ℝ × Guess)
    (hx : Ok c x.1) (ht : x.1.d.thermal.last = 0)
    (h : loop (eincStep stillTest.bad stillTest.sdir (s • stillTest.sdir) stillTest.erate einc stillTest.T) 1 x = .ok y) :
    y.1.d.stress.toList = x.1.d.stress.toList ++ [y.1.d.strain.last] ∧
      y.1.d.strain.last 0 = x.1.d.strain.last 0 + s * einc ∧ y.1.d.thermal.last = 0 := by
  obtain ⟨m1, m2, m3, m4, m5⟩ := hx
  simp only [loop, Ended.andThen, eincStep] at h
  cases hx : x.1.d.erateEincStep (s • stillTest.sdir) stillTest.erate einc stillTest.T (x.2.map Prod.fst)
      (x.2.map Prod.snd) with
  | none => rw [hx] at h; cases h
  | some q =>
    obtain ⟨d', de, g⟩ := q
    rw [hx] at h
    simp only [stillTest, Bool.false_eq_true, if_false] at h
    cases h
    obtain ⟨-, e2, -⟩ := C71_einc _ m1 m2 _ (still_dir s hs) _ _ _ _ _ _ _ _ hx
    have hstep : x.1.d.step (.erateEinc (s • stillTest.sdir) stillTest.erate einc stillTest.T (x.2.map Prod.fst)
        (x.2.map Prod.snd)) = some d' := by simp [Driver.step, hx]
    obtain ⟨e, t, hst, -⟩ := step_strain _ d' _ hstep
    obtain ⟨q, hq, -, -, -, -, -, -, q2, q3, q4, q5, -⟩ := strainStep_spec _ d' e t _ hst
    have hth : x.1.d.thermalNext (Op.erateEinc (s • stillTest.sdir) stillTest.erate einc stillTest.T (x.2.map Prod.fst)
        (x.2.map Prod.snd)).temp = 0 := by
      unfold Driver.thermalNext
      rw [m4, hc, ht]
      simp [still]
    rw [Driver.call, m4, hc, hth] at hq
    simp only [still, sub_zero, Option.some.injEq] at hq
    refine ⟨?_, ?_, ?_⟩
    · have hqs : q.s = e := by rw [← hq]
      simp only [Rec.note, q5, q2, hqs, Series.push_toList]
      rfl
    · simp only [Rec.note]
      rw [dotProduct_smul, dotProduct_single, mul_one, smul_eq_mul, Pi.sub_apply] at e2
      rcases hs with rfl | rfl <;> linarith
    · simp only [Rec.note, q4, hth, Series.push]

/-- A cycle of the test: two steps. -/
theorem still_cycle (c : Setup ℝ) (hc : c.model = still) (s : ℕ) (x y : Rec ℝ × Guess) (row : Cyclic.Row) (hx : Ok c x.1)
    (ht : x.1.d.thermal.last = 0) (h : stillTest.toCyclic.cycle s x = .ok (y, row)) :
    ∃ e1, y.1.d.stress.toList = x.1.d.stress.toList ++ [e1, y.1.d.strain.last] ∧ e1 0 = x.1.d.strain.last 0 - 1 / 50 ∧
      y.1.d.strain.last 0 = x.1.d.strain.last 0 ∧ y.1.d.thermal.last = 0 := by
  have haff : IsAffine c.model 1 fun _ => 0 := by rw [hc]; exact still_affine
  have hdd : stillTest.sdir ⬝ᵥ (1 : Matrix (Fin 6) (Fin 6) ℝ)⁻¹ *ᵥ stillTest.sdir ≠ 0 := by simp [stillTest]
  have hD : |stillTest.toCyclic.emax - stillTest.toCyclic.emin| / stillTest.toCyclic.nsteps = 1 / 50 := by
    rw [Cyclic.emin]; norm_num [stillTest, abs_of_pos]
  have hold : ∀ x : Rec ℝ × Guess, stillTest.toCyclic.hold 0 x = .ok x := fun x => by
    unfold Cyclic.hold; rw [if_neg (by simp)]
  unfold Cyclic.cycle Cyclic.ramp at h
  rw [abs_sub_comm stillTest.toCyclic.emin, hD, show stillTest.toCyclic.hold0 = 0 from rfl, hold,
    show stillTest.toCyclic.hold1 = 0 from rfl] at h
  simp only [Ended.andThen, hold] at h
  obtain ⟨x2, e2, o2⟩ := ramp_ok stillTest.toCyclic c 1 _ haff (by simp) hdd (fun _ => rfl) (by norm_num [stillTest]) (-1)
    (Or.inr rfl) (1 / 50) (by norm_num) 1 (x.1, x.2.neg) hx
  obtain ⟨x4, e4, o4⟩ := ramp_ok stillTest.toCyclic c 1 _ haff (by simp) hdd (fun _ => rfl) (by norm_num [stillTest]) 1
    (Or.inl rfl) (1 / 50) (by norm_num) 1 (x2.1, x2.2.neg) o2
  obtain ⟨f1, f2, f3⟩ := still_step c hc (-1) (Or.inr rfl) (1 / 50) (x.1, x.2.neg) x2 hx ht e2
  obtain ⟨g1, g2, g3⟩ := still_step c hc 1 (Or.inl rfl) (1 / 50) (x2.1, x2.2.neg) x4 o2 f3 e4
  rw [neg_one_smul] at e2
  rw [one_smul] at e4
  rw [show stillTest.toCyclic.nsteps = 1 from rfl] at h
  simp only [e2, e4] at h
  cases h
  refine ⟨x2.1.d.strain.last, ?_, ?_, ?_, g3⟩
  · rw [g1, f1]; simp
  · rw [f2]; ring
  · rw [g2, f2]; ring

end Extra

open Extra in
/-- **C163, disagreement.** A run with a linear elastic material, whose cycles are all alike: at the second extrapolation the
stress the test goes on from is three times that at the end of the cycle. -/
theorem C163_still_disagreement : ∃ st st1 st2 st3 st4 : State ℝ, Reach stillTest ⟨still, 0, 0, 25, 0⟩ st ∧
    stillTest.round st = .go st1 ∧ stillTest.round st1 = .go st2 ∧ stillTest.round st2 = .go st3 ∧
    stillTest.round st3 = .go st4 ∧ st1.s = 2 ∧ st2.s = 3 ∧ st3.s = 4 ∧ st4.s = 5 ∧
    st1.x.1.d.stress.last 0 = 1 / 100 ∧ st3.x.1.d.stress.last 0 = 1 / 100 ∧ st4.x.1.d.stress.last 0 = 3 / 100 := by
  obtain ⟨c, hc⟩ : ∃ c : Setup ℝ, c = ⟨still, 0, 0, 25, 0⟩ := ⟨_, rfl⟩
  have hcr : c.rtol = 0 := by rw [hc]
  have hca : c.atol = 0 := by rw [hc]
  have hcm : c.model = still := by rw [hc]
  have hn : stillTest.nsteps = 1 := rfl
  have haff : IsAffine c.model 1 fun _ => 0 := by rw [hcm]; exact still_affine
  have hdd : stillTest.sdir ⬝ᵥ (1 : Matrix (Fin 6) (Fin 6) ℝ)⁻¹ *ᵥ stillTest.sdir ≠ 0 := by simp [stillTest]
  obtain ⟨x, hx, ox⟩ := start_ok stillTest.toCyclic c 1 _ haff (by simp) hdd (fun _ => rfl) (by norm_num [stillTest])
    (by simp [stillTest]) (by norm_num [stillTest]) hcr hca (by rw [hc]; norm_num)
  have cyc : ∀ (s : ℕ) (x : Rec ℝ × Guess), Ok c x.1 → ∃ y row, stillTest.toCyclic.cycle s x = .ok (y, row) ∧ Ok c y.1 :=
    fun s x ox => cycle_ok stillTest.toCyclic c 1 _ haff (by simp) hdd (fun _ => rfl) (by norm_num [stillTest])
      (by simp [stillTest]) (by simp [stillTest]) (by norm_num [stillTest]) s x ox
  -- the first ramp
  have hx0 : loop (eincStep stillTest.bad stillTest.sdir ((1 : ℝ) • stillTest.sdir) stillTest.erate (1 / 100) stillTest.T) 1
      (Rec.new (c.driver stillTest.T none), none) = .ok x := by
    rw [one_smul, ← hx]
    norm_num [stillTest]
  obtain ⟨-, a2, a3⟩ := still_step c hcm 1 (Or.inl rfl) _ (Rec.new (c.driver stillTest.T none), none) x
    ⟨hcr, hca, by rw [hc]; norm_num [Rec.new, Setup.driver, Driver.new], rfl, rfl⟩ rfl hx0
  have e0 : x.1.d.strain.last 0 = 1 / 100 := by
    rw [a2]
    norm_num [Rec.new, Setup.driver, Driver.new, stillTest]
  -- two cycles
  obtain ⟨y, row, hy, oy⟩ := cyc 0 x ox
  obtain ⟨-, -, -, b2, b3⟩ := still_cycle c hcm 0 x y row ox a3 hy
  obtain ⟨z, row', hz, oz⟩ := cyc 1 y oy
  obtain ⟨s1, c1, c2, c3, c4⟩ := still_cycle c hcm 1 y z row' oy b3 hz
  have bad : ∀ h, stillTest.bad h = false := fun _ => rfl
  have hr1 : stillTest.round ⟨x, [], 0, false⟩ = .go ⟨y, [⟨1, row.max, row.min⟩], 1, true⟩ := by
    unfold Extra.round
    rw [bad, if_neg (by simp), if_neg (by simp)]
    simp only [hy]
  have hr2 : stillTest.round ⟨y, [⟨1, row.max, row.min⟩], 1, true⟩ =
      .go ⟨z, [⟨2, row'.max, row'.min⟩, ⟨1, row.max, row.min⟩], 2, true⟩ := by
    unfold Extra.round
    rw [bad, if_neg (by simp), if_neg (by simp [stillTest])]
    simp only [hz]
  have R0 : Reach stillTest c ⟨x, [], 0, false⟩ := .start x (by simp [stillTest]) hx
  have R1 := Reach.step _ _ R0 (by simp [stillTest]) hr1
  have R2 := Reach.step _ _ R1 (by simp [stillTest]) hr2
  have p0 : 0 ≤ stillTest.hold0 := by simp [stillTest]
  have p1 : 0 ≤ stillTest.hold1 := by simp [stillTest]
  have p2 : 2 ≤ stillTest.minCycle := by simp [stillTest]
  have zs : z.1.d.stress.last = z.1.d.strain.last := toList_last c1 (by simp)
  -- an extrapolation from two equal cycles is accepted
  obtain ⟨-, k2, hi2⟩ := reach_inv stillTest c p0 p1 p2 _ R2
  obtain ⟨hp, sp, -, esp, hl⟩ := leap_spec stillTest p0 p1 _ k2 hi2 rfl _ _ _ rfl
  have hpts : stillTest.toCyclic.points = 2 := by simp [Cyclic.points, Cyclic.holdSteps, stillTest]
  have xs : ∃ l, x.1.d.stress.toList = l ++ [x.1.d.strain.last] := by
    obtain ⟨q, -, -⟩ := still_step c hcm 1 (Or.inl rfl) _ (Rec.new (c.driver stillTest.T none), none) x
      ⟨hcr, hca, by rw [hc]; norm_num [Rec.new, Setup.driver, Driver.new], rfl, rfl⟩ rfl hx0
    exact ⟨_, q⟩
  obtain ⟨t1, d1, -, -, -⟩ := still_cycle c hcm 0 x y row ox a3 hy
  have hsp : sp 0 = 1 / 100 := by
    obtain ⟨l, hl⟩ := xs
    simp only at esp
    rw [c1, d1, hl, hpts] at esp
    simp at esp
    rw [← esp]; exact e0
  have hz0 : z.1.d.stress.last 0 = 1 / 100 := by rw [zs, c3, b2, e0]
  have leapOk : ∀ (st st' : State ℝ), stillTest.minCycle ≤ st.s → st.ex = true → stillTest.leap st = .go st' →
      stillTest.round st = .go st' := by
    intro st st' h1 h2 h3
    unfold Extra.round
    rw [bad, if_neg (by simp), if_pos ⟨h1, h2⟩]
    exact h3
  have hby : ∀ s, s ≤ 10 → by_ stillTest.unit stillTest.jump s = 1 := fun s h => by
    rw [by_, if_pos]; exact h
  rcases hl with ⟨hl1, hl⟩ | ⟨hl1, ⟨hlt, hl⟩ | ⟨-, hl⟩⟩
  · simp only [hby 2 (by norm_num), Pi.sub_apply, hz0, hsp] at hl1
    norm_num [stillTest] at hl1
  · simp only [hby 2 (by norm_num)] at hlt
    norm_num [stillTest] at hlt
  have hr3 := leapOk _ _ (by simp [stillTest]) rfl hl
  have R3 := Reach.step _ _ R2 (by simp [stillTest]) hr3
  obtain ⟨w, hw⟩ : ∃ w, w = after stillTest ⟨z, [⟨2, row'.max, row'.min⟩, ⟨1, row.max, row.min⟩], 2, true⟩
    ⟨2, row'.max, row'.min⟩ ⟨1, row.max, row.min⟩ hp sp := ⟨_, rfl⟩
  have wO : Ok c w.x.1 := by rw [hw]; exact oz
  have wt : w.x.1.d.thermal.last = 0 := by rw [hw]; exact c4
  have ws : w.s = 3 := by rw [hw]; simp only [after, hby 2 (by norm_num)]
  have we : w.ex = false := by rw [hw]; rfl
  have wst : w.x.1.d.strain.last = z.1.d.strain.last := by rw [hw]; rfl
  obtain ⟨rw', hrw⟩ : ∃ r, w.rows = r :: [⟨2, row'.max, row'.min⟩, ⟨1, row.max, row.min⟩] := by rw [hw]; exact ⟨_, rfl⟩
  rw [← hw] at hr3 R3
  -- another cycle
  obtain ⟨v, row3, hv, ov⟩ := cyc 3 w.x wO
  obtain ⟨s3, f1, f2, f3, f4⟩ := still_cycle c hcm 3 w.x v row3 wO wt hv
  have hr4 : stillTest.round w = .go ⟨v, ⟨4, row3.max, row3.min⟩ :: w.rows, 4, true⟩ := by
    unfold Extra.round
    rw [bad, if_neg (by simp), if_neg (by simp [we]), ws, hv]
  have R4 := Reach.step _ _ R3 (by rw [ws]; norm_num [stillTest]) hr4
  have vs : v.1.d.stress.last = v.1.d.strain.last := toList_last f1 (by simp)
  have hv0 : v.1.d.stress.last 0 = 1 / 100 := by rw [vs, f3, wst, ← zs, hz0]
  -- the second extrapolation
  obtain ⟨-, k4, hi4⟩ := reach_inv stillTest c p0 p1 p2 _ R4
  obtain ⟨hp4, sp4, -, esp4, hl4⟩ := leap_spec stillTest p0 p1 _ k4 hi4 rfl _ _ _ (by rw [hrw])
  have hsp4 : sp4 0 = -(1 / 100) := by
    simp only at esp4
    have hwl : w.x.1.d.stress.toList = z.1.d.stress.toList ++ [w.x.1.d.stress.last] := by
      rw [hw]
      exact Series.push_toList _ _
    rw [f1, hwl, c1, hpts] at esp4
    have : s1 = sp4 := by
      simp only [List.length_append, List.length_cons, List.length_nil, List.append_assoc, List.cons_append,
        List.nil_append] at esp4
      rw [show y.1.d.stress.toList.length + (0 + 1 + 1 + 1 + 1 + 1) - 1 - 2 * 2 = y.1.d.stress.toList.length by omega] at esp4
      simpa using esp4
    rw [← this, c2, b2, e0]
    norm_num
  rcases hl4 with ⟨hl1, hl4⟩ | ⟨hl1, ⟨hlt, hl4⟩ | ⟨-, hl4⟩⟩
  · simp only [hby 4 (by norm_num), Pi.sub_apply, hv0, hsp4] at hl1
    norm_num [stillTest, abs_of_pos] at hl1
  · simp only [hby 4 (by norm_num)] at hlt
    norm_num [stillTest] at hlt
  have hr5 := leapOk _ _ (by simp [stillTest]) rfl hl4
  rw [← hc]
  refine ⟨_, _, _, _, _, R1, hr2, hr3, hr4, hr5, rfl, ws, rfl, ?_, hz0, hv0, ?_⟩
  · simp only [after, hby 4 (by norm_num)]
  · simp only [after, hby 4 (by norm_num), Series.push, Nat.cast_one, one_smul, Pi.add_apply, Pi.sub_apply, hv0, hsp4]
    norm_num

/-- Two further cases: too few cycles before the first extrapolation, and all of them. -/
example : ({ Extra.stillTest with minCycle := 1 } : Extra ℝ).run ⟨Extra.still, 0, 0, 25, 0⟩ 18 = none := by
  obtain ⟨r, rows, h, hl⟩ := Cyclic.C121_elastic Extra.stillTest.toCyclic ⟨Extra.still, 0, 0, 25, 0⟩ rfl rfl (by norm_num) 1
    (fun i => ⟨_, _, _, by rw [one_mulVec]; rfl⟩) (by simp) (by simp [Extra.stillTest]) (by simp [Extra.stillTest])
    (by simp [Extra.stillTest]) (by norm_num [Extra.stillTest]) (by norm_num [Extra.stillTest]) (by norm_num [Extra.stillTest])
    (fun _ => rfl)
  refine C163_min_disagreement ({ Extra.stillTest with minCycle := 1 } : Extra ℝ) _ le_rfl (by norm_num [Extra.stillTest]) r rows h ?_ 18 (by norm_num)
  intro h0
  rw [h0] at hl
  norm_num [Extra.stillTest] at hl

example : ∃ st, ({ Extra.stillTest with minCycle := 9 } : Extra ℝ).run ⟨Extra.still, 0, 0, 25, 0⟩ 18 = some (st, true) ∧
    st.rows.length = 9 := by
  obtain ⟨r, rows, h, hl⟩ := Cyclic.C121_elastic Extra.stillTest.toCyclic ⟨Extra.still, 0, 0, 25, 0⟩ rfl rfl (by norm_num) 1
    (fun i => ⟨_, _, _, by rw [one_mulVec]; rfl⟩) (by simp) (by simp [Extra.stillTest]) (by simp [Extra.stillTest])
    (by simp [Extra.stillTest]) (by norm_num [Extra.stillTest]) (by norm_num [Extra.stillTest]) (by norm_num [Extra.stillTest])
    (fun _ => rfl)
  obtain ⟨st, h1, -, h3⟩ := (C163_plain ({ Extra.stillTest with minCycle := 9 } : Extra ℝ) ⟨Extra.still, 0, 0, 25, 0⟩
    le_rfl 18 (by norm_num [Extra.stillTest])).2 r rows h
  refine ⟨st, h1, ?_⟩
  have := congrArg List.length h3
  rw [List.length_reverse, List.length_map, hl] at this
  exact this

end Neml.DriverTests
