import Verif.Model.DriverCycles
import Verif.Props.Relaxation

/-!
# C162: strain controlled cycles with follow-up

The specification is a list of moves a user has in mind: steps of a ramp, which add to the strain, and steps of a hold, in
which the strain follows the stress. -/

namespace Neml.DriverTests

open Matrix Neml.Driver Neml.PySolve Neml.Uniaxial

variable {H : Type}

namespace Follow

/-- A recorded point: time, strain and stress. -/
structure Pt where
  t : ℝ
  e : ℝ
  s : ℝ

/-- What is asked for from one point to the next. -/
inductive Move
  | ramp (dt de : ℝ)
  | hold (dt : ℝ)

/-- The time of a move. -/
def Move.dt : Move → ℝ
  | .ramp dt _ => dt
  | .hold dt => dt

/-- The move was made: in a ramp the strain changes by what is asked for; in a hold by the fall of the stress over the modulus
times the follow-up factor less one. -/
def Made (q E : ℝ) (p p' : Pt) : Move → Prop
  | .ramp dt de => p'.t = p.t + dt ∧ p'.e = p.e + de
  | .hold dt => p'.t = p.t + dt ∧ p'.e = p.e + (q - 1) * ((p.s - p'.s) / E)

/-- The points after `p` are those of the moves. -/
def Follows (q E : ℝ) : Pt → List Move → List Pt → Prop
  | _, [], [] => True
  | p, m :: ms, p' :: ps => Made q E p p' m ∧ Follows q E p' ms ps
  | _, [], _ :: _ => False
  | _, _ :: _, [] => False

/-- The last of the points. -/
def lastPt (p : Pt) : List Pt → Pt
  | [] => p
  | p' :: ps => lastPt p' ps

theorem lastPt_append (p : Pt) (ps qs : List Pt) : lastPt p (ps ++ qs) = lastPt (lastPt p ps) qs := by
  induction ps generalizing p with
  | nil => rfl
  | cons a ps ih => exact ih a

theorem follows_append {q E : ℝ} (p : Pt) (ms ns : List Move) (ps qs : List Pt) (h1 : Follows q E p ms ps)
    (h2 : Follows q E (lastPt p ps) ns qs) : Follows q E p (ms ++ ns) (ps ++ qs) := by
  induction ms generalizing p ps with
  | nil =>
    cases ps with
    | nil => exact h2
    | cons a ps => exact h1.elim
  | cons m ms ih =>
    cases ps with
    | nil => exact h1.elim
    | cons a ps => exact ⟨h1.1, ih a ps h1.2 h2⟩

theorem follows_length {q E : ℝ} (p : Pt) (ms : List Move) (ps : List Pt) (h : Follows q E p ms ps) : ps.length = ms.length := by
  induction ms generalizing p ps with
  | nil =>
    cases ps with
    | nil => rfl
    | cons a ps => exact h.elim
  | cons m ms ih =>
    cases ps with
    | nil => exact h.elim
    | cons a ps => simp [ih a ps h.2]

/-! ## What is kept while the test runs -/

/-- The lists of the test are the points of the moves made so far. -/
structure Lists (a : Follow H) (r : Rec H) (ms : List Move) (ps : List Pt) : Prop where
  time : r.time.toList = 0 :: ps.map Pt.t
  strain : r.strain.toList = 0 :: ps.map Pt.e
  stress : r.stress.toList = 0 :: ps.map Pt.s
  follows : Follows a.q a.E ⟨0, 0, 0⟩ ms ps

/-- Moreover the driver stands at the last of them. -/
structure At (a : Follow H) (d0 : Driver H) (r : Rec H) (ms : List Move) (ps : List Pt) : Prop extends Lists a r ms ps where
  last : lastPt ⟨0, 0, 0⟩ ps = ⟨r.time.last, r.strain.last, r.stress.last⟩
  t : r.d.t.last = r.time.last
  e : r.d.strain.last a.sind = r.strain.last
  s : r.d.stress.last a.sind = r.stress.last
  run : ∃ ops, d0.run ops = some r.d ∧ ops.length = ps.length

theorem dot_sdir (a : Follow H) (v : Fin 6 → ℝ) : v ⬝ᵥ a.sdir = v a.sind := by
  rw [sdir, dotProduct_single, mul_one]

theorem norm_sdir (a : Follow H) : norm2 a.sdir = 1 := by
  have h1 : norm2 a.sdir ^ 2 = 1 := by
    have := dot_self_norm a.sdir
    rw [dot_sdir, sdir, Pi.single_eq_same] at this
    rw [sdir, ← this]
  exact (pow_eq_one_iff_of_nonneg (norm2_nonneg _) two_ne_zero).1 h1

/-- One more move, noted. -/
theorem At.note {a : Follow H} {d0 : Driver H} {r : Rec H} {ms : List Move} {ps : List Pt} (h : At a d0 r ms ps) (o : Op)
    (d' : Driver H) (hs : r.d.step o = some d') (t1 : ℝ) (m : Move) (ht : d'.t.last = t1)
    (hm : Made a.q a.E ⟨r.time.last, r.strain.last, r.stress.last⟩ ⟨t1, d'.strain.last a.sind, d'.stress.last a.sind⟩ m) :
    At a d0 (r.note a.sdir d' t1) (ms ++ [m]) (ps ++ [⟨t1, d'.strain.last a.sind, d'.stress.last a.sind⟩]) := by
  refine ⟨⟨?_, ?_, ?_, ?_⟩, ?_, ht, ?_, ?_, ?_⟩
  · simp [Rec.note, Series.push_toList, h.time]
  · simp [Rec.note, Series.push_toList, h.strain, dot_sdir]
  · simp [Rec.note, Series.push_toList, h.stress, dot_sdir]
  · refine follows_append _ _ _ _ _ h.follows ?_
    rw [h.last]
    exact ⟨hm, trivial⟩
  · rw [lastPt_append]
    simp [lastPt, Rec.note, Series.push, dot_sdir]
  · simp [Rec.note, Series.push, dot_sdir]
  · simp [Rec.note, Series.push, dot_sdir]
  · obtain ⟨ops, ho, hl⟩ := h.run
    exact ⟨ops ++ [o], by rw [run_append, ho]; exact hs, by simp [hl]⟩

/-- A phase has made all the moves `new`, or has stopped after some of them. -/
def Phase (a : Follow H) (d0 : Driver H) (r0 : Rec H) (ms : List Move) (ps : List Pt) (new : List Move) :
    Ended (Rec H) (Rec H) → Prop
  | .ok r => (∃ ps', At a d0 r (ms ++ new) (ps ++ ps') ∧ ps'.length = new.length) ∧ Ext r0 r
  | .stop r => (∃ k ps', Lists a r (ms ++ new.take k) (ps ++ ps')) ∧ Ext r0 r

/-- The record of an outcome with a guess. -/
def rec1 : Ended (Rec H) (Rec H × Guess) → Ended (Rec H) (Rec H)
  | .ok x => .ok x.1
  | .stop r => .stop r

theorem run_tols {d0 d : Driver H} (ops : List Op) (h : d0.run ops = some d) (hr : d0.rtol = 0) (ha : d0.atol = 0) :
    d.rtol = 0 ∧ d.atol = 0 := by
  obtain ⟨h1, h2, -⟩ := run_tol _ _ _ h
  exact ⟨h1.trans hr, h2.trans ha⟩

theorem ramp_phase (a : Follow H) (d0 : Driver H) (hr : d0.rtol = 0) (ha : d0.atol = 0) (s : ℝ) (hs : s = 1 ∨ s = -1) (einc : ℝ)
    (n : ℕ) (x : Rec H × Guess) (ms : List Move) (ps : List Pt) (h : At a d0 x.1 ms ps) :
    Phase a d0 x.1 ms ps (List.replicate n (.ramp (einc / a.erate) (s * einc)))
      (rec1 (loop (eincStep a.bad a.sdir (s • a.sdir) a.erate einc a.T) n x)) := by
  induction n generalizing x ms ps with
  | zero => exact ⟨⟨[], by simpa using h, rfl⟩, Ext.refl _⟩
  | succ n ih =>
    obtain ⟨ops, ho, -⟩ := h.run
    obtain ⟨tr, ta⟩ := run_tols ops ho hr ha
    simp only [loop, eincStep]
    cases hx : x.1.d.erateEincStep (s • a.sdir) a.erate einc a.T (x.2.map Prod.fst) (x.2.map Prod.snd) with
    | none => exact ⟨⟨0, [], by simpa using h.toLists⟩, Ext.refl _⟩
    | some q =>
      obtain ⟨d', de, g⟩ := q
      have hstep : x.1.d.step (.erateEinc (s • a.sdir) a.erate einc a.T (x.2.map Prod.fst) (x.2.map Prod.snd)) = some d' := by
        simp [Driver.step, hx]
      simp only
      by_cases hb : a.bad d'.stored.last = true
      · rw [if_pos hb]
        exact ⟨⟨0, [], by
          rw [List.take_zero, List.append_nil, List.append_nil]
          exact ⟨h.time, h.strain, h.stress, h.follows⟩⟩, Ext.over _ _ _ hstep⟩
      · rw [if_neg hb]
        have hsd : norm2 (s • a.sdir) = 1 := by
          rw [norm2_smul, norm_sdir]
          rcases hs with rfl | rfl <;> simp
        obtain ⟨h3, h4, -⟩ := C71_einc _ tr ta _ hsd _ _ _ _ _ _ _ _ hx
        have h5 : d'.strain.last a.sind = x.1.strain.last + s * einc := by
          rw [← h.e]
          rw [dotProduct_smul, dot_sdir, smul_eq_mul, Pi.sub_apply] at h4
          rcases hs with rfl | rfl <;> linarith
        have hnote := h.note _ d' hstep (x.1.time.last + einc / a.erate) (.ramp (einc / a.erate) (s * einc))
          (by rw [h3, h.t]) ⟨rfl, h5⟩
        have hih := ih (x.1.note a.sdir d' (x.1.time.last + einc / a.erate), some (de, g)) _ _ hnote
        have hext := Ext.note x.1 a.sdir _ d' hstep (x.1.time.last + einc / a.erate)
        simp only [Ended.andThen]
        cases hl : loop (eincStep a.bad a.sdir (s • a.sdir) a.erate einc a.T) n
            (x.1.note a.sdir d' (x.1.time.last + einc / a.erate), some (de, g)) with
        | ok y =>
          rw [hl] at hih
          obtain ⟨⟨ps', i1, i2⟩, i3⟩ := hih
          refine ⟨⟨⟨x.1.time.last + einc / a.erate, d'.strain.last a.sind, d'.stress.last a.sind⟩ :: ps', ?_, ?_⟩,
            hext.trans i3⟩
          · rw [List.replicate_succ]; simpa using i1
          · simp [i2]
        | stop y =>
          rw [hl] at hih
          obtain ⟨⟨k, ps', i1⟩, i3⟩ := hih
          refine ⟨⟨k + 1, ⟨x.1.time.last + einc / a.erate, d'.strain.last a.sind, d'.stress.last a.sind⟩ :: ps', ?_⟩,
            hext.trans i3⟩
          rw [List.replicate_succ, List.take_succ_cons]
          simpa using i1

theorem holdLoop_phase (a : Follow H) (d0 : Driver H) (hr : d0.rtol = 0) (ha : d0.atol = 0) (dts : List ℝ) (r : Rec H)
    (ms : List Move) (ps : List Pt) (h : At a d0 r ms ps) :
    Phase a d0 r ms ps (dts.map .hold) (a.holdLoop dts r) := by
  induction dts generalizing r ms ps with
  | nil => exact ⟨⟨[], by simpa using h, rfl⟩, Ext.refl _⟩
  | cons dt dts ih =>
    obtain ⟨ops, ho, -⟩ := h.run
    obtain ⟨tr, ta⟩ := run_tols ops ho hr ha
    rw [holdLoop]
    cases hx : r.d.holdStep a.sind (r.time.last + dt) a.T a.q a.E with
    | none => exact ⟨⟨0, [], by simpa using h.toLists⟩, Ext.refl _⟩
    | some d' =>
      have hstep : r.d.step (.hold a.sind (r.time.last + dt) a.T a.q a.E) = some d' := hx
      simp only
      by_cases hb : a.bad d'.stored.last = true
      · rw [if_pos hb]
        exact ⟨⟨0, [], by
          rw [List.take_zero, List.append_nil, List.append_nil]
          exact ⟨h.time, h.strain, h.stress, h.follows⟩⟩, Ext.over _ _ _ hstep⟩
      · rw [if_neg hb]
        obtain ⟨-, h2, -⟩ := C71_hold r.d d' tr ta _ _ _ _ _ hx
        obtain ⟨e1, t2, hst, ht⟩ := step_strain r.d d' _ hstep
        obtain ⟨_, -, -, -, -, -, -, -, -, -, -, -, -, -, h7, -⟩ := strainStep_spec r.d d' e1 t2 _ hst
        have htl : d'.t.last = r.time.last + dt := by rw [h7, ← ht _ rfl]; rfl
        have hnote := h.note _ d' hstep (r.time.last + dt) (.hold dt) htl
          ⟨rfl, by simp only; rw [← h.e, ← h.s]; linear_combination h2⟩
        have hih := ih _ _ _ hnote
        have hext := Ext.note r a.sdir _ d' hstep (r.time.last + dt)
        cases hl : a.holdLoop dts (r.note a.sdir d' (r.time.last + dt)) with
        | ok y =>
          rw [hl] at hih
          obtain ⟨⟨ps', i1, i2⟩, i3⟩ := hih
          exact ⟨⟨_ :: ps', by simpa using i1, by simp [i2]⟩, hext.trans i3⟩
        | stop y =>
          rw [hl] at hih
          obtain ⟨⟨k, ps', i1⟩, i3⟩ := hih
          exact ⟨⟨k + 1, _ :: ps', by simpa using i1⟩, hext.trans i3⟩

/-! ## The program -/

/-- The moves of a hold. A hold that is not positive is left out. The steps are even, or the differences of times evenly
spaced on a logarithmic scale from one to the hold time. -/
noncomputable def holdMoves (a : Follow H) (ht : ℝ) : List Move :=
  if ht > 0 then (a.dts ht).map .hold else []

/-- The moves of the first ramp. -/
noncomputable def start (a : Follow H) : List Move :=
  List.replicate a.nsteps (.ramp (a.emax / a.nsteps / a.erate) (a.emax / a.nsteps))

/-- The moves of a cycle: hold, ramp down by the range, hold, ramp up by the range. -/
noncomputable def block (a : Follow H) : List Move :=
  let D := |a.emax - a.emin|
  a.holdMoves a.hold0 ++ List.replicate a.nsteps (.ramp (D / a.nsteps / a.erate) (-(D / a.nsteps))) ++
  a.holdMoves a.hold1 ++ List.replicate a.nsteps (.ramp (D / a.nsteps / a.erate) (D / a.nsteps))

/-- All the moves of `n` cycles. -/
noncomputable def program (a : Follow H) (n : ℕ) : List Move := a.start ++ (List.replicate n a.block).flatten

theorem program_succ (a : Follow H) (n : ℕ) : a.program (n + 1) = a.program n ++ a.block := by
  rw [program, List.replicate_succ', List.flatten_append]
  simp [program]

theorem hold_phase (a : Follow H) (d0 : Driver H) (hr : d0.rtol = 0) (ha : d0.atol = 0) (ht : ℝ) (r : Rec H) (ms : List Move)
    (ps : List Pt) (h : At a d0 r ms ps) : Phase a d0 r ms ps (a.holdMoves ht) (a.hold ht r) := by
  unfold holdMoves hold
  by_cases h1 : ht > 0
  · rw [if_pos h1, if_pos h1]
    exact holdLoop_phase a d0 hr ha _ r ms ps h
  · rw [if_neg h1, if_neg h1]
    exact ⟨⟨[], by simpa using h, rfl⟩, Ext.refl _⟩

/-- Two phases in turn. -/
theorem phase_trans {a : Follow H} {d0 : Driver H} {r0 : Rec H} {ms : List Move} {ps : List Pt} {n1 n2 : List Move}
    {x : Ended (Rec H) (Rec H)} {f : Rec H → Ended (Rec H) (Rec H)} (h1 : Phase a d0 r0 ms ps n1 x)
    (h2 : ∀ r ms ps, At a d0 r ms ps → Phase a d0 r ms ps n2 (f r)) : Phase a d0 r0 ms ps (n1 ++ n2) (x.andThen f) := by
  cases x with
  | stop r =>
    obtain ⟨⟨k, ps', i1⟩, i2⟩ := h1
    refine ⟨⟨min k n1.length, ps', ?_⟩, i2⟩
    rw [List.take_append_of_le_length (min_le_right _ _), ← List.take_take, List.take_length]
    exact i1
  | ok r =>
    obtain ⟨⟨ps', i1, i2⟩, i3⟩ := h1
    have := h2 r _ _ i1
    simp only [Ended.andThen]
    cases hf : f r with
    | stop r' =>
      rw [hf] at this
      obtain ⟨⟨k, ps2, j1⟩, j2⟩ := this
      refine ⟨⟨n1.length + k, ps' ++ ps2, ?_⟩, i3.trans j2⟩
      rw [List.take_length_add_append, ← List.append_assoc, ← List.append_assoc]
      exact j1
    | ok r' =>
      rw [hf] at this
      obtain ⟨⟨ps2, j1, j2⟩, j3⟩ := this
      refine ⟨⟨ps' ++ ps2, ?_, by simp [i2, j2]⟩, i3.trans j3⟩
      rw [← List.append_assoc, ← List.append_assoc]
      exact j1

/-- Lengths of the series of the driver after a run from the start. -/
theorem At.lengths {a : Follow H} {d0 : Driver H} {r : Rec H} {ms : List Move} {ps : List Pt} (h : At a d0 r ms ps)
    (h1 : d0.strain.before.length = 0) (h2 : d0.u.before.length = 0) (h3 : d0.p.before.length = 0) :
    r.d.strain.toList.length = ps.length + 1 ∧ r.d.u.toList.length = ps.length + 1 ∧
      r.d.p.toList.length = ps.length + 1 ∧ r.stress.toList.length = ps.length + 1 := by
  obtain ⟨ops, ho, hl⟩ := h.run
  obtain ⟨-, q2, q3, -, q5, -⟩ := run_lengths _ _ _ ho
  refine ⟨?_, ?_, ?_, by rw [h.stress]; simp⟩
  · rw [toList_len, q5, h1, hl]; ring
  · rw [toList_len, q2, h2, hl]; ring
  · rw [toList_len, q3, h3, hl]; ring

theorem At.points {a : Follow H} {d0 : Driver H} {r : Rec H} {ms : List Move} {ps : List Pt} (h : At a d0 r ms ps) :
    ps.length = ms.length := follows_length _ _ _ h.follows

/-- One cycle. -/
theorem cycle_phase (a : Follow H) (d0 : Driver H) (hr : d0.rtol = 0) (ha : d0.atol = 0) (h1 : d0.strain.before.length = 0)
    (h2 : d0.u.before.length = 0) (h3 : d0.p.before.length = 0) (hn : a.nsteps ≠ 0) (s : ℕ) (r : Rec H) (ms : List Move)
    (ps : List Pt) (h : At a d0 r ms ps) :
    match a.cycle s r with
    | .ok (r', row) => (∃ ps', At a d0 r' (ms ++ a.block) (ps ++ ps')) ∧ Ext r r' ∧
        Cyclic.RowOf r'.stress.toList r'.d.u.toList r'.d.p.toList s (ms.length + 1 + (a.holdMoves a.hold0).length)
          (ms.length + 1 + a.block.length) row
    | .stop r' => (∃ k ps', Lists a r' (ms ++ a.block.take k) (ps ++ ps')) ∧ Ext r r' := by
  have habs : |a.emin - a.emax| = |a.emax - a.emin| := abs_sub_comm _ _
  obtain ⟨M2, hM2⟩ : ∃ M, M = List.replicate a.nsteps (Move.ramp (|a.emax - a.emin| / a.nsteps / a.erate)
    (-(|a.emax - a.emin| / a.nsteps))) := ⟨_, rfl⟩
  obtain ⟨M4, hM4⟩ : ∃ M, M = List.replicate a.nsteps (Move.ramp (|a.emax - a.emin| / a.nsteps / a.erate)
    (|a.emax - a.emin| / a.nsteps)) := ⟨_, rfl⟩
  have hblock : a.block = a.holdMoves a.hold0 ++ (M2 ++ (a.holdMoves a.hold1 ++ M4)) := by
    rw [hM2, hM4, block]; simp
  -- the phases after the first hold
  have p2 : ∀ r ms ps, At a d0 r ms ps → Phase a d0 r ms ps M2
      (rec1 (a.ramp (-a.sdir) (|a.emin - a.emax| / a.nsteps) (-1) r)) := fun r ms ps h => by
    have := ramp_phase a d0 hr ha (-1) (Or.inr rfl) (|a.emin - a.emax| / a.nsteps) a.nsteps (r, some (0, -1)) ms ps h
    rw [neg_one_mul, neg_one_smul, habs, ← hM2] at this
    rw [habs]
    exact this
  have p4 : ∀ r ms ps, At a d0 r ms ps → Phase a d0 r ms ps M4
      (rec1 (a.ramp a.sdir (|a.emax - a.emin| / a.nsteps) 1 r)) := fun r ms ps h => by
    have := ramp_phase a d0 hr ha 1 (Or.inl rfl) (|a.emax - a.emin| / a.nsteps) a.nsteps (r, some (0, 1)) ms ps h
    rw [one_mul, one_smul, ← hM4] at this
    exact this
  have w1 := hold_phase a d0 hr ha a.hold0 r ms ps h
  have w2 : ∀ r ms ps, At a d0 r ms ps → Phase a d0 r ms ps (M2 ++ (a.holdMoves a.hold1 ++ M4))
      ((rec1 (a.ramp (-a.sdir) (|a.emin - a.emax| / a.nsteps) (-1) r)).andThen fun r2 =>
        (a.hold a.hold1 r2).andThen fun r3 => rec1 (a.ramp a.sdir (|a.emax - a.emin| / a.nsteps) 1 r3)) :=
    fun r ms ps h => phase_trans (p2 r ms ps h) fun r ms ps h =>
      phase_trans (hold_phase a d0 hr ha a.hold1 r ms ps h) p4
  unfold cycle
  cases hx1 : a.hold a.hold0 r with
  | stop r' =>
    have := phase_trans w1 w2
    rw [hx1, ← hblock] at this
    exact this
  | ok r1 =>
    have wall := phase_trans w1 w2
    rw [hx1, ← hblock] at wall
    rw [hx1] at w1
    obtain ⟨⟨ps1, i1, i2⟩, -⟩ := w1
    simp only [Ended.andThen] at wall ⊢
    cases hx2 : a.ramp (-a.sdir) (|a.emin - a.emax| / a.nsteps) (-1) r1 with
    | stop r' =>
      rw [hx2] at wall
      exact wall
    | ok x2 =>
      rw [hx2] at wall
      simp only [rec1] at wall ⊢
      cases hx3 : a.hold a.hold1 x2.1 with
      | stop r' =>
        rw [hx3] at wall
        exact wall
      | ok r3 =>
        rw [hx3] at wall
        simp only at wall ⊢
        cases hx4 : a.ramp a.sdir (|a.emax - a.emin| / a.nsteps) 1 r3 with
        | stop r' =>
          rw [hx4] at wall
          exact wall
        | ok x4 =>
          rw [hx4] at wall
          simp only at wall ⊢
          obtain ⟨⟨ps', j1, j2⟩, j3⟩ := wall
          refine ⟨⟨ps', j1⟩, j3, ?_⟩
          obtain ⟨m1, m2, m3, m4⟩ := j1.lengths h1 h2 h3
          obtain ⟨n1, -⟩ := i1.lengths h1 h2 h3
          rw [j1.points, List.length_append] at m1 m2 m3 m4
          rw [i1.points, List.length_append] at n1
          have e0 : ms.length + a.block.length + 1 = ms.length + 1 + a.block.length := by ring
          have e1 : r1.d.strain.toList.length = ms.length + 1 + (a.holdMoves a.hold0).length := by rw [n1]; ring
          rw [e0] at m1 m2 m3 m4
          rw [e1]
          have hpos : (a.holdMoves a.hold0).length < a.block.length := by
            rw [hblock, List.length_append, List.length_append, hM2, List.length_replicate]
            omega
          have hne : Cyclic.since x4.1.stress (ms.length + 1 + (a.holdMoves a.hold0).length) ≠ [] := by
            refine List.ne_nil_of_length_pos ?_
            rw [Cyclic.since, List.length_drop, m4]
            omega
          have htake : x4.1.stress.toList.take (ms.length + 1 + a.block.length) = x4.1.stress.toList :=
            List.take_of_length_le m4.le
          refine ⟨rfl, m4.ge, ?_, ?_, rfl, ?_, ?_⟩
          · rw [htake]; exact Cyclic.maxOf_spec _ hne
          · rw [htake]; exact Cyclic.minOf_spec _ hne
          · rw [← m2]; exact Cyclic.last_get _
          · rw [← m3]; exact Cyclic.last_get _

/-- The rows, oldest first. -/
def RowsOf (a : Follow H) (r : Rec H) (rows : List Cyclic.Row) : Prop :=
  ∀ c row, rows[c]? = some row →
    Cyclic.RowOf r.stress.toList r.d.u.toList r.d.p.toList c
      (a.nsteps + 1 + c * a.block.length + (a.holdMoves a.hold0).length) (a.nsteps + 1 + (c + 1) * a.block.length) row

theorem program_length (a : Follow H) (n : ℕ) : (a.program n).length = a.nsteps + n * a.block.length := by
  simp [program, start]

theorem cycles_phase (a : Follow H) (d0 : Driver H) (hr : d0.rtol = 0) (ha : d0.atol = 0) (h1 : d0.strain.before.length = 0)
    (h2 : d0.u.before.length = 0) (h3 : d0.p.before.length = 0) (hn : a.nsteps ≠ 0) (n s : ℕ) (r : Rec H)
    (rows : List Cyclic.Row) (ps : List Pt) (h : At a d0 r (a.program s) ps) (hl : rows.length = s)
    (hrows : RowsOf a r rows.reverse) (r' : Rec H) (out : List Cyclic.Row) (ho : a.cycles n s r rows = (r', out)) :
    RowsOf a r' out.reverse ∧ out.length ≤ s + n ∧ ((∃ ps', Lists a r' (a.program (s + n)) ps') ∨
      out.length < s + n ∧ ∃ k ps', Lists a r' ((a.program (s + n)).take k) ps') := by
  induction n generalizing s r rows ps with
  | zero =>
    simp only [cycles, Prod.mk.injEq] at ho
    obtain ⟨rfl, rfl⟩ := ho
    exact ⟨hrows, hl.le, Or.inl ⟨ps, h.toLists⟩⟩
  | succ n ih =>
    have hc := cycle_phase a d0 hr ha h1 h2 h3 hn s r _ ps h
    rw [cycles] at ho
    cases hx : a.cycle s r with
    | ok q =>
      obtain ⟨y, row⟩ := q
      rw [hx] at hc ho
      obtain ⟨⟨ps', c1⟩, c2, c4⟩ := hc
      rw [← program_succ] at c1
      have hs1 : s + 1 + n = s + (n + 1) := by omega
      rw [← hs1]
      refine ih (s + 1) y (row :: rows) _ c1 (by simp [hl]) ?_ ho
      intro c row' hrow
      rw [List.reverse_cons] at hrow
      rcases Nat.lt_or_ge c rows.reverse.length with hcl | hcl
      · rw [List.getElem?_append_left hcl] at hrow
        exact (hrows c row' hrow).ext c2.stress c2.u c2.p
      · rw [List.getElem?_append_right hcl] at hrow
        have hc0 : c - rows.reverse.length = 0 := by
          by_contra hne
          obtain ⟨m, hm⟩ := Nat.exists_eq_succ_of_ne_zero hne
          rw [hm] at hrow
          simp at hrow
        rw [hc0] at hrow
        simp only [List.getElem?_cons_zero, Option.some.injEq] at hrow
        subst hrow
        have hcs : c = s := by
          rw [List.length_reverse] at hcl hc0
          omega
        subst hcs
        rw [program_length] at c4
        convert c4 using 1 <;> ring
    | stop q =>
      rw [hx] at hc ho
      simp only [Prod.mk.injEq] at ho
      obtain ⟨rfl, rfl⟩ := ho
      obtain ⟨⟨k, ps', c1⟩, c2⟩ := hc
      refine ⟨fun c row hrow => (hrows c row hrow).ext c2.stress c2.u c2.p, by omega, Or.inr ⟨by omega, ?_⟩⟩
      have hpre : (a.program s ++ a.block) <+: a.program (s + (n + 1)) := by
        rw [← program_succ, program, program]
        refine (List.prefix_append_right_inj _).2 ?_
        rw [show s + (n + 1) = (s + 1) + n by ring, List.replicate_add (s + 1) n, List.flatten_append]
        exact List.prefix_append _ _
      obtain ⟨rest, hrest⟩ := hpre
      refine ⟨(a.program s).length + min k a.block.length, ps ++ ps', ?_⟩
      rw [← hrest, List.append_assoc, List.take_length_add_append, List.take_append_of_le_length (min_le_right _ _),
        ← List.take_take, List.take_length]
      exact c1

end Follow

/-- What `run` has to have done. -/
theorem Follow.run_phase (a : Follow H) (c : Setup H) (hr : c.rtol = 0) (ha : c.atol = 0) (r : Rec H) (rows : List Cyclic.Row)
    (h : a.run c = some (r, rows)) : Follow.RowsOf a r rows ∧ rows.length ≤ a.ncycles ∧
      ((∃ ps', Follow.Lists a r (a.program a.ncycles) ps') ∨
        rows.length < a.ncycles ∧ ∃ k ps', Follow.Lists a r ((a.program a.ncycles).take k) ps') := by
  unfold Follow.run at h
  split_ifs at h with hn
  have w0 : Follow.At a (c.driver a.T none) (Rec.new (c.driver a.T none)) [] [] := by
    refine ⟨⟨?_, ?_, ?_, trivial⟩, rfl, rfl, rfl, rfl, [], rfl, rfl⟩ <;>
      simp [Rec.new, Series.toList]
  have w := Follow.ramp_phase a (c.driver a.T none) hr ha 1 (Or.inl rfl) (a.emax / a.nsteps) a.nsteps
    (Rec.new (c.driver a.T none), none) [] [] w0
  rw [one_mul, one_smul] at w
  cases hx : loop (eincStep a.bad a.sdir a.sdir a.erate (a.emax / a.nsteps) a.T) a.nsteps
      (Rec.new (c.driver a.T none), none) with
  | stop r' => rw [hx] at h; cases h
  | ok x =>
    rw [hx] at h w
    simp only [Option.some.injEq, Prod.mk.injEq] at h
    obtain ⟨h1, h2⟩ := h
    obtain ⟨⟨ps, w1, -⟩, -⟩ := w
    have hp : ([] : List Follow.Move) ++ List.replicate a.nsteps (.ramp (a.emax / a.nsteps / a.erate) (a.emax / a.nsteps)) =
        a.program 0 := by simp [Follow.program, Follow.start]
    rw [hp] at w1
    have := Follow.cycles_phase a (c.driver a.T none) hr ha rfl rfl rfl hn a.ncycles 0 x.1 [] _ w1 rfl
      (by intro c row h; simp at h) _ _ (Prod.ext h1 rfl : a.cycles a.ncycles 0 x.1 [] = (r, (a.cycles a.ncycles 0 x.1 []).2))
    rw [zero_add, h2] at this
    rw [← h2, List.length_reverse]
    rw [h2]
    exact this

/-- **C162.** A cyclic test with follow-up and exactly solved steps records, after the origin, the points of its program: a ramp
to the largest strain, then cycles of hold, ramp down by the range, hold, ramp up by the range. In a hold the strain follows
the stress. A test that is stopped records a first part of that; a test that reports all cycles records all of it. -/
theorem C162_program (a : Follow H) (c : Setup H) (hr : c.rtol = 0) (ha : c.atol = 0) (r : Rec H) (rows : List Cyclic.Row)
    (h : a.run c = some (r, rows)) : rows.length ≤ a.ncycles ∧ ∃ k ps,
      (rows.length = a.ncycles → (a.program a.ncycles).take k = a.program a.ncycles) ∧
      r.time.toList = 0 :: ps.map Follow.Pt.t ∧ r.strain.toList = 0 :: ps.map Follow.Pt.e ∧
      r.stress.toList = 0 :: ps.map Follow.Pt.s ∧ Follow.Follows a.q a.E ⟨0, 0, 0⟩ ((a.program a.ncycles).take k) ps := by
  obtain ⟨-, h2, h3⟩ := a.run_phase c hr ha r rows h
  refine ⟨h2, ?_⟩
  rcases h3 with ⟨ps, h3⟩ | ⟨hlt, k, ps, h3⟩
  · refine ⟨(a.program a.ncycles).length, ps, fun _ => List.take_length, h3.time, h3.strain, h3.stress, ?_⟩
    rw [List.take_length]
    exact h3.follows
  · exact ⟨k, ps, fun h => by omega, h3.time, h3.strain, h3.stress, h3.follows⟩

/-- **C162.** The row of each cycle has the extremes of the stresses recorded in it after its first hold, and the energy and
work at its end. -/
theorem C162_rows (a : Follow H) (c : Setup H) (hr : c.rtol = 0) (ha : c.atol = 0) (r : Rec H) (rows : List Cyclic.Row)
    (h : a.run c = some (r, rows)) (i : ℕ) (row : Cyclic.Row) (hi : rows[i]? = some row) :
    Cyclic.RowOf r.stress.toList r.d.u.toList r.d.p.toList i
      (a.nsteps + 1 + i * a.block.length + (a.holdMoves a.hold0).length) (a.nsteps + 1 + (i + 1) * a.block.length) row :=
  (a.run_phase c hr ha r rows h).1 i row hi

/-! ## What the moves amount to -/

namespace Follow

theorem follows_split {q E : ℝ} (p : Pt) (ms ns : List Move) (ps : List Pt) (h : Follows q E p (ms ++ ns) ps) :
    ∃ p1 p2, ps = p1 ++ p2 ∧ Follows q E p ms p1 ∧ Follows q E (lastPt p p1) ns p2 := by
  induction ms generalizing p ps with
  | nil => exact ⟨[], ps, rfl, trivial, h⟩
  | cons m ms ih =>
    cases ps with
    | nil => exact h.elim
    | cons a ps =>
      obtain ⟨p1, p2, h1, h2, h3⟩ := ih a ps h.2
      exact ⟨a :: p1, p2, by rw [h1]; rfl, ⟨h.1, h2⟩, h3⟩

theorem follows_ramp {q E dt de : ℝ} (n : ℕ) (p : Pt) (ps : List Pt) (h : Follows q E p (List.replicate n (.ramp dt de)) ps) :
    (lastPt p ps).t = p.t + n * dt ∧ (lastPt p ps).e = p.e + n * de := by
  induction n generalizing p ps with
  | zero =>
    cases ps with
    | nil => simp [lastPt]
    | cons a ps => exact h.elim
  | succ n ih =>
    cases ps with
    | nil => exact h.elim
    | cons a ps =>
      obtain ⟨⟨h1, h2⟩, h3⟩ := h
      obtain ⟨i1, i2⟩ := ih a ps h3
      rw [lastPt, i1, i2, h1, h2]
      push_cast
      constructor <;> ring

theorem follows_hold {q E : ℝ} (dts : List ℝ) (p : Pt) (ps : List Pt) (h : Follows q E p (dts.map .hold) ps) :
    (lastPt p ps).t = p.t + dts.sum ∧ (lastPt p ps).e = p.e + (q - 1) * ((p.s - (lastPt p ps).s) / E) := by
  induction dts generalizing p ps with
  | nil =>
    cases ps with
    | nil => simp [lastPt]
    | cons a ps => exact h.elim
  | cons dt dts ih =>
    cases ps with
    | nil => exact h.elim
    | cons a ps =>
      obtain ⟨⟨h1, h2⟩, h3⟩ := h
      obtain ⟨i1, i2⟩ := ih a ps h3
      rw [lastPt, i1, i2, h1, h2, List.sum_cons]
      constructor <;> ring

theorem diff_sum (f : ℕ → ℝ) (n : ℕ) : (diff ((List.range (n + 1)).map f)).sum = f n - f 0 := by
  induction n generalizing f with
  | zero => simp [diff]
  | succ n ih =>
    have h := ih (f ∘ Nat.succ)
    have e1 : (List.range (n + 1)).map (f ∘ Nat.succ) = f 1 :: (List.range n).map (f ∘ Nat.succ ∘ Nat.succ) := by
      rw [List.range_succ_eq_map, List.map_cons, List.map_map]; rfl
    rw [e1] at h
    rw [List.range_succ_eq_map, List.map_cons, List.map_map, e1, diff, List.sum_cons, h]
    simp

/-- The time a positive hold takes. -/
theorem dts_sum (a : Follow H) (ht : ℝ) (h0 : 0 < ht) (hn : a.nhold ≠ 0) :
    (a.dts ht).sum = if a.log then ht - 1 else ht := by
  have hn1 : (a.nhold : ℝ) ≠ 0 := by exact_mod_cast hn
  have h10 : Real.log 10 ≠ 0 := Real.log_ne_zero_of_pos_of_ne_one (by norm_num) (by norm_num)
  unfold dts
  by_cases hl : a.log
  · rw [if_pos hl, if_pos hl, logspace]
    rw [diff_sum]
    simp only [Nat.cast_zero, zero_mul, zero_div, Real.rpow_zero]
    rw [mul_comm, mul_div_assoc, div_self hn1, mul_one, Real.rpow_def_of_pos (by norm_num), mul_div_cancel₀ _ h10,
      Real.exp_log h0]
  · rw [if_neg hl, if_neg hl, List.sum_replicate, nsmul_eq_mul, mul_div_cancel₀ _ hn1]

end Follow

/-- The corners of a cycle from the point `p`: the ends of the hold, the ramp down, the hold and the ramp up. The ramps
change the strain by the range at the given rate; a hold of `T0` or `T1` lets the strain follow the stress. -/
structure Corners (q E rate range T0 T1 : ℝ) (p p1 p2 p3 p4 : Follow.Pt) : Prop where
  hold0 : p1.t = p.t + T0 ∧ p1.e = p.e + (q - 1) * ((p.s - p1.s) / E)
  down : p2.t = p1.t + range / rate ∧ p2.e = p1.e - range
  hold1 : p3.t = p2.t + T1 ∧ p3.e = p2.e + (q - 1) * ((p2.s - p3.s) / E)
  up : p4.t = p3.t + range / rate ∧ p4.e = p3.e + range

/-- The recorded point number `k`. -/
def PointAt (r : Rec H) (k : ℕ) (p : Follow.Pt) : Prop :=
  r.time.toList[k]? = some p.t ∧ r.strain.toList[k]? = some p.e ∧ r.stress.toList[k]? = some p.s

/-- The number of points of a hold. -/
noncomputable def Follow.points (a : Follow H) (ht : ℝ) : ℕ := if ht > 0 then a.nhold else 0

/-- How long the test spends in a hold of the given time. -/
noncomputable def Follow.spent (a : Follow H) (ht : ℝ) : ℝ := if ht > 0 then (if a.log then ht - 1 else ht) else 0

theorem Follow.length_holdMoves (a : Follow H) (ht : ℝ) : (a.holdMoves ht).length = a.points ht := by
  unfold holdMoves points
  split_ifs with h
  · rw [List.length_map, dts]
    have hd : ∀ xs : List ℝ, (diff xs).length = xs.length - 1 := by
      intro xs
      induction xs with
      | nil => rfl
      | cons x xs ih =>
        cases xs with
        | nil => rfl
        | cons y ys => simp [diff, ih]
    split_ifs
    · rw [hd, logspace]; simp
    · simp
  · rfl

theorem Follow.lastPt_get (p : Pt) (ps qs : List Pt) : (p :: (ps ++ qs))[ps.length]? = some (lastPt p ps) := by
  induction ps generalizing p with
  | nil => rfl
  | cons a ps ih => simpa [lastPt] using ih a

theorem Follow.made_hold (a : Follow H) (hh : a.nhold ≠ 0) (ht : ℝ) (p : Pt) (ps : List Pt)
    (h : Follows a.q a.E p (a.holdMoves ht) ps) :
    (lastPt p ps).t = p.t + a.spent ht ∧ (lastPt p ps).e = p.e + (a.q - 1) * ((p.s - (lastPt p ps).s) / a.E) := by
  unfold holdMoves at h
  unfold spent
  split_ifs at h with h0
  · have := follows_hold _ p ps h
    rw [dts_sum a ht h0 hh] at this
    rw [if_pos h0]
    exact this
  · rw [if_neg h0]
    cases ps with
    | nil => simp [lastPt]
    | cons b ps => exact h.elim

/-- The corners of the cycles of a test that was not stopped, with the time spent in the holds. -/
theorem Follow.corners (a : Follow H) (c : Setup H) (hr : c.rtol = 0) (ha : c.atol = 0) (hh : a.nhold ≠ 0) (r : Rec H)
    (rows : List Cyclic.Row) (h : a.run c = some (r, rows)) (hall : rows.length = a.ncycles) (i : ℕ) (hi : i < a.ncycles) :
    ∃ p p1 p2 p3 p4, Corners a.q a.E a.erate |a.emax - a.emin| (a.spent a.hold0) (a.spent a.hold1) p p1 p2 p3 p4 ∧
      PointAt r (a.nsteps + i * (2 * a.nsteps + a.points a.hold0 + a.points a.hold1)) p ∧
      PointAt r (a.nsteps + i * (2 * a.nsteps + a.points a.hold0 + a.points a.hold1) + a.points a.hold0) p1 ∧
      PointAt r (a.nsteps + i * (2 * a.nsteps + a.points a.hold0 + a.points a.hold1) + a.points a.hold0 + a.nsteps) p2 ∧
      PointAt r (a.nsteps + i * (2 * a.nsteps + a.points a.hold0 + a.points a.hold1) + a.points a.hold0 + a.nsteps +
        a.points a.hold1) p3 ∧
      PointAt r (a.nsteps + (i + 1) * (2 * a.nsteps + a.points a.hold0 + a.points a.hold1)) p4 := by
  have hn : a.nsteps ≠ 0 := by
    intro h0
    rw [run, if_pos h0] at h
    cases h
  have hnr : (a.nsteps : ℝ) ≠ 0 := by exact_mod_cast hn
  obtain ⟨-, k, ps, hk, et, ee, es, hf⟩ := C162_program a c hr ha r rows h
  rw [hk hall] at hf
  have hsplit : a.program a.ncycles = a.program i ++ (a.holdMoves a.hold0 ++
      (List.replicate a.nsteps (.ramp (|a.emax - a.emin| / a.nsteps / a.erate) (-(|a.emax - a.emin| / a.nsteps))) ++
      (a.holdMoves a.hold1 ++
      (List.replicate a.nsteps (.ramp (|a.emax - a.emin| / a.nsteps / a.erate) (|a.emax - a.emin| / a.nsteps)) ++
      (List.replicate (a.ncycles - i - 1) a.block).flatten)))) := by
    have : a.ncycles = i + (1 + (a.ncycles - i - 1)) := by omega
    rw [program, program, congrArg (fun n => (List.replicate n a.block).flatten) this, List.replicate_add i,
      List.replicate_add 1]
    simp [block]
  rw [hsplit] at hf
  obtain ⟨q0, r0, e0, f0, g0⟩ := follows_split _ _ _ _ hf
  obtain ⟨q1, r1, e1, f1, g1⟩ := follows_split _ _ _ _ g0
  obtain ⟨q2, r2, e2, f2, g2⟩ := follows_split _ _ _ _ g1
  obtain ⟨q3, r3, e3, f3, g3⟩ := follows_split _ _ _ _ g2
  obtain ⟨q4, r4, e4, f4, g4⟩ := follows_split _ _ _ _ g3
  have l0 : q0.length = a.nsteps + i * (2 * a.nsteps + a.points a.hold0 + a.points a.hold1) := by
    rw [follows_length _ _ _ f0, program_length]
    simp only [block, List.length_append, length_holdMoves, List.length_replicate]
    ring
  have l1 : q1.length = a.points a.hold0 := by rw [follows_length _ _ _ f1, length_holdMoves]
  have l2 : q2.length = a.nsteps := by rw [follows_length _ _ _ f2, List.length_replicate]
  have l3 : q3.length = a.points a.hold1 := by rw [follows_length _ _ _ f3, length_holdMoves]
  have l4 : q4.length = a.nsteps := by rw [follows_length _ _ _ f4, List.length_replicate]
  have hget : ∀ k p, ((⟨0, 0, 0⟩ : Pt) :: ps)[k]? = some p → PointAt r k p := by
    intro k p hp
    refine ⟨?_, ?_, ?_⟩
    · rw [et, show (0 : ℝ) :: ps.map Pt.t = ((⟨0, 0, 0⟩ : Pt) :: ps).map Pt.t from rfl, List.getElem?_map, hp]; rfl
    · rw [ee, show (0 : ℝ) :: ps.map Pt.e = ((⟨0, 0, 0⟩ : Pt) :: ps).map Pt.e from rfl, List.getElem?_map, hp]; rfl
    · rw [es, show (0 : ℝ) :: ps.map Pt.s = ((⟨0, 0, 0⟩ : Pt) :: ps).map Pt.s from rfl, List.getElem?_map, hp]; rfl
  have hlast : ∀ (k : ℕ) (us vs : List Pt), ps = us ++ vs → us.length = k → PointAt r k (lastPt ⟨0, 0, 0⟩ us) := by
    intro k us vs e hl
    refine hget _ _ ?_
    rw [e, ← hl]
    exact lastPt_get _ _ _
  obtain ⟨u1, v1⟩ := a.made_hold hh _ _ _ f1
  obtain ⟨u2, v2⟩ := follows_ramp _ _ _ f2
  obtain ⟨u3, v3⟩ := a.made_hold hh _ _ _ f3
  obtain ⟨u4, v4⟩ := follows_ramp _ _ _ f4
  refine ⟨lastPt ⟨0, 0, 0⟩ q0, lastPt (lastPt ⟨0, 0, 0⟩ q0) q1, lastPt (lastPt (lastPt ⟨0, 0, 0⟩ q0) q1) q2,
    lastPt (lastPt (lastPt (lastPt ⟨0, 0, 0⟩ q0) q1) q2) q3,
    lastPt (lastPt (lastPt (lastPt (lastPt ⟨0, 0, 0⟩ q0) q1) q2) q3) q4,
    ⟨⟨u1, v1⟩, ⟨?_, ?_⟩, ⟨u3, v3⟩, ⟨?_, ?_⟩⟩, ?_, ?_, ?_, ?_, ?_⟩
  · rw [u2, div_right_comm, mul_div_cancel₀ _ hnr]
  · rw [v2, mul_neg, mul_div_cancel₀ _ hnr]; ring
  · rw [u4, div_right_comm, mul_div_cancel₀ _ hnr]
  · rw [v4, mul_div_cancel₀ _ hnr]
  · exact hlast _ q0 r0 e0 l0
  · have := hlast (a.nsteps + i * (2 * a.nsteps + a.points a.hold0 + a.points a.hold1) + a.points a.hold0) (q0 ++ q1) r1
      (by rw [e0, e1, List.append_assoc]) (by rw [List.length_append, l0, l1])
    rwa [lastPt_append] at this
  · have := hlast (a.nsteps + i * (2 * a.nsteps + a.points a.hold0 + a.points a.hold1) + a.points a.hold0 + a.nsteps)
      (q0 ++ q1 ++ q2) r2 (by rw [e0, e1, e2]; simp) (by rw [List.length_append, List.length_append, l0, l1, l2])
    rwa [lastPt_append, lastPt_append] at this
  · have := hlast (a.nsteps + i * (2 * a.nsteps + a.points a.hold0 + a.points a.hold1) + a.points a.hold0 + a.nsteps +
      a.points a.hold1) (q0 ++ q1 ++ q2 ++ q3) r3 (by rw [e0, e1, e2, e3]; simp)
      (by rw [List.length_append, List.length_append, List.length_append, l0, l1, l2, l3])
    rwa [lastPt_append, lastPt_append, lastPt_append] at this
  · have := hlast (a.nsteps + (i + 1) * (2 * a.nsteps + a.points a.hold0 + a.points a.hold1)) (q0 ++ q1 ++ q2 ++ q3 ++ q4) r4
      (by rw [e0, e1, e2, e3, e4]; simp)
      (by rw [List.length_append, List.length_append, List.length_append, List.length_append, l0, l1, l2, l3, l4]; ring)
    rwa [lastPt_append, lastPt_append, lastPt_append, lastPt_append] at this

/-- **C162.** In a test with even steps that is not stopped, every cycle has its corners at the expected points: a hold of the
first time, a ramp down by the range at the strain rate, a hold of the second time and a ramp up by the range; a time that is
not positive means no hold. (Full statement: also with logarithmic steps; there it is false, see below.) -/
theorem C162_cycle_partial (a : Follow H) (c : Setup H) (hr : c.rtol = 0) (ha : c.atol = 0) (hh : a.nhold ≠ 0)
    (hl : a.log = false) (r : Rec H) (rows : List Cyclic.Row) (h : a.run c = some (r, rows)) (hall : rows.length = a.ncycles)
    (i : ℕ) (hi : i < a.ncycles) : ∃ p p1 p2 p3 p4,
      Corners a.q a.E a.erate |a.emax - a.emax * a.R| (max a.hold0 0) (max a.hold1 0) p p1 p2 p3 p4 ∧
      PointAt r (a.nsteps + i * (2 * a.nsteps + a.points a.hold0 + a.points a.hold1)) p ∧
      PointAt r (a.nsteps + i * (2 * a.nsteps + a.points a.hold0 + a.points a.hold1) + a.points a.hold0) p1 ∧
      PointAt r (a.nsteps + i * (2 * a.nsteps + a.points a.hold0 + a.points a.hold1) + a.points a.hold0 + a.nsteps) p2 ∧
      PointAt r (a.nsteps + i * (2 * a.nsteps + a.points a.hold0 + a.points a.hold1) + a.points a.hold0 + a.nsteps +
        a.points a.hold1) p3 ∧
      PointAt r (a.nsteps + (i + 1) * (2 * a.nsteps + a.points a.hold0 + a.points a.hold1)) p4 := by
  have hs : ∀ ht, a.spent ht = max ht 0 := by
    intro ht
    unfold Follow.spent
    rw [hl]
    split_ifs with h0 h1
    · cases h1
    · exact (max_eq_left h0.le).symm
    · exact (max_eq_right (not_lt.1 h0)).symm
  have := a.corners c hr ha hh r rows h hall i hi
  rw [hs, hs] at this
  exact this

/-- **C162, disagreement.** With logarithmic steps a hold is one unit of time shorter than asked for, and for a hold shorter
than that the recorded time goes back. -/
theorem C162_log_disagreement (a : Follow H) (c : Setup H) (hr : c.rtol = 0) (ha : c.atol = 0) (hh : a.nhold ≠ 0)
    (hl : a.log = true) (h0 : 0 < a.hold0) (r : Rec H) (rows : List Cyclic.Row) (h : a.run c = some (r, rows))
    (hall : rows.length = a.ncycles) (i : ℕ) (hi : i < a.ncycles) : ∃ p p1,
      PointAt r (a.nsteps + i * (2 * a.nsteps + a.points a.hold0 + a.points a.hold1)) p ∧
      PointAt r (a.nsteps + i * (2 * a.nsteps + a.points a.hold0 + a.points a.hold1) + a.nhold) p1 ∧
      p1.t = p.t + (a.hold0 - 1) ∧ (a.hold0 < 1 → p1.t < p.t) := by
  obtain ⟨p, p1, p2, p3, p4, hc, g0, g1, -⟩ := a.corners c hr ha hh r rows h hall i hi
  have e1 : a.spent a.hold0 = a.hold0 - 1 := by rw [Follow.spent, if_pos h0, if_pos hl]
  have e2 : a.points a.hold0 = a.nhold := by rw [Follow.points, if_pos h0]
  have e3 := hc.hold0.1
  rw [e1] at e3
  exact ⟨p, p1, g0, by rw [e2] at g1 ⊢; exact g1, e3, fun h => by rw [e3]; linarith⟩

/-- **C162.** Without follow-up every cycle starts and ends at the largest strain and turns at the smallest. -/
theorem C162_held (a : Follow H) (c : Setup H) (hr : c.rtol = 0) (ha : c.atol = 0) (hh : a.nhold ≠ 0) (hq : a.q = 1)
    (hR : a.emax * a.R ≤ a.emax)
    (r : Rec H) (rows : List Cyclic.Row) (h : a.run c = some (r, rows)) (hall : rows.length = a.ncycles)
    (i : ℕ) :
    (i ≤ a.ncycles → r.strain.toList[a.nsteps + i * (2 * a.nsteps + a.points a.hold0 + a.points a.hold1)]? = some a.emax) ∧
    (i < a.ncycles → r.strain.toList[a.nsteps + i * (2 * a.nsteps + a.points a.hold0 + a.points a.hold1) + a.points a.hold0 +
      a.nsteps]? = some (a.emax * a.R)) := by
  have hD : |a.emax - a.emin| = a.emax - a.emax * a.R := by rw [Follow.emin, abs_of_nonneg (by linarith)]
  have h1 : i ≤ a.ncycles →
      r.strain.toList[a.nsteps + i * (2 * a.nsteps + a.points a.hold0 + a.points a.hold1)]? = some a.emax := by
    induction i with
    | zero =>
      intro _
      have hn : a.nsteps ≠ 0 := by
        intro h0
        rw [Follow.run, if_pos h0] at h
        cases h
      have hnr : (a.nsteps : ℝ) ≠ 0 := by exact_mod_cast hn
      obtain ⟨-, k, ps, hk, et, ee, es, hf⟩ := C162_program a c hr ha r rows h
      rw [hk hall, Follow.program] at hf
      obtain ⟨q0, r0, e0, f0, -⟩ := Follow.follows_split _ _ _ _ hf
      have l0 := Follow.follows_length _ _ _ f0
      rw [Follow.start, List.length_replicate] at l0
      have := (Follow.follows_ramp _ _ _ f0).2
      rw [zero_mul, add_zero, ee, show (0 : ℝ) :: ps.map Follow.Pt.e = ((⟨0, 0, 0⟩ : Follow.Pt) :: ps).map Follow.Pt.e from rfl,
        List.getElem?_map, e0, ← l0, Follow.lastPt_get, Option.map_some, this, mul_div_cancel₀ _ hnr, zero_add]
    | succ i ih =>
      intro hi
      obtain ⟨p, p1, p2, p3, p4, hc, g0, -, -, -, g4⟩ := a.corners c hr ha hh r rows h hall i (by omega)
      have e0 := ih (by omega)
      rw [g0.2.1, Option.some.injEq] at e0
      rw [g4.2.1, hc.up.2, hc.hold1.2, hc.down.2, hc.hold0.2, e0, hq]
      simp
  refine ⟨h1, fun hi => ?_⟩
  obtain ⟨p, p1, p2, p3, p4, hc, g0, -, g2, -⟩ := a.corners c hr ha hh r rows h hall i hi
  have e0 := h1 hi.le
  rw [g0.2.1, Option.some.injEq] at e0
  rw [g2.2.1, hc.down.2, hc.hold0.2, e0, hq, hD]
  simp

/-! ## Tests that run -/

/-- **C162.** With a linear elastic material and exact solves a test along x runs all its cycles, if the stiffness is regular,
also with the row of the follow-up in place of the first. -/
theorem C162_elastic (a : Follow H) (c : Setup H) (hr : c.rtol = 0) (ha : c.atol = 0) (hi : 0 < c.miter)
    (C : Matrix (Fin 6) (Fin 6) ℝ) (hm : IsElastic c.model C) (hC : C.det ≠ 0) (hd : C⁻¹ 0 0 ≠ 0) (hE : 0 < a.E)
    (hJ : (C.updateRow 0 fun j => (if j = 0 then 1 else 0) + C 0 j / a.E * (a.q - 1)).det ≠ 0) (hx : a.sind = 0)
    (hb : ∀ h, a.bad h = false) (he : a.erate ≠ 0) (hem : a.emax ≠ 0) (hR : a.R ≠ 1) (hn : a.nsteps ≠ 0) :
    ∃ r rows, a.run c = some (r, rows) ∧ rows.length = a.ncycles := by
  have hnr : (a.nsteps : ℝ) ≠ 0 := by exact_mod_cast hn
  have hsd : ∀ s : ℝ, s = 1 ∨ s = -1 → (s • a.sdir) ⬝ᵥ C⁻¹ *ᵥ (s • a.sdir) ≠ 0 := by
    intro s hs
    have h2 : s * s = 1 := by rcases hs with rfl | rfl <;> norm_num
    rw [mulVec_smul, dotProduct_smul, smul_dotProduct, smul_smul, h2, one_smul, Follow.sdir, hx, single_dotProduct, one_mul,
      mulVec_single]
    simpa using hd
  let Ok : Rec H → Prop := fun r => r.d.rtol = 0 ∧ r.d.atol = 0 ∧ 0 < r.d.miter ∧ r.d.model = c.model
  have hramp : ∀ (s : ℝ), (s = 1 ∨ s = -1) → ∀ einc : ℝ, einc ≠ 0 → ∀ (n : ℕ) (x : Rec H × Guess), Ok x.1 →
      ∃ y, loop (eincStep a.bad a.sdir (s • a.sdir) a.erate einc a.T) n x = .ok y ∧ Ok y.1 := by
    intro s hs einc hinc n
    induction n with
    | zero => intro x hx; exact ⟨x, rfl, hx⟩
    | succ n ih =>
      rintro x ⟨m1, m2, m3, m4⟩
      obtain ⟨⟨d', de, g⟩, hx⟩ := C71_elastic_einc x.1.d m1.ge m2.ge m3 C (by rw [m4]; exact hm) hC (s • a.sdir) (hsd s hs)
        a.erate einc a.T he hinc (x.2.map Prod.fst) (x.2.map Prod.snd)
      have hstep : x.1.d.step (.erateEinc (s • a.sdir) a.erate einc a.T (x.2.map Prod.fst) (x.2.map Prod.snd)) =
          some d' := by simp [Driver.step, hx]
      obtain ⟨e1, t2, hst, -⟩ := step_strain _ d' _ hstep
      obtain ⟨_, -, q1, -, q2, q3, q4, -⟩ := strainStep_spec _ d' e1 t2 _ hst
      simp only [loop, eincStep, hx, hb, Bool.false_eq_true, if_false, Ended.andThen]
      exact ih _ ⟨q2.trans m1, q3.trans m2, q4.symm ▸ m3, q1.trans m4⟩
  have hholds : ∀ (dts : List ℝ) (x : Rec H), Ok x → ∃ y, a.holdLoop dts x = .ok y ∧ Ok y := by
    intro dts
    induction dts with
    | nil => intro x hx; exact ⟨x, rfl, hx⟩
    | cons dt dts ih =>
      rintro x ⟨m1, m2, m3, m4⟩
      obtain ⟨J, hJd⟩ : ∃ J, J = C.updateRow 0 fun j => (if j = 0 then 1 else 0) + C 0 j / a.E * (a.q - 1) := ⟨_, rfl⟩
      have hrj : ∀ e, x.d.holdRJ 0 (x.time.last + dt) a.T a.q a.E e =
          some (J *ᵥ e - Fin.cons
            (x.d.strain.last 0 + (x.d.stress.last 0 + (C *ᵥ x.d.thermalNext a.T) 0) / a.E * (a.q - 1)) (fun k : Fin 5 =>
            x.d.stress.last ((0 : Fin 6).succAbove k) + (C *ᵥ x.d.thermalNext a.T) ((0 : Fin 6).succAbove k)), J) := by
        intro e
        obtain ⟨h, u, p, hc⟩ := (m4 ▸ hm : IsElastic x.d.model C) ⟨e - x.d.thermalNext a.T, x.d.mech.last, a.T, x.d.T.last,
          x.time.last + dt, x.d.t.last, x.d.stress.last, x.d.stored.last, x.d.u.last, x.d.p.last⟩
        unfold Driver.holdRJ
        rw [if_neg hE.ne', Driver.call, hc, hJd]
        simp only [Option.map_some, Option.some.injEq, Prod.mk.injEq]
        refine ⟨?_, ?_⟩
        · funext r
          refine Fin.cases ?_ (fun k => ?_) r
          · have h1 : ((C.updateRow 0 fun j => (if j = 0 then 1 else 0) + C 0 j / a.E * (a.q - 1)) *ᵥ e) 0 =
                e 0 + (C *ᵥ e) 0 / a.E * (a.q - 1) := by
              rw [mulVec, updateRow_self]
              simp only [dotProduct, mulVec, add_mul, Finset.sum_add_distrib, ite_mul, one_mul, zero_mul,
                Finset.sum_ite_eq', Finset.mem_univ, if_true, div_eq_mul_inv, Finset.sum_mul]
              congr 1
              refine Finset.sum_congr rfl fun j _ => ?_
              ring
            rw [Pi.sub_apply, h1, Fin.cons_zero, Fin.cons_zero, mulVec_sub, Pi.sub_apply]
            ring
          · have h1 : ((C.updateRow 0 fun j => (if j = 0 then 1 else 0) + C 0 j / a.E * (a.q - 1)) *ᵥ e) k.succ =
                (C *ᵥ e) k.succ := by
              rw [mulVec, mulVec, updateRow_ne (Fin.succ_ne_zero k)]
            rw [Pi.sub_apply, h1, Fin.cons_succ, Fin.cons_succ,
              show (0 : Fin 6).succAbove k = k.succ from Fin.zero_succAbove k, mulVec_sub, Pi.sub_apply]
            ring
        · ext r j
          rw [of_apply]
          refine Fin.cases ?_ (fun k => ?_) r
          · rw [Fin.cases_zero, updateRow_self]
          · rw [Fin.cases_succ, updateRow_ne (Fin.succ_ne_zero k),
              show (0 : Fin 6).succAbove k = k.succ from Fin.zero_succAbove k]
      obtain ⟨e1, he1⟩ := solveTry_linear x.d m1.ge m2.ge m3 _ _ (hJd ▸ hJ) _ hrj x.d.strain.last []
      obtain ⟨d', hd', -⟩ := strainStep_elastic x.d C (m4 ▸ hm) e1 (x.time.last + dt) a.T
      have hq1 : ¬ (¬ IsClose a.q 1 ∧ IsClose a.E (-1)) := by
        rintro ⟨-, h⟩
        simp only [IsClose] at h
        rw [abs_of_pos (by linarith : (0 : ℝ) < a.E - -1)] at h
        norm_num at h
        linarith
      have hh : x.d.holdStep a.sind (x.time.last + dt) a.T a.q a.E = some d' := by
        unfold Driver.holdStep
        rw [hx, if_neg hq1, he1]
        exact hd'
      obtain ⟨_, -, q1, -, q2, q3, q4, -⟩ := strainStep_spec _ d' _ _ _ hd'
      simp only [Follow.holdLoop, hh, hb, Bool.false_eq_true, if_false]
      exact ih _ ⟨q2.trans m1, q3.trans m2, q4.symm ▸ m3, q1.trans m4⟩
  have hhold : ∀ (ht : ℝ) (x : Rec H), Ok x → ∃ y, a.hold ht x = .ok y ∧ Ok y := by
    intro ht x hx
    unfold Follow.hold
    split_ifs
    · exact hholds _ x hx
    · exact ⟨x, rfl, hx⟩
  have hD : |a.emax - a.emin| / a.nsteps ≠ 0 := by
    refine div_ne_zero (abs_ne_zero.2 fun h0 => ?_) hnr
    rw [Follow.emin] at h0
    have : a.emax * (1 - a.R) = 0 := by linarith
    rcases mul_eq_zero.1 this with h1 | h1
    · exact hem h1
    · exact hR (by linarith)
  have hcycle : ∀ (s : ℕ) (x : Rec H), Ok x → ∃ y, a.cycle s x = .ok y ∧ Ok y.1 := by
    intro s x h0
    obtain ⟨x1, e1, h1⟩ := hhold a.hold0 x h0
    obtain ⟨x2, e2, h2⟩ := hramp (-1) (Or.inr rfl) _ hD a.nsteps (x1, some (0, -1)) h1
    obtain ⟨x3, e3, h3⟩ := hhold a.hold1 x2.1 h2
    obtain ⟨x4, e4, h4⟩ := hramp 1 (Or.inl rfl) _ hD a.nsteps (x3, some (0, 1)) h3
    rw [neg_one_smul] at e2
    rw [one_smul] at e4
    unfold Follow.cycle Follow.ramp
    rw [abs_sub_comm a.emin]
    simp only [e1, e2, e3, e4, Ended.andThen]
    exact ⟨_, rfl, h4⟩
  have hcycles : ∀ (n s : ℕ) (x : Rec H) (rows : List Cyclic.Row), Ok x →
      (a.cycles n s x rows).2.length = rows.length + n := by
    intro n
    induction n with
    | zero => intro s x rows _; rfl
    | succ n ih =>
      intro s x rows h0
      obtain ⟨⟨y, row⟩, e1, h1⟩ := hcycle s x h0
      simp only [Follow.cycles, e1]
      rw [ih _ _ _ h1, List.length_cons]
      ring
  obtain ⟨x, e0, h0⟩ := hramp 1 (Or.inl rfl) (a.emax / a.nsteps) (div_ne_zero hem hnr) a.nsteps
    (Rec.new (c.driver a.T none), none) ⟨hr, ha, hi, rfl⟩
  rw [one_smul] at e0
  refine ⟨(a.cycles a.ncycles 0 x.1 []).1, (a.cycles a.ncycles 0 x.1 []).2.reverse, ?_, ?_⟩
  · rw [Follow.run, if_neg hn, e0]
  · rw [List.length_reverse, hcycles _ _ _ _ h0]
    simp

/-- A concrete test with follow-up and two holds, on the identity stiffness: it runs both its cycles, and its corners are as
stated. -/
example : ∃ r rows, (⟨1 / 100, -1, 1 / 1000, 2, 3, 300, 5, 0, 100, 50, 4, fun _ => false, false, 1⟩ : Follow ℕ).run
    (⟨counter, 0, 0, 25, 0⟩ : Setup ℕ) = some (r, rows) ∧ rows.length = 2 ∧
    ∃ p p1 p2 p3 p4, Corners 3 1 (1 / 1000) |1 / 100 - 1 / 100 * (-1)| (max 100 0) (max 50 0) p p1 p2 p3 p4 ∧
      PointAt r (5 + 1 * (2 * 5 + 4 + 4)) p ∧ PointAt r (5 + 1 * (2 * 5 + 4 + 4) + 4) p1 := by
  obtain ⟨r, rows, h, hl⟩ := C162_elastic (⟨1 / 100, -1, 1 / 1000, 2, 3, 300, 5, 0, 100, 50, 4, fun _ => false, false, 1⟩ :
    Follow ℕ) (⟨counter, 0, 0, 25, 0⟩ : Setup ℕ) rfl rfl (by norm_num) 1 counter_elastic (by simp) (by simp) (by norm_num) (by
      have : (1 : Matrix (Fin 6) (Fin 6) ℝ).updateRow 0 (fun j => (if j = 0 then 1 else 0) +
          (1 : Matrix (Fin 6) (Fin 6) ℝ) 0 j / 1 * (3 - 1)) = Matrix.diagonal ![3, 1, 1, 1, 1, 1] := by
        ext i j
        by_cases h : i = 0
        · subst h
          rw [updateRow_self]
          fin_cases j <;> norm_num [Matrix.diagonal, Matrix.one_apply]
        · rw [updateRow_ne h]
          fin_cases i <;> fin_cases j <;> simp_all [Matrix.diagonal, Matrix.one_apply]
      simp only [this, det_diagonal]
      simp [Fin.prod_univ_succ]) rfl (fun _ => rfl) (by norm_num) (by norm_num) (by norm_num) (by norm_num)
  refine ⟨r, rows, h, hl, ?_⟩
  obtain ⟨p, p1, p2, p3, p4, hc, g0, g1, -⟩ := C162_cycle_partial _ _ rfl rfl (by norm_num) rfl r rows h hl 1 (by norm_num)
  have hp0 : Follow.points (⟨1 / 100, -1, 1 / 1000, 2, 3, 300, 5, 0, 100, 50, 4, fun _ => false, false, 1⟩ : Follow ℕ) 100 = 4 := by
    norm_num [Follow.points]
  have hp1 : Follow.points (⟨1 / 100, -1, 1 / 1000, 2, 3, 300, 5, 0, 100, 50, 4, fun _ => false, false, 1⟩ : Follow ℕ) 50 = 4 := by
    norm_num [Follow.points]
  simp only [hp0, hp1] at g0 g1
  exact ⟨p, p1, p2, p3, p4, hc, g0, g1⟩

end Neml.DriverTests
