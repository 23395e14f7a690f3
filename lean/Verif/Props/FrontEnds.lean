import Verif.Model.FrontEnds
import Verif.Props.Interface

/-!
# C205: every front end takes the material along the path it was asked for

Specification: a `Trace` is the list of states of a material that is taken from one point of strain, temperature and time
to the next, each update starting from what the one before it returned. It does not mention any of the programs.
-/

namespace Neml.FrontEnds

open Matrix Neml.Interface

/-- A point of the path. -/
structure Point where
  e : Fin 6 → ℝ
  T : ℝ
  t : ℝ

/-- The material taken along the points from the state `st`. -/
inductive Trace {n : ℕ} (m : Material n) : State n → List Point → List (State n) → Prop
  | nil (st : State n) : Trace m st [] []
  | cons {st : State n} {x : Point} {l : List Point} {o : Out n} {sts : List (State n)}
      (h : m.update ⟨x.e, st.e, x.T, st.T, x.t, st.t, st.s, st.h, st.u, st.p⟩ = some o)
      (r : Trace m ⟨x.e, o.s, o.h, x.T, x.t, o.u, o.p⟩ l sts) :
      Trace m st (x :: l) (⟨x.e, o.s, o.h, x.T, x.t, o.u, o.p⟩ :: sts)

/-- The last state. -/
def final {n : ℕ} (st : State n) (sts : List (State n)) : State n := sts.getLastD st

theorem final_cons {n : ℕ} (st a : State n) (l : List (State n)) : final st (a :: l) = final a l := by
  rw [final, final, List.getLastD_cons]

/-- The material can report the elastic strain in this state. -/
def Reports {n : ℕ} (m : Material n) (st : State n) : Prop := (m.elastic st.s st.T st.h).isSome = true

/-- A path of `N` equal steps to the strain `emax` at the time `tend`, at one temperature. -/
noncomputable def straight (emax : Fin 6 → ℝ) (tend T : ℝ) (N : ℕ) : List Point :=
  (List.range N).map fun (i : ℕ) => ⟨(((i + 1 : ℕ) : ℝ) / N) • emax, T, ((i + 1 : ℕ) : ℝ) / N * tend⟩

/-- There is one way to go. -/
theorem Trace.unique {n : ℕ} {m : Material n} {st : State n} {l : List Point} {a b : List (State n)} (ha : Trace m st l a)
    (hb : Trace m st l b) : a = b := by
  induction ha generalizing b with
  | nil st => cases hb; rfl
  | cons h r ih =>
    cases hb with
    | cons h' r' =>
      rw [h] at h'
      cases h'
      rw [ih r']

theorem trace_length {n : ℕ} {m : Material n} {st : State n} {l : List Point} {a : List (State n)} (ha : Trace m st l a) :
    a.length = l.length := by
  induction ha with
  | nil => rfl
  | cons h r ih => simp [ih]

/-! ## The loops -/

/-- The points from counter `i` on. -/
noncomputable def ahead (e t T : ℝ) (N k i : ℕ) : List Point :=
  (List.range' i k).map fun (j : ℕ) => ⟨along ((j + 1) * e / N), T, (j + 1) * t / N⟩

theorem ahead_succ (e t T : ℝ) (N k i : ℕ) :
    ahead e t T N (k + 1) i = ⟨along ((i + 1) * e / N), T, (i + 1) * t / N⟩ :: ahead e t T N k (i + 1) := by
  simp [ahead, List.range'_succ]

theorem along_smul (c x : ℝ) : along (c * x) = c • along x := by
  ext i
  fin_cases i <;> simp [along]

theorem ahead_zero (e t T : ℝ) (N : ℕ) : ahead e t T N N 0 = straight (along e) t T N := by
  simp only [ahead, straight, List.range_eq_range']
  refine List.map_congr_left fun i _ => ?_
  rw [← along_smul]
  congr 1
  · congr 1
    push_cast
    ring
  · push_cast
    ring

theorem cLoop_stuck {n : ℕ} (m : Material n) (e t T : ℝ) (N k i : ℕ) (st : State n) :
    cLoop m e t T N (k + 1) i st (-1) = none := by
  rw [cLoop]
  cases m.update ⟨along ((i + 1) * e / N), st.e, T, st.T, (i + 1) * t / N, st.t, st.s, st.h, st.u, st.p⟩ with
  | none => rfl
  | some o => simp [status]

/-- The C loop goes to its end exactly if every update does and every report but the last. -/
theorem cLoop_iff {n : ℕ} (m : Material n) (e t T : ℝ) (N k i : ℕ) (st st' : State n) (hT : st.T = T) :
    (∃ ier, cLoop m e t T N k i st 0 = some (st', ier)) ↔
      ∃ sts, Trace m st (ahead e t T N k i) sts ∧ st' = final st sts ∧ ∀ x ∈ sts.dropLast, Reports m x := by
  induction k generalizing i st with
  | zero =>
    constructor
    · rintro ⟨ier, h⟩
      simp only [cLoop, Option.some.injEq, Prod.mk.injEq] at h
      exact ⟨[], by simpa [ahead] using Trace.nil st, by simp [final, h.1], by simp⟩
    · rintro ⟨sts, h, rfl, -⟩
      have h : Trace m st [] sts := by simpa [ahead] using h
      cases h
      exact ⟨0, rfl⟩
  | succ k ih =>
    rw [ahead_succ]
    cases hu : m.update ⟨along ((i + 1) * e / N), st.e, T, st.T, (i + 1) * t / N, st.t, st.s, st.h, st.u, st.p⟩ with
    | none =>
      constructor
      · rintro ⟨ier, h⟩
        rw [cLoop] at h
        simp [hu] at h
      · rintro ⟨sts, h, -, -⟩
        cases h with
        | cons h' r =>
          rw [hu] at h'
          cases h'
    | some o =>
      have step : cLoop m e t T N (k + 1) i st 0 = cLoop m e t T N k (i + 1)
          ⟨along ((i + 1) * e / N), o.s, o.h, T, (i + 1) * t / N, o.u, o.p⟩
          (status 0 (.elasticStrains (m.elastic o.s T o.h).isSome)) := by
        rw [cLoop]
        simp only [hu, status]
        simp [hT]
      have split : (∃ sts, Trace m st (⟨along ((i + 1) * e / N), T, (i + 1) * t / N⟩ :: ahead e t T N k (i + 1)) sts ∧
          st' = final st sts ∧ ∀ x ∈ sts.dropLast, Reports m x) ↔ ∃ sts, Trace m
          ⟨along ((i + 1) * e / N), o.s, o.h, T, (i + 1) * t / N, o.u, o.p⟩ (ahead e t T N k (i + 1)) sts ∧
          st' = final ⟨along ((i + 1) * e / N), o.s, o.h, T, (i + 1) * t / N, o.u, o.p⟩ sts ∧
          (sts ≠ [] → (m.elastic o.s T o.h).isSome = true) ∧ ∀ x ∈ sts.dropLast, Reports m x := by
        constructor
        · rintro ⟨sts, h, rfl, hr⟩
          cases h with
          | @cons _ _ _ o' sts h' r =>
            rw [hu] at h'
            cases h'
            refine ⟨sts, r, ?_, ?_, ?_⟩
            · rw [final_cons]
            · intro hne
              obtain ⟨a, b, rfl⟩ := List.exists_cons_of_ne_nil hne
              exact hr _ (by rw [List.dropLast_cons₂]; exact List.mem_cons_self)
            · intro x hx
              cases sts with
              | nil => simp at hx
              | cons a b => exact hr x (by simp [hx])
        · rintro ⟨sts, r, rfl, h1, hr⟩
          refine ⟨_, Trace.cons hu r, ?_, ?_⟩
          · rw [final_cons]
          · cases sts with
            | nil => simp
            | cons a b =>
              intro x hx
              simp only [List.dropLast_cons₂, List.mem_cons] at hx
              rcases hx with rfl | hx
              · exact h1 (by simp)
              · exact hr x hx
      rw [step, split]
      cases he : (m.elastic o.s T o.h).isSome with
      | true =>
        have : status 0 (.elasticStrains true) = 0 := rfl
        rw [this, ih (i + 1) _ rfl]
        simp
      | false =>
        have : status 0 (.elasticStrains false) = -1 := rfl
        rw [this]
        cases k with
        | zero =>
          constructor
          · rintro ⟨ier, h⟩
            simp only [cLoop, Option.some.injEq, Prod.mk.injEq] at h
            exact ⟨[], by simpa [ahead] using Trace.nil _, by simp [final, h.1], by simp, by simp⟩
          · rintro ⟨sts, h, rfl, -, -⟩
            have ha : ahead e t T N 0 (i + 1) = [] := rfl
            rw [ha] at h
            cases h
            exact ⟨-1, rfl⟩
        | succ k =>
          rw [cLoop_stuck]
          constructor
          · rintro ⟨ier, h⟩
            cases h
          · rintro ⟨sts, h, -, h1, -⟩
            rw [ahead_succ] at h
            cases h
            simp at h1

theorem fLoop_eq {n : ℕ} (m : Material n) (e t T : ℝ) (N k i : ℕ) (st : State n) (ier : ℤ) :
    fLoop m e t T N k (i + 1) st ier = cLoop m e t T N k i st ier := by
  induction k generalizing i st ier with
  | zero => rfl
  | succ k ih =>
    have h (x : ℝ) : ((i + 1 : ℕ) : ℝ) / N * x = (i + 1) * x / N := by
      push_cast
      ring
    rw [fLoop, cLoop]
    simp only [h, ih]

theorem cxxLoop_iff {n : ℕ} (m : Material n) (e t T : ℝ) (N k i : ℕ) (st st' : State n) (hT : st.T = T) :
    cxxLoop m e t T N k i st = some st' ↔
      ∃ sts, Trace m st (ahead e t T N k i) sts ∧ st' = final st sts ∧ ∀ x ∈ sts, Reports m x := by
  induction k generalizing i st with
  | zero =>
    constructor
    · intro h
      simp only [cxxLoop, Option.some.injEq] at h
      exact ⟨[], by simpa [ahead] using Trace.nil st, by simp [final, h], by simp⟩
    · rintro ⟨sts, h, rfl, -⟩
      have h : Trace m st [] sts := by simpa [ahead] using h
      cases h
      rfl
  | succ k ih =>
    rw [ahead_succ, cxxLoop]
    cases hu : m.update ⟨along ((i + 1) * e / N), st.e, T, st.T, (i + 1) * t / N, st.t, st.s, st.h, st.u, st.p⟩ with
    | none =>
      constructor
      · intro h
        cases h
      · rintro ⟨sts, h, -, -⟩
        cases h with
        | cons h' r =>
          rw [hu] at h'
          cases h'
    | some o =>
      cases he : m.elastic o.s T o.h with
      | none =>
        constructor
        · intro h
          simp [he] at h
        · rintro ⟨sts, h, -, hr⟩
          cases h with
          | cons h' r =>
            rw [hu] at h'
            cases h'
            have := hr _ (List.mem_cons_self)
            simp [Reports, he] at this
      | some x =>
        simp only [he]
        rw [ih (i + 1) _ rfl]
        constructor
        · rintro ⟨sts, r, rfl, hr⟩
          refine ⟨_, Trace.cons hu r, ?_, ?_⟩
          · rw [final_cons]
          · intro y hy
            rcases List.mem_cons.1 hy with rfl | hy
            · simp [Reports, he]
            · exact hr y hy
        · rintro ⟨sts, h, rfl, hr⟩
          cases h with
          | @cons _ _ _ o' sts h' r =>
            rw [hu] at h'
            cases h'
            exact ⟨sts, r, by rw [final_cons], fun y hy => hr y (List.mem_cons_of_mem _ hy)⟩

/-! ## The compiled programs -/

/-- The C and the C++ program take the material along the straight path in the steps asked for and end in its last state.
The C++ program gets there exactly if every update and every report of the elastic strain succeeds. The Fortran program ends
in the same state as the C program. -/
theorem C205_same {n : ℕ} (m : Material n) (h : Fin n → ℝ) (hm : m.init = some h) (e t T : ℝ) (N : ℕ) (d : Bool)
    (st : State n) :
    ((cMain (some m) d e t T N).final = some st ↔ ∃ sts, Trace m (start h T) (straight (along e) t T N) sts ∧
        st = final (start h T) sts ∧ ∀ x ∈ sts.dropLast, Reports m x) ∧
      (cxxMain (some m) e t T N = some st ↔ ∃ sts, Trace m (start h T) (straight (along e) t T N) sts ∧
        st = final (start h T) sts ∧ ∀ x ∈ sts, Reports m x) ∧
      (fMain (some m) d e t T N).final = (cMain (some m) d e t T N).final ∧
      (cxxMain (some m) e t T N = some st → (cMain (some m) d e t T N).final = some st) := by
  have hc : (cMain (some m) d e t T N).final = some st ↔ ∃ sts, Trace m (start h T) (straight (along e) t T N) sts ∧
      st = final (start h T) sts ∧ ∀ x ∈ sts.dropLast, Reports m x := by
    rw [← ahead_zero, ← cLoop_iff m e t T N N 0 (start h T) st rfl]
    simp only [cMain, hm, status, if_true]
    rcases cLoop m e t T N N 0 (start h T) 0 with - | ⟨a, ier⟩
    · simp
    · dsimp only
      split <;> simp
  have hx : cxxMain (some m) e t T N = some st ↔ ∃ sts, Trace m (start h T) (straight (along e) t T N) sts ∧
      st = final (start h T) sts ∧ ∀ x ∈ sts, Reports m x := by
    rw [← ahead_zero, ← cxxLoop_iff m e t T N N 0 (start h T) st rfl]
    simp [cxxMain, hm]
  refine ⟨hc, hx, ?_, fun hh => ?_⟩
  · simp only [cMain, fMain, hm, status, if_true]
    rw [show (1 : ℕ) = 0 + 1 from rfl, fLoop_eq]
    rcases cLoop m e t T N N 0 (start h T) 0 with - | ⟨a, ier⟩
    · rfl
    · dsimp only
      split <;> rfl
  · obtain ⟨sts, h1, h2, h3⟩ := hx.1 hh
    exact hc.2 ⟨sts, h1, h2, fun x hx => h3 x (List.mem_of_mem_dropLast hx)⟩

/-- The C program says it succeeded exactly if the model could be created, initialised and destroyed, and all steps were
taken. It then holds nothing. -/
theorem C205_exit {n : ℕ} (load : Option (Material n)) (d : Bool) (e t T : ℝ) (N : ℕ) :
    ((cMain load d e t T N).code = 0 ↔ d = true ∧ (cMain load d e t T N).final.isSome) ∧
      ((cMain load d e t T N).code = 0 → (cMain load d e t T N).models = 0 ∧ (cMain load d e t T N).arrays = 0) := by
  unfold cMain
  rcases load with - | m
  · simp
  · dsimp only
    rcases m.init with - | h
    · simp
    · dsimp only
      rcases cLoop m e t T N N 0 (start h T) _ with - | ⟨st, ier⟩
      · simp
      · cases d <;> simp [status]

/-- But a program that fails in a step keeps the model, and the C program one of its arrays; the Fortran program says that
it succeeded whatever happened. -/
theorem C205_exit_disagreement {n : ℕ} (m : Material n) (h : Fin n → ℝ) (hm : m.init = some h) (d : Bool) (e t T : ℝ)
    (N : ℕ) (hf : ¬∃ sts, Trace m (start h T) (straight (along e) t T N) sts) :
    cMain (some m) d e t T N = ⟨-1, none, 1, 1⟩ ∧ fMain (some m) d e t T N = ⟨0, none, 1, 0⟩ ∧
      ∀ load : Option (Material n), (fMain load d e t T N).code = 0 := by
  have hn : cLoop m e t T N N 0 (start h T) 0 = none := by
    rcases hh : cLoop m e t T N N 0 (start h T) 0 with - | ⟨a, ier⟩
    · rfl
    · obtain ⟨sts, h1, -, -⟩ := (cLoop_iff m e t T N N 0 (start h T) a rfl).1 ⟨ier, hh⟩
      rw [ahead_zero] at h1
      exact (hf ⟨sts, h1⟩).elim
  refine ⟨?_, ?_, fun load => ?_⟩
  · simp [cMain, hm, status, hn]
  · simp only [fMain, hm, status, if_true]
    rw [show (1 : ℕ) = 0 + 1 from rfl, fLoop_eq, hn]
  · unfold fMain
    rcases load with - | m
    · rfl
    · dsimp only
      rcases m.init with - | h
      · rfl
      · dsimp only
        rcases fLoop m e t T N N 1 (start h T) _ with - | ⟨st, ier⟩ <;> rfl

/-- An update that never fails, and a report of the elastic strain that fails once `k` steps are done. -/
noncomputable def mute (k : ℝ) : Material 1 where
  init := some 0
  update a := some ⟨a.eNew, a.hOld + 1, 1, 0, 0⟩
  elastic s _ h := if h 0 = k then none else some s

/-- The report that fails is forgotten if it is the last one, and blamed on the stress update after it if it is not. The
C++ program ends at the report. -/
theorem C205_report_disagreement :
    (cMain (some (mute 2)) true 1 1 0 2).code = 0 ∧ cxxMain (some (mute 2)) 1 1 0 2 = none ∧
      (cMain (some (mute 1)) true 1 1 0 2).code = -1 ∧
      ∀ e t T N, ∃ sts, Trace (mute 1) (start 0 T) (straight (along e) t T N) sts := by
  refine ⟨?_, ?_, ?_, fun e t T N => ?_⟩
  · norm_num [cMain, mute, cLoop, status, start]
  · norm_num [cxxMain, mute, cxxLoop, start]
  · norm_num [cMain, mute, cLoop, status, start]
  · generalize start 0 T = st
    induction straight (along e) t T N generalizing st with
    | nil => exact ⟨[], .nil st⟩
    | cons x l ih =>
      obtain ⟨sts, h⟩ := ih ⟨x.e, x.e, st.h + 1, x.T, x.t, 0, 0⟩
      exact ⟨_, Trace.cons rfl h⟩

/-! ## The Python program -/

open Neml.Driver (Series)

/-- The records of the driver end in this state. -/
def Ends {n : ℕ} (d : Driver.Driver (Fin n → ℝ)) (st : State n) : Prop :=
  d.strain.last = st.e ∧ d.stress.last = st.s ∧ d.stored.last = st.h ∧ d.T.last = st.T ∧ d.t.last = st.t ∧
    d.u.last = st.u ∧ d.p.last = st.p

theorem push_toList {α : Type} (s : Series α) (a : α) : (s.push a).toList = s.toList ++ [a] := by
  simp [Series.push, Series.toList]

theorem drive_iff {n : ℕ} (m : Material n) (h : Fin n → ℝ) (alpha : ℝ → ℝ) (T : ℝ) (l : List (ℝ × (Fin 6 → ℝ)))
    (d : Driver.Driver (Fin n → ℝ)) (hd : d.model = m.python h alpha) (hn : d.nts = true) (hm : d.mech.last = d.strain.last)
    (st : State n) (hs : Ends d st) :
    (∀ sts, Trace m st (l.map fun x => ⟨x.2, T, x.1⟩) sts → ∃ d', l.foldlM (fun d x => d.strainStep x.2 x.1 T) d = some d' ∧
        Ends d' (final st sts) ∧ d'.t.toList = d.t.toList ++ sts.map State.t ∧
        d'.strain.toList = d.strain.toList ++ sts.map State.e ∧ d'.stress.toList = d.stress.toList ++ sts.map State.s ∧
        d'.T.toList = d.T.toList ++ sts.map State.T) ∧
      ((¬∃ sts, Trace m st (l.map fun x => ⟨x.2, T, x.1⟩) sts) → l.foldlM (fun d x => d.strainStep x.2 x.1 T) d = none) := by
  induction l generalizing d st with
  | nil =>
    refine ⟨fun sts h => ?_, fun h => (h ⟨[], .nil st⟩).elim⟩
    cases h
    exact ⟨d, rfl, hs, by simp, by simp, by simp, by simp⟩
  | cons x l ih =>
    have hth : d.thermalNext T = 0 := by simp [Driver.Driver.thermalNext, hn]
    obtain ⟨h1, h2, h3, h4, h5, h6, h7⟩ := hs
    have hcall : d.call x.2 x.1 T =
        (m.update ⟨x.2, st.e, T, st.T, x.1, st.t, st.s, st.h, st.u, st.p⟩).map fun o => ⟨o.s, o.h, o.A, o.u, o.p⟩ := by
      simp only [Driver.Driver.call, hth, sub_zero, hd, Material.python, hm, h1, h2, h3, h4, h5, h6, h7]
    cases hu : m.update ⟨x.2, st.e, T, st.T, x.1, st.t, st.s, st.h, st.u, st.p⟩ with
    | none =>
      have hstep : d.strainStep x.2 x.1 T = none := by simp [Driver.Driver.strainStep, hcall, hu]
      refine ⟨fun sts h => ?_, fun _ => by simp [List.foldlM_cons, hstep]⟩
      cases h with
      | cons h' r =>
        rw [hu] at h'
        cases h'
    | some o =>
      obtain ⟨d1, hd1⟩ : ∃ d1, d1 = { d with
          strain := d.strain.push x.2, mech := d.mech.push x.2, thermal := d.thermal.push 0, stress := d.stress.push o.s,
          stored := d.stored.push o.h, T := d.T.push T, t := d.t.push x.1, u := d.u.push o.u, p := d.p.push o.p } := ⟨_, rfl⟩
      have hstep : d.strainStep x.2 x.1 T = some d1 := by
        simp [Driver.Driver.strainStep, hcall, hu, hth, hd1]
      have ih := ih d1 (by rw [hd1]; exact hd) (by rw [hd1]; exact hn) (by rw [hd1]; rfl)
        ⟨x.2, o.s, o.h, T, x.1, o.u, o.p⟩ (by rw [hd1]; exact ⟨rfl, rfl, rfl, rfl, rfl, rfl, rfl⟩)
      constructor
      · intro sts h
        cases h with
        | @cons _ _ _ o' sts h' r =>
          rw [hu] at h'
          cases h'
          obtain ⟨d', e1, e2, e3, e4, e5, e6⟩ := ih.1 sts r
          refine ⟨d', by simp [List.foldlM_cons, hstep, e1], by rw [final_cons]; exact e2, ?_, ?_, ?_, ?_⟩
          · rw [e3, hd1, push_toList]; simp
          · rw [e4, hd1, push_toList]; simp
          · rw [e5, hd1, push_toList]; simp
          · rw [e6, hd1, push_toList]; simp
      · intro hno
        simp only [List.foldlM_cons, hstep]
        exact ih.2 fun ⟨sts, r⟩ => hno ⟨_, Trace.cons hu r⟩

theorem python_path (emax : Fin 6 → ℝ) (tend T : ℝ) (N : ℕ) :
    (((linspace tend N).tail).zip ((linspace6 emax N).tail)).map (fun x => (⟨x.2, T, x.1⟩ : Point)) =
      straight emax tend T (N - 1) := by
  cases N with
  | zero => rfl
  | succ N =>
    simp only [linspace, linspace6, straight, List.range_succ_eq_map, List.map_cons, List.tail_cons, List.map_map,
      List.zip_map', Nat.add_sub_cancel]
    refine List.map_congr_left fun i _ => ?_
    simp only [Function.comp, Point.mk.injEq, true_and]
    constructor
    · rw [smul_smul]
      congr 1
      ring
    · ring

/-- The Python program takes the material along the straight path and records it: it ends exactly if every update does, in
the last state, and its records are those of the states. -/
theorem C205_python {n : ℕ} (m : Material n) (h : Fin n → ℝ) (alpha : ℝ → ℝ) (emax : Fin 6 → ℝ) (erate T : ℝ) (N : ℕ) :
    (∀ sts, Trace m (start h T) (straight emax (tmax emax erate) T (N - 1)) sts →
        ∃ d, driveAllStrain m h alpha emax erate N T = some d ∧ Ends d (final (start h T) sts) ∧
          d.t.toList = 0 :: sts.map State.t ∧ d.strain.toList = 0 :: sts.map State.e ∧
          d.stress.toList = 0 :: sts.map State.s ∧ d.T.toList = T :: sts.map State.T) ∧
      ((¬∃ sts, Trace m (start h T) (straight emax (tmax emax erate) T (N - 1)) sts) →
        driveAllStrain m h alpha emax erate N T = none) := by
  have k := drive_iff m h alpha T (((linspace (tmax emax erate) N).tail).zip ((linspace6 emax N).tail))
    (Driver.Driver.new (m.python h alpha) 1e-6 1e-10 25 0 T true) rfl rfl rfl (start h T)
    ⟨rfl, rfl, rfl, rfl, rfl, rfl, rfl⟩
  rw [python_path] at k
  simpa [driveAllStrain, Driver.Driver.new, Series.toList] using k

/-- With one component of strain it is the path of the compiled programs, in one step less than it was asked for. -/
theorem C205_python_same {n : ℕ} (m : Material n) (h : Fin n → ℝ) (hm : m.init = some h) (alpha : ℝ → ℝ) (e erate T : ℝ)
    (N : ℕ) (st : State n) (hc : cxxMain (some m) e (√(2 / 3) * |e| / erate) T N = some st) :
    ∃ d, driveAllStrain m h alpha (along e) erate (N + 1) T = some d ∧ Ends d st := by
  obtain ⟨sts, h1, h2, -⟩ := ((C205_same m h hm e _ T N true st).2.1).1 hc
  have ht : tmax (along e) erate = √(2 / 3) * |e| / erate := by
    simp [tmax, along, Fin.sum_univ_succ, Real.sqrt_sq_eq_abs]
  obtain ⟨d, h3, h4, -⟩ := (C205_python m h alpha (along e) erate T (N + 1)).1 sts (by rw [ht]; exact h1)
  exact ⟨d, h3, by rw [h2]; exact h4⟩

/-- The records have as many entries as steps were asked for, the initial one among them: one step is missing. -/
theorem C205_steps_disagreement {n : ℕ} (m : Material n) (h : Fin n → ℝ) (alpha : ℝ → ℝ) (emax : Fin 6 → ℝ) (erate T : ℝ)
    (N : ℕ) (d : Driver.Driver (Fin n → ℝ)) (hd : driveAllStrain m h alpha emax erate (N + 1) T = some d) :
    d.stress.toList.length = N + 1 := by
  by_cases hs : ∃ sts, Trace m (start h T) (straight emax (tmax emax erate) T (N + 1 - 1)) sts
  · obtain ⟨sts, hs⟩ := hs
    obtain ⟨d', h1, -, -, -, h2, -⟩ := (C205_python m h alpha emax erate T (N + 1)).1 sts hs
    rw [hd] at h1
    cases h1
    rw [h2]
    simp [trace_length hs, straight]
  · rw [(C205_python m h alpha emax erate T (N + 1)).2 hs] at hd
    cases hd

/-- Between any two neighbours of the straight path with the time of the Python program the equivalent strain grows at the
rate asked for. -/
theorem C205_rate (emax : Fin 6 → ℝ) (erate T : ℝ) (hr : erate ≠ 0) (N i : ℕ) (a b : Point)
    (ha : (straight emax (tmax emax erate) T N)[i]? = some a) (hb : (straight emax (tmax emax erate) T N)[i + 1]? = some b) :
    √(2 / 3) * √(∑ j, (b.e j - a.e j) ^ 2) = erate * (b.t - a.t) ∧
      √(2 / 3) * √(∑ j, (a.e j - 0) ^ 2) = erate * (a.t - 0) := by
  have hi : i + 1 < N := by
    by_contra hcon
    rw [List.getElem?_eq_none (by simp [straight]; omega)] at hb
    cases hb
  have hN : (0 : ℝ) < N := by exact_mod_cast (by omega : 0 < N)
  rw [straight, List.getElem?_map, List.getElem?_range (by omega)] at ha hb
  simp only [Option.map_some, Option.some.injEq] at ha hb
  subst ha hb
  have hroot (c : ℝ) (hc : 0 ≤ c) : √(∑ j, (c * emax j) ^ 2) = c * √(∑ j, emax j ^ 2) := by
    simp only [mul_pow, ← Finset.mul_sum]
    rw [Real.sqrt_mul (by positivity), Real.sqrt_sq hc]
  constructor
  · have : ∀ j, ((((i + 1 + 1 : ℕ) : ℝ) / N) • emax) j - ((((i + 1 : ℕ) : ℝ) / N) • emax) j = (1 / N) * emax j := by
      intro j
      simp only [Pi.smul_apply, smul_eq_mul]
      push_cast
      ring
    simp only [this]
    rw [hroot _ (by positivity), tmax]
    push_cast
    field_simp
    ring
  · simp only [Pi.smul_apply, smul_eq_mul, sub_zero]
    rw [hroot _ (by positivity), tmax]
    field_simp

/-! ## The user material -/

/-- The increments between neighbours of a path, in the notation of Abaqus. -/
def increments : Point → List Point → List Given
  | _, [] => []
  | p, x :: l => ⟨p.e, x.e - p.e, p.t, x.t - p.t, p.T, x.T - p.T⟩ :: increments x l

/-- A point in the notation of the library. -/
noncomputable def library (x : Point) : Point := ⟨convertv x.e imap emult, x.T, x.t⟩

/-- What Abaqus keeps is this state of the material: the same stress, and the energy split into its elastic part and the
dissipated part. -/
def Holds {n : ℕ} (a : Aba n) (st : State n) : Prop :=
  convertv a.stress imap smult = st.s ∧ a.statev = st.h ∧ a.sse + a.spd = st.u ∧ a.spd = st.p

/-- Abaqus takes the material along the same path as the other programs, however long it is, and holds the same states. -/
theorem C205_abaqus {n : ℕ} (m : Material n) (p : Point) (l : List Point) (a : Aba n) (st : State n) (ha : Holds a st)
    (hp : st.e = (library p).e ∧ st.T = p.T ∧ st.t = p.t) :
    (∀ sts, Trace m st (l.map library) sts → ∃ a', abaqus m (increments p l) a = some a' ∧ Holds a' (final st sts)) ∧
      ((¬∃ sts, Trace m st (l.map library) sts) → abaqus m (increments p l) a = none) := by
  induction l generalizing p a st with
  | nil =>
    refine ⟨fun sts h => ?_, fun h => (h ⟨[], .nil st⟩).elim⟩
    cases h
    exact ⟨a, rfl, ha⟩
  | cons x l ih =>
    obtain ⟨h1, h2, h3, h4⟩ := ha
    obtain ⟨k1, k2, k3⟩ := hp
    have harg : arguments ⟨p.e, x.e - p.e, p.t, x.t - p.t, p.T, x.T - p.T⟩ a =
        ⟨(library x).e, st.e, (library x).T, st.T, (library x).t, st.t, st.s, st.h, st.u, st.p⟩ := by
      rw [k1, k2, k3, ← h1, ← h2, ← h3, ← h4]
      simp [arguments, library]
    cases hu : m.update ⟨(library x).e, st.e, (library x).T, st.T, (library x).t, st.t, st.s, st.h, st.u, st.p⟩ with
    | none =>
      have hn : abaqus m (increments p (x :: l)) a = none := by
        rw [increments, abaqus, harg, hu]
      refine ⟨fun sts h => ?_, fun _ => hn⟩
      cases h with
      | cons h' r =>
        rw [hu] at h'
        cases h'
    | some o =>
      have hn : abaqus m (increments p (x :: l)) a = abaqus m (increments x l) (results a o) := by
        rw [increments, abaqus, harg, hu]
        simp [umat, harg, hu]
      have hh : Holds (results a o) ⟨(library x).e, o.s, o.h, (library x).T, (library x).t, o.u, o.p⟩ :=
        ⟨(C158_conversion 0 0 o.s a.stress).2.2.2.1, rfl, by simp [results], rfl⟩
      have ih := ih x (results a o) _ hh ⟨rfl, rfl, rfl⟩
      rw [hn]
      constructor
      · intro sts h
        cases h with
        | @cons _ _ _ o' sts h' r =>
          rw [hu] at h'
          cases h'
          rw [final_cons]
          exact ih.1 sts r
      · intro hno
        exact ih.2 fun ⟨sts, r⟩ => hno ⟨_, Trace.cons hu r⟩

/-! ## A constant velocity gradient -/

open LargeDriver (InL OutL)

/-- One call after the other: the second starts from what the first returned. -/
def Next {H : Type} (model : InL H → Option (OutL H)) (b a : InL H) : Prop :=
  ∃ o, model a = some o ∧ b.s0 = o.s ∧ b.h0 = o.h ∧ b.u0 = o.u ∧ b.p0 = o.p ∧ b.d0 = a.d1 ∧ b.w0 = a.w1 ∧ b.t0 = a.t1

/-- Call number `i`. -/
def Call' {H : Type} (d : Fin 6 → ℝ) (w : Fin 3 → ℝ) (dt T : ℝ) (i : ℕ) (a : InL H) : Prop :=
  a.d0 = (i * dt) • d ∧ a.d1 = ((i + 1) * dt) • d ∧ a.w0 = (i * dt) • w ∧ a.w1 = ((i + 1) * dt) • w ∧ a.T = T ∧
    a.t0 = i * dt ∧ a.t1 = (i + 1) * dt

theorem lLoop_calls {H : Type} (model : InL H → Option (OutL H)) (d : Fin 6 → ℝ) (w : Fin 3 → ℝ) (dt T : ℝ) (k i : ℕ)
    (r r' : Rates H) (hr : lLoop model d w dt T k r = some r') (h1 : r.d = (i * dt) • d) (h2 : r.w = (i * dt) • w)
    (h3 : r.t = i * dt) (hc : List.Forall₂ (Call' d w dt T) (List.range i) r.calls.reverse)
    (hn : r.calls.IsChain (Next model))
    (hl : ∀ a ∈ r.calls.head?, Next model ⟨0, r.d, 0, r.w, 0, 0, r.t, r.s, r.h, r.u, r.p⟩ a) :
    List.Forall₂ (Call' d w dt T) (List.range (i + k)) r'.calls.reverse ∧ r'.calls.IsChain (Next model) ∧
      ∀ a ∈ r'.calls.head?, Next model ⟨0, r'.d, 0, r'.w, 0, 0, r'.t, r'.s, r'.h, r'.u, r'.p⟩ a := by
  induction k generalizing i r with
  | zero =>
    simp only [lLoop, Option.some.injEq] at hr
    subst hr
    exact ⟨hc, hn, hl⟩
  | succ k ih =>
    rw [lLoop, Option.bind_eq_some_iff] at hr
    obtain ⟨r1, hr1, hr⟩ := hr
    simp only [lRound, Option.map_eq_some_iff] at hr1
    obtain ⟨o, ho, rfl⟩ := hr1
    have e1 : ((i : ℝ) * dt) • d + dt • d = (((i + 1 : ℕ) : ℝ) * dt) • d := by
      rw [← add_smul]
      congr 1
      push_cast
      ring
    have e2 : ((i : ℝ) * dt) • w + dt • w = (((i + 1 : ℕ) : ℝ) * dt) • w := by
      rw [← add_smul]
      congr 1
      push_cast
      ring
    have e3 : (i : ℝ) * dt + dt = ((i + 1 : ℕ) : ℝ) * dt := by
      push_cast
      ring
    have := ih (i + 1) _ hr (by rw [h1]; exact e1) (by rw [h2]; exact e2) (by rw [h3]; exact e3) ?_ ?_ ?_
    · rw [show i + (k + 1) = i + 1 + k by omega]
      exact this
    · rw [List.range_succ, List.reverse_cons]
      refine List.rel_append hc (.cons ⟨h1, ?_, h2, ?_, rfl, h3, ?_⟩ .nil)
      · rw [h1, e1]; push_cast; rfl
      · rw [h2, e2]; push_cast; rfl
      · rw [h3, e3]; push_cast; rfl
    · rw [List.isChain_cons]
      refine ⟨fun a ha => ?_, hn⟩
      obtain ⟨o', q0, q⟩ := hl a ha
      exact ⟨o', q0, q⟩
    · intro a ha
      simp only [List.head?_cons, Option.mem_def, Option.some.injEq] at ha
      subst ha
      exact ⟨o, ho, rfl, rfl, rfl, rfl, rfl, rfl, rfl⟩

/-- The table of rates describes what the material saw: there are as many calls as steps were asked for, call `i` goes from
entry `i` of the times to entry `i + 1`, strain and spin grow at the rates in the table, which are those of the velocity
gradient, and each call starts from what the one before returned. -/
theorem C205_gradient {H : Type} (model : InL H → Option (OutL H)) (init : H) (L : Matrix (Fin 3) (Fin 3) ℝ) (tend T : ℝ)
    (N : ℕ) (tab : Table) (r : Rates H) (h : driveAllL model init L tend N T = some (tab, r)) :
    r.calls.length = N ∧ tab.times.length = N + 1 ∧ tab.rates.length = N + 1 ∧ tab.spins.length = N + 1 ∧
      r.calls.IsChain (Next model) ∧
      (∀ i a t0 t1 d w, r.calls.reverse[i]? = some a → tab.times[i]? = some t0 → tab.times[i + 1]? = some t1 →
        tab.rates[i]? = some d → tab.spins[i]? = some w →
          a.t0 = t0 ∧ a.t1 = t1 ∧ a.T = T ∧ a.d1 - a.d0 = (t1 - t0) • d ∧ a.w1 - a.w0 = (t1 - t0) • w ∧
            Mandel.usym d + Mandel.uskew w = L) ∧
      tab.times.getLast? = some tend := by
  rw [driveAllL] at h
  split_ifs at h with hN
  simp only [Option.map_eq_some_iff, Prod.mk.injEq] at h
  obtain ⟨r', hr, rfl, rfl⟩ := h
  have hNp : (N : ℝ) ≠ 0 := by exact_mod_cast hN
  obtain ⟨c1, c2, -⟩ := lLoop_calls model _ _ _ _ N 0 _ _ hr (by simp) (by simp) (by simp) (by simp) (by simp) (by simp)
  rw [Nat.zero_add] at c1
  have hlen : r'.calls.length = N := by
    have := c1.length_eq
    simpa using this.symm
  refine ⟨hlen, by simp [linspace], by simp, by simp, c2, ?_, ?_⟩
  · intro i a t0 t1 d w ha h0 h1 hd hw
    have hi : i < N := by
      by_contra hcon
      rw [List.getElem?_eq_none (by simp [hlen]; omega)] at ha
      cases ha
    have ht (j : ℕ) (hj : j < N + 1) : (linspace tend (N + 1))[j]? = some (j * (tend / N)) := by
      simp [linspace, List.getElem?_map, List.getElem?_range hj]
    simp only [ht i (by omega), ht (i + 1) (by omega), Option.some.injEq] at h0 h1
    simp only [List.getElem?_replicate, if_pos (show i < N + 1 by omega), Option.some.injEq] at hd hw
    have hget : Call' d w (tend / N) T i a := by
      have := (List.forall₂_iff_get.1 c1).2 i (by simpa using hi) (by simpa [hlen] using hi)
      rw [hd, hw] at this
      rw [List.getElem?_eq_getElem (by simpa [hlen] using hi), Option.some.injEq] at ha
      simpa [ha] using this
    obtain ⟨q1, q2, q3, q4, q5, q6, q7⟩ := hget
    subst h0 h1
    refine ⟨q6, by rw [q7]; push_cast; rfl, q5, ?_, ?_, ?_⟩
    · rw [q1, q2, ← sub_smul]; push_cast; rfl
    · rw [q3, q4, ← sub_smul]; push_cast; rfl
    · rw [← hd, ← hw]
      have h2 : √(2 : ℝ) ≠ 0 := by positivity
      ext a b
      fin_cases a <;> fin_cases b <;>
        simp [Mandel.usym, Mandel.uskew, LargeDriver.sym, LargeDriver.skew, h2] <;> ring
  · simp only [linspace, List.range_succ, List.map_append, List.map_cons, List.map_nil, List.getLast?_concat,
      Nat.add_sub_cancel, Option.some.injEq]
    field_simp

/-! ## A concrete case -/

/-- A material that counts its updates. -/
noncomputable def counter : Material 1 where
  init := some 0
  update a := some ⟨a.eNew, a.hOld + 1, 1, a.uOld + 1, a.pOld⟩
  elastic s _ _ := some s

/-- Two steps of one percent. -/
example : cxxMain (some counter) (1 / 50) 10 300 2 =
    some ⟨along (1 / 50), along (1 / 50), 0 + 1 + 1, 300, 10, 0 + 1 + 1, 0⟩ := by
  norm_num [cxxMain, counter, cxxLoop, start]

/-- The hypothesis of `C205_exit_disagreement` is met by a material that cannot be strained. -/
example : ¬∃ sts, Trace (⟨some 0, fun _ => none, fun s _ _ => some s⟩ : Material 1) (start 0 300)
    (straight (along 1) 1 300 1) sts := by
  rintro ⟨sts, h⟩
  simp only [straight, List.range_one, List.map_cons, List.map_nil] at h
  cases h with
  | cons h' r => cases h'

/-- The beginning of a path in Abaqus. -/
example : Holds (⟨0, 0, 1, 0, 0, 0, 1⟩ : Aba 1) (start 0 300) ∧
    (start (0 : Fin 1 → ℝ) 300).e = (library ⟨0, 300, 0⟩).e := by
  refine ⟨⟨?_, rfl, by simp [start], rfl⟩, ?_⟩ <;> ext i <;> simp [convertv, start, library]

end Neml.FrontEnds
