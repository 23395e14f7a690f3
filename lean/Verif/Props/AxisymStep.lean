import Verif.Props.AxisymResidual
import Mathlib.Analysis.InnerProductSpace.Basic
import Mathlib.Algebra.Order.BigOperators.Ring.Finset

/-!
# C138: steps of the axisymmetric problem and their records
-/

namespace Neml.Axisym

open Matrix Neml.PySolve Neml.Uniaxial Neml.Driver

variable {m g : ℕ} {H : Type}

/-! ## One step -/

/-- The size of the residual of stresses under pressures: with the axial equation, unless the wall is constrained. -/
noncomputable def misfit (b : Problem m g H) (s : Field m g (Fin 6 → ℝ)) (pl pr : ℝ) : ℝ :=
  if b.constrained then Real.sqrt (∑ j, (b.wall.int1 s j - ext1 pl pr j) ^ 2)
  else Real.sqrt (∑ j, (b.wall.int1 s j - ext1 pl pr j) ^ 2 + (b.wall.int2 s - b.wall.ext2 pl pr) ^ 2)

/-- A row that belongs to the time `t` and the records `k`: the loads and temperatures are those of the time, the strains are
those of the displacements, and at each point the material has been taken from the last state of the records to the
mechanical strain. -/
structure Belongs (b : Problem m g H) (k : Log m g H) (t : ℝ) (r : Row m g H) : Prop where
  pl : r.pl = b.p t
  pr : r.pr = b.pext t
  T : r.T = fun j => b.T (b.wall.node j) t
  strain : ∀ e i, r.strains e i = ![slope b.wall r.u e i, value b.wall r.u e i / value b.wall b.wall.node e i, r.ez, 0, 0, 0]
  thermal : ∀ e i, r.tstrains e i = k.tstrains.last e i + ((b.mat e).alpha (value b.wall r.T e i) *
    (value b.wall r.T e i - value b.wall k.temperatures.last e i)) • isoDir
  mech : ∀ e i, r.mstrains e i = r.strains e i - r.tstrains e i
  material : ∀ e i, ∃ o, (b.mat e).update ⟨r.mstrains e i, k.mstrains.last e i, value b.wall r.T e i,
    value b.wall k.temperatures.last e i, t, k.times.last, k.stresses.last e i, k.histories.last e i, 0, 0⟩ = some o ∧
    r.stresses e i = o.s ∧ r.histories e i = o.h ∧ r.estrains e i = b.el e o.s (value b.wall r.T e i) o.h
  fixed : b.constrained = true → r.ez = 0

theorem calls_get {f : Field m g (Option (Out3 H))} {o : Field m g (Out3 H)} (h : calls f = some o) (e : Fin m)
    (i : Fin g) : f e i = some (o e i) := by
  unfold calls at h
  by_cases hs : ∀ e i, (f e i).isSome
  · rw [dif_pos hs] at h
    injection h with h
    rw [← h]
    exact (Option.some_get (hs e i)).symm
  · rw [dif_neg hs] at h; cases h

/-- What an evaluation of the residual has to do with its arguments. -/
theorem rj_spec {b : Problem m g H} {k : Log m g H} {u : Fin (m + 1) → ℝ} {ez : ℝ} {T : Fin (m + 1) → ℝ} {pl pr t : ℝ}
    {E : Eval m g H} (h : b.rj k u ez T pl pr t = some E) :
    ∃ o : Field m g (Out3 H), (∀ e i, (b.mat e).update (b.call k u ez T t e i) = some (o e i)) ∧
      E = { R1 := fun j => b.wall.int1 (fun e i => (o e i).s) j - ext1 pl pr j
            R2 := b.wall.int2 (fun e i => (o e i).s) - b.wall.ext2 pl pr
            J := b.wall.jac fun e i => (o e i).A
            strains := fun e i => b.wall.strain u ez e i
            tstrains := b.thermal k T
            mstrains := fun e i => b.wall.strain u ez e i - b.thermal k T e i
            estrains := fun e i => b.el e (o e i).s (b.wall.N i ⬝ᵥ ends T e) (o e i).h
            stresses := fun e i => (o e i).s
            histories := fun e i => (o e i).h } := by
  rw [Problem.rj, Option.map_eq_some_iff] at h
  obtain ⟨o, h1, h2⟩ := h
  exact ⟨o, calls_get h1, h2.symm⟩

theorem next_ez {b : Problem m g H} (hc : b.constrained = true) {u u' : Fin (m + 1) → ℝ} {z z' : ℝ} {E : Eval m g H}
    (h : b.next u z E = .ok (u', z')) : z' = z := by
  unfold Problem.next at h
  rw [if_pos hc] at h
  cases hx : triSolve E.J.du E.J.d E.J.dl E.R1 with
  | none => rw [hx] at h; cases h
  | some x => rw [hx] at h; injection h with h; injection h with _ h; exact h.symm

theorem iterate_spec (b : Problem m g H) (k : Log m g H) (o : Opts) (T : Fin (m + 1) → ℝ) (pl pr t n0 : ℝ) :
    ∀ (n : ℕ) (u : Fin (m + 1) → ℝ) (z : ℝ) (E : Eval m g H) (u' : Fin (m + 1) → ℝ) (z' : ℝ) (E' : Eval m g H),
      b.rj k u z T pl pr t = some E → b.iterate k o T pl pr t n0 n u z E = .ok (u', z', E') →
      b.rj k u' z' T pl pr t = some E' ∧ ¬ (o.atol < b.size E' ∧ o.rtol < b.size E' / n0) ∧
        (b.constrained = true → z' = z)
  | 0, _, _, _, _, _, _, _, h => by cases h
  | n + 1, u, z, E, u', z', E', hE, h => by
    rw [Problem.iterate] at h
    by_cases c : o.atol < b.size E ∧ o.rtol < b.size E / n0
    · rw [if_pos c] at h
      cases hn : b.next u z E with
      | error e => rw [hn] at h; cases h
      | ok x =>
        obtain ⟨u1, z1⟩ := x
        rw [hn] at h
        cases hr : b.rj k u1 z1 T pl pr t with
        | none => simp only [hr] at h; cases h
        | some E1 =>
          simp only [hr] at h
          have ih := iterate_spec b k o T pl pr t n0 n u1 z1 E1 u' z' E' hr h
          exact ⟨ih.1, ih.2.1, fun hc => (ih.2.2 hc).trans (next_ez hc hn)⟩
    · rw [if_neg c] at h
      injection h with h
      injection h with h1 h
      injection h with h2 h3
      subst h1 h2 h3
      exact ⟨hE, c, fun _ => rfl⟩

/-- The residual of the guess of a step. -/
noncomputable def guessSize (b : Problem m g H) (k : Log m g H) (o : Opts) (t : ℝ) : ℝ :=
  match b.rj k (guess (fun x => o.predict • x) k.displacements)
    (if b.constrained then 0 else guess (fun x => o.predict * x) k.axialstrain)
    (fun j => b.T (b.wall.node j) t) (b.p t) (b.pext t) t with
  | none => 0
  | some E => b.size E

theorem size_nonneg (b : Problem m g H) (E : Eval m g H) : 0 ≤ b.size E := by
  unfold Problem.size norm2
  split_ifs <;> exact Real.sqrt_nonneg _

theorem accepted_raw (b : Problem m g H) (k : Log m g H) (o : Opts) (t : ℝ) (r : Row m g H)
    (h : b.takeStep k o t = .ok r) :
    Belongs b k t r ∧ (0 ≤ o.atol → misfit b r.stresses r.pl r.pr ≤ o.atol ∨
      misfit b r.stresses r.pl r.pr ≤ o.rtol * guessSize b k o t) := by
  unfold Problem.takeStep at h
  unfold guessSize
  simp only at h
  cases h0 : b.rj k (guess (fun x => o.predict • x) k.displacements)
      (if b.constrained then 0 else guess (fun x => o.predict * x) k.axialstrain)
      (fun j => b.T (b.wall.node j) t) (b.p t) (b.pext t) t with
  | none => rw [h0] at h; cases h
  | some E0 =>
    simp only [h0] at h
    cases hi : b.iterate k o (fun j => b.T (b.wall.node j) t) (b.p t) (b.pext t) t (b.size E0) o.ilimit
        (guess (fun x => o.predict • x) k.displacements)
        (if b.constrained then 0 else guess (fun x => o.predict * x) k.axialstrain) E0 with
    | error e => rw [hi] at h; cases h
    | ok x =>
      obtain ⟨u, z, E⟩ := x
      rw [hi] at h
      injection h with h
      have hs := iterate_spec b k o _ _ _ t _ _ _ _ _ _ _ _ h0 hi
      obtain ⟨out, ho, hE⟩ := rj_spec hs.1
      have hsize : b.size E = misfit b E.stresses (b.p t) (b.pext t) := by
        rw [hE]; rfl
      have hsmall : 0 ≤ o.atol → b.size E ≤ o.atol ∨ b.size E ≤ o.rtol * b.size E0 := by
        intro ha
        rcases (size_nonneg b E0).eq_or_lt with hz | hz
        · left
          have : E = E0 := by
            cases hl : o.ilimit with
            | zero => rw [hl] at hi; cases hi
            | succ n =>
              rw [hl, Problem.iterate, if_neg (fun c => by rw [← hz] at c; exact absurd c.1 (not_lt.2 ha))] at hi
              injection hi with hi
              injection hi with _ hi
              injection hi with _ hi
              exact hi.symm
          rw [this, ← hz]
          exact ha
        · rw [← div_le_iff₀ hz]
          by_contra hc
          push Not at hc
          exact hs.2.1 hc
      rw [hsize] at hsmall
      subst h
      refine ⟨⟨rfl, rfl, rfl, ?_, ?_, ?_, ?_, ?_⟩, hsmall⟩
      · intro e i; rw [hE]; exact strain_eq _ _ _ _ _
      · intro e i
        rw [hE]
        show b.thermal k _ e i = _
        rw [Problem.thermal, N_dot, N_dot]
      · intro e i; rw [hE]
      · intro e i
        refine ⟨out e i, ?_, ?_, ?_, ?_⟩
        · rw [← ho e i, hE, Problem.call, N_dot, N_dot]
        · rw [hE]
        · rw [hE]
        · rw [hE]
          show b.el e _ (b.wall.N i ⬝ᵥ _) _ = _
          rw [N_dot]
      · intro hc
        have := hs.2.2 hc
        rw [if_pos hc] at this
        exact this

/-- **C138.** A step that is accepted returns a state that belongs to the time asked for. -/
theorem C138_belongs (b : Problem m g H) (k : Log m g H) (o : Opts) (t : ℝ) (r : Row m g H)
    (h : b.takeStep k o t = .ok r) : Belongs b k t r := (accepted_raw b k o t r h).1

/-- **C138.** A step that is accepted has a residual that is within the absolute tolerance, or within the relative tolerance
of that of the guess. -/
theorem C138_accepted (b : Problem m g H) (k : Log m g H) (o : Opts) (ha : 0 ≤ o.atol) (t : ℝ) (r : Row m g H)
    (h : b.takeStep k o t = .ok r) : misfit b r.stresses r.pl r.pr ≤ o.atol ∨
      misfit b r.stresses r.pl r.pr ≤ o.rtol * guessSize b k o t := (accepted_raw b k o t r h).2 ha

/-- **C138, disagreement.** The last iteration allowed is never accepted: with a limit of one iteration a step is taken only
if the guess is within the tolerances; with a limit of zero no step is taken at all. -/
theorem C138_limit_disagreement (b : Problem m g H) (k : Log m g H) (o : Opts) (t : ℝ) :
    (o.ilimit = 0 → ∀ r, b.takeStep k o t ≠ .ok r) ∧
      (o.ilimit = 1 → o.atol < guessSize b k o t → o.rtol < 1 → 0 ≤ o.atol → ∀ r, b.takeStep k o t ≠ .ok r) := by
  unfold Problem.takeStep guessSize
  constructor
  · intro h r
    rw [h]
    cases h0 : b.rj k (guess (fun x => o.predict • x) k.displacements)
      (if b.constrained then 0 else guess (fun x => o.predict * x) k.axialstrain)
      (fun j => b.T (b.wall.node j) t) (b.p t) (b.pext t) t with
    | none => simp only [h0]; intro h; cases h
    | some E0 => simp only [h0, Problem.iterate]; intro h; cases h
  · intro h ha hr h00 r
    rw [h]
    cases h0 : b.rj k (guess (fun x => o.predict • x) k.displacements)
      (if b.constrained then 0 else guess (fun x => o.predict * x) k.axialstrain)
      (fun j => b.T (b.wall.node j) t) (b.p t) (b.pext t) t with
    | none => simp only [h0]; intro h; cases h
    | some E0 =>
      simp only [h0] at ha ⊢
      have hpos : 0 < b.size E0 := h00.trans_lt ha
      have c : o.atol < b.size E0 ∧ o.rtol < b.size E0 / b.size E0 := ⟨ha, by rwa [div_self hpos.ne']⟩
      simp only [Problem.iterate, if_pos c]
      cases b.next (guess (fun x => o.predict • x) k.displacements)
          (if b.constrained then 0 else guess (fun x => o.predict * x) k.axialstrain) E0 with
      | error e => intro h; cases h
      | ok x =>
        simp only
        cases b.rj k x.1 x.2 (fun j => b.T (b.wall.node j) t) (b.p t) (b.pext t) t with
        | none => intro h; cases h
        | some E => intro h; cases h

/-! ## The records -/

/-- All series have `n` entries. -/
structure Aligned (k : Log m g H) (n : ℕ) : Prop where
  times : size k.times = n
  pressures : size k.pressures = n
  externals : size k.externals = n
  temperatures : size k.temperatures = n
  strains : size k.strains = n
  tstrains : size k.tstrains = n
  mstrains : size k.mstrains = n
  estrains : size k.estrains = n
  stresses : size k.stresses = n
  histories : size k.histories = n
  displacements : size k.displacements = n
  axialstrain : size k.axialstrain = n

theorem Aligned.push {k : Log m g H} {n : ℕ} (h : Aligned k n) (t : ℝ) (r : Row m g H) : Aligned (k.push t r) (n + 1) := by
  obtain ⟨h1, h2, h3, h4, h5, h6, h7, h8, h9, h10, h11, h12⟩ := h
  constructor <;> simp only [Log.push, size, Series.push, List.length_cons] at * <;> omega

theorem cut_self {α : Type} (s : Series α) : cut (size s) s = s := by
  simp [cut]

theorem cut_push {α : Type} (s : Series α) (a : α) (n : ℕ) (h : n ≤ size s) (hn : 0 < n) :
    cut n (s.push a) = cut n s := by
  unfold cut
  have e : size (s.push a) - n = (size s - n) + 1 := by
    simp only [size, Series.push, List.length_cons] at *; omega
  rw [e]
  show (match List.drop (size s - n + 1) (a :: s.last :: s.before) with
    | [] => s.push a
    | a :: l => ⟨a, l⟩) = _
  rw [List.drop_succ_cons]
  cases hd : List.drop (size s - n) (s.last :: s.before) with
  | nil =>
    rw [List.drop_eq_nil_iff] at hd
    simp only [size, List.length_cons] at *
    omega
  | cons a l => rfl

theorem cut_of_size {α : Type} {s : Series α} {n : ℕ} (h : size s = n) : cut n s = s := h ▸ cut_self s

theorem Aligned.cut_self {k : Log m g H} {n : ℕ} (h : Aligned k n) : k.cut n = k := by
  simp only [Log.cut, cut_of_size h.times, cut_of_size h.pressures, cut_of_size h.externals, cut_of_size
    h.temperatures, cut_of_size h.strains, cut_of_size h.tstrains, cut_of_size h.mstrains, cut_of_size h.estrains,
    cut_of_size h.stresses, cut_of_size h.histories, cut_of_size h.displacements, cut_of_size h.axialstrain]

theorem Aligned.cut_push {k : Log m g H} {j n : ℕ} (h : Aligned k j) (hn : 0 < n) (hj : n ≤ j) (t : ℝ) (r : Row m g H) :
    (k.push t r).cut n = k.cut n := by
  have e0 := Axisym.cut_push k.times t n (by rw [h.times]; exact hj) hn
  have e1 := Axisym.cut_push k.pressures r.pl n (by rw [h.pressures]; exact hj) hn
  have e2 := Axisym.cut_push k.externals r.pr n (by rw [h.externals]; exact hj) hn
  have e3 := Axisym.cut_push k.temperatures r.T n (by rw [h.temperatures]; exact hj) hn
  have e4 := Axisym.cut_push k.strains r.strains n (by rw [h.strains]; exact hj) hn
  have e5 := Axisym.cut_push k.tstrains r.tstrains n (by rw [h.tstrains]; exact hj) hn
  have e6 := Axisym.cut_push k.mstrains r.mstrains n (by rw [h.mstrains]; exact hj) hn
  have e7 := Axisym.cut_push k.estrains r.estrains n (by rw [h.estrains]; exact hj) hn
  have e8 := Axisym.cut_push k.stresses r.stresses n (by rw [h.stresses]; exact hj) hn
  have e9 := Axisym.cut_push k.histories r.histories n (by rw [h.histories]; exact hj) hn
  have e10 := Axisym.cut_push k.displacements r.u n (by rw [h.displacements]; exact hj) hn
  have e11 := Axisym.cut_push k.axialstrain r.ez n (by rw [h.axialstrain]; exact hj) hn
  simp only [Log.cut, Log.push, e0, e1, e2, e3, e4, e5, e6, e7, e8, e9, e10, e11]

theorem closed_eq (k : Log m g H) (t : ℝ) (r : Row m g H) (n : ℕ) :
    (k.push t r).closed n = ((k.push t r).cut n).push t r := rfl

theorem start_aligned (b : Problem m g H) : Aligned b.start 1 := by
  constructor <;> rfl

/-- The records `k` after some substeps of a step to the time `t`, from the records `k0`. -/
inductive Grown (b : Problem m g H) (o : Opts) (t : ℝ) (k0 : Log m g H) : Log m g H → Prop
  | start : Grown b o t k0 k0
  | push {k : Log m g H} {r : Row m g H} {τ : ℝ} : Grown b o t k0 k → b.takeStep k o τ = .ok r →
      Grown b o t k0 (k.push t r)

theorem Grown.aligned {b : Problem m g H} {o : Opts} {t : ℝ} {k0 k : Log m g H} {n : ℕ} (h0 : Aligned k0 n)
    (h : Grown b o t k0 k) : ∃ j, n ≤ j ∧ Aligned k j := by
  induction h with
  | start => exact ⟨n, le_rfl, h0⟩
  | push _ _ ih =>
    obtain ⟨j, hj, a⟩ := ih
    exact ⟨j + 1, by omega, a.push _ _⟩

theorem Grown.cut {b : Problem m g H} {o : Opts} {t : ℝ} {k0 k : Log m g H} {n : ℕ} (h0 : Aligned k0 n) (hn : 0 < n)
    (h : Grown b o t k0 k) : k.cut n = k0 := by
  induction h with
  | start => exact h0.cut_self
  | push h _ ih =>
    obtain ⟨j, hj, a⟩ := h.aligned h0
    rw [a.cut_push hn hj, ih]

/-- What a step from the records `k0` can end with. -/
def Ends (b : Problem m g H) (o : Opts) (t dt : ℝ) (k0 : Log m g H) : Res m g H → Prop
  | .ok k => ∃ k1 r, Grown b o t k0 k1 ∧ b.takeStep k1 o (k1.times.last + dt) = .ok r ∧ k = k0.push t r
  | .raised .runtime k => k = k0
  | .raised _ k => Grown b o t k0 k
  | .running => True

theorem substeps_ends (b : Problem m g H) (o : Opts) (t dt : ℝ) (k0 : Log m g H) (n : ℕ) (h0 : Aligned k0 n) (hn : 0 < n)
    (hd : 0 < o.div ^ o.maxDiv) : ∀ (fuel : ℕ) (k : Log m g H) (cstep sstep cdiv : ℕ),
      ((cstep = 0 ∧ k = k0) ∨ ∃ k1 r, Grown b o t k0 k1 ∧
        b.takeStep k1 o (k1.times.last + dt * (cstep : ℕ) / (o.div ^ o.maxDiv : ℕ)) = .ok r ∧ k = k1.push t r) →
      Ends b o t dt k0 (b.substeps o t dt n fuel k cstep sstep cdiv)
  | 0, _, _, _, _, _ => trivial
  | fuel + 1, k, cstep, sstep, cdiv, hk => by
    have hg : Grown b o t k0 k := by
      rcases hk with ⟨_, rfl⟩ | ⟨k1, r, h1, h2, rfl⟩
      · exact .start
      · exact .push h1 h2
    rw [Problem.substeps]
    by_cases hc : cstep = o.div ^ o.maxDiv
    · rw [if_pos hc]
      rcases hk with ⟨h, _⟩ | ⟨k1, r, h1, h2, rfl⟩
      · omega
      · have e : dt * ((cstep : ℕ) : ℝ) / ((o.div ^ o.maxDiv : ℕ) : ℝ) = dt := by
          rw [hc, mul_div_assoc, div_self (by exact_mod_cast hd.ne'), mul_one]
        rw [e] at h2
        refine ⟨k1, r, h1, h2, ?_⟩
        rw [closed_eq, hg.cut h0 hn]
    · rw [if_neg hc]
      cases hs : b.takeStep k o (k.times.last + dt * (cstep + sstep : ℕ) / (o.div ^ o.maxDiv : ℕ)) with
      | ok r =>
        exact substeps_ends b o t dt k0 n h0 hn hd fuel _ _ _ _ (Or.inr ⟨k, r, hg, hs, rfl⟩)
      | error e =>
        cases e with
        | runtime =>
          simp only
          by_cases hm : o.maxDiv < cdiv + 1
          · rw [if_pos hm]
            exact hg.cut h0 hn
          · rw [if_neg hm]
            exact substeps_ends b o t dt k0 n h0 hn hd fuel _ _ _ _ hk
        | other => exact hg
        | nan => exact hg

theorem step_ends (b : Problem m g H) (o : Opts) (hd : 0 < o.div) (fuel : ℕ) (k : Log m g H) (n : ℕ) (h0 : Aligned k n)
    (t : ℝ) : Ends b o t (t - k.times.last) k (b.step o fuel k t) := by
  have hn : 0 < n := by rw [← h0.times]; exact Nat.succ_pos _
  unfold Problem.step
  rw [h0.times]
  exact substeps_ends b o t _ k n h0 hn (Nat.pow_pos hd) fuel k 0 _ 0 (Or.inl ⟨rfl, rfl⟩)

/-- **C138.** A step that raises a `RuntimeError` leaves all the records as they were. -/
theorem C138_restores (b : Problem m g H) (o : Opts) (hd : 0 < o.div) (fuel : ℕ) (k k' : Log m g H) (n : ℕ)
    (h0 : Aligned k n) (t : ℝ) (h : b.step o fuel k t = .raised .runtime k') : k' = k := by
  have := step_ends b o hd fuel k n h0 t
  rw [h] at this
  exact this

/-- **C138.** A step that returns adds one entry to each of the records, with the time asked for. -/
theorem C138_row (b : Problem m g H) (o : Opts) (hd : 0 < o.div) (fuel : ℕ) (k k' : Log m g H) (n : ℕ)
    (h0 : Aligned k n) (t : ℝ) (h : b.step o fuel k t = .ok k') :
    (∃ r, k' = k.push t r) ∧ Aligned k' (n + 1) := by
  have := step_ends b o hd fuel k n h0 t
  rw [h] at this
  obtain ⟨k1, r, _, _, rfl⟩ := this
  exact ⟨⟨r, rfl⟩, h0.push _ _⟩

/-- **C138.** A step that needs no substeps: the row is that of the time asked for. Missing for the others: substeps, see
below. -/
theorem C138_direct_partial (b : Problem m g H) (o : Opts) (hd : 0 < o.div) (fuel : ℕ) (k : Log m g H) (n : ℕ)
    (h0 : Aligned k n) (t : ℝ) (r : Row m g H) (h : b.takeStep k o t = .ok r) :
    b.step o (fuel + 2) k t = .ok (k.push t r) ∧ Belongs b k t r := by
  have hn : 0 < n := by rw [← h0.times]; exact Nat.succ_pos _
  have hp : 0 < o.div ^ o.maxDiv := Nat.pow_pos hd
  refine ⟨?_, C138_belongs b k o t r h⟩
  unfold Problem.step
  rw [Problem.substeps, if_neg (by omega)]
  have e : k.times.last + (t - k.times.last) * ((0 + o.div ^ o.maxDiv : ℕ) : ℝ) / ((o.div ^ o.maxDiv : ℕ) : ℝ) = t := by
    have : ((o.div ^ o.maxDiv : ℕ) : ℝ) ≠ 0 := by exact_mod_cast hp.ne'
    rw [zero_add, mul_div_assoc, div_self this]
    ring
  rw [e, h]
  simp only
  rw [Problem.substeps, if_pos (by omega), closed_eq, h0.times, (Grown.push .start h : Grown b o t k _).cut h0 hn]

theorem Grown.time {b : Problem m g H} {o : Opts} {t : ℝ} {k0 k : Log m g H} (h : Grown b o t k0 k) :
    k = k0 ∨ k.times.last = t := by
  cases h with
  | start => exact Or.inl rfl
  | push _ _ => exact Or.inr rfl

/-- **C138, disagreement.** The row that is recorded for the time `t` is that of the time `t` only if there were no substeps.
With substeps it is that of a later time: the time `t` and once more the increment. -/
theorem C138_time_disagreement (b : Problem m g H) (o : Opts) (hd : 0 < o.div) (fuel : ℕ) (k k' : Log m g H) (n : ℕ)
    (h0 : Aligned k n) (t : ℝ) (h : b.step o fuel k t = .ok k') : ∃ r, k' = k.push t r ∧
      (Belongs b k t r ∨ ∃ k1, Belongs b k1 (t + (t - k.times.last)) r) := by
  have := step_ends b o hd fuel k n h0 t
  rw [h] at this
  obtain ⟨k1, r, hg, hs, rfl⟩ := this
  refine ⟨r, rfl, ?_⟩
  have ha := C138_belongs b k1 o _ r hs
  rcases hg.time with rfl | e
  · left
    rwa [add_sub_cancel] at ha
  · right
    rw [e] at ha
    exact ⟨k1, ha⟩

theorem half_eq (t0 t : ℝ) (n : ℕ) (hn : 0 < n) :
    t0 + (t - t0) * ((0 + 2 ^ n / 2 : ℕ) : ℝ) / ((2 ^ n : ℕ) : ℝ) = (t0 + t) / 2 := by
  obtain ⟨j, rfl⟩ : ∃ j, n = j + 1 := ⟨n - 1, by omega⟩
  rw [pow_succ, Nat.mul_div_cancel _ (by norm_num), zero_add]
  push_cast
  field_simp
  ring

/-- **C138, disagreement.** A step to the time `t` that fails is taken in two parts with the standard options: the first one to
the middle, but the second one to a time beyond `t`; what is recorded for the time `t` are its pressures, temperatures and
stresses. -/
theorem C138_substeps_disagreement (b : Problem m g H) (o : Opts) (hdiv : o.div = 2) (hmax : 0 < o.maxDiv) (fuel : ℕ)
    (k : Log m g H) (n : ℕ) (h0 : Aligned k n) (t : ℝ) (r1 r2 : Row m g H)
    (h1 : b.takeStep k o t = .error .runtime) (h2 : b.takeStep k o ((k.times.last + t) / 2) = .ok r1)
    (h3 : b.takeStep (k.push t r1) o (t + (t - k.times.last)) = .ok r2) :
    ∃ k', b.step o (fuel + 4) k t = .ok k' ∧ k'.times.last = t ∧
      k'.pressures.last = b.p (t + (t - k.times.last)) ∧
      k'.temperatures.last = (fun j => b.T (b.wall.node j) (t + (t - k.times.last))) ∧
      k'.stresses.last = r2.stresses := by
  have hn : 0 < n := by rw [← h0.times]; exact Nat.succ_pos _
  have hp : 0 < 2 ^ o.maxDiv := Nat.pow_pos (by norm_num)
  have hpr : ((2 ^ o.maxDiv : ℕ) : ℝ) ≠ 0 := by exact_mod_cast hp.ne'
  have hb := C138_belongs b _ o _ r2 h3
  have hg : Grown b o t k (k.push t r1) := .push .start h2
  refine ⟨k.push t r2, ?_, rfl, hb.pl, hb.T, rfl⟩
  have hh : 2 ^ o.maxDiv / 2 + 2 ^ o.maxDiv / 2 = 2 ^ o.maxDiv := by
    obtain ⟨j, hj⟩ : ∃ j, o.maxDiv = j + 1 := ⟨o.maxDiv - 1, by omega⟩
    rw [hj, pow_succ, Nat.mul_div_cancel _ (by norm_num)]
    ring
  unfold Problem.step
  rw [Problem.substeps, hdiv, if_neg (by omega)]
  have e : k.times.last + (t - k.times.last) * ((0 + 2 ^ o.maxDiv : ℕ) : ℝ) / ((2 ^ o.maxDiv : ℕ) : ℝ) = t := by
    rw [zero_add, mul_div_assoc, div_self hpr]
    ring
  rw [e, h1]
  simp only
  rw [if_neg (by omega), Problem.substeps, hdiv, if_neg (by omega), half_eq _ _ _ hmax, h2]
  simp only
  rw [Problem.substeps, hdiv, if_neg (by omega)]
  have e3 : (k.push t r1).times.last + (t - k.times.last) *
      ((0 + 2 ^ o.maxDiv / 2 + 2 ^ o.maxDiv / 2 : ℕ) : ℝ) / ((2 ^ o.maxDiv : ℕ) : ℝ) = t + (t - k.times.last) := by
    rw [zero_add, hh, mul_div_assoc, div_self hpr, mul_one]
    rfl
  rw [e3, h3]
  simp only
  rw [Problem.substeps, hdiv, if_pos (by omega), closed_eq, h0.times, (Grown.push hg h3 : Grown b o t k _).cut h0 hn]

/-- **C138, disagreement.** Another exception in the second part of a step (those of the materials are others once the module
with their names has been imported) leaves an entry of the first part in the records, with the time `t`. -/
theorem C138_other_disagreement (b : Problem m g H) (o : Opts) (hdiv : o.div = 2) (hmax : 0 < o.maxDiv) (fuel : ℕ)
    (k : Log m g H) (t : ℝ) (r1 : Row m g H)
    (h1 : b.takeStep k o t = .error .runtime) (h2 : b.takeStep k o ((k.times.last + t) / 2) = .ok r1)
    (h3 : b.takeStep (k.push t r1) o (t + (t - k.times.last)) = .error .other) :
    b.step o (fuel + 3) k t = .raised .other (k.push t r1) := by
  have hp : 0 < 2 ^ o.maxDiv := Nat.pow_pos (by norm_num)
  have hpr : ((2 ^ o.maxDiv : ℕ) : ℝ) ≠ 0 := by exact_mod_cast hp.ne'
  have hh : 2 ^ o.maxDiv / 2 + 2 ^ o.maxDiv / 2 = 2 ^ o.maxDiv := by
    obtain ⟨j, hj⟩ : ∃ j, o.maxDiv = j + 1 := ⟨o.maxDiv - 1, by omega⟩
    rw [hj, pow_succ, Nat.mul_div_cancel _ (by norm_num)]
    ring
  unfold Problem.step
  rw [Problem.substeps, hdiv, if_neg (by omega)]
  have e : k.times.last + (t - k.times.last) * ((0 + 2 ^ o.maxDiv : ℕ) : ℝ) / ((2 ^ o.maxDiv : ℕ) : ℝ) = t := by
    rw [zero_add, mul_div_assoc, div_self hpr]
    ring
  rw [e, h1]
  simp only
  rw [if_neg (by omega), Problem.substeps, hdiv, if_neg (by omega), half_eq _ _ _ hmax, h2]
  simp only
  rw [Problem.substeps, hdiv, if_neg (by omega)]
  have e3 : (k.push t r1).times.last + (t - k.times.last) *
      ((0 + 2 ^ o.maxDiv / 2 + 2 ^ o.maxDiv / 2 : ℕ) : ℝ) / ((2 ^ o.maxDiv : ℕ) : ℝ) = t + (t - k.times.last) := by
    rw [zero_add, hh, mul_div_assoc, div_self hpr, mul_one]
    rfl
  rw [e3, h3]

/-! ## Every step ends -/

theorem substeps_ends_some (b : Problem m g H) (o : Opts) (hd : 0 < o.div) (t dt : ℝ) (n : ℕ) :
    ∀ (fuel : ℕ) (k : Log m g H) (cstep sstep cdiv : ℕ), cdiv ≤ o.maxDiv → sstep = o.div ^ (o.maxDiv - cdiv) →
      sstep ∣ cstep → cstep ≤ o.div ^ o.maxDiv → (o.div ^ o.maxDiv - cstep) + (o.maxDiv - cdiv) < fuel →
      b.substeps o t dt n fuel k cstep sstep cdiv ≠ .running
  | 0, _, _, _, _, _, _, _, _, h => absurd h (Nat.not_lt_zero _)
  | fuel + 1, k, cstep, sstep, cdiv, hc, hs, hdvd, hle, hf => by
    rw [Problem.substeps]
    by_cases he : cstep = o.div ^ o.maxDiv
    · rw [if_pos he]; intro h; cases h
    rw [if_neg he]
    have hpos : 0 < sstep := by rw [hs]; exact Nat.pow_pos hd
    have hi : sstep ∣ o.div ^ o.maxDiv := by rw [hs]; exact Nat.pow_dvd_pow _ (Nat.sub_le _ _)
    have hlt : cstep < o.div ^ o.maxDiv := lt_of_le_of_ne hle he
    have hadd : cstep + sstep ≤ o.div ^ o.maxDiv := by
      obtain ⟨x, hx⟩ := hdvd
      obtain ⟨y, hy⟩ := hi
      rw [hy, hx] at hlt ⊢
      have : x < y := Nat.lt_of_mul_lt_mul_left hlt
      calc sstep * x + sstep = sstep * (x + 1) := by ring
        _ ≤ sstep * y := Nat.mul_le_mul_left _ this
    cases b.takeStep k o (k.times.last + dt * (cstep + sstep : ℕ) / (o.div ^ o.maxDiv : ℕ)) with
    | ok r =>
      exact substeps_ends_some b o hd t dt n fuel _ _ _ _ hc hs (Nat.dvd_add hdvd dvd_rfl) hadd (by omega)
    | error e =>
      cases e with
      | runtime =>
        simp only
        by_cases hm : o.maxDiv < cdiv + 1
        · rw [if_pos hm]; intro h; cases h
        · rw [if_neg hm]
          have e1 : sstep = o.div * o.div ^ (o.maxDiv - (cdiv + 1)) := by
            rw [hs, ← pow_succ']; congr 1; omega
          have e2 : sstep / o.div = o.div ^ (o.maxDiv - (cdiv + 1)) := by
            rw [e1, Nat.mul_div_cancel_left _ hd]
          refine substeps_ends_some b o hd t dt n fuel _ _ _ _ (by omega) e2 ?_ hle (by omega)
          rw [e2]
          exact (Dvd.intro_left _ e1.symm).trans hdvd
      | other => intro h; cases h
      | nan => intro h; cases h

/-- **C138.** Every step ends, after at most `div ^ max_div` substeps and `max_div` divisions. -/
theorem C138_ends (b : Problem m g H) (o : Opts) (hd : 0 < o.div) (k : Log m g H) (t : ℝ) :
    b.step o (o.div ^ o.maxDiv + o.maxDiv + 1) k t ≠ .running :=
  substeps_ends_some b o hd t _ _ _ k 0 _ 0 (Nat.zero_le _) rfl (dvd_zero _) (Nat.zero_le _) (by omega)

/-! ## Histories -/

/-- The records that can be reached from a new problem with steps that return or that raise a `RuntimeError`. -/
inductive Reach (b : Problem m g H) (o : Opts) : Log m g H → Prop
  | start : Reach b o b.start
  | step {k k' : Log m g H} {fuel : ℕ} {t : ℝ} : Reach b o k → b.step o fuel k t = .ok k' → Reach b o k'
  | raised {k k' : Log m g H} {fuel : ℕ} {t : ℝ} : Reach b o k → b.step o fuel k t = .raised .runtime k' → Reach b o k'

/-- Records that are those of a new problem and rows with a property. -/
inductive Made (b : Problem m g H) (P : Row m g H → Prop) : Log m g H → Prop
  | start : Made b P b.start
  | push {k : Log m g H} {t : ℝ} {r : Row m g H} : Made b P k → P r → Made b P (k.push t r)

/-- What holds for every row: the strains are those of the displacements, and are the sum of the mechanical and the thermal
strains; a constrained wall has no axial strain; the thermal strains are isotropic. -/
structure RowOk (b : Problem m g H) (r : Row m g H) : Prop where
  strain : ∀ e i, r.strains e i = ![slope b.wall r.u e i, value b.wall r.u e i / value b.wall b.wall.node e i, r.ez, 0, 0, 0]
  sum : ∀ e i, r.strains e i = r.mstrains e i + r.tstrains e i
  fixed : b.constrained = true → r.ez = 0

theorem Reach.aligned {b : Problem m g H} {o : Opts} (hd : 0 < o.div) {k : Log m g H} (h : Reach b o k) :
    ∃ n, Aligned k n := by
  induction h with
  | start => exact ⟨1, start_aligned b⟩
  | step h hs ih =>
    obtain ⟨n, hn⟩ := ih
    exact ⟨n + 1, (C138_row b o hd _ _ _ n hn _ hs).2⟩
  | raised h hs ih =>
    obtain ⟨n, hn⟩ := ih
    rw [C138_restores b o hd _ _ _ n hn _ hs]
    exact ⟨n, hn⟩

/-- The last entries of the records. -/
def Log.row (k : Log m g H) : Row m g H :=
  ⟨k.pressures.last, k.externals.last, k.temperatures.last, k.strains.last, k.tstrains.last, k.mstrains.last,
    k.estrains.last, k.stresses.last, k.histories.last, k.displacements.last, k.axialstrain.last⟩

/-- The last row has the property, if there is one besides that of the new problem. -/
theorem Made.row {b : Problem m g H} {P : Row m g H → Prop} {k : Log m g H} (h : Made b P k) (hk : 1 < size k.times) :
    P k.row := by
  cases h with
  | start => exact absurd hk (lt_irrefl _)
  | push _ hp => exact hp

/-- A property of rows that steps hand on holds for all rows of all histories. -/
theorem Reach.made_inv {b : Problem m g H} {o : Opts} (hd : 0 < o.div) (P Q : Row m g H → Prop)
    (h0 : P b.start.row) (hP : ∀ k τ r, P k.row → b.takeStep k o τ = .ok r → P r ∧ Q r) {k : Log m g H}
    (h : Reach b o k) : P k.row ∧ Made b Q k := by
  induction h with
  | start => exact ⟨h0, .start⟩
  | @step k k' fuel t h hs ih =>
    obtain ⟨n, hn⟩ := h.aligned hd
    have := step_ends b o hd fuel k n hn t
    rw [hs] at this
    obtain ⟨k1, r, hg, h2, rfl⟩ := this
    have hk1 : P k1.row := by
      clear h2
      induction hg with
      | start => exact ih.1
      | push _ h3 ih' => exact (hP _ _ _ ih' h3).1
    have := hP _ _ _ hk1 h2
    exact ⟨this.1, .push ih.2 this.2⟩
  | @raised k k' fuel t h hs ih =>
    obtain ⟨n, hn⟩ := h.aligned hd
    rw [C138_restores b o hd _ _ _ n hn _ hs]
    exact ih

theorem Reach.made {b : Problem m g H} {o : Opts} (hd : 0 < o.div) (P : Row m g H → Prop)
    (hP : ∀ k τ r, b.takeStep k o τ = .ok r → P r) {k : Log m g H} (h : Reach b o k) : Made b P k := by
  induction h with
  | start => exact .start
  | @step k k' fuel t h hs ih =>
    obtain ⟨n, hn⟩ := h.aligned hd
    have := step_ends b o hd fuel k n hn t
    rw [hs] at this
    obtain ⟨k1, r, _, h2, rfl⟩ := this
    exact .push ih (hP _ _ _ h2)
  | @raised k k' fuel t h hs ih =>
    obtain ⟨n, hn⟩ := h.aligned hd
    rw [C138_restores b o hd _ _ _ n hn _ hs]
    exact ih

/-- **C138.** All records of all histories fit together: the series have the same length, and in every row the strains are those
of the displacements and the sum of mechanical and thermal strains. -/
theorem C138_rows (b : Problem m g H) (o : Opts) (hd : 0 < o.div) (k : Log m g H) (h : Reach b o k) :
    (∃ n, Aligned k n) ∧ Made b (RowOk b) k := by
  refine ⟨h.aligned hd, h.made hd _ fun k τ r hr => ?_⟩
  have := C138_belongs b k o τ r hr
  exact ⟨this.strain, fun e i => by rw [this.mech]; abel, this.fixed⟩

theorem misfit_nonneg (b : Problem m g H) (s : Field m g (Fin 6 → ℝ)) (pl pr : ℝ) : 0 ≤ misfit b s pl pr := by
  unfold misfit; split_ifs <;> exact Real.sqrt_nonneg _

theorem norm_le_misfit (b : Problem m g H) (s : Field m g (Fin 6 → ℝ)) (pl pr : ℝ) :
    Real.sqrt (∑ j, (b.wall.int1 s j - ext1 pl pr j) ^ 2) ≤ misfit b s pl pr := by
  unfold misfit
  split_ifs
  · exact le_rfl
  · exact Real.sqrt_le_sqrt (le_add_of_nonneg_right (sq_nonneg _))

/-- **C138.** With constant expansion coefficients the thermal strains of every row of every history are those of the change of
temperature from the beginning. -/
theorem C138_thermal (b : Problem m g H) (o : Opts) (hd : 0 < o.div) (α : Fin m → ℝ)
    (hα : ∀ e T, (b.mat e).alpha T = α e) (k : Log m g H) (h : Reach b o k) :
    Made b (fun r => ∀ e i, r.tstrains e i =
      (α e * (value b.wall r.T e i - value b.wall (fun j => b.T (b.wall.node j) 0) e i)) • isoDir) k := by
  refine (h.made_inv hd (fun r => ∀ e i, r.tstrains e i =
    (α e * (value b.wall r.T e i - value b.wall (fun j => b.T (b.wall.node j) 0) e i)) • isoDir) _ ?_ ?_).2
  · intro e i
    show (0 : Fin 6 → ℝ) = (α e * (value b.wall (fun j => b.T (b.wall.node j) 0) e i - _)) • isoDir
    rw [sub_self, mul_zero, zero_smul]
  · intro k τ r hk hs
    refine (fun h => ⟨h, h⟩ : _ → _ ∧ _) fun e i => ?_
    have hb := C138_belongs b k o τ r hs
    have hk' := hk e i
    rw [hb.thermal, show k.tstrains.last e i = k.row.tstrains e i from rfl, hk', hα, ← add_smul]
    congr 1
    show α e * (value b.wall k.temperatures.last e i - _) + _ = _
    ring

/-- **C138.** Hoop equilibrium in every row of every history, with the pressures recorded in the row: the hoop stress
integrated through the wall differs from the load by no more than the absolute tolerance times the size of the radii, if no
relative tolerance is given. -/
theorem C138_hoop (b : Problem m g H) (hw : Sound b.wall) (o : Opts) (hd : 0 < o.div) (hr : o.rtol = 0)
    (ha : 0 ≤ o.atol) (k : Log m g H) (h : Reach b o k) :
    Made b (fun r => |integral b.wall (fun e i => r.stresses e i 1) - (r.pl * b.wall.inner - r.pr * b.wall.outer)| ≤
      o.atol * Real.sqrt (∑ j, b.wall.node j ^ 2)) k := by
  refine h.made hd _ fun k τ r hs => ?_
  have hm : misfit b r.stresses r.pl r.pr ≤ o.atol := by
    rcases C138_accepted b k o ha τ r hs with h | h
    · exact h
    · rw [hr, zero_mul] at h
      exact h.trans ha
  have hv := C136_virtual_work b.wall hw r.stresses r.pl r.pr b.wall.node
  have hi : integral b.wall (fun e i => r.stresses e i 0 * slope b.wall b.wall.node e i +
      (r.stresses e i 1 - r.stresses e i 0) * (value b.wall b.wall.node e i / value b.wall b.wall.node e i)) =
      integral b.wall (fun e i => r.stresses e i 1) := by
    unfold integral
    refine Finset.sum_congr rfl fun e _ => Finset.sum_congr rfl fun i _ => ?_
    beta_reduce
    rw [slope_node b.wall hw, ← rad_eq, div_self (hw.rad_pos e i).ne']
    ring
  rw [hi] at hv
  show |_ - (r.pl * b.wall.node 0 - r.pr * b.wall.node (Fin.last m))| ≤ _
  rw [← hv]
  have cs := Finset.sum_mul_sq_le_sq_mul_sq Finset.univ
    (fun j => b.wall.int1 r.stresses j - ext1 r.pl r.pr j) b.wall.node
  refine (Real.abs_le_sqrt cs).trans ?_
  rw [Real.sqrt_mul (Finset.sum_nonneg fun _ _ => sq_nonneg _)]
  exact mul_le_mul_of_nonneg_right ((norm_le_misfit b _ _ _).trans hm) (Real.sqrt_nonneg _)

end Neml.Axisym
