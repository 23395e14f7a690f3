import Verif.Props.VesselCycle

/-!
# C132: the standard time steps
-/

namespace Neml.Vessel

/-- The times of a loading program that starts at the time `s`: legs, one after the other, each with a duration and a
number of equal steps; a leg of no duration has no steps. -/
noncomputable def program (s : ℝ) : List (ℝ × ℕ) → List ℝ
  | [] => []
  | (d, n) :: L => (if d = 0 then [] else (List.range n).map fun k : ℕ => s + d * ((k + 1 : ℝ) / n)) ++ program (s + d) L

/-- The legs of a cycle: heating, hold, cooling, hold. -/
noncomputable def legs (c : Cycle) (n : Counts) : List (ℝ × ℕ) :=
  [(|c.T2 - c.T1| / c.hot, n.heat), (c.hold, n.hold), (|c.T2 - c.T1| / c.cold, n.cool.getD n.heat),
    (c.together, n.together.getD 0)]

/-- The whole program: the delay and the cycles. -/
noncomputable def plan (c : Cycle) (n : Counts) : List (ℝ × ℕ) :=
  (c.delay, n.delay.getD 0) :: (List.replicate n.cycles (legs c n)).flatten

/-- Every leg of some duration has steps, and what is needed is given. -/
structure Suits (c : Cycle) (n : Counts) : Prop where
  delay0 : 0 ≤ c.delay
  heat : 0 < n.heat
  cool : 0 < n.cool.getD n.heat
  hold : 0 < c.hold → 0 < n.hold
  together : 0 < c.together → 0 < n.together.getD 0
  delay : 0 < c.delay → 0 < n.delay.getD 0

/-- A leg that does not go back, and has steps if it has a duration. -/
def Leg (x : ℝ × ℕ) : Prop := 0 ≤ x.1 ∧ (0 < x.1 → 0 < x.2)

theorem program_append (s : ℝ) (L M : List (ℝ × ℕ)) :
    program s (L ++ M) = program s L ++ program (s + (L.map Prod.fst).sum) M := by
  induction L generalizing s with
  | nil => simp [program]
  | cons x L ih =>
    obtain ⟨d, n⟩ := x
    simp only [List.cons_append, program, ih, List.append_assoc, List.map_cons, List.sum_cons, add_assoc]

/-- One leg ends at its end. -/
theorem leg_last (s d : ℝ) (n : ℕ) (h : Leg (d, n)) :
    (s :: program s [(d, n)]).getLast (by simp) = s + d := by
  by_cases hd : d = 0
  · simp [program, hd]
  · have hn : 0 < n := h.2 (lt_of_le_of_ne h.1 (Ne.symm hd))
    obtain ⟨m, rfl⟩ := Nat.exists_eq_succ_of_ne_zero hn.ne'
    have hm : ((m + 1 : ℕ) : ℝ) ≠ 0 := by positivity
    simp only [program, if_neg hd, List.append_nil, Nat.succ_eq_add_one]
    simp only [List.range_succ, List.map_append, List.map_cons, List.map_nil, ← List.cons_append, List.getLast_append_singleton]
    push_cast at hm ⊢
    rw [div_self hm, mul_one]

theorem getLast_cons_append {a : ℝ} (l m : List ℝ) :
    (a :: (l ++ m)).getLast (by simp) = ((a :: l).getLast (by simp) :: m).getLast (by simp) := by
  cases m with
  | nil => simp
  | cons b m =>
    simp only [← List.cons_append]
    rw [List.getLast_append_of_ne_nil _ (List.cons_ne_nil b m)]
    exact (List.getLast_cons (List.cons_ne_nil b m)).symm

theorem program_last (s : ℝ) (L : List (ℝ × ℕ)) (h : ∀ x ∈ L, Leg x) :
    (s :: program s L).getLast (by simp) = s + (L.map Prod.fst).sum := by
  induction L generalizing s with
  | nil => simp [program]
  | cons x L ih =>
    have e : program s (x :: L) = program s [x] ++ program (s + x.1) L := by
      rw [← List.singleton_append, program_append]; simp
    simp only [e]
    rw [getLast_cons_append]
    simp only [leg_last s x.1 x.2 (h x (by simp))]
    rw [ih _ fun y hy => h y (by simp [hy])]
    simp [add_assoc]

theorem leg_sorted (s d : ℝ) (n : ℕ) (h : Leg (d, n)) : (s :: program s [(d, n)]).Pairwise (· < ·) := by
  by_cases hd : d = 0
  · simp [program, hd]
  · have hd' : 0 < d := lt_of_le_of_ne h.1 (Ne.symm hd)
    have hn : 0 < n := h.2 hd'
    have hn' : (0 : ℝ) < n := by exact_mod_cast hn
    simp only [program, if_neg hd, List.append_nil, List.pairwise_cons, List.mem_map, List.mem_range, List.pairwise_map]
    refine ⟨?_, List.Pairwise.imp ?_ List.pairwise_lt_range⟩
    · rintro _ ⟨k, hk, rfl⟩
      have : 0 < d * ((k + 1 : ℝ) / n) := mul_pos hd' (div_pos (by positivity) hn')
      linarith
    · intro a b hab
      have : (a : ℝ) < b := by exact_mod_cast hab
      have : d * ((a + 1 : ℝ) / n) < d * ((b + 1 : ℝ) / n) :=
        mul_lt_mul_of_pos_left (div_lt_div_of_pos_right (by linarith) hn') hd'
      linarith

theorem sorted_le_last {l : List ℝ} (h : l.Pairwise (· < ·)) (hne : l ≠ []) : ∀ x ∈ l, x ≤ l.getLast hne := by
  induction l with
  | nil => exact fun x hx => absurd hx (by simp)
  | cons a l ih =>
    intro x hx
    rw [List.pairwise_cons] at h
    cases l with
    | nil => simp at hx; simp [hx]
    | cons b l =>
      rw [List.getLast_cons (by simp)]
      rcases List.mem_cons.1 hx with rfl | hx
      · exact (h.1 _ (List.getLast_mem _)).le
      · exact ih h.2 (by simp) x hx

theorem program_sorted (s : ℝ) (L : List (ℝ × ℕ)) (h : ∀ x ∈ L, Leg x) :
    (s :: program s L).Pairwise (· < ·) := by
  induction L generalizing s with
  | nil => simp [program]
  | cons x L ih =>
    have e : program s (x :: L) = program s [x] ++ program (s + x.1) L := by
      rw [← List.singleton_append, program_append]; simp
    rw [e, ← List.cons_append, List.pairwise_append]
    have s1 := leg_sorted s x.1 x.2 (h x (by simp))
    have s2 := ih (s + x.1) fun y hy => h y (by simp [hy])
    rw [List.pairwise_cons] at s2
    refine ⟨s1, s2.2, fun a ha b hb => ?_⟩
    have l1 := sorted_le_last s1 (by simp) a ha
    rw [leg_last s x.1 x.2 (h x (by simp))] at l1
    exact lt_of_le_of_lt l1 (s2.1 b hb)

theorem program_prefix (s : ℝ) (L M : List (ℝ × ℕ)) (h : ∀ x ∈ L, Leg x) :
    s + (L.map Prod.fst).sum ∈ s :: program s (L ++ M) := by
  rw [program_append, ← List.cons_append, ← program_last s L h]
  exact List.mem_append_left _ (List.getLast_mem _)

theorem extend_eq (l : List ℝ) (s d : ℝ) (n : ℕ) (hs : (0 :: l).getLast (by simp) = s) (hd : d ≠ 0) :
    extend 0 l d n = l ++ program s [(d, n)] := by
  simp only [extend, hs, spread, program, if_neg hd, List.append_nil]
  congr 1
  apply List.map_congr_left
  intro k _
  ring

theorem extend_last (l : List ℝ) (s d : ℝ) (n : ℕ) (hs : (0 :: l).getLast (by simp) = s) (h : Leg (d, n)) :
    (0 :: (l ++ program s [(d, n)])).getLast (by simp) = s + d := by
  rw [getLast_cons_append]
  simp only [hs]
  exact leg_last s d n h

theorem extend_if (l : List ℝ) (s d : ℝ) (n : ℕ) (hs : (0 :: l).getLast (by simp) = s) (h : 0 ≤ d) :
    (if 0 < d then extend 0 l d n else l) = l ++ program s [(d, n)] := by
  by_cases hd : 0 < d
  · rw [if_pos hd, extend_eq l s d n hs hd.ne']
  · rw [if_neg hd, le_antisymm (not_lt.1 hd) h]
    simp [program]

section
variable {c : Cycle} {n : Counts} (g : Good c) (u : Suits c n)
include g u

theorem legs_ok : ∀ x ∈ legs c n, Leg x := by
  have p1 := div_pos g.pos g.hot
  have p2 := div_pos g.pos g.cold
  intro x hx
  simp only [legs, List.mem_cons, List.not_mem_nil, or_false] at hx
  rcases hx with rfl | rfl | rfl | rfl
  exacts [⟨p1.le, fun _ => u.heat⟩, ⟨g.hold, u.hold⟩, ⟨p2.le, fun _ => u.cool⟩, ⟨g.together, u.together⟩]

theorem oneCycle_eq (l : List ℝ) (s : ℝ) (hs : (0 :: l).getLast (by simp) = s) :
    oneCycle c n l = l ++ program s (legs c n) := by
  have p1 := div_pos g.pos g.hot
  have p2 := div_pos g.pos g.cold
  have ok := legs_ok g u
  simp only [oneCycle]
  rw [extend_eq l s _ _ hs p1.ne']
  have h1 := extend_last l s _ _ hs (ok _ (by simp [legs]) : Leg (|c.T2 - c.T1| / c.hot, n.heat))
  rw [extend_if _ _ c.hold n.hold h1 g.hold]
  have h2 := extend_last _ _ _ _ h1 (ok _ (by simp [legs]) : Leg (c.hold, n.hold))
  rw [extend_eq _ _ (|c.T2 - c.T1| / c.cold) n.coolN h2 p2.ne']
  have h3 := extend_last _ _ _ _ h2 (ok _ (by simp [legs, Counts.coolN]) : Leg (|c.T2 - c.T1| / c.cold, n.coolN))
  rw [extend_if _ _ c.together _ h3 g.together]
  simp only [legs, program, List.append_assoc, List.append_nil, Counts.coolN]

theorem iterate_eq (m : ℕ) (l : List ℝ) (s : ℝ) (hs : (0 :: l).getLast (by simp) = s) :
    (oneCycle c n)^[m] l = l ++ program s (List.replicate m (legs c n)).flatten := by
  induction m generalizing l s with
  | zero => simp [program]
  | succ m ih =>
    rw [Function.iterate_succ_apply, List.replicate_succ, List.flatten_cons, program_append]
    have e := oneCycle_eq g u l s hs
    have hl : (0 :: oneCycle c n l).getLast (by simp) = s + ((legs c n).map Prod.fst).sum := by
      simp only [e]
      rw [getLast_cons_append]
      simp only [hs]
      exact program_last s _ (legs_ok g u)
    rw [ih _ _ hl, e, List.append_assoc]

/-- **C132.** The time steps are those of the loading program: the delay, and for every cycle the heating, the hold, the
cooling and the hold between the cycles, each with its number of equal steps. -/
theorem C132_program : timesteps c n = some (0 :: program 0 (plan c n)) := by
  have hd : ¬ (c.delay ≠ 0 ∧ n.delay = none) := by
    rintro ⟨h1, h2⟩
    have := u.delay (lt_of_le_of_ne u.delay0 h1.symm)
    simp [h2] at this
  have ht : ¬ (c.together ≠ 0 ∧ n.together = none) := by
    rintro ⟨h1, h2⟩
    have := u.together (lt_of_le_of_ne g.together h1.symm)
    simp [h2] at this
  rw [timesteps, if_neg hd, if_neg ht, if_neg (by rintro (h | h); exacts [g.hot.ne' h, g.cold.ne' h])]
  simp only
  rw [extend_if [] 0 c.delay _ (by simp) u.delay0]
  have h1 := extend_last [] 0 c.delay (n.delay.getD 0) (by simp) ⟨u.delay0, u.delay⟩
  rw [iterate_eq g u _ _ _ h1]
  simp [plan, program]

theorem plan_ok : ∀ x ∈ plan c n, Leg x := by
  intro x hx
  rcases List.mem_cons.1 hx with rfl | hx
  · exact ⟨u.delay0, u.delay⟩
  · obtain ⟨l, hl, hx⟩ := List.mem_flatten.1 hx
    rw [(List.mem_replicate.1 hl).2] at hx
    exact legs_ok g u x hx

omit g u in
theorem sum_replicate (m : ℕ) :
    ((List.replicate m (legs c n)).flatten.map Prod.fst).sum = m * cycleLength c := by
  induction m with
  | zero => simp
  | succ m ih =>
    rw [List.replicate_succ, List.flatten_cons, List.map_append, List.sum_append, ih]
    push_cast
    simp only [legs, cycleLength, List.map_cons, List.map_nil, List.sum_cons, List.sum_nil]
    ring

/-- **C132.** The times increase, from zero to the end of the last cycle. -/
theorem C132_increasing : ∃ l, timesteps c n = some (0 :: l) ∧ (0 :: l).Pairwise (· < ·) ∧
    (0 :: l).getLast (by simp) = c.delay + n.cycles * cycleLength c := by
  refine ⟨_, C132_program g u, program_sorted 0 _ (plan_ok g u), ?_⟩
  rw [program_last 0 _ (plan_ok g u), plan, List.map_cons, List.sum_cons, sum_replicate, zero_add]

/-- **C132.** No kink of the temperature cycle is stepped over: the ends of the delay and, in every cycle, of the heating,
of the hold, of the cooling and of the cycle are among the times. -/
theorem C132_corners (k : ℕ) (hk : k < n.cycles) : ∃ l, timesteps c n = some l ∧
    c.delay + k * cycleLength c ∈ l ∧
    c.delay + k * cycleLength c + |c.T2 - c.T1| / c.hot ∈ l ∧
    c.delay + k * cycleLength c + |c.T2 - c.T1| / c.hot + c.hold ∈ l ∧
    c.delay + k * cycleLength c + |c.T2 - c.T1| / c.hot + c.hold + |c.T2 - c.T1| / c.cold ∈ l ∧
    c.delay + (k + 1) * cycleLength c ∈ l := by
  refine ⟨_, C132_program g u, ?_⟩
  have ok := plan_ok g u
  have split : plan c n = ((c.delay, n.delay.getD 0) :: (List.replicate k (legs c n)).flatten) ++
      (legs c n ++ (List.replicate (n.cycles - k - 1) (legs c n)).flatten) := by
    rw [plan, show n.cycles = k + ((n.cycles - k - 1) + 1) by omega, List.replicate_add, List.flatten_append,
      List.replicate_succ, List.flatten_cons]
    simp
  have key : ∀ P Q, legs c n = P ++ Q →
      c.delay + k * cycleLength c + (P.map Prod.fst).sum ∈ 0 :: program 0 (plan c n) := by
    intro P Q e
    have e' : plan c n = (((c.delay, n.delay.getD 0) :: (List.replicate k (legs c n)).flatten) ++ P) ++
        (Q ++ (List.replicate (n.cycles - k - 1) (legs c n)).flatten) := by
      rw [split]
      conv_lhs => rw [e]
      conv_rhs => rw [e]
      simp
    have := program_prefix 0 (((c.delay, n.delay.getD 0) :: (List.replicate k (legs c n)).flatten) ++ P)
      (Q ++ (List.replicate (n.cycles - k - 1) (legs c n)).flatten)
      (fun x hx => ok x (by rw [e']; exact List.mem_append_left _ hx))
    rw [← e', List.map_append, List.sum_append, List.map_cons, List.sum_cons, sum_replicate, zero_add] at this
    exact this
  refine ⟨?_, ?_, ?_, ?_, ?_⟩
  · simpa using key [] _ rfl
  · simpa [add_assoc] using key [(|c.T2 - c.T1| / c.hot, n.heat)] _ rfl
  · simpa [add_assoc] using key [(|c.T2 - c.T1| / c.hot, n.heat), (c.hold, n.hold)] _ rfl
  · simpa [add_assoc] using key [(|c.T2 - c.T1| / c.hot, n.heat), (c.hold, n.hold),
      (|c.T2 - c.T1| / c.cold, n.cool.getD n.heat)] _ rfl
  · have := key (legs c n) [] (by simp)
    convert this using 1
    simp only [legs, cycleLength, List.map_cons, List.map_nil, List.sum_cons, List.sum_nil]
    ring

/-- **C132.** At the times of the ends of the cycles the temperature functions are back at the initial temperature. -/
theorem C132_matches (k : ℕ) (ri ro r : ℝ) (hr : ri < ro) :
    c.gradient ri ro r (c.delay + k * cycleLength c) = some c.T1 := by
  have := C131_cycle g ri ro r 0 hr k le_rfl g.period_pos
  rwa [add_zero, trapezoid_zero g, mul_zero, mul_zero, add_zero] at this

end

/-- **C132, disagreement.** A negative rate, which the temperature functions take as its size, makes the times go
back. -/
theorem C132_increasing_disagreement (c : Cycle) (n : Counts) (hne : c.T1 ≠ c.T2) (hh : c.hot < 0) (hc : c.cold ≠ 0)
    (hd : c.delay = 0) (ht : c.together = 0) (hn : 0 < n.heat) (hm : 0 < n.cycles) :
    ∃ x l, timesteps c n = some (0 :: x :: l) ∧ x < 0 := by
  have pre : ∀ m l, ∃ l', (oneCycle c n)^[m] l = l ++ l' := by
    intro m
    induction m with
    | zero => exact fun l => ⟨[], by simp⟩
    | succ m ih =>
      intro l
      rw [Function.iterate_succ_apply]
      obtain ⟨l', e⟩ := ih (oneCycle c n l)
      have : ∃ l'', oneCycle c n l = l ++ l'' := by
        simp only [oneCycle]
        split_ifs <;> simp only [extend, List.append_assoc] <;> exact ⟨_, rfl⟩
      obtain ⟨l'', e'⟩ := this
      exact ⟨l'' ++ l', by rw [e, e', List.append_assoc]⟩
  obtain ⟨m, e⟩ := Nat.exists_eq_succ_of_ne_zero hm.ne'
  obtain ⟨q, e2⟩ := Nat.exists_eq_succ_of_ne_zero hn.ne'
  have one : ∃ l', oneCycle c n [] = (0 + ((0 : ℕ) + 1 : ℝ) * (|c.T2 - c.T1| / c.hot / n.heat)) :: l' := by
    simp only [oneCycle, extend, spread, e2, Nat.succ_eq_add_one, List.range_succ_eq_map, List.map_cons,
      List.nil_append, List.getLast_singleton]
    split_ifs <;> exact ⟨_, rfl⟩
  obtain ⟨l', e3⟩ := one
  obtain ⟨l'', e4⟩ := pre m (oneCycle c n [])
  refine ⟨_, _, by
    rw [timesteps, if_neg (by simp [hd]), if_neg (by simp [ht]), if_neg (by rintro (h | h); exacts [hh.ne h, hc h])]
    simp only
    rw [if_neg (by rw [hd]; exact lt_irrefl 0), e, Function.iterate_succ_apply, e4, e3, List.cons_append], ?_⟩
  have hp : 0 < |c.T2 - c.T1| := abs_pos.2 (sub_ne_zero.2 hne.symm)
  have hn' : (0 : ℝ) < n.heat := by exact_mod_cast hn
  have : |c.T2 - c.T1| / c.hot / n.heat < 0 := div_neg_of_neg_of_pos (div_neg_of_pos_of_neg hp hh) hn'
  simpa using this

/-- Beside C132: two cycles with four, two, one and three steps, after a delay. -/
def counts : Counts := ⟨4, 2, some 1, some 3, some 2, 2⟩

theorem counts_suit : Suits sample counts := by
  constructor <;> norm_num [sample, counts]

example : ∃ l, timesteps sample counts = some l ∧ 2 + 1 * cycleLength sample ∈ l := by
  obtain ⟨l, e, h, _⟩ := C132_corners sample_good counts_suit 1 (by norm_num [counts])
  exact ⟨l, e, by simpa [sample] using h⟩

end Neml.Vessel
