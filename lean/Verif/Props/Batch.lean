import Verif.Model.Polycrystal
import Verif.Props.Crystal

/-!
# C65: batches of crystals
-/

namespace Neml.Polycrystal

/-! ## Specification -/

/-- Entry `x` of array `b` belongs to crystal `i`. -/
def Owns (nh i : Nat) (b : Buf) (x : Nat) : Prop := i * b.width nh ≤ x ∧ x < (i + 1) * b.width nh

/-- An operation that changes only entries of crystal `i`, in a way that depends only on them. -/
structure Local (nh i : Nat) (f : Mem → Mem) : Prop where
  keeps : ∀ m b x, ¬ Owns nh i b x → f m b x = m b x
  reads : ∀ m m', (∀ b x, Owns nh i b x → m b x = m' b x) → ∀ b x, Owns nh i b x → f m b x = f m' b x

/-- A job that works on the entries of crystal `i`. -/
structure LocalJob (nh i : Nat) (j : Job) : Prop where
  steps : ∀ f ∈ j.steps, Local nh i f
  ok : ∀ m m', (∀ b x, Owns nh i b x → m b x = m' b x) → j.ok m = j.ok m'

/-- A schedule of `n` jobs: their operations in any interleaving, each job's in its own order. -/
structure Schedule (n : Nat) (job : Nat → Job) (tr : List (Nat × (Mem → Mem))) : Prop where
  range : ∀ e ∈ tr, e.1 < n
  order : ∀ i < n, (tr.filter (·.1 = i)).map Prod.snd = (job i).steps

/-! ## Proofs -/

/-- No entry belongs to two crystals. -/
theorem owns_unique {nh i j : Nat} {b : Buf} {x : Nat} (h1 : Owns nh i b x) (h2 : Owns nh j b x) : i = j := by
  obtain ⟨a1, a2⟩ := h1
  obtain ⟨b1, b2⟩ := h2
  rcases Nat.lt_trichotomy i j with h | h | h
  · have := Nat.mul_le_mul_right (b.width nh) (show i + 1 ≤ j from h)
    omega
  · exact h
  · have := Nat.mul_le_mul_right (b.width nh) (show j + 1 ≤ i from h)
    omega

theorem play_cons (m : Mem) (f : Mem → Mem) (l : List (Mem → Mem)) : play m (f :: l) = play (f m) l := rfl

theorem play_keeps {nh i : Nat} {l : List (Mem → Mem)} (h : ∀ f ∈ l, Local nh i f) (m : Mem) (b : Buf) (x : Nat)
    (hx : ¬ Owns nh i b x) : play m l b x = m b x := by
  induction l generalizing m with
  | nil => rfl
  | cons f l ih =>
    rw [play_cons, ih (fun g hg => h g (List.mem_cons_of_mem _ hg)), (h f List.mem_cons_self).keeps m b x hx]

theorem play_reads {nh i : Nat} {l : List (Mem → Mem)} (h : ∀ f ∈ l, Local nh i f) (m m' : Mem)
    (hm : ∀ b x, Owns nh i b x → m b x = m' b x) (b : Buf) (x : Nat) (hx : Owns nh i b x) :
    play m l b x = play m' l b x := by
  induction l generalizing m m' with
  | nil => exact hm b x hx
  | cons f l ih =>
    rw [play_cons, play_cons]
    exact ih (fun g hg => h g (List.mem_cons_of_mem _ hg)) _ _ ((h f List.mem_cons_self).reads m m' hm)

/-- Whatever else runs in between, a crystal's entries end up as if it had run alone. -/
theorem interleave {nh : Nat} (tr : List (Nat × (Mem → Mem))) (h : ∀ e ∈ tr, Local nh e.1 e.2) (i : Nat) (m m' : Mem)
    (hm : ∀ b x, Owns nh i b x → m b x = m' b x) (b : Buf) (x : Nat) (hx : Owns nh i b x) :
    play m (tr.map Prod.snd) b x = play m' ((tr.filter (·.1 = i)).map Prod.snd) b x := by
  induction tr generalizing m m' with
  | nil => exact hm b x hx
  | cons e tr ih =>
    have ht : ∀ e' ∈ tr, Local nh e'.1 e'.2 := fun e' he => h e' (List.mem_cons_of_mem _ he)
    have he := h e List.mem_cons_self
    rw [List.map_cons, play_cons]
    by_cases hi : e.1 = i
    · rw [List.filter_cons_of_pos (by simpa using hi), List.map_cons, play_cons]
      subst hi
      exact ih ht _ _ (he.reads m m' hm)
    · rw [List.filter_cons_of_neg (by simpa using hi)]
      refine ih ht _ _ fun b x hx => ?_
      rw [he.keeps m b x fun h2 => hi (owns_unique h2 hx)]
      exact hm b x hx

theorem schedule_local {nh n : Nat} {job : Nat → Job} (hj : ∀ i < n, LocalJob nh i (job i))
    {tr : List (Nat × (Mem → Mem))} (hs : Schedule n job tr) : ∀ e ∈ tr, Local nh e.1 e.2 := by
  intro e he
  apply (hj e.1 (hs.range e he)).steps
  rw [← hs.order e.1 (hs.range e he), List.mem_map]
  exact ⟨e, List.mem_filter.mpr ⟨he, by simp⟩, rfl⟩

/-- The result of any schedule: on the entries of crystal `i` what it leaves when it runs alone, elsewhere
nothing changes. -/
theorem C65_own_result {nh n : Nat} {job : Nat → Job} (hj : ∀ i < n, LocalJob nh i (job i))
    {tr : List (Nat × (Mem → Mem))} (hs : Schedule n job tr) (m : Mem) :
    (∀ i < n, ∀ b x, Owns nh i b x → play m (tr.map Prod.snd) b x = play m (job i).steps b x) ∧
    ∀ b x, (∀ i < n, ¬ Owns nh i b x) → play m (tr.map Prod.snd) b x = m b x := by
  have hl := schedule_local hj hs
  refine ⟨fun i hi b x hx => ?_, fun b x hx => ?_⟩
  · rw [interleave tr hl i m m (fun _ _ _ => rfl) b x hx, hs.order i hi]
  · have hr := hs.range
    clear hs
    induction tr generalizing m with
    | nil => rfl
    | cons e tr ih =>
      rw [List.map_cons, play_cons, ih _ (fun e' he => hl e' (List.mem_cons_of_mem _ he))
        (fun e' he => hr e' (List.mem_cons_of_mem _ he)), (hl e List.mem_cons_self).keeps m b x
        (hx e.1 (hr e List.mem_cons_self))]

/-- So all schedules leave the same memory. -/
theorem C65_schedule {nh n : Nat} {job : Nat → Job} (hj : ∀ i < n, LocalJob nh i (job i))
    {tr tr' : List (Nat × (Mem → Mem))} (hs : Schedule n job tr) (hs' : Schedule n job tr') (m : Mem) :
    play m (tr.map Prod.snd) = play m (tr'.map Prod.snd) := by
  obtain ⟨h1, h2⟩ := C65_own_result hj hs m
  obtain ⟨h3, h4⟩ := C65_own_result hj hs' m
  funext b x
  by_cases h : ∃ i < n, Owns nh i b x
  · obtain ⟨i, hi, hx⟩ := h
    rw [h1 i hi b x hx, h3 i hi b x hx]
  · push Not at h
    rw [h2 b x h, h4 b x h]

/-- The events of the loop without threads. -/
def sequential (n : Nat) (job : Nat → Job) : List (Nat × (Mem → Mem)) :=
  (List.range n).flatMap fun i => (job i).steps.map fun f => (i, f)

theorem sequential_schedule (n : Nat) (job : Nat → Job) : Schedule n job (sequential n job) where
  range := by
    intro e he
    simp only [sequential, List.mem_flatMap, List.mem_range, List.mem_map] at he
    obtain ⟨i, hi, f, -, rfl⟩ := he
    exact hi
  order := by
    intro i hi
    have key : ∀ l : List Nat, l.Nodup → ((l.flatMap fun k => (job k).steps.map fun f => (k, f)).filter
        (·.1 = i)).map Prod.snd = if i ∈ l then (job i).steps else [] := by
      intro l
      induction l with
      | nil => simp
      | cons k l ih =>
        intro hnd
        rw [List.nodup_cons] at hnd
        rw [List.flatMap_cons, List.filter_append, List.map_append, ih hnd.2]
        by_cases hk : k = i
        · subst hk
          have : (((job k).steps.map fun f => (k, f)).filter (·.1 = k)).map Prod.snd = (job k).steps := by
            rw [List.filter_eq_self.mpr (by simp), List.map_map]
            exact List.map_id _
          rw [this, if_neg hnd.1]
          simp
        · have : ((job k).steps.map fun f => (k, f)).filter (·.1 = i) = [] := by
            rw [List.filter_eq_nil_iff]
            simp [hk]
          rw [this]
          simp [Ne.symm hk]
    have := key (List.range n) List.nodup_range
    rw [if_pos (List.mem_range.mpr hi)] at this
    exact this

theorem play_append (m : Mem) (l l' : List (Mem → Mem)) : play m (l ++ l') = play (play m l) l' := by
  rw [play, List.foldl_append]; rfl

theorem loop_eq {nh n : Nat} {job : Nat → Job} (hj : ∀ i < n, LocalJob nh i (job i)) (m : Mem) :
    (batchLoop n job m).1 = play m ((sequential n job).map Prod.snd) ∧
      (batchLoop n job m).2 = ((List.range n).filter fun i => !(job i).ok (play m (job i).steps)).length := by
  induction n with
  | zero => exact ⟨rfl, rfl⟩
  | succ n ih =>
    obtain ⟨i1, i2⟩ := ih fun i hi => hj i (by omega)
    have hb : batchLoop (n + 1) job m = (play (batchLoop n job m).1 (job n).steps,
        if (job n).ok (play (batchLoop n job m).1 (job n).steps) then (batchLoop n job m).2
        else (batchLoop n job m).2 + 1) := by
      rw [batchLoop, List.range_succ, List.foldl_append]
      rfl
    have hsq : (sequential (n + 1) job).map Prod.snd = (sequential n job).map Prod.snd ++ (job n).steps := by
      rw [sequential, List.range_succ, List.flatMap_append, List.map_append]
      simp [sequential, Function.comp_def]
    have hok : (job n).ok (play (batchLoop n job m).1 (job n).steps) = (job n).ok (play m (job n).steps) := by
      have hl := (hj n (by omega))
      refine hl.ok _ _ fun b x hx => play_reads hl.steps _ _ (fun b x hx => ?_) b x hx
      rw [i1]
      exact (C65_own_result (fun i hi => hj i (by omega)) (sequential_schedule n job) m).2 b x
        fun i hi h2 => absurd (owns_unique h2 hx) (by omega)
    rw [hb]
    refine ⟨by rw [hsq, play_append, i1], ?_⟩
    simp only [hok, i2, List.range_succ, List.filter_append, List.length_append]
    by_cases ho : (job n).ok (play m (job n).steps) = true
    · simp [ho]
    · simp [ho]

/-- The loop without threads, and hence every schedule, raises an error exactly when some crystal would raise
one on its own; the other crystals' results are there all the same. -/
theorem C65_batch {nh n : Nat} {job : Nat → Job} (hj : ∀ i < n, LocalJob nh i (job i)) (m : Mem) :
    (∀ tr, Schedule n job tr → (batch n job m).1 = play m (tr.map Prod.snd)) ∧
    ((batch n job m).2 = false ↔ ∃ i < n, (job i).ok (play m (job i).steps) = false) ∧
    (∀ i < n, ∀ b x, Owns nh i b x → (batch n job m).1 b x = play m (job i).steps b x) ∧
    ∀ tr, Schedule n job tr → ∀ i < n, (job i).ok (play m (tr.map Prod.snd)) = (job i).ok (play m (job i).steps) := by
  obtain ⟨h1, h2⟩ := loop_eq hj m
  have hseq := sequential_schedule n job
  refine ⟨fun tr hs => ?_, ?_, fun i hi b x hx => ?_, fun tr hs i hi => ?_⟩
  · rw [batch, h1]
    exact C65_schedule hj hseq hs m
  · simp only [batch, h2, gt_iff_lt, Bool.not_eq_eq_eq_not, Bool.not_false, decide_eq_true_eq, List.length_pos_iff_exists_mem,
      List.mem_filter, List.mem_range]
    simp
  · rw [batch, h1]
    exact (C65_own_result hj hseq m).1 i hi b x hx
  · exact (hj i hi).ok _ _ ((C65_own_result hj hs m).1 i hi)

/-! ## Storing results -/

theorem writeSlice_local {nh i : Nat} {b : Buf} {k : Nat} (hk : k < b.width nh) (v : ℝ) :
    Local nh i (writeSlice nh i b k v) where
  keeps m b' x hx := by
    rw [writeSlice, if_neg]
    rintro ⟨rfl, rfl⟩
    exact hx ⟨by omega, by rw [Nat.add_mul]; omega⟩
  reads m m' hm b' x hx := by
    simp only [writeSlice]
    split_ifs
    · rfl
    · exact hm b' x hx

theorem storeResults_local (nh i : Nat) (r : Results) : ∀ f ∈ storeResults nh i r, Local nh i f := by
  intro f hf
  simp only [storeResults, List.mem_flatMap, List.mem_map, List.mem_range] at hf
  obtain ⟨b, -, k, hk, rfl⟩ := hf
  exact writeSlice_local hk _

theorem play_mem (nh i : Nat) (r : Results) (ws : List (Buf × Nat)) (hw : ∀ w ∈ ws, w.2 < w.1.width nh) (m : Mem)
    (b : Buf) (k : Nat) (hk : k < b.width nh) :
    play m (ws.map fun w => writeSlice nh i w.1 w.2 (r.entry w.1 w.2)) b (i * b.width nh + k) =
      if (b, k) ∈ ws then r.entry b k else m b (i * b.width nh + k) := by
  induction ws generalizing m with
  | nil => simp [play]
  | cons w ws ih =>
    rw [List.map_cons, play_cons, ih fun w' h' => hw w' (List.mem_cons_of_mem _ h')]
    by_cases h1 : (b, k) ∈ ws
    · simp [h1]
    · rw [if_neg h1, writeSlice]
      by_cases h2 : (b, k) = w
      · subst h2; simp
      · have : ¬ (b = w.1 ∧ i * b.width nh + k = i * w.1.width nh + w.2) := by
          rintro ⟨rfl, h3⟩
          exact h2 (Prod.ext rfl (by simp only; omega))
        rw [if_neg this, if_neg]
        simp [h1, h2]

theorem storeResults_eq (nh i : Nat) (r : Results) : storeResults nh i r =
    ([Buf.s, .h, .A, .B, .u, .p].flatMap fun b => (List.range (b.width nh)).map fun k => (b, k)).map
      fun w => writeSlice nh i w.1 w.2 (r.entry w.1 w.2) := by
  rw [storeResults, List.map_flatMap]
  simp [Function.comp_def]

/-- Each crystal's results are in its slots. Every crystal may do whatever it likes with its own entries
before it stores its results; under every schedule the entry `k` of the slot of crystal `i` in each array is
the entry `k` of its result. -/
theorem C65_slots {nh n : Nat} {job : Nat → Job} (hj : ∀ i < n, LocalJob nh i (job i)) (r : Nat → Results)
    (hr : ∀ i < n, ∃ work, (job i).steps = work ++ storeResults nh i (r i)) {tr : List (Nat × (Mem → Mem))}
    (hs : Schedule n job tr) (m : Mem) (i : Nat) (hi : i < n) (b : Buf) (k : Nat) (hk : k < b.width nh) :
    play m (tr.map Prod.snd) b (i * b.width nh + k) = (r i).entry b k := by
  have hx : Owns nh i b (i * b.width nh + k) := ⟨by omega, by rw [Nat.add_mul]; omega⟩
  rw [(C65_own_result hj hs m).1 i hi b _ hx]
  obtain ⟨work, hwork⟩ := hr i hi
  rw [hwork, play_append, storeResults_eq, play_mem nh i (r i) _ ?_ _ b k hk, if_pos]
  · simp only [List.mem_flatMap, List.mem_map, List.mem_range, Prod.mk.injEq]
    exact ⟨b, by cases b <;> simp, k, hk, rfl, rfl⟩
  · intro w hw
    simp only [List.mem_flatMap, List.mem_map, List.mem_range] at hw
    obtain ⟨b', -, k', hk', rfl⟩ := hw
    exact hk'

/-- Case: two crystals with three stored variables each, the second of which fails; their writes alternate. -/
example : ∃ (job : Nat → Job) (tr : List (Nat × (Mem → Mem))), (∀ i < 2, LocalJob 3 i (job i)) ∧ Schedule 2 job tr ∧
    tr.map Prod.fst = [0, 1, 1, 0] ∧ (batch 2 job fun _ _ => 0).2 = false ∧
    (batch 2 job fun _ _ => 0).1 .s 7 = 4 ∧ (batch 2 job fun _ _ => 0).1 .u 0 = 2 := by
  let job : Nat → Job := fun i =>
    ⟨[writeSlice 3 i .s 1 (3 + i), writeSlice 3 i .u 0 2], fun _ => i = 0⟩
  refine ⟨job, [(0, writeSlice 3 0 .s 1 (3 + (0 : Nat))), (1, writeSlice 3 1 .s 1 (3 + (1 : Nat))),
    (1, writeSlice 3 1 .u 0 2), (0, writeSlice 3 0 .u 0 2)], ?_, ⟨?_, ?_⟩, rfl, rfl, ?_, ?_⟩
  · intro i _
    refine ⟨fun f hf => ?_, fun _ _ _ => rfl⟩
    simp only [job, List.mem_cons, List.not_mem_nil, or_false] at hf
    rcases hf with rfl | rfl
    · exact writeSlice_local (by simp [Buf.width]) _
    · exact writeSlice_local (by simp [Buf.width]) _
  · intro e he
    simp only [List.mem_cons, List.not_mem_nil, or_false] at he
    rcases he with rfl | rfl | rfl | rfl <;> simp
  · intro i hi
    rcases (by omega : i = 0 ∨ i = 1) with rfl | rfl <;> simp [job]
  · norm_num [batch, batchLoop, job, play, writeSlice, List.range_succ, Buf.width]
  · norm_num [batch, batchLoop, job, play, writeSlice, List.range_succ, Buf.width]

/-! ## Orientations -/

open Neml.Rotation

/-- Setting passive orientations fails exactly on a wrong number of them. Otherwise reading gives the passive
orientations back and active ones that are their inverses, each for its own crystal, and the rest of the
stored state stays. -/
theorem C65_orientations {H : Type} (st : List (Crystal.Stored H)) (q : List Quat) (hq : ∀ x ∈ q, Unit4 x) :
    (setPassiveBatch st q = none ↔ q.length ≠ st.length) ∧
    ∀ st', setPassiveBatch st q = some st' → getPassiveBatch st' = q ∧ getActiveBatch st' = q.map conj ∧
      st'.map Crystal.Stored.state = st.map Crystal.Stored.state := by
  unfold setPassiveBatch
  by_cases hl : q.length = st.length
  · refine ⟨by simp [hl], fun st' h => ?_⟩
    simp only [hl, ne_eq, not_true_eq_false, if_false, Option.some.injEq] at h
    subst h
    have hm : ∀ (l : List (Crystal.Stored H)) (q : List Quat), (∀ x ∈ q, Unit4 x) → q.length = l.length →
        getPassiveBatch (List.zipWith Crystal.setPassive l q) = q ∧
        getActiveBatch (List.zipWith Crystal.setPassive l q) = q.map conj ∧
        (List.zipWith Crystal.setPassive l q).map Crystal.Stored.state = l.map Crystal.Stored.state := by
      intro l
      induction l with
      | nil =>
        intro q _ hl
        have : q = [] := List.length_eq_zero_iff.mp hl
        subst this
        exact ⟨rfl, rfl, rfl⟩
      | cons s l ih =>
        intro q hq hl
        cases q with
        | nil => simp at hl
        | cons x q =>
          obtain ⟨h1, h2, h3⟩ := ih q (fun y hy => hq y (List.mem_cons_of_mem _ hy)) (by simpa using hl)
          have hx := hq x List.mem_cons_self
          have ha : Crystal.getActive (Crystal.setPassive s x) = conj x := by
            rw [Crystal.getActive, Crystal.setPassive, Crystal.setActive, normalize_of_unit hx.conj]
          have hp : Crystal.getPassive (Crystal.setPassive s x) = x := by
            rw [Crystal.getPassive, ha]
            cases x; simp [Rotation.conj]
          simp only [getPassiveBatch, getActiveBatch] at h1 h2
          simp only [getPassiveBatch, getActiveBatch, List.zipWith_cons_cons, List.map_cons, ha, hp, h1, h2, h3, and_self,
            true_and]
          rfl
    exact hm st q hq hl
  · exact ⟨by simp [hl], fun st' h => by simp [hl] at h⟩

/-- Case: two crystals. -/
example : ∃ st', setPassiveBatch [Crystal.initStored Rotation.one (), Crystal.initStored Rotation.one ()]
    [⟨0, 1, 0, 0⟩, Rotation.one] = some st' ∧ getPassiveBatch st' = [⟨0, 1, 0, 0⟩, Rotation.one] := by
  refine ⟨_, rfl, ((C65_orientations [Crystal.initStored Rotation.one (), Crystal.initStored Rotation.one ()]
    [⟨0, 1, 0, 0⟩, Rotation.one] ?_).2 _ rfl).1⟩
  intro x hx
  simp only [List.mem_cons, List.not_mem_nil, or_false] at hx
  rcases hx with rfl | rfl <;> norm_num [Unit4, Rotation.one]

end Neml.Polycrystal
