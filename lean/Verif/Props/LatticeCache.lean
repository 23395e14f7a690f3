import Verif.Props.LatticeExact
import Verif.Props.RotationSpin

/-!
# C60: the stored Schmid tensors

The right answer to a question is `(system L g i).map (schmid Q)`: it depends on the systems and the orientation
only.
-/

namespace Neml.Lattice

open Neml.Rotation Neml.Mandel Neml.Symmetry Matrix Real

variable {ops : List Quat} {dirOf planeOf : List ℤ → Option Vec} {hash : Quat → Nat} {asked : Quat → Prop}

/-- The tensors of some groups at an orientation. -/
noncomputable def tensorsOf (Q : Quat) (G : List Group) : List (List ((Fin 6 → ℝ) × Vec)) :=
  G.map fun g => g.systems.map (schmid Q)

/-- The stored tensors belong to an orientation asked before and to the groups that were there then. -/
def Stored (hash : Quat → Nat) (asked : Quat → Prop) (L : Lat) : Prop :=
  L.cache = none ∨ ∃ Q k, asked Q ∧ k ≤ ngroup L ∧ L.cache = some (hash Q, tensorsOf Q (L.groups.take k))

theorem addGroup_stored {L : Lat} (G : Group) (h : Stored hash asked L) : Stored hash asked (addGroup L G) := by
  by_cases he : G.systems = []
  · rw [addGroup, if_pos he]; exact h
  · rw [addGroup, if_neg he]
    rcases h with h | ⟨Q, k, hQ, hk, hc⟩
    · exact Or.inl h
    · refine Or.inr ⟨Q, k, hQ, by simp [ngroup] at hk ⊢; omega, ?_⟩
      dsimp only
      rw [List.take_append_of_le_length hk]
      exact hc

theorem cacheRot_stored {L : Lat} {Q : Quat} (hQ : asked Q) (h : Stored hash asked L) :
    Stored hash asked (cacheRot hash L Q) := by
  have hnew : Stored hash asked { L with cache := some (hash Q, cacheRot.tensors L Q) } :=
    Or.inr ⟨Q, ngroup L, hQ, le_refl _, by simp [cacheRot.tensors, tensorsOf, ngroup]⟩
  rcases h with h | ⟨Q', k, hQ', hk, hc⟩
  · simp only [cacheRot, h]; exact hnew
  · simp only [cacheRot, hc]
    split_ifs
    · exact Or.inr ⟨Q', k, hQ', hk, hc⟩
    · exact hnew

theorem reach_stored {L : Lat} (h : Reach hash asked ops dirOf planeOf L) : Stored hash asked L := by
  induction h with
  | empty => exact Or.inl rfl
  | slip d p _ hL ih =>
    simp only [addSlip, Option.bind_eq_some_iff, Option.map_eq_some_iff] at hL
    obtain ⟨bv, -, nv, -, rfl⟩ := hL
    exact addGroup_stored _ ih
  | twin e1 k1 e2 k2 _ hL ih =>
    simp only [addTwin, Option.bind_eq_some_iff, Option.map_eq_some_iff] at hL
    obtain ⟨k1, -, e2, -, e1, -, k2, -, rfl⟩ := hL
    exact addGroup_stored _ ih
  | ask g i Q hQ _ ih => exact cacheRot_stored hQ ih

theorem tensorsOf_get (Q : Quat) (G : List Group) (g i : Nat) :
    ((tensorsOf Q G)[g]?).bind (fun x => x[i]?) = ((G[g]?).bind fun x => x.systems[i]?).map (schmid Q) := by
  rw [tensorsOf, List.getElem?_map]
  cases G[g]? with
  | none => rfl
  | some x => simp

/-- Asking a lattice without stored tensors, or for an orientation with another hash, gives the right answer. -/
theorem ask_fresh {L : Lat} {Q : Quat} (h : ∀ c, L.cache = some c → c.1 ≠ hash Q) (g i : Nat) :
    (ask hash L g i Q).1 = (system L g i).map (schmid Q) ∧
      (ask hash L g i Q).2 = { L with cache := some (hash Q, tensorsOf Q L.groups) } := by
  have e : cacheRot hash L Q = { L with cache := some (hash Q, tensorsOf Q L.groups) } := by
    unfold cacheRot
    split
    · rename_i a b hc
      rw [if_neg (h _ hc)]
      rfl
    · rfl
  rw [ask, e]
  exact ⟨tensorsOf_get Q L.groups g i, rfl⟩

/-- Asking for an orientation with the stored hash reads what is stored. -/
theorem ask_hit {L : Lat} {Q : Quat} {t : List (List ((Fin 6 → ℝ) × Vec))} (h : L.cache = some (hash Q, t)) (g i : Nat) :
    (ask hash L g i Q).1 = (t[g]?).bind (fun x => x[i]?) ∧ (ask hash L g i Q).2 = L := by
  have e : cacheRot hash L Q = L := by
    unfold cacheRot
    rw [h]
    simp
  rw [ask, e, h]
  exact ⟨rfl, rfl⟩

/-- After any sequence of additions and questions, if the hash tells the orientations asked for apart, a
question is answered with the right tensor, or the read is out of range. The second happens only for a group
that was added after the tensors were stored. -/
theorem C60_right_or_out_of_range {L : Lat} (h : Reach hash asked ops dirOf planeOf L)
    (hinj : ∀ Q Q', asked Q → asked Q' → hash Q = hash Q' → Q = Q') {Q : Quat} (hQ : asked Q) (g i : Nat) :
    (ask hash L g i Q).1 = (system L g i).map (schmid Q) ∨
      ((ask hash L g i Q).1 = none ∧ ∃ c, L.cache = some c ∧ c.2.length ≤ g ∧ g < ngroup L) := by
  rcases reach_stored h with hc | ⟨Q', k, hQ', hk, hc⟩
  · exact Or.inl (ask_fresh (by simp [hc]) g i).1
  · by_cases hh : hash Q' = hash Q
    · have : Q' = Q := hinj _ _ hQ' hQ hh
      subst this
      rw [(ask_hit hc g i).1, tensorsOf_get]
      by_cases hg : g < k
      · left
        rw [system, List.getElem?_take, if_pos hg]
      · rw [List.getElem?_take, if_neg hg]
        by_cases hgn : g < ngroup L
        · exact Or.inr ⟨rfl, _, hc, by simp [tensorsOf]; omega, hgn⟩
        · left
          rw [system, List.getElem?_eq_none (by simpa [ngroup] using hgn)]
    · refine Or.inl (ask_fresh (fun c hc' => ?_) g i).1
      rw [hc] at hc'
      rw [← Option.some.inj hc']
      exact hh

/-- The resolved shear after any sequence of additions and questions: the traction of the stress on the turned plane in
the turned direction, or the read is out of range. -/
theorem C60_shear {L : Lat} (h : Reach hash asked ops dirOf planeOf L)
    (hinj : ∀ Q Q', asked Q → asked Q' → hash Q = hash Q' → Q = Q') {Q : Quat} (hQ : asked Q) (hu : Unit4 Q) (g i : Nat)
    (sigma : Fin 6 → ℝ) :
    (shear hash L g i Q sigma).1 =
        (system L g i).map (fun s => applyVec Q s.dir ⬝ᵥ (usym sigma *ᵥ applyVec Q s.normal)) ∨
      ((shear hash L g i Q sigma).1 = none ∧ ∃ c, L.cache = some c ∧ c.2.length ≤ g ∧ g < ngroup L) := by
  rcases C60_right_or_out_of_range h hinj hQ g i with e | ⟨e, hr⟩
  · left
    simp only [shear, e]
    cases system L g i with
    | none => rfl
    | some s => exact congrArg some (C59_schmid hu s sigma 0).2.2.1
  · right
    exact ⟨by rw [shear, e]; rfl, hr⟩

/-- The answers to a list of questions, one after the other. -/
noncomputable def answers (hash : Quat → Nat) : Lat → List (Nat × Nat × Quat) → List (Option ((Fin 6 → ℝ) × Vec))
  | _, [] => []
  | L, (g, i, Q) :: l => (ask hash L g i Q).1 :: answers hash (ask hash L g i Q).2 l

/-- If all systems are added before the first question and the hash tells the orientations apart, then every
question is answered with the tensors of the system, whatever was asked before.

Missing for the full statement: additions after questions (`C60_stale`) and orientations with equal hashes
(`C60_collision`). -/
theorem C60_partial {L : Lat} (h : Reach hash (fun _ => False) ops dirOf planeOf L) (l : List (Nat × Nat × Quat))
    (hinj : ∀ q ∈ l, ∀ q' ∈ l, hash q.2.2 = hash q'.2.2 → q.2.2 = q'.2.2) :
    answers hash L l = l.map fun q => (system L q.1 q.2.1).map (schmid q.2.2) := by
  have h0 : L.cache = none := by
    rcases reach_stored h with h | ⟨_, _, h, _⟩
    · exact h
    · exact h.elim
  have key : ∀ (l' : List (Nat × Nat × Quat)) (M : Lat), (∀ q ∈ l', q ∈ l) → M.groups = L.groups →
      (M.cache = none ∨ ∃ q ∈ l, M.cache = some (hash q.2.2, tensorsOf q.2.2 L.groups)) →
      answers hash M l' = l'.map fun q => (system L q.1 q.2.1).map (schmid q.2.2) := by
    intro l'
    induction l' with
    | nil => intros; rfl
    | cons q l' ih =>
      obtain ⟨g, i, Q⟩ := q
      intro M hl hM hc
      have hQ := hl (g, i, Q) (by simp)
      have hsys : ∀ g i, system M g i = system L g i := fun g i => by rw [system, hM, system]
      have fresh : (∀ c, M.cache = some c → c.1 ≠ hash Q) →
          answers hash M ((g, i, Q) :: l') =
            ((g, i, Q) :: l').map fun q => (system L q.1 q.2.1).map (schmid q.2.2) := by
        intro hf
        obtain ⟨e1, e2⟩ := ask_fresh hf g i
        rw [answers, e1, hsys, List.map_cons, e2]
        congr 1
        exact ih _ (fun q hq => hl q (by simp [hq])) hM (Or.inr ⟨_, hQ, by dsimp only; rw [hM]⟩)
      rcases hc with hc | ⟨q', hq', hc⟩
      · exact fresh (by simp [hc])
      · by_cases hh : hash q'.2.2 = hash Q
        · have e : q'.2.2 = Q := hinj q' hq' _ hQ hh
          rw [e] at hc
          obtain ⟨e1, e2⟩ := ask_hit hc g i
          rw [answers, e1, e2, List.map_cons, tensorsOf_get]
          congr 1
          exact ih _ (fun q hq => hl q (by simp [hq])) hM (Or.inr ⟨q', hq', by rw [e]; exact hc⟩)
        · refine fresh fun c hc' => ?_
          rw [hc] at hc'
          rw [← Option.some.inj hc']
          exact hh
  exact key l L (fun _ h => h) rfl (Or.inl h0)

/-- The code does not fulfil the full statement: whatever the lattice, the hash and the orientation, a system
added after a question is read out of range by the next question for the same orientation. -/
theorem C60_stale (L : Lat) (hf : L.cache = none) (g i : Nat) (Q : Quat) (G : Group) (hG : G.systems ≠ []) :
    let L' := addGroup (ask hash L g i Q).2 G
    (ask hash L' (ngroup L) 0 Q).1 = none ∧ ∃ s, system L' (ngroup L) 0 = some s := by
  intro L'
  have e := (ask_fresh (hash := hash) (Q := Q) (L := L) (by simp [hf]) g i).2
  have hc : L'.cache = some (hash Q, tensorsOf Q L.groups) := by
    simp only [L', addGroup, if_neg hG, e]
  have hg : L'.groups = L.groups ++ [G] := by
    simp only [L', addGroup, if_neg hG, e]
  refine ⟨?_, G.systems[0]'(List.length_pos_iff.mpr hG), ?_⟩
  · rw [(ask_hit hc _ _).1, List.getElem?_eq_none (by simp [tensorsOf, ngroup])]
    rfl
  · rw [system, hg, ngroup]
    simp

/-- Turning about the normal of a system changes its skew tensor. -/
theorem schmid_turn {s : Sys} (hd : s.dir ⬝ᵥ s.dir = 1) (hn : s.normal ⬝ᵥ s.normal = 1)
    (horth : (s.dir ⬝ᵥ s.normal) ^ 2 < 1) {t u : ℝ} (ht : t ∈ Set.Icc 0 π) (hu : u ∈ Set.Icc 0 π)
    (h : schmid (setAxisAngle s.normal t) s = schmid (setAxisAngle s.normal u) s) : t = u := by
  set w := skewOfFull (outer s.dir s.normal) with hw
  have hw1 : s.normal ⬝ᵥ w = 0 := by
    simp [hw, skewOfFull, outer, dotProduct, Fin.sum_univ_three, half_eq]; ring
  have hw2 : 0 < w ⬝ᵥ w := by
    have : w ⬝ᵥ w = 4⁻¹ * ((s.dir ⬝ᵥ s.dir) * (s.normal ⬝ᵥ s.normal) - (s.dir ⬝ᵥ s.normal) ^ 2) := by
      simp [hw, skewOfFull, outer, dotProduct, Fin.sum_univ_three, half_eq]; ring
    rw [this, hd, hn]
    linarith
  have key : ∀ a, w ⬝ᵥ (schmid (setAxisAngle s.normal a) s).2 = cos a * (w ⬝ᵥ w) := by
    intro a
    have hq := setAxisAngle_unit hn a
    rw [schmid]
    dsimp only
    rw [← hw, applySkew_eq hq, ← (C51_faithful hq hq w).2.2.2.2.2.2, applyVec_axis hn, hw1]
    have hz : w ⬝ᵥ cross s.normal w = 0 := by
      simp [cross, dotProduct, Fin.sum_univ_three]; ring
    rw [dotProduct_add, dotProduct_add, dotProduct_smul, dotProduct_smul, dotProduct_smul, hz]
    simp
  have h1 := key t
  rw [h, key u] at h1
  exact (injOn_cos hu ht (mul_right_cancel₀ hw2.ne' h1)).symm

/-- Nor can it with any hash into finitely many values: there are two orientations for which the second question
is answered with the tensors of the first, and these are wrong. -/
theorem C60_collision {N : Nat} (hN : ∀ Q, hash Q < N) {L : Lat} (hf : L.cache = none) {g i : Nat} {s : Sys}
    (hs : system L g i = some s) (hd : s.dir ⬝ᵥ s.dir = 1) (hn : s.normal ⬝ᵥ s.normal = 1)
    (horth : (s.dir ⬝ᵥ s.normal) ^ 2 < 1) :
    ∃ Q1 Q2, Unit4 Q1 ∧ Unit4 Q2 ∧ (ask hash (ask hash L g i Q1).2 g i Q2).1 = some (schmid Q1 s) ∧
      schmid Q1 s ≠ schmid Q2 s := by
  have : Infinite (Set.Icc 0 π) := Set.infinite_coe_iff.mpr (Set.Icc_infinite pi_pos)
  obtain ⟨⟨t, ht⟩, ⟨u, hu⟩, hne, hh⟩ := Finite.exists_ne_map_eq_of_infinite
    (fun t : Set.Icc 0 π => (⟨hash (setAxisAngle s.normal t), hN _⟩ : Fin N))
  simp only [Fin.mk.injEq] at hh
  refine ⟨setAxisAngle s.normal t, setAxisAngle s.normal u, setAxisAngle_unit hn t, setAxisAngle_unit hn u, ?_, ?_⟩
  · obtain ⟨-, e2⟩ := ask_fresh (hash := hash) (Q := setAxisAngle s.normal t) (L := L) (by simp [hf]) g i
    rw [e2, (ask_hit (by rw [hh]) g i).1, tensorsOf_get]
    change (system L g i).map _ = _
    rw [hs]
    rfl
  · intro he
    exact hne (Subtype.ext (schmid_turn hd hn horth ht hu he))

/-- A lattice with a system as the theorems above assume. -/
example : ∃ (L : Lat) (s : Sys), L.cache = none ∧ system L 0 0 = some s ∧ s.dir ⬝ᵥ s.dir = 1 ∧
    s.normal ⬝ᵥ s.normal = 1 ∧ (s.dir ⬝ᵥ s.normal) ^ 2 < 1 := by
  obtain ⟨ops, L, -, -, h, -, s, hs⟩ := C59_case (a := 1) one_pos
  have hr : Reach (fun _ => 0) (fun _ => False) ops _ _ L := Reach.slip _ _ Reach.empty h
  obtain ⟨G, hG, ok⟩ := C59_systems hr hs
  refine ⟨L, s, ?_, hs, ok.dir, ok.normal, ?_⟩
  · rcases reach_stored hr with h | ⟨_, _, h, _⟩
    · exact h
    · exact h.elim
  · cases hb : G.twin with
    | false =>
      have := (ok.slip hb).1
      rw [← sq_abs]
      have h0 := abs_nonneg (s.dir ⬝ᵥ s.normal)
      norm_num at this
      nlinarith
    | true =>
      have := (ok.twinned hb).1
      norm_num at this
      linarith

end Neml.Lattice
