import Verif.Model.Polycrystal
import Verif.Props.LatticeExact

/-!
# C66, C105: twin reorientation
-/

namespace Neml.Polycrystal

open Neml.Rotation Neml.Lattice Matrix

/-! ## Specification -/

/-- All systems with their groups, in the order of the groups. -/
def flatList (L : Lat) : List (Group × Sys) := L.groups.flatMap fun g => g.systems.map fun x => (g, x)

/-- The system with the flat number `j` is a twin system of group `g`. -/
def TwinAt (L : Lat) (j : Nat) (g : Group) (x : Sys) : Prop := (flatList L)[j]? = some (g, x) ∧ g.twin = true

/-- The slip on twin system `j` exceeds the threshold times the characteristic shear. -/
def Over (L : Lat) (threshold : ℝ) (slip : Nat → ℝ) (j : Nat) : Prop :=
  ∃ g x, TwinAt L j g x ∧ threshold * g.shear < slip j

/-- Twin groups have a characteristic shear (see `C98_group_shear`). -/
def Sheared (L : Lat) : Prop := ∀ g ∈ L.groups, g.twin = true → 0 < g.shear

/-! ## The loops -/

theorem overSystems_eq {S : Type} (L : Lat) (f : Group → Sys → Nat → S → S) (s : S) :
    overSystems L f s = (flatList L).zipIdx.foldl (fun s p => f p.1.1 p.1.2 p.2 s) s := by
  have inner : ∀ (g : Group) (xs : List Sys) (s : S) (k : Nat),
      xs.foldl (fun p x => (f g x p.2 p.1, p.2 + 1)) (s, k) =
        (((xs.map fun x => (g, x)).zipIdx k).foldl (fun s p => f p.1.1 p.1.2 p.2 s) s, k + xs.length) := by
    intro g xs
    induction xs with
    | nil => intro s k; rfl
    | cons x xs ih =>
      intro s k
      rw [List.foldl_cons, ih]
      simp only [List.map_cons, List.zipIdx_cons, List.foldl_cons, List.length_cons]
      congr 1
      omega
  have outer : ∀ (gs : List Group) (s : S) (k : Nat),
      gs.foldl (fun p g => g.systems.foldl (fun p x => (f g x p.2 p.1, p.2 + 1)) p) (s, k) =
        (((gs.flatMap fun g => g.systems.map fun x => (g, x)).zipIdx k).foldl (fun s p => f p.1.1 p.1.2 p.2 s) s,
          k + (gs.flatMap fun g => g.systems.map fun x => (g, x)).length) := by
    intro gs
    induction gs with
    | nil => intro s k; rfl
    | cons g gs ih =>
      intro s k
      rw [List.foldl_cons, inner, ih, List.flatMap_cons, List.zipIdx_append, List.foldl_append, List.length_append,
        List.length_map]
      congr 1
      omega
  rw [overSystems, outer]
  rfl

section Scan

variable {threshold : ℝ}

/-- One pass leaves slip alone; once the flag is up it leaves the orientation alone too. -/
theorem scan_keeps (l : List ((Group × Sys) × Nat)) (st : Twin) :
    (l.foldl (fun s p => scanSystem threshold p.1.1 p.1.2 p.2 s) st).slip = st.slip ∧
    (¬ st.twinned < 0.5 → (l.foldl (fun s p => scanSystem threshold p.1.1 p.1.2 p.2 s) st).twinned = st.twinned ∧
      (l.foldl (fun s p => scanSystem threshold p.1.1 p.1.2 p.2 s) st).rotation = st.rotation ∧
      (l.foldl (fun s p => scanSystem threshold p.1.1 p.1.2 p.2 s) st).rotation0 = st.rotation0) := by
  induction l generalizing st with
  | nil => exact ⟨rfl, fun _ => ⟨rfl, rfl, rfl⟩⟩
  | cons p l ih =>
    rw [List.foldl_cons]
    obtain ⟨h1, h2⟩ := ih (scanSystem threshold p.1.1 p.1.2 p.2 st)
    have e1 : (scanSystem threshold p.1.1 p.1.2 p.2 st).slip = st.slip := by
      simp only [scanSystem]; split_ifs <;> rfl
    refine ⟨h1.trans e1, fun ht => ?_⟩
    have e2 : (scanSystem threshold p.1.1 p.1.2 p.2 st).twinned = st.twinned ∧
        (scanSystem threshold p.1.1 p.1.2 p.2 st).rotation = st.rotation ∧
        (scanSystem threshold p.1.1 p.1.2 p.2 st).rotation0 = st.rotation0 := by
      simp only [scanSystem]
      split_ifs with a b
      · exact absurd b.2 ht
      · exact ⟨rfl, rfl, rfl⟩
      · exact ⟨rfl, rfl, rfl⟩
    obtain ⟨h3, h4, h5⟩ := h2 (by rw [e2.1]; exact ht)
    exact ⟨h3.trans e2.1, h4.trans e2.2.1, h5.trans e2.2.2⟩

/-- If none of the systems is over the threshold the flag stays and so does the orientation. -/
theorem scan_quiet (l : List ((Group × Sys) × Nat)) (st : Twin)
    (h : ∀ p ∈ l, p.1.1.twin = true → 0 < p.1.1.shear ∧ ¬ threshold * p.1.1.shear < st.slip p.2) :
    (l.foldl (fun s p => scanSystem threshold p.1.1 p.1.2 p.2 s) st).twinned = st.twinned ∧
      (l.foldl (fun s p => scanSystem threshold p.1.1 p.1.2 p.2 s) st).rotation = st.rotation ∧
      (l.foldl (fun s p => scanSystem threshold p.1.1 p.1.2 p.2 s) st).rotation0 = st.rotation0 := by
  induction l generalizing st with
  | nil => exact ⟨rfl, rfl, rfl⟩
  | cons p l ih =>
    rw [List.foldl_cons]
    have e : (scanSystem threshold p.1.1 p.1.2 p.2 st).slip = st.slip ∧
        (scanSystem threshold p.1.1 p.1.2 p.2 st).twinned = st.twinned ∧
        (scanSystem threshold p.1.1 p.1.2 p.2 st).rotation = st.rotation ∧
        (scanSystem threshold p.1.1 p.1.2 p.2 st).rotation0 = st.rotation0 := by
      simp only [scanSystem]
      split_ifs with a b
      · obtain ⟨h1, h2⟩ := h p List.mem_cons_self a
        rw [Function.update_self, gt_iff_lt, lt_div_iff₀ h1] at b
        exact absurd b.1 h2
      · exact ⟨rfl, rfl, rfl, rfl⟩
      · exact ⟨rfl, rfl, rfl, rfl⟩
    obtain ⟨h3, h4, h5⟩ := ih _ fun q hq => by rw [e.1]; exact h q (List.mem_cons_of_mem _ hq)
    exact ⟨h3.trans e.2.1, h4.trans e.2.2.1, h5.trans e.2.2.2⟩

/-- The fractions after one pass. -/
theorem scan_frac (l : List (Group × Sys)) (k : Nat) (st : Twin) (j : Nat) :
    ((l.zipIdx k).foldl (fun s p => scanSystem threshold p.1.1 p.1.2 p.2 s) st).frac j =
      if j < k then st.frac j else
      match l[j - k]? with
      | some (g, _) => if g.twin then st.slip j / g.shear else st.frac j
      | none => st.frac j := by
  induction l generalizing k st with
  | nil => simp
  | cons p l ih =>
    rw [List.zipIdx_cons, List.foldl_cons, ih]
    have e1 : (scanSystem threshold p.1 p.2 k st).slip = st.slip := by
      simp only [scanSystem]; split_ifs <;> rfl
    have e2 : (scanSystem threshold p.1 p.2 k st).frac =
        if p.1.twin then Function.update st.frac k (st.slip k / p.1.shear) else st.frac := by
      simp only [scanSystem]; split_ifs <;> rfl
    rw [e1, e2]
    have upd : ∀ i, (if p.1.twin = true then Function.update st.frac k (st.slip k / p.1.shear) else st.frac) i =
        if i = k ∧ p.1.twin = true then st.slip k / p.1.shear else st.frac i := by
      intro i
      by_cases hi : i = k <;> by_cases hb : p.1.twin = true <;> simp [hi, hb]
    rw [upd]
    rcases Nat.lt_trichotomy j k with h | h | h
    · have h1 : j < k + 1 := by omega
      have h2 : j ≠ k := by omega
      simp [h, h1, h2]
    · subst h
      simp
    · obtain ⟨d, rfl⟩ : ∃ d, j = k + 1 + d := ⟨j - (k + 1), by omega⟩
      have a0 : ¬ k + 1 + d < k + 1 := by omega
      have a0' : ¬ k + 1 + d < k := by omega
      have a1 : k + 1 + d - (k + 1) = d := by omega
      have a2 : k + 1 + d - k = d + 1 := by omega
      have a3 : k + 1 + d ≠ k := by omega
      rw [if_neg a0, if_neg a0', a1, a2, List.getElem?_cons_succ, if_neg (by tauto)]

end Scan

/-- What clearing does. -/
theorem clear_spec (l : List (Group × Sys)) (k : Nat) (st : Twin) :
    let r := (l.zipIdx k).foldl (fun s p => clearSystem p.1.1 p.1.2 p.2 s) st
    r.rotation = st.rotation ∧ r.rotation0 = st.rotation0 ∧ r.frac = st.frac ∧
      ∀ j, r.slip j = if j < k then st.slip j else
        match l[j - k]? with
        | some (g, _) => if g.twin then 0 else st.slip j
        | none => st.slip j := by
  induction l generalizing k st with
  | nil => simp
  | cons p l ih =>
    simp only [List.zipIdx_cons, List.foldl_cons]
    obtain ⟨h1, h2, h3, h4⟩ := ih (k + 1) (clearSystem p.1 p.2 k st)
    have e : (clearSystem p.1 p.2 k st).rotation = st.rotation ∧ (clearSystem p.1 p.2 k st).rotation0 = st.rotation0 ∧
        (clearSystem p.1 p.2 k st).frac = st.frac := by
      simp only [clearSystem]; split_ifs <;> exact ⟨rfl, rfl, rfl⟩
    have e2 : (clearSystem p.1 p.2 k st).slip = if p.1.twin then Function.update st.slip k 0 else st.slip := by
      simp only [clearSystem]; split_ifs <;> rfl
    refine ⟨h1.trans e.1, h2.trans e.2.1, h3.trans e.2.2, fun j => ?_⟩
    rw [h4, e2]
    have upd : ∀ i, (if p.1.twin = true then Function.update st.slip k (0) else st.slip) i =
        if i = k ∧ p.1.twin = true then 0 else st.slip i := by
      intro i
      by_cases hi : i = k <;> by_cases hb : p.1.twin = true <;> simp [hi, hb]
    rw [upd]
    rcases Nat.lt_trichotomy j k with h | h | h
    · have h1 : j < k + 1 := by omega
      have h2 : j ≠ k := by omega
      simp [h, h1, h2]
    · subst h
      simp
    · obtain ⟨d, rfl⟩ : ∃ d, j = k + 1 + d := ⟨j - (k + 1), by omega⟩
      have a0 : ¬ k + 1 + d < k + 1 := by omega
      have a0' : ¬ k + 1 + d < k := by omega
      have a1 : k + 1 + d - (k + 1) = d := by omega
      have a2 : k + 1 + d - k = d + 1 := by omega
      have a3 : k + 1 + d ≠ k := by omega
      rw [if_neg a0, if_neg a0', a1, a2, List.getElem?_cons_succ, if_neg (by tauto)]

/-- What copying does. -/
theorem copy_spec (prev : Twin) (l : List ((Group × Sys) × Nat)) (st : Twin) :
    let r := l.foldl (fun s p => copySystem prev p.1.1 p.1.2 p.2 s) st
    r.rotation = st.rotation ∧ r.rotation0 = st.rotation0 ∧ r.slip = st.slip ∧ r.twinned = st.twinned := by
  induction l generalizing st with
  | nil => exact ⟨rfl, rfl, rfl, rfl⟩
  | cons p l ih =>
    simp only [List.foldl_cons]
    obtain ⟨h1, h2, h3, h4⟩ := ih (copySystem prev p.1.1 p.1.2 p.2 st)
    have e : (copySystem prev p.1.1 p.1.2 p.2 st).rotation = st.rotation ∧
        (copySystem prev p.1.1 p.1.2 p.2 st).rotation0 = st.rotation0 ∧
        (copySystem prev p.1.1 p.1.2 p.2 st).slip = st.slip ∧
        (copySystem prev p.1.1 p.1.2 p.2 st).twinned = st.twinned := by
      simp only [copySystem]; split_ifs <;> exact ⟨rfl, rfl, rfl, rfl⟩
    exact ⟨h1.trans e.1, h2.trans e.2.1, h3.trans e.2.2.1, h4.trans e.2.2.2⟩

theorem mem_flat {L : Lat} (hs : Sheared L) {p : (Group × Sys) × Nat} {k : Nat} {l : List (Group × Sys)}
    (hl : ∀ x ∈ l, x ∈ flatList L) (hp : p ∈ l.zipIdx k) (ht : p.1.1.twin = true) : 0 < p.1.1.shear := by
  have h1 : p.1 ∈ flatList L := by
    obtain ⟨-, -, h⟩ := List.mem_zipIdx hp
    exact hl _ (h ▸ List.getElem_mem _)
  simp only [flatList, List.mem_flatMap, List.mem_map] at h1
  obtain ⟨g, hg, x, -, he⟩ := h1
  rw [← he] at ht ⊢
  exact hs g hg ht

/-! ## C66 -/

variable {L : Lat} {threshold : ℝ} {prev st : Twin}

/-- If no twin system is over the threshold, orientation, reference orientation and slip stay as they are. -/
theorem C66_quiet (hs : Sheared L) (hp : prev.twinned < 0.5) (h : ∀ j, ¬ Over L threshold st.slip j) :
    (act L threshold prev st).rotation = st.rotation ∧ (act L threshold prev st).rotation0 = st.rotation0 ∧
      (act L threshold prev st).slip = st.slip ∧ (act L threshold prev st).twinned = prev.twinned := by
  obtain ⟨h1, h2, h3⟩ := scan_quiet (threshold := threshold) (flatList L).zipIdx { st with twinned := prev.twinned } (by
    intro p hp ht
    refine ⟨mem_flat hs (fun _ h => h) hp ht, fun ho => h p.2 ⟨p.1.1, p.1.2, ⟨?_, ht⟩, ho⟩⟩
    obtain ⟨-, h4, h5⟩ := List.mem_zipIdx hp
    rw [List.getElem?_eq_getElem (by omega)]
    simp only [Nat.sub_zero] at h5
    rw [← h5])
  have h4 := (scan_keeps (threshold := threshold) (flatList L).zipIdx { st with twinned := prev.twinned }).1
  simp only [act, if_pos hp, overSystems_eq]
  rw [if_neg (by rw [h1]; simp only; linarith)]
  exact ⟨h2, h3, h4, h1⟩

/-- If some twin system is over the threshold, the crystal is reoriented once, by the first such system: the
new orientation is also the new reference, the slip of all twin systems is cleared and no other. -/
theorem C66_reorient (hs : Sheared L) (hp : prev.twinned < 0.5) {j : Nat} {g : Group} {x : Sys}
    (hx : TwinAt L j g x) (ho : threshold * g.shear < st.slip j) (hf : ∀ i < j, ¬ Over L threshold st.slip i) :
    (act L threshold prev st).rotation = qmul x.reorient (normalize st.rotation) ∧
      (act L threshold prev st).rotation0 = (act L threshold prev st).rotation ∧
      (act L threshold prev st).twinned = 0 ∧
      (∀ i, (∃ g x, TwinAt L i g x) → (act L threshold prev st).slip i = 0) ∧
      ∀ i, (¬ ∃ g x, TwinAt L i g x) → (act L threshold prev st).slip i = st.slip i := by
  obtain ⟨hx1, hx2⟩ := hx
  have hj : j < (flatList L).length := by
    by_contra hc
    rw [List.getElem?_eq_none (by omega)] at hx1
    exact absurd hx1 (by simp)
  have hxe : (flatList L)[j] = (g, x) := by
    rw [List.getElem?_eq_getElem hj] at hx1
    exact Option.some.inj hx1
  have hsplit : (flatList L).zipIdx = ((flatList L).take j).zipIdx ++ ((g, x), j) :: ((flatList L).drop (j + 1)).zipIdx (j + 1) := by
    conv_lhs => rw [← List.take_append_drop j (flatList L), List.drop_eq_getElem_cons hj, hxe]
    rw [List.zipIdx_append, List.zipIdx_cons, List.length_take, min_eq_left hj.le, Nat.zero_add]
  set s0 : Twin := { st with twinned := prev.twinned } with hs0
  set s1 := (((flatList L).take j).zipIdx).foldl (fun s p => scanSystem threshold p.1.1 p.1.2 p.2 s) s0 with hs1
  obtain ⟨a1, a2, a3⟩ : s1.twinned = s0.twinned ∧ s1.rotation = s0.rotation ∧ s1.rotation0 = s0.rotation0 :=
    scan_quiet ((flatList L).take j).zipIdx s0 (by
      intro p hp ht
      refine ⟨mem_flat hs (fun _ h => List.mem_of_mem_take h) hp ht, fun ho => ?_⟩
      obtain ⟨-, h4, h5⟩ := List.mem_zipIdx hp
      simp only [List.length_take, Nat.sub_zero, List.getElem_take] at h4 h5
      refine hf p.2 (by omega) ⟨p.1.1, p.1.2, ⟨?_, ht⟩, ho⟩
      rw [List.getElem?_eq_getElem (by omega), ← h5])
  have a4 : s1.slip = st.slip := (scan_keeps ((flatList L).take j).zipIdx s0).1
  set s2 := scanSystem threshold g x j s1 with hs2
  have hg : 0 < g.shear := by
    have : (g, x) ∈ flatList L := hxe ▸ List.getElem_mem hj
    simp only [flatList, List.mem_flatMap, List.mem_map, Prod.mk.injEq] at this
    obtain ⟨g', hg', y, -, rfl, rfl⟩ := this
    exact hs g' hg' hx2
  have b : s2.twinned = 1 ∧ s2.rotation = qmul x.reorient (normalize st.rotation) ∧ s2.rotation0 = s2.rotation ∧
      s2.slip = st.slip := by
    simp only [hs2, scanSystem, if_pos hx2]
    rw [if_pos]
    · simp only [a2, a4, hs0, and_self]
    · refine ⟨?_, ?_⟩
      · simp only [Function.update_self, gt_iff_lt, lt_div_iff₀ hg, a4]
        exact ho
      · simp only [a1, hs0]
        exact hp
  set s3 := (((flatList L).drop (j + 1)).zipIdx (j + 1)).foldl (fun s p => scanSystem threshold p.1.1 p.1.2 p.2 s) s2
    with hs3
  obtain ⟨c1, c2⟩ := scan_keeps (threshold := threshold) (((flatList L).drop (j + 1)).zipIdx (j + 1)) s2
  obtain ⟨c3, c4, c5⟩ := c2 (by rw [b.1]; norm_num)
  have hscan : overSystems L (scanSystem threshold) s0 = s3 := by
    rw [overSystems_eq, hsplit, List.foldl_append, List.foldl_cons]
  have hact : act L threshold prev st = { overSystems L clearSystem s3 with twinned := 0 } := by
    simp only [act, if_pos hp]
    rw [← hs0, hscan, if_pos]
    rw [hs3, c3, b.1]
    norm_num
  obtain ⟨d1, d2, d3, d4⟩ := clear_spec (flatList L) 0 s3
  rw [hact, overSystems_eq]
  refine ⟨?_, ?_, rfl, ?_, ?_⟩
  · simp only
    rw [d1, hs3, c4, b.2.1]
  · simp only
    rw [d1, d2, hs3, c4, c5, b.2.2.1]
  · rintro i ⟨g', x', h1, h2⟩
    simp only
    rw [d4, if_neg (by omega), Nat.sub_zero, h1]
    simp only [h2, if_true]
  · intro i hi
    simp only
    have c6 : s3.slip = st.slip := c1.trans b.2.2.2
    rw [d4, if_neg (by omega), Nat.sub_zero, c6]
    cases h1 : (flatList L)[i]? with
    | none => rfl
    | some p =>
      obtain ⟨g', x'⟩ := p
      simp only
      rw [if_neg]
      intro h2
      exact hi ⟨g', x', h1, h2⟩

/-- The twin fractions recorded are slip over characteristic shear before clearing. So the fraction of the
system that caused a reorientation stays recorded above the threshold although its slip is now zero. -/
theorem C66_fractions (hp : prev.twinned < 0.5) {j : Nat} {g : Group} {x : Sys} (hx : TwinAt L j g x) :
    (act L threshold prev st).frac j = st.slip j / g.shear := by
  have h1 : ∀ s : Twin, s.slip = st.slip → (overSystems L (scanSystem threshold) s).frac j = st.slip j / g.shear := by
    intro s h
    rw [overSystems_eq, scan_frac, if_neg (by omega), Nat.sub_zero, hx.1]
    simp only [hx.2, if_true, h]
  simp only [act, if_pos hp]
  split_ifs
  · simp only
    rw [overSystems_eq L clearSystem, (clear_spec (flatList L) 0 _).2.2.1]
    exact h1 _ rfl
  · exact h1 _ rfl

/-- The flag never stays up: it is zero after any sequence of steps, whatever the steps do to the other
variables, so every step is examined. -/
theorem C66_flag (hs : Sheared L) (st0 : Twin) (steps : List (ℝ × (Twin → Twin))) :
    (steps.foldl (fun prev s => act L s.1 prev (s.2 prev)) (Twin.init L st0)).twinned = 0 := by
  have key : ∀ (steps : List (ℝ × (Twin → Twin))) (p : Twin), p.twinned = 0 →
      (steps.foldl (fun prev s => act L s.1 prev (s.2 prev)) p).twinned = 0 := by
    intro steps
    induction steps with
    | nil => exact fun _ h => h
    | cons s l ih =>
      intro p h
      rw [List.foldl_cons]
      apply ih
      have hp : p.twinned < 0.5 := by rw [h]; norm_num
      by_cases ho : ∃ j, Over L s.1 (s.2 p).slip j
      · classical
        obtain ⟨g, x, h1, h2⟩ := Nat.find_spec ho
        exact (C66_reorient hs hp h1 h2 fun i hi => Nat.find_min ho hi).2.2.1
      · push Not at ho
        rw [(C66_quiet hs hp ho).2.2.2, h]
  exact key steps _ rfl

/-- A flag put up by hand switches the step off. -/
theorem C66_switched_off (hp : ¬ prev.twinned < 0.5) :
    (act L threshold prev st).rotation = st.rotation ∧ (act L threshold prev st).rotation0 = st.rotation0 ∧
      (act L threshold prev st).slip = st.slip ∧ (act L threshold prev st).twinned = prev.twinned := by
  simp only [act, if_neg hp, overSystems_eq]
  exact copy_spec prev (flatList L).zipIdx { st with twinned := prev.twinned }

/-- Right after a reorientation the same step does nothing more: the slip that caused it is gone. -/
theorem C66_again (hs : Sheared L) (h0 : 0 ≤ threshold) (hp : prev.twinned < 0.5)
    (ho : ∃ j, Over L threshold st.slip j) :
    (act L threshold (act L threshold prev st) (act L threshold prev st)).rotation = (act L threshold prev st).rotation ∧
    (act L threshold (act L threshold prev st) (act L threshold prev st)).slip = (act L threshold prev st).slip := by
  classical
  obtain ⟨g, x, h1, h2⟩ := Nat.find_spec ho
  obtain ⟨-, -, a3, a4, -⟩ := C66_reorient hs hp h1 h2 fun i hi => Nat.find_min ho hi
  have hq := C66_quiet (threshold := threshold) (prev := act L threshold prev st) (st := act L threshold prev st) hs
    (by rw [a3]; norm_num) (by
      rintro j ⟨g', x', h3, h4⟩
      rw [a4 j ⟨g', x', h3⟩] at h4
      have hg : 0 < g'.shear := by
        have : (g', x') ∈ flatList L := List.mem_of_getElem? h3.1
        simp only [flatList, List.mem_flatMap, List.mem_map, Prod.mk.injEq] at this
        obtain ⟨g2, hg2, y, -, rfl, rfl⟩ := this
        exact hs g2 hg2 h3.2
      nlinarith [mul_nonneg h0 hg.le])
  exact ⟨hq.1, hq.2.2.1⟩

/-- A lattice with a slip system, and a twin system on the plane normal to the third axis. -/
noncomputable def twoGroups : Lat :=
  ⟨[⟨false, 0, [⟨![1, 0, 0], ![1, 0, 0], ![0, 1, 0], Rotation.one⟩]⟩,
    ⟨true, 1 / 2, [⟨![1, 0, 0], ![1, 0, 0], ![0, 0, 1], ⟨0, 0, 0, 1⟩⟩]⟩], [0, 1, 2], [], [], none⟩

/-- Case: the second system has slipped by 3/10, a fraction of 3/5; above a threshold of 1/2 that turns the
crystal and clears the twin slip but not the slip of the first system. -/
example : Sheared twoGroups ∧
    TwinAt twoGroups 1 ⟨true, 1 / 2, [⟨![1, 0, 0], ![1, 0, 0], ![0, 0, 1], ⟨0, 0, 0, 1⟩⟩]⟩
      ⟨![1, 0, 0], ![1, 0, 0], ![0, 0, 1], ⟨0, 0, 0, 1⟩⟩ ∧
    (1 / 2 : ℝ) * (1 / 2) < 3 / 10 ∧ ∀ i < 1, ¬ Over twoGroups (1 / 2) (fun _ => 3 / 10) i := by
  refine ⟨?_, ⟨rfl, rfl⟩, by norm_num, ?_⟩
  · intro g hg ht
    simp only [twoGroups, List.mem_cons, List.not_mem_nil, or_false] at hg
    rcases hg with rfl | rfl
    · simp at ht
    · norm_num
  · rintro i hi ⟨g, x, h1, -⟩
    have : i = 0 := by omega
    subst this
    have h2 := h1.1
    simp only [flatList, twoGroups, List.flatMap_cons, List.map_cons, List.map_nil, List.cons_append, List.nil_append,
      List.getElem?_cons_zero, Option.some.injEq, Prod.mk.injEq] at h2
    have h3 := h1.2
    rw [← h2.1] at h3
    simp at h3

/-! ## C105 -/

/-- `Q'` is the twin of the crystal `Q` across its lattice plane with normal `m`: each lattice vector of the twin
is, up to sign, the mirror image of the same vector of the parent in that plane of the parent. -/
def TwinAcross (m : Vec) (Q Q' : Quat) : Prop :=
  ∀ v, applyVec Q' v = -(applyVec Q v - (2 * (applyVec Q m ⬝ᵥ applyVec Q v)) • applyVec Q m)

theorem applyVec_qmul {p q : Quat} (hp : Unit4 p) (hq : Unit4 q) (v : Vec) :
    applyVec (qmul p q) v = applyVec p (applyVec q v) := by
  have h := toMatrix_mul hp hq
  rw [(C51_faithful (hp.mul hq) (hp.mul hq) v).2.2.2.2.2.2, h, (C51_faithful hp hp _).2.2.2.2.2.2,
    (C51_faithful hq hq v).2.2.2.2.2.2, mulVec_mulVec]

theorem applyVec_dot {q : Quat} (hq : Unit4 q) (u v : Vec) : applyVec q u ⬝ᵥ applyVec q v = u ⬝ᵥ v := by
  rw [(C51_faithful hq hq u).2.2.2.2.2.2, (C51_faithful hq hq v).2.2.2.2.2.2, dotProduct_mulVec, vecMul_mulVec,
    ← dotProduct_mulVec]
  have : (toMatrix q)ᵀ * toMatrix q = 1 := mul_eq_one_comm.mp (toMatrix_SO3 hq).1
  rw [this, one_mulVec]

/-- The right composition: parent orientation after the reorientation of the lattice. -/
theorem C105_right {m : Vec} {Q R : Quat} (hQ : Unit4 Q) (hR : Unit4 R)
    (h : ∀ v, applyVec R v = (2 * (m ⬝ᵥ v)) • m - v) : TwinAcross m Q (qmul Q R) := by
  intro v
  have hl : ∀ (a : ℝ) (u w : Vec), applyVec Q (a • u - w) = a • applyVec Q u - applyVec Q w := by
    intro a u w
    simp only [(C51_faithful hQ hQ _).2.2.2.2.2.2, mulVec_sub, mulVec_smul]
  rw [applyVec_qmul hQ hR, h, hl, applyVec_dot hQ]
  abel

/-- The code composes in the other order. The result is the twin exactly when the parent's orientation maps the
normal of the habit plane onto itself or its opposite. -/
theorem C105_partial {m : Vec} (hm : m ⬝ᵥ m = 1) {Q R : Quat} (hQ : Unit4 Q) (hR : Unit4 R)
    (h : ∀ v, applyVec R v = (2 * (m ⬝ᵥ v)) • m - v) :
    TwinAcross m Q (qmul R Q) ↔ applyVec Q m = m ∨ applyVec Q m = -m := by
  constructor
  · intro ht
    have h1 := ht m
    rw [applyVec_qmul hR hQ, h, applyVec_dot hQ, hm] at h1
    have h2 : (m ⬝ᵥ applyVec Q m) • m = applyVec Q m := by
      have := congrArg (fun x => (1 / 2 : ℝ) • (x + applyVec Q m)) h1
      simp only [sub_add_cancel] at this
      rw [smul_smul] at this
      have e : (1 / 2 : ℝ) * (2 * (m ⬝ᵥ applyVec Q m)) = m ⬝ᵥ applyVec Q m := by ring
      rw [e] at this
      rw [this]
      ext i
      simp only [Pi.smul_apply, Pi.add_apply, Pi.neg_apply, Pi.sub_apply, smul_eq_mul]
      ring
    set c := m ⬝ᵥ applyVec Q m with hc
    have h3 : c * c = 1 := by
      have h4 := applyVec_dot hQ m m
      rw [← h2, smul_dotProduct, dotProduct_smul, hm, smul_eq_mul, smul_eq_mul, mul_one] at h4
      exact h4
    rcases mul_self_eq_one_iff.mp h3 with h4 | h4
    · left; rw [← h2, h4, one_smul]
    · right; rw [← h2, h4, neg_one_smul]
  · intro hor v
    rw [applyVec_qmul hR hQ, h]
    rcases hor with e | e
    · rw [e]; abel
    · rw [e, neg_dotProduct]
      ext i
      simp only [Pi.smul_apply, Pi.sub_apply, Pi.neg_apply, smul_eq_mul]
      ring

/-- What this means for a step: the orientation after a reorientation by system `x` is the twin of the one before
exactly when the parent keeps the habit plane of that system in the place it has in the lattice. -/
theorem C105_step_partial (hs : Sheared L) (hp : prev.twinned < 0.5) {j : Nat} {g : Group} {x : Sys}
    (hx : TwinAt L j g x) (hok : SysOk g.twin x) (hR : Unit4 x.reorient)
    (ho : threshold * g.shear < st.slip j) (hf : ∀ i < j, ¬ Over L threshold st.slip i) (hQ : Unit4 st.rotation) :
    TwinAcross x.normal st.rotation (act L threshold prev st).rotation ↔
      applyVec st.rotation x.normal = x.normal ∨ applyVec st.rotation x.normal = -x.normal := by
  rw [(C66_reorient hs hp hx ho hf).1, normalize_of_unit hQ]
  exact C105_partial hok.normal hQ hR (hok.twinned hx.2).2

/-- The orientation of a crystal turned by a right angle about the first axis. -/
noncomputable def quarter : Quat := ⟨√(1 / 2), √(1 / 2), 0, 0⟩

/-- The claim is false: a crystal turned by a right angle about the first axis has its plane normal to its third
axis across the second sample axis, but is turned about the third sample axis. -/
theorem C105_counterexample : Unit4 quarter ∧ ¬ TwinAcross ![0, 0, 1] quarter (qmul ⟨0, 0, 0, 1⟩ quarter) ∧
    TwinAcross ![0, 0, 1] quarter (qmul quarter ⟨0, 0, 0, 1⟩) := by
  have h2 : √(1 / 2 : ℝ) * √(1 / 2) = 1 / 2 := Real.mul_self_sqrt (by norm_num)
  have hq : Unit4 quarter := by
    simp only [Unit4, quarter]
    nlinarith [h2]
  have h3 : (√2)⁻¹ * (√2)⁻¹ = (1 / 2 : ℝ) := by
    rw [← mul_inv, Real.mul_self_sqrt (by norm_num)]; norm_num
  have hR : Unit4 (⟨0, 0, 0, 1⟩ : Quat) := by norm_num [Unit4]
  have hm : (![0, 0, 1] : Vec) ⬝ᵥ ![0, 0, 1] = 1 := by simp [dotProduct, Fin.sum_univ_three]
  have h : ∀ v : Vec, applyVec ⟨0, 0, 0, 1⟩ v = (2 * ((![0, 0, 1] : Vec) ⬝ᵥ v)) • ![0, 0, 1] - v := by
    intro v
    ext i
    fin_cases i <;> simp [applyVec, qmul, Rotation.conj, dotProduct, Fin.sum_univ_three] <;> ring
  have e : applyVec quarter ![0, 0, 1] = ![0, -1, 0] := by
    ext i
    fin_cases i <;> simp only [applyVec, qmul, Rotation.conj, quarter] <;> simp <;>
      nlinarith [h3]
  refine ⟨hq, ?_, C105_right hq hR h⟩
  rw [C105_partial hm hq hR h, e]
  rintro (h1 | h1)
  · have := congrFun h1 2; simp at this
  · have := congrFun h1 2; simp at this

/-- Case for `C105_step_partial`: the lattice with two groups in that orientation ends in an orientation that is
not the twin. -/
example : ¬ TwinAcross ![0, 0, 1] quarter (act twoGroups (1 / 2) ⟨quarter, quarter, 0, 0, 0⟩
    ⟨quarter, quarter, fun _ => 3 / 10, 0, 0⟩).rotation := by
  have hm : (![0, 0, 1] : Vec) ⬝ᵥ ![0, 0, 1] = 1 := by simp [dotProduct, Fin.sum_univ_three]
  have hd : (![1, 0, 0] : Vec) ⬝ᵥ ![1, 0, 0] = 1 := by simp [dotProduct, Fin.sum_univ_three]
  have hn : norm3 (![1, 0, 0] : Vec) = 1 := by simp [norm3]
  have hok : SysOk true ⟨![1, 0, 0], ![1, 0, 0], ![0, 0, 1], ⟨0, 0, 0, 1⟩⟩ := by
    refine ⟨hd, hm, by simp [hn], by simp, fun _ => ⟨?_, ?_⟩⟩
    · simp [dotProduct, Fin.sum_univ_three]; norm_num
    · intro v
      ext i
      fin_cases i <;> simp [applyVec, qmul, Rotation.conj, dotProduct, Fin.sum_univ_three] <;> ring
  have hs : Sheared twoGroups := by
    intro g hg ht
    simp only [twoGroups, List.mem_cons, List.not_mem_nil, or_false] at hg
    rcases hg with rfl | rfl
    · simp at ht
    · norm_num
  have hr : (act twoGroups (1 / 2) ⟨quarter, quarter, 0, 0, 0⟩
      ⟨quarter, quarter, fun _ => 3 / 10, 0, 0⟩).rotation = qmul ⟨0, 0, 0, 1⟩ (normalize quarter) :=
    (C66_reorient (j := 1) (g := ⟨true, 1 / 2, [⟨![1, 0, 0], ![1, 0, 0], ![0, 0, 1], ⟨0, 0, 0, 1⟩⟩]⟩)
      (x := ⟨![1, 0, 0], ![1, 0, 0], ![0, 0, 1], ⟨0, 0, 0, 1⟩⟩) hs (by norm_num) ⟨rfl, rfl⟩ (by norm_num) (by
        rintro i hi ⟨g, x, h1, -⟩
        have : i = 0 := by omega
        subst this
        have h2 := h1.1
        simp only [flatList, twoGroups, List.flatMap_cons, List.map_cons, List.map_nil, List.cons_append,
          List.nil_append, List.getElem?_cons_zero, Option.some.injEq, Prod.mk.injEq] at h2
        have h3 := h1.2
        rw [← h2.1] at h3
        simp at h3)).1
  rw [hr, normalize_of_unit C105_counterexample.1]
  exact C105_counterexample.2.1

end Neml.Polycrystal
