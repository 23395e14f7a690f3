import Verif.Model.Trajectory
import Verif.Props.InversePole

/-!
# C211: trajectories in inverse pole figures

Specification: a line belongs to one crystal and goes through the points that crystal has in the figure of each step. A figure
shows every trajectory it is given.
-/

namespace Neml.PoleFigures

open Neml.Rotation Neml.Lattice Neml.Symmetry Matrix

variable {dirOf : List ℤ → Option Vec} {ops sample : List Quat} {d : Vec} {x y : List ℤ}

/-- The figure of several crystals is the figures of the crystals one after the other. -/
theorem cubicFigure_flat (f : Quat → List (Fin 2 → ℝ)) (qs : List Quat)
    (h : ∀ q ∈ qs, cubicFigure dirOf ops [q] d sample x y = some (f q)) :
    cubicFigure dirOf ops qs d sample x y = some (qs.flatMap f) := by
  have key : ∀ q l, cubicFigure dirOf ops [q] d sample x y = some l →
      ∃ p, projectIpf dirOf ops q d sample x y = some p ∧
        l = (reduceTriangle p (corner 0) (corner 1) (corner 2)).map stereo := by
    intro q l hl
    rcases hp : projectIpf dirOf ops q d sample x y with _ | p
    · simp [cubicFigure, hp] at hl
    · refine ⟨p, rfl, ?_⟩
      simp [cubicFigure, hp] at hl
      exact hl.symm
  induction qs with
  | nil => simp [cubicFigure, reduceTriangle]
  | cons q qs ih =>
    obtain ⟨p, hp, hf⟩ := key q _ (h q List.mem_cons_self)
    have ih := ih fun q hq => h q (List.mem_cons_of_mem _ hq)
    unfold cubicFigure at ih ⊢
    rw [List.mapM_cons, hp]
    rcases hm : qs.mapM fun q => projectIpf dirOf ops q d sample x y with _ | l
    · rw [hm] at ih; cases ih
    · rw [hm] at ih
      have e := Option.some.inj ih
      simp only [Option.bind_eq_bind, Option.bind_some, Option.pure_def, Option.map_some, List.flatMap_cons,
        List.flatten_cons, Option.some.injEq]
      rw [hf, ← e, ← List.map_append, reduceTriangle, List.filter_append]
      rfl

theorem flatMap_get {α β : Type} (f : α → List β) (m : Nat) (qs : List α) (h : ∀ q ∈ qs, (f q).length = m) (c j : Nat)
    (hj : j < m) : (qs.flatMap f)[c * m + j]? = qs[c]?.bind fun q => (f q)[j]? := by
  induction qs generalizing c with
  | nil => simp
  | cons q qs ih =>
    have hq := h q List.mem_cons_self
    cases c with
    | zero => simp [List.getElem?_append_left (show j < (f q).length by omega)]
    | succ c =>
      rw [List.flatMap_cons, List.getElem?_append_right (by rw [hq, Nat.succ_mul]; omega)]
      rw [show (c + 1) * m + j - (f q).length = c * m + j by rw [hq, Nat.succ_mul]; omega,
        ih (fun q hq => h q (List.mem_cons_of_mem _ hq)) c]
      rfl

/-- C211: if every crystal has the same number of points in every step, there is a figure, and each line stays with one
crystal: line `c * m + j` goes through the points with number `j` of crystal `c`. -/
theorem C211_follows (f : Quat → List (Fin 2 → ℝ)) (m N : Nat) (hm : 0 < m) (hN : 0 < N) (steps : List (List Quat))
    (h0 : steps ≠ []) (hlen : ∀ qs ∈ steps, qs.length = N)
    (hf : ∀ qs ∈ steps, ∀ q ∈ qs, cubicFigure dirOf ops [q] d sample x y = some (f q) ∧ (f q).length = m) :
    ∃ rows, trajectory dirOf ops steps d sample x y = some rows ∧
      (∀ r ∈ rows, r.length = N * m) ∧
      ∀ c j, j < m → line rows (c * m + j) = steps.map fun qs => qs[c]?.bind fun q => (f q)[j]? := by
  have hrow : ∀ qs ∈ steps, cubicFigure dirOf ops qs d sample x y = some (qs.flatMap f) := fun qs hqs =>
    cubicFigure_flat f qs fun q hq => (hf qs hqs q hq).1
  have hall : (steps.mapM fun qs => cubicFigure dirOf ops qs d sample x y) = some (steps.map fun qs => qs.flatMap f) := by
    clear h0 hlen hf
    induction steps with
    | nil => rfl
    | cons qs steps ih =>
      rw [List.mapM_cons, hrow qs List.mem_cons_self, ih fun q hq => hrow q (List.mem_cons_of_mem _ hq)]
      rfl
  have hlen' : ∀ r ∈ steps.map fun qs => qs.flatMap f, r.length = N * m := by
    intro r hr
    obtain ⟨qs, hqs, rfl⟩ := List.mem_map.mp hr
    rw [List.length_flatMap, List.map_congr_left fun q hq => (hf qs hqs q hq).2, List.map_const', List.sum_replicate,
      hlen qs hqs, smul_eq_mul]
  refine ⟨steps.map fun qs => qs.flatMap f, ?_, hlen', ?_⟩
  · rw [trajectory, hall, Option.bind_some, if_pos ⟨by simpa using h0, N * m, Nat.mul_pos hN hm, hlen'⟩]
  · intro c j hj
    rw [line, List.map_map]
    exact List.map_congr_left fun qs hqs => flatMap_get f m qs (fun q hq => (hf qs hqs q hq).2) c j hj

/-- C211, one crystal with cubic symmetry: whatever figure there is, all its points in a step are the projection of the
direction with its components sorted by size. -/
theorem C211_one (h : symmetryRotations "432" = some ops) {a : ℝ} (ha : 0 < a) (hd : d ≠ 0)
    (hs : ∀ s ∈ sample, applyVec s d = d ∨ applyVec s d = -d) (hsu : ∀ s ∈ sample, Unit4 s) (qs : List Quat)
    (hq : ∀ q ∈ qs, Unit4 q) (rows)
    (hr : trajectory (miller2cart (cubicBasis a)) ops (qs.map fun q => [q]) d sample [1, 0, 0] [0, 1, 0] = some rows) :
    List.Forall₂ (fun q r => r ≠ [] ∧ ∀ p ∈ r, ∃ v, Sorted (applyVec q (unit d)) v ∧ p = stereo v) qs rows := by
  unfold trajectory at hr
  rw [Option.bind_eq_some_iff] at hr
  obtain ⟨rows', h1, h2⟩ := hr
  split_ifs at h2 with hc
  obtain rfl := Option.some.inj h2
  obtain ⟨-, n, hn, hl⟩ := hc
  clear h2
  induction qs generalizing rows' with
  | nil =>
    have : rows' = [] := by simpa using h1.symm
    rw [this]
    exact .nil
  | cons q qs ih =>
    obtain ⟨l, hp, hk, -⟩ := C156_triangle h ha (hq q List.mem_cons_self) hd hs hsu
    have hone : cubicFigure (miller2cart (cubicBasis a)) ops [q] d sample [1, 0, 0] [0, 1, 0] =
        some ((reduceTriangle l (corner 0) (corner 1) (corner 2)).map stereo) := by simp [cubicFigure, hp]
    rw [List.map_cons, List.mapM_cons, hone] at h1
    simp only [Option.bind_eq_bind, Option.bind_some, Option.bind_eq_some_iff, Option.pure_def,
      Option.some.injEq] at h1
    obtain ⟨rest, h2, rfl⟩ := h1
    refine .cons ⟨?_, ?_⟩ (ih (fun q hq' => hq q (List.mem_cons_of_mem _ hq')) rest h2
      fun r hr => hl r (List.mem_cons_of_mem _ hr))
    · intro e
      have := hl _ List.mem_cons_self
      rw [e] at this
      simp at this
      omega
    · intro p hp
      obtain ⟨v, hv, rfl⟩ := List.mem_map.mp hp
      exact ⟨v, hk v hv, rfl⟩

/-- C211: with at least as many colours as trajectories a figure shows every trajectory, in its own colour. -/
theorem C211_all_partial {C : Type} (all : List (List (List Quat))) (colors : List C) (hc : all.length ≤ colors.length)
    (fig) (hfig : trajectoryFigure dirOf ops all d sample x y colors = some fig) :
    fig.length = all.length ∧ ∀ (i : Nat) t, all[i]? = some t → ∃ c rows, colors[i]? = some c ∧ fig[i]? = some (c, rows) ∧
      trajectory dirOf ops t d sample x y = some rows := by
  induction all generalizing colors fig with
  | nil =>
    have : fig = [] := by simpa [trajectoryFigure] using hfig.symm
    simp [this]
  | cons t all ih =>
    cases colors with
    | nil => simp at hc
    | cons c colors =>
      unfold trajectoryFigure at hfig
      rw [List.zip_cons_cons, List.mapM_cons] at hfig
      simp only [Option.bind_eq_bind, Option.bind_eq_some_iff, Option.map_eq_some_iff, Option.pure_def,
        Option.some.injEq] at hfig
      obtain ⟨cr, ⟨rows, hr, rfl⟩, rest, h2, rfl⟩ := hfig
      obtain ⟨hl, hi⟩ := ih colors (by simpa using hc) rest h2
      refine ⟨by simp [hl], fun i u hu => ?_⟩
      cases i with
      | zero =>
        obtain rfl : t = u := by simpa using hu
        exact ⟨c, rows, rfl, rfl, hr⟩
      | succ i => exact hi i u (by simpa using hu)

/-- C211 fails: trajectories for which there is no colour are left out without a word, whatever they are. -/
theorem C211_colors_disagreement {C : Type} (all more : List (List (List Quat))) (colors : List C)
    (hc : colors.length ≤ all.length) :
    trajectoryFigure dirOf ops (all ++ more) d sample x y colors = trajectoryFigure dirOf ops all d sample x y colors := by
  unfold trajectoryFigure
  congr 1
  induction all generalizing colors with
  | nil => cases colors with
    | nil => simp
    | cons c colors => simp at hc
  | cons t all ih => cases colors with
    | nil => simp
    | cons c colors =>
      simp only [List.cons_append, List.zip_cons_cons]
      rw [ih colors (by simpa using hc)]

/-- The reference orientation has a point of the third axis. -/
theorem third_axis (h : symmetryRotations "432" = some ops) (h' : symmetryRotations "222" = some sample) {a : ℝ}
    (ha : 0 < a) : ∃ l, cubicFigure (miller2cart (cubicBasis a)) ops [Rotation.one] ![0, 0, 1] sample [1, 0, 0] [0, 1, 0] =
      some l ∧ 0 < l.length := by
  obtain ⟨t, ht, hid⟩ := frame_cubic ha
  have hd : (![0, 0, 1] : Vec) ≠ 0 := fun e => by simpa using congrFun e 2
  have hone : Rotation.one ∈ ops := (C68_group h).one
  have hone' : Rotation.one ∈ sample := (C68_group h').one
  have id1 : ∀ v, applyVec Rotation.one v = v := fun v => by
    rw [app ((C68_group h).unit _ hone), toMatrix_one, one_mulVec]
  have hp : 0 < (norm3 (![0, 0, 1] : Vec))⁻¹ := inv_pos.mpr (norm3_pos hd)
  have hmem : (norm3 (![0, 0, 1] : Vec))⁻¹ • (![0, 0, 1] : Vec) ∈
      reduceTriangle (ipfPoints t Rotation.one ops sample ![0, 0, 1]) (corner 0) (corner 1) (corner 2) := by
    rw [mem_reduce, mem_ipf]
    refine ⟨⟨by simpa using hp, Rotation.one, hone', Rotation.one, hone, ?_⟩, ?_⟩
    · rw [hid, id1, id1, id1]; rfl
    · simp only [Standard, Pi.smul_apply, smul_eq_mul]
      generalize (norm3 (![0, 0, 1] : Vec))⁻¹ = c at hp
      refine ⟨?_, ?_, ?_⟩ <;> simp <;> linarith
  refine ⟨(reduceTriangle (ipfPoints t Rotation.one ops sample ![0, 0, 1]) (corner 0) (corner 1) (corner 2)).map stereo,
    by simp [cubicFigure, projectIpf, ht], ?_⟩
  rw [List.length_map]
  exact List.length_pos_of_mem hmem

/-- Two crystals that stay for two steps have a figure of the third axis. -/
example (h : symmetryRotations "432" = some ops) (h' : symmetryRotations "222" = some sample) {a : ℝ} (ha : 0 < a) :
    ∃ rows, trajectory (miller2cart (cubicBasis a)) ops [[Rotation.one, Rotation.one], [Rotation.one, Rotation.one]]
      ![0, 0, 1] sample [1, 0, 0] [0, 1, 0] = some rows := by
  obtain ⟨l, hl, h0⟩ := third_axis h h' ha
  obtain ⟨rows, hr, -⟩ := C211_follows (fun _ => l) l.length 2 h0 (by norm_num)
    [[Rotation.one, Rotation.one], [Rotation.one, Rotation.one]] (by simp) (by simp) (by simpa using hl)
  exact ⟨rows, hr⟩

/-- A figure with one trajectory and two colours. -/
example (h : symmetryRotations "432" = some ops) (h' : symmetryRotations "222" = some sample) {a : ℝ} (ha : 0 < a) :
    ∃ fig, trajectoryFigure (miller2cart (cubicBasis a)) ops [[[Rotation.one], [Rotation.one]]] ![0, 0, 1] sample [1, 0, 0]
      [0, 1, 0] ["b", "r"] = some fig := by
  obtain ⟨l, hl, h0⟩ := third_axis h h' ha
  obtain ⟨rows, hr, -⟩ := C211_follows (fun _ => l) l.length 1 h0 (by norm_num)
    [[Rotation.one], [Rotation.one]] (by simp) (by simp) (by simpa using hl)
  exact ⟨[("b", rows)], by simp [trajectoryFigure, hr]⟩

/-- The trajectory of one crystal that `C211_one` speaks of. -/
example (h : symmetryRotations "432" = some ops) (h' : symmetryRotations "222" = some sample) {a : ℝ} (ha : 0 < a) :
    ∃ rows, trajectory (miller2cart (cubicBasis a)) ops ([Rotation.one, Rotation.one].map fun q => [q])
      ![0, 0, 1] sample [1, 0, 0] [0, 1, 0] = some rows := by
  obtain ⟨l, hl, h0⟩ := third_axis h h' ha
  obtain ⟨rows, hr, -⟩ := C211_follows (fun _ => l) l.length 1 h0 (by norm_num)
    ([Rotation.one, Rotation.one].map fun q => [q]) (by simp) (by simp) (by simpa using hl)
  exact ⟨rows, hr⟩

/-! ## Where there is no figure -/

/-- A half turn that carries the direction (1, 2, 3) to (2, 1, 3). -/
noncomputable def swapped : Quat := ⟨0, 1 / √6, 1 / √6, 2 / √6⟩

theorem swapped_unit : Unit4 swapped := by
  have h : √(6 : ℝ) ^ 2 = 6 := Real.sq_sqrt (by norm_num)
  have h0 : √(6 : ℝ) ≠ 0 := by positivity
  simp only [Unit4, swapped]
  field_simp
  rw [h]; norm_num

theorem swapped_turns : applyVec swapped ![1, 2, 3] = ![2, 1, 3] := by
  have h : √(6 : ℝ) ^ 2 = 6 := Real.sq_sqrt (by norm_num)
  have h0 : √(6 : ℝ) ≠ 0 := by positivity
  ext i
  fin_cases i <;> simp [applyVec, swapped, qmul, conj] <;> field_simp <;> rw [h] <;> norm_num

/-- C211 fails: a crystal that turns from the reference orientation has no point of the direction (1, 2, 3) in the first
step and has points in the second. Neither the trajectory nor its first step alone gives a figure, although every step
has a discrete figure. -/
theorem C211_ragged_disagreement (h : symmetryRotations "432" = some ops) (h' : symmetryRotations "222" = some sample)
    {a : ℝ} (ha : 0 < a) :
    (∀ steps, trajectory (miller2cart (cubicBasis a)) ops ([Rotation.one] :: steps) ![1, 2, 3] sample [1, 0, 0] [0, 1, 0] =
      none) ∧
    ∃ l, cubicFigure (miller2cart (cubicBasis a)) ops [swapped] ![1, 2, 3] sample [1, 0, 0] [0, 1, 0] = some l ∧
      l ≠ [] ∧ cubicFigure (miller2cart (cubicBasis a)) ops [Rotation.one] ![1, 2, 3] sample [1, 0, 0] [0, 1, 0] =
        some [] := by
  have hempty := C156_missing_disagreement h h' ha
  constructor
  · intro steps
    unfold trajectory
    rw [List.mapM_cons, hempty]
    rcases steps.mapM fun qs => cubicFigure (miller2cart (cubicBasis a)) ops qs ![1, 2, 3] sample [1, 0, 0] [0, 1, 0]
      with _ | rest
    · rfl
    · simp only [Option.bind_eq_bind, Option.bind_some, Option.pure_def]
      rw [if_neg]
      rintro ⟨-, n, hn, hl⟩
      have := hl [] List.mem_cons_self
      simp at this
      omega
  · obtain ⟨t, ht, hid⟩ := frame_cubic ha
    have hd : (![1, 2, 3] : Vec) ≠ 0 := fun e => by simpa using congrFun e 0
    have hn := norm3_pos hd
    have hone : Rotation.one ∈ ops := (C68_group h).one
    have hone' : Rotation.one ∈ sample := (C68_group h').one
    have id1 : ∀ v, applyVec Rotation.one v = v := fun v => by
      rw [app ((C68_group h).unit _ hone), toMatrix_one, one_mulVec]
    have hv : applyVec swapped (unit ![1, 2, 3]) = (norm3 (![1, 2, 3] : Vec))⁻¹ • ![2, 1, 3] := by
      have := swapped_turns
      rw [app swapped_unit] at this ⊢
      rw [unit, mulVec_smul, this]
    have hmem : (norm3 (![1, 2, 3] : Vec))⁻¹ • (![2, 1, 3] : Vec) ∈
        reduceTriangle (ipfPoints t swapped ops sample ![1, 2, 3]) (corner 0) (corner 1) (corner 2) := by
      have hp : 0 < (norm3 (![1, 2, 3] : Vec))⁻¹ := inv_pos.mpr hn
      rw [mem_reduce, mem_ipf]
      refine ⟨⟨by simpa using hp, Rotation.one, hone', Rotation.one, hone, ?_⟩, ?_⟩
      · rw [hid, id1, id1, hv]
      · simp only [Standard, Pi.smul_apply, smul_eq_mul]
        generalize (norm3 (![1, 2, 3] : Vec))⁻¹ = c at hp
        refine ⟨?_, ?_, ?_⟩ <;> simp <;> linarith
    refine ⟨(reduceTriangle (ipfPoints t swapped ops sample ![1, 2, 3]) (corner 0) (corner 1) (corner 2)).map stereo,
      by simp [cubicFigure, projectIpf, ht], ?_, hempty⟩
    intro e
    rw [List.map_eq_nil_iff] at e
    rw [e] at hmem
    cases hmem

end Neml.PoleFigures
