import Verif.Model.SmallFace
import Verif.Props.Polycrystal

/-!
# C212: crystals and polycrystals through the small strain interface

Specification: a step without spin. A model used through `update_sd` does what it does through `update_ld_inc` when the
body does not turn in the step, and a polycrystal is the average of its crystals, each used through `update_sd` by itself.
-/

namespace Neml.Polycrystal

open Matrix

variable {n : Nat} {H : Type} {grain : GrainIn H → Option (GrainOut H)}

/-- The result of a large deformation step without the derivative by the spin. -/
def forget {X : Type} (o : GrainOut X) : SdOut X := ⟨o.s, o.h, o.A, o.u, o.p⟩

/-- C212: for a model whose step depends on the change of the spin, as the step of a crystal does, the small strain step is
the large deformation step with any spin that does not change. -/
theorem C212_crystal (hg : ∀ x c, grain { x with w1 := x.w1 + c, w0 := x.w0 + c } = grain x) (x : SdIn H)
    (w : Fin 3 → ℝ) :
    updateSd grain x = (grain ⟨x.e1, x.e0, w, w, x.T1, x.T0, x.t1, x.t0, x.s0, x.h0⟩).map forget := by
  have := hg ⟨x.e1, x.e0, 0, 0, x.T1, x.T0, x.t1, x.t0, x.s0, x.h0⟩ w
  simp only [zero_add] at this
  rw [this]
  rfl

/-- The caller of the polycrystal next to the callers of its crystals. -/
structure Together (w : Fin n → ℝ) (c : Caller (Store n H)) (g : Fin n → Caller H) : Prop where
  same : ∀ i, (g i).e = c.e ∧ (g i).T = c.T ∧ (g i).t = c.t
  stress : c.s = ∑ i, w i • (g i).s
  energy : c.u = ∑ i, w i * (g i).u
  work : c.p = ∑ i, w i * (g i).p
  grains : ∀ i, c.h.hist i = (g i).h ∧ c.h.stress i = (g i).s ∧ c.h.d i = c.e
  still : ∀ i, c.h.w i = 0

theorem step_some {w : Fin n → ℝ} {c : Caller (Store n H)} {g g' : Fin n → Caller H} (h : Together w c g)
    {q : (Fin 6 → ℝ) × ℝ × ℝ} (hs : ∀ i, sdStep grain (g i) q = some (g' i)) :
    ∃ c', sdStep (taylorLd w grain) c q = some c' ∧ Together w c' g' := by
  have key : ∀ i, ∃ o, grain ⟨q.1, c.e, 0, 0, q.2.1, c.T, q.2.2, c.t, (g i).s, (g i).h⟩ = some o ∧
      g' i = ⟨q.1, q.2.1, q.2.2, o.s, o.h, (g i).u + o.u, (g i).p + o.p⟩ := by
    intro i
    have hi := hs i
    obtain ⟨e1, e2, e3⟩ := h.same i
    simp only [sdStep, updateSd, e1, e2, e3, Option.map_map, Option.map_eq_some_iff, Function.comp] at hi
    obtain ⟨o, ho, e⟩ := hi
    exact ⟨o, ho, e.symm⟩
  choose o ho e using key
  let a : StepIn := ⟨q.1, c.e, 0, 0, q.2.1, c.T, q.2.2, c.t, c.s⟩
  have hin : ∀ i, grain (grainIn a c.h i) = some (o i) := by
    intro i
    rw [← ho i]
    obtain ⟨a1, a2, a3⟩ := h.grains i
    simp only [grainIn, a1, a2, a3, h.still i, a]
  have ht := (C64_average (un := 0) (pn := 0) w
    ⟨fun j => ∑ i, w i * (o i).s j, fun j => ∑ i, w i * (o i).A j, fun j => ∑ i, w i * (o i).B j, 0 + ∑ i, w i * (o i).u,
      0 + ∑ i, w i * (o i).p⟩ ⟨fun i => (o i).h, fun i => (o i).s, fun _ => q.1, fun _ => 0⟩).mpr
    ⟨o, hin, fun _ => rfl, fun _ => rfl, fun _ => rfl, rfl, rfl, fun _ => ⟨rfl, rfl, rfl, rfl⟩⟩
  refine ⟨⟨q.1, q.2.1, q.2.2, fun j => ∑ i, w i * (o i).s j, ⟨fun i => (o i).h, fun i => (o i).s, fun _ => q.1, fun _ => 0⟩,
    c.u + (0 + ∑ i, w i * (o i).u), c.p + (0 + ∑ i, w i * (o i).p)⟩, ?_, ?_⟩
  · simp only [sdStep, updateSd, taylorLd]
    rw [ht]
    rfl
  · refine ⟨fun i => by rw [e i]; exact ⟨rfl, rfl, rfl⟩, ?_, ?_, ?_, fun i => by rw [e i]; exact ⟨rfl, rfl, rfl⟩, fun _ => rfl⟩
    · funext j
      simp only [e, Finset.sum_apply, Pi.smul_apply, smul_eq_mul]
    · simp only [e, mul_add, Finset.sum_add_distrib, h.energy, zero_add]
    · simp only [e, mul_add, Finset.sum_add_distrib, h.work, zero_add]

theorem step_none {w : Fin n → ℝ} {c : Caller (Store n H)} {g : Fin n → Caller H} (h : Together w c g)
    {q : (Fin 6 → ℝ) × ℝ × ℝ} {i : Fin n} (hs : sdStep grain (g i) q = none) :
    sdStep (taylorLd w grain) c q = none := by
  obtain ⟨e1, e2, e3⟩ := h.same i
  obtain ⟨a1, a2, a3⟩ := h.grains i
  simp only [sdStep, updateSd, e1, e2, e3, Option.map_eq_none_iff] at hs
  simp only [sdStep, updateSd, taylorLd, Option.map_eq_none_iff, C64_fail]
  refine ⟨i, ?_⟩
  simp only [grainIn, a1, a2, a3, h.still i]
  exact hs

/-- C212: a polycrystal used through the small strain interface from its initial state is the average of its crystals, each
used through the small strain interface by itself along the same strains. -/
theorem C212_path (w : Fin n → ℝ) (init : Rotation.Quat → H) (q : Fin n → Rotation.Quat) (T t : ℝ)
    (qs : List ((Fin 6 → ℝ) × ℝ × ℝ)) :
    (∀ g' : Fin n → Caller H, (∀ i, sdRun grain ⟨0, T, t, 0, init (q i), 0, 0⟩ qs = some (g' i)) →
      ∃ c', sdRun (taylorLd w grain) ⟨0, T, t, 0, initStore init q, 0, 0⟩ qs = some c' ∧ c'.s = ∑ i, w i • (g' i).s ∧
        c'.u = ∑ i, w i * (g' i).u ∧ c'.p = ∑ i, w i * (g' i).p ∧
        ∀ i, c'.h.hist i = (g' i).h ∧ c'.h.stress i = (g' i).s) ∧
    ((∃ i, sdRun grain ⟨0, T, t, 0, init (q i), 0, 0⟩ qs = none) →
      sdRun (taylorLd w grain) ⟨0, T, t, 0, initStore init q, 0, 0⟩ qs = none) := by
  have key : ∀ (qs : List ((Fin 6 → ℝ) × ℝ × ℝ)) (c : Caller (Store n H)) (g : Fin n → Caller H), Together w c g →
      (∀ g', (∀ i, sdRun grain (g i) qs = some (g' i)) → ∃ c', sdRun (taylorLd w grain) c qs = some c' ∧ Together w c' g') ∧
      ((∃ i, sdRun grain (g i) qs = none) → sdRun (taylorLd w grain) c qs = none) := by
    intro qs
    induction qs with
    | nil =>
      intro c g h
      refine ⟨fun g' hg => ⟨c, rfl, ?_⟩, ?_⟩
      · have : g = g' := funext fun i => Option.some.inj (hg i)
        exact this ▸ h
      · rintro ⟨i, hi⟩
        cases hi
    | cons q qs ih =>
      intro c g h
      by_cases hall : ∀ i, ∃ g1, sdStep grain (g i) q = some g1
      · choose g1 h1 using hall
        obtain ⟨c1, hc, ht⟩ := step_some h h1
        simp only [sdRun, h1, hc, Option.bind_some]
        exact ih c1 g1 ht
      · push Not at hall
        obtain ⟨i, hi⟩ := hall
        have hn : sdStep grain (g i) q = none := Option.eq_none_iff_forall_ne_some.mpr hi
        refine ⟨fun g' hg => ?_, fun _ => ?_⟩
        · have := hg i
          simp [sdRun, hn] at this
        · simp [sdRun, step_none h hn]
  have h0 : Together w (⟨0, T, t, 0, initStore init q, 0, 0⟩ : Caller (Store n H))
      (fun i => ⟨0, T, t, 0, init (q i), 0, 0⟩) :=
    ⟨fun _ => ⟨rfl, rfl, rfl⟩, by simp, by simp, by simp, fun _ => ⟨rfl, rfl, rfl⟩, fun _ => rfl⟩
  obtain ⟨k1, k2⟩ := key qs _ _ h0
  refine ⟨fun g' hg => ?_, k2⟩
  obtain ⟨c', hc, ht⟩ := k1 g' hg
  exact ⟨c', hc, ht.stress, ht.energy, ht.work, fun i => ⟨(ht.grains i).1, (ht.grains i).2.1⟩⟩

/-- A crystal that keeps the angle it has turned by about the first axis. -/
def turning (x : GrainIn ℝ) : Option (GrainOut ℝ) :=
  some ⟨x.s0 + (x.d1 - x.d0), x.h0 + (x.w1 - x.w0) 0, 0, 0, 0, 0⟩

/-- The hypothesis of `C212_crystal`. -/
example : ∀ x c, turning { x with w1 := x.w1 + c, w0 := x.w0 + c } = turning x := by
  intro x c
  simp [turning]

/-- Two crystals along two steps. -/
example : ∃ c, sdRun (taylorLd ![1 / 2, 1 / 2] turning) ⟨0, 300, 0, 0, initStore (fun _ => 0) (fun _ => ⟨1, 0, 0, 0⟩), 0, 0⟩
    [(![1, 0, 0, 0, 0, 0], 300, 1), (![3, 0, 0, 0, 0, 0], 300, 2)] = some c ∧ c.s 0 = 3 := by
  obtain ⟨c, hc, hs, -⟩ := (C212_path (n := 2) (grain := turning) ![1 / 2, 1 / 2] (fun _ => 0) (fun _ => ⟨1, 0, 0, 0⟩) 300 0
    [(![1, 0, 0, 0, 0, 0], 300, 1), (![3, 0, 0, 0, 0, 0], 300, 2)]).1 _ fun _ => rfl
  refine ⟨c, hc, ?_⟩
  rw [hs]
  norm_num [Fin.sum_univ_succ]

/-- C212 fails for a polycrystal that has turned before: it keeps the last spin it was given and not the ones of the call.
After a step with spin a small strain step turns its crystals back, although the same step leaves a crystal by itself as it
is. -/
theorem C212_turned_disagreement (q : Fin 1 → Rotation.Quat) :
    ∃ (x : GrainIn (Store 1 ℝ)) (o : GrainOut (Store 1 ℝ)) (b : SdOut (Store 1 ℝ)),
      x.h0 = initStore (fun _ => 0) q ∧ x.w0 = 0 ∧ taylorLd (fun _ => 1) turning x = some o ∧ o.h.hist 0 = 1 ∧
      updateSd (taylorLd (fun _ => 1) turning) ⟨x.d1, x.d1, x.T1, x.T1, x.t1 + 1, x.t1, o.s, o.h⟩ = some b ∧
      b.h.hist 0 = 0 ∧
      (updateSd turning ⟨x.d1, x.d1, x.T1, x.T1, x.t1 + 1, x.t1, o.h.stress 0, o.h.hist 0⟩).map (·.h) = some 1 := by
  let x : GrainIn (Store 1 ℝ) := ⟨0, 0, ![1, 0, 0], 0, 300, 300, 1, 0, 0, initStore (fun _ => 0) q⟩
  let st : Store 1 ℝ := ⟨fun _ => 1, fun _ => 0, fun _ => 0, fun _ => ![1, 0, 0]⟩
  have h1 := (C64_average (un := 0) (pn := 0) (grain := turning) (a := ⟨0, 0, ![1, 0, 0], 0, 300, 300, 1, 0, 0⟩)
    (st := initStore (fun _ => 0) q) (fun _ : Fin 1 => (1 : ℝ)) ⟨0, 0, 0, 0, 0⟩ st).mpr
    ⟨fun _ => ⟨0, 1, 0, 0, 0, 0⟩, fun i => by simp [turning, grainIn, initStore], by simp, by simp, by simp, by simp,
      by simp, fun _ => ⟨rfl, rfl, rfl, rfl⟩⟩
  have h2 := (C64_average (un := 0) (pn := 0) (grain := turning) (a := ⟨0, 0, 0, 0, 300, 300, 1 + 1, 1, 0⟩)
    (st := st) (fun _ : Fin 1 => (1 : ℝ)) ⟨0, 0, 0, 0, 0⟩ ⟨fun _ => 0, fun _ => 0, fun _ => 0, fun _ => 0⟩).mpr
    ⟨fun _ => ⟨0, 0, 0, 0, 0, 0⟩, fun i => by simp [turning, grainIn, st], by simp, by simp, by simp, by simp,
      by simp, fun _ => ⟨rfl, rfl, rfl, rfl⟩⟩
  refine ⟨x, ⟨0, st, 0, 0, 0, 0⟩, ⟨0, ⟨fun _ => 0, fun _ => 0, fun _ => 0, fun _ => 0⟩, 0, 0, 0⟩, rfl, rfl, ?_, rfl, ?_, rfl, ?_⟩
  · simp only [taylorLd, x]
    rw [h1]
    rfl
  · simp only [updateSd, taylorLd, x]
    rw [h2]
    rfl
  · simp [updateSd, turning, st]

end Neml.Polycrystal
