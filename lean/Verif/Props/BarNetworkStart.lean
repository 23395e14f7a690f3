import Verif.Props.BarNetworkLaws

/-!
# Networks of bars: how a history begins, and the first guess of a step (C69)
-/

namespace Neml.BarNetwork

open Matrix Neml.PySolve Neml.Uniaxial Neml.Driver

variable {H : Type} {n : Nat}

/-- Spec: the oldest entry of a series. -/
def Begins {α : Type} (s : Series α) (a : α) : Prop := s.toList.head? = some a

theorem begins_push {α : Type} (s : Series α) (a b : α) (h : Begins s a) : Begins (s.push b) a := by
  unfold Begins at *
  rw [toList_push, List.head?_append, h]
  rfl

/-- Spec: the records begin with a network at rest at time zero: nodes that have not moved and carry nothing, bars
without stress and strain, at their own temperature and with the initial store of their material. -/
def AtRest (net : Net H n) : Prop :=
  (∀ v, Begins (net.disp v) 0 ∧ Begins (net.force v) 0) ∧ Begins net.time 0 ∧ Begins net.energy 0 ∧
  Begins net.dissipation 0 ∧
  ∀ e ∈ net.edges, Begins e.bar.stress 0 ∧ Begins e.bar.strain 0 ∧ Begins e.bar.mstrain 0 ∧ Begins e.bar.estrain 0 ∧
    Begins e.bar.tstrain 0 ∧ Begins e.bar.energy 0 ∧ Begins e.bar.dissipation 0 ∧
    Begins e.bar.temperature (e.bar.T 0) ∧ Begins e.bar.history e.bar.mat.init

/-- **C69.** Whatever has been done with a network, its records begin with the network at rest. -/
theorem C69_begins (net : Net H n) (h : Reach net) : AtRest net := by
  refine reach_inv AtRest (fun l => ?_) (fun net v f h => h) (fun net v f h => h) (fun o net h net' ha hp => ?_) net h
  · refine ⟨fun v => ⟨rfl, rfl⟩, rfl, rfl, rfl, fun e he => ?_⟩
    simp only [Net.new, List.mem_map] at he
    obtain ⟨q, -, rfl⟩ := he
    exact ⟨rfl, rfl, rfl, rfl, rfl, rfl, rfl, rfl, rfl⟩
  · obtain ⟨-, hd, hfo, -, -, ht, hen, hdi⟩ := C69_step o net net' h ha
    obtain ⟨p1, p2, p3, p4, p5⟩ := hp
    refine ⟨fun v => ⟨?_, ?_⟩, ?_, ?_, ?_, fun e' he' => ?_⟩
    · obtain ⟨x, hx⟩ := hd v; rw [hx]; exact begins_push _ _ _ (p1 v).1
    · obtain ⟨x, hx⟩ := hfo v; rw [hx]; exact begins_push _ _ _ (p1 v).2
    · rw [ht]; exact begins_push _ _ _ p2
    · obtain ⟨x, hx⟩ := hen; rw [hx]; exact begins_push _ _ _ p3
    · obtain ⟨x, hx⟩ := hdi; rw [hx]; exact begins_push _ _ _ p4
    · obtain ⟨e, he, hb⟩ := barStep_of_mem ha he'
      obtain ⟨out, -, m1, m2, m3, m4, m5⟩ := hb.material
      obtain ⟨q1, q2, q3, q4, q5, q6, q7, q8, q9⟩ := p5 e he
      rw [m1, m2, m3, m4, m5, hb.strain, hb.temperature, hb.thermal, hb.mechanical, hb.same.1, hb.same.2.2.2]
      exact ⟨begins_push _ _ _ q1, begins_push _ _ _ q2, begins_push _ _ _ q3, begins_push _ _ _ q4,
        begins_push _ _ _ q5, begins_push _ _ _ q6, begins_push _ _ _ q7, begins_push _ _ _ q8, begins_push _ _ _ q9⟩

/-- **C69.** The first guess of a step: nodes that moved along a line from one record to the next go on along it, for a
step that is `r` times as long as the last one; without extrapolation, and in the first step, they stay. -/
theorem C69_guess (net : Net H n) (h : Reach net) (k : Fin net.free.length) (r : ℝ) :
    (net.guess false r k = (net.disp (net.free.get k)).last) ∧
    (∀ t, net.time.toList = [t] → net.guess true r k = (net.disp (net.free.get k)).last) ∧
    ∀ (l : List ℝ) (u v dt : ℝ), (net.disp (net.free.get k)).toList = l ++ [u, u + v * dt] →
      net.guess true r k = u + v * (dt + r * dt) := by
  have hal := ((C69_aligned net h).1 (net.free.get k)).1
  refine ⟨rfl, fun t ht => ?_, fun l u v dt hd => ?_⟩
  · have hb : net.time.before = [] := by
      have := congrArg List.length ht
      simpa [Series.toList] using this
    simp only [Net.guess, hb]
  · cases hs : net.disp (net.free.get k) with
    | mk last before =>
      rw [hs] at hd hal
      cases before with
      | nil =>
        have := congrArg List.length hd
        simp [Series.toList] at this
      | cons x xs =>
        have h1 : xs.reverse ++ [x, last] = l ++ [u, u + v * dt] := by simpa [Series.toList] using hd
        obtain ⟨-, h2⟩ := List.append_inj' h1 rfl
        simp only [List.cons.injEq, and_true] at h2
        obtain ⟨rfl, rfl⟩ := h2
        cases ht : net.time.before with
        | nil =>
          simp [size, Series.toList, ht] at hal
        | cons y ys =>
          simp only [Net.guess, hs, ht]
          ring

/-- Concrete case: a network that has made no step. -/
example : AtRest (Net.new [⟨0, 1, Bar.new (spring 2) 1 1 fun t => t⟩] : Net Unit 2) :=
  C69_begins _ (Reach.new [(0, 1, spring 2, 1, 1, fun t => t)])

end Neml.BarNetwork
