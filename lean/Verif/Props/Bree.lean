import Verif.Model.Bree
import Verif.Props.BarNetworkLaws
import Verif.Props.VesselMesh

/-!
# C135: the Bree problem
-/

namespace Neml.Bree

open Neml.BarNetwork Neml.Driver Neml.Vessel Neml.Uniaxial

variable {H : Type}

/-! ## Integration through the wall -/

/-- An integration rule on [-1, 1]: as many points as asked for, inside, the weights adding up to two. -/
structure Rule (rule : ℕ → List (ℝ × ℝ)) : Prop where
  length : ∀ n, (rule n).length = n
  inside : ∀ n, ∀ x ∈ rule n, -1 < x.1 ∧ x.1 < 1
  total : ∀ n, 0 < n → ((rule n).map Prod.snd).sum = 2

/-- The rectangle rule is one. -/
theorem rect_rule : Rule rect := by
  refine ⟨fun n => by simp [rect], fun n x hx => ?_, fun n hn => ?_⟩
  · have hn : 0 < n := by
      rcases Nat.eq_zero_or_pos n with rfl | h
      · simp [rect] at hx
      · exact h
    obtain ⟨h1, h2, -⟩ := (C134_rectangle n hn 1 0).2 x hx
    exact ⟨h1, h2⟩
  · have := (C134_rectangle n hn 1 0).1
    simpa using this

theorem diff_cons (a b : ℝ) (rs : List ℝ) : diff (a :: b :: rs) = (b - a) :: diff (b :: rs) := rfl

theorem diff_sum (a : ℝ) (rs : List ℝ) : (diff (a :: rs)).sum = (a :: rs).getLastD 0 - a := by
  induction rs generalizing a with
  | nil => simp [diff]
  | cons b rs ih =>
    rw [diff_cons, List.sum_cons, ih]
    simp

/-- **C135.** The weights of the points add up to the thickness of the wall. -/
theorem C135_weights (rule : ℕ → List (ℝ × ℝ)) (hr : Rule rule) (rs : List ℝ) (ns : List ℕ)
    (hl : rs.length = ns.length + 1) (hn : ∀ n ∈ ns, 0 < n) :
    (weightsOf rule rs ns).sum = rs.getLastD 0 - rs.headD 0 := by
  cases rs with
  | nil => simp at hl
  | cons a rs =>
    rw [List.headD_cons, ← diff_sum]
    induction ns generalizing a rs with
    | nil =>
      have : rs = [] := by simpa using hl
      simp [this, weightsOf, diff]
    | cons n ns ih =>
      cases rs with
      | nil => simp at hl
      | cons b rs =>
        have e : weightsOf rule (a :: b :: rs) (n :: ns) =
            ((rule n).map fun x => x.2 * (b - a) / 2) ++ weightsOf rule (b :: rs) ns := by
          simp [weightsOf, diff_cons]
        rw [e, List.sum_append, ih (fun m hm => hn m (by simp [hm])) b rs (by simpa using hl), diff_cons, List.sum_cons]
        congr 1
        have := hr.total n (hn n (by simp))
        have e2 : (fun x : ℝ × ℝ => x.2 * (b - a) / 2) = fun x => x.2 * ((b - a) / 2) := by
          funext x; ring
        rw [e2]
        have e3 : ∀ l : List (ℝ × ℝ), (l.map fun x => x.2 * ((b - a) / 2)).sum = (l.map Prod.snd).sum * ((b - a) / 2) := by
          intro l
          induction l with
          | nil => simp
          | cons x l ih => simp only [List.map_cons, List.sum_cons, ih]; ring
        rw [e3, this]
        ring

/-- **C135.** All points are inside the wall. -/
theorem C135_points (rule : ℕ → List (ℝ × ℝ)) (hr : Rule rule) (rs : List ℝ) (ns : List ℕ)
    (hs : rs.Pairwise (· < ·)) : ∀ x ∈ pointsOf rule rs ns, rs.headD 0 < x ∧ x < rs.getLastD 0 := by
  induction ns generalizing rs with
  | nil => simp [pointsOf]
  | cons n ns ih =>
    match rs, hs with
    | [], _ => simp [pointsOf, diff]
    | [a], _ => simp [pointsOf, diff]
    | a :: b :: rs, hs =>
      rw [List.pairwise_cons] at hs
      have hab : a < b := hs.1 b (by simp)
      have e : pointsOf rule (a :: b :: rs) (n :: ns) =
          ((rule n).map fun x => (x.1 + 1) * (b - a) / 2 + a) ++ pointsOf rule (b :: rs) ns := by
        simp [pointsOf, diff_cons]
      have top : b ≤ (a :: b :: rs).getLastD 0 := by
        have : (a :: b :: rs).getLastD 0 = (b :: rs).getLast (by simp) := by
          simp [List.getLastD_eq_getLast?, List.getLast?_eq_getLast_of_ne_nil]
        rw [this]
        cases rs with
        | nil => simp
        | cons c rs =>
          rw [List.getLast_cons (by simp)]
          exact ((List.pairwise_cons.1 hs.2).1 _ (List.getLast_mem _)).le
      intro x hx
      rw [e, List.mem_append] at hx
      rcases hx with hx | hx
      · obtain ⟨y, hy, rfl⟩ := List.mem_map.1 hx
        obtain ⟨h1, h2⟩ := hr.inside n y hy
        rw [List.headD_cons]
        constructor <;> nlinarith [mul_pos (sub_pos.2 hab) (by linarith : 0 < 1 + y.1),
          mul_pos (sub_pos.2 hab) (by linarith : 0 < 1 - y.1)]
      · obtain ⟨h1, h2⟩ := ih (b :: rs) hs.2 x hx
        rw [List.headD_cons] at h1 ⊢
        refine ⟨lt_trans hab h1, ?_⟩
        simpa using h2

/-! ## The bars -/

/-- What does not change in a bar: its ends, area, length, temperature function and material. -/
def Fixed (e : Edge H 2) : Fin 2 × Fin 2 × ℝ × ℝ × (ℝ → ℝ) × Mat1 H :=
  (e.i, e.j, e.bar.A, e.bar.l, e.bar.T, e.bar.mat)

/-- The network of a wall: parallel bars with the weights as areas, of length one, one end held, the other one pulled with
the hoop stress times the thickness. -/
structure Setup (b : Problem H) : Prop where
  held : b.net.dbc 0 = some fun _ => 0
  free : b.net.dbc 1 = none
  pulled : b.net.fbc 1 = some fun t => b.P t * b.weights.sum
  points : b.points.length = b.net.edges.length
  weights : b.weights.length = b.net.edges.length
  ends : ∀ e ∈ b.net.edges, e.i = 0 ∧ e.j = 1 ∧ e.bar.l = 1
  areas : b.net.edges.map (fun e => e.bar.A) = b.weights
  temps : b.net.edges.map (fun e => e.bar.T) = b.points.map b.T

theorem fixed_step {o : Opts} {net net' : Net H 2} {h : ℝ} (ha : Accepted o net h net') :
    net'.edges.map Fixed = net.edges.map Fixed ∧ net'.dbc = net.dbc ∧ net'.fbc = net.fbc := by
  obtain ⟨hf, -, -, hd, hfb, -⟩ := C69_step o net net' h ha
  refine ⟨?_, hd, hfb⟩
  generalize net.edges = l at hf
  generalize net'.edges = l' at hf
  induction hf with
  | nil => rfl
  | cons hb _ ih =>
    rw [List.map_cons, List.map_cons, ih]
    congr 1
    simp only [Fixed, hb.ends.1, hb.ends.2, hb.same.1, hb.same.2.1, hb.same.2.2.1, hb.same.2.2.2]

theorem fixed_steps {o : Opts} {net net' : Net H 2} {hs : List ℝ} (h : Steps o net hs net') :
    net'.edges.map Fixed = net.edges.map Fixed ∧ net'.dbc = net.dbc ∧ net'.fbc = net.fbc := by
  induction h with
  | nil => exact ⟨rfl, rfl, rfl⟩
  | cons ha _ ih =>
    obtain ⟨a1, a2, a3⟩ := fixed_step ha
    exact ⟨ih.1.trans a1, ih.2.1.trans a2, ih.2.2.trans a3⟩

theorem Setup.keep {b b' : Problem H} (s : Setup b) (hP : b'.P = b.P) (hT : b'.T = b.T) (hp : b'.points = b.points)
    (hw : b'.weights = b.weights) (h : b'.net.edges.map Fixed = b.net.edges.map Fixed ∧ b'.net.dbc = b.net.dbc ∧
      b'.net.fbc = b.net.fbc) : Setup b' := by
  obtain ⟨h1, h2, h3⟩ := h
  have hlen : b'.net.edges.length = b.net.edges.length := by
    simpa using congrArg List.length h1
  have hA : b'.net.edges.map (fun e => e.bar.A) = b.net.edges.map (fun e => e.bar.A) := by
    have := congrArg (List.map fun q : Fin 2 × Fin 2 × ℝ × ℝ × (ℝ → ℝ) × Mat1 H => q.2.2.1) h1
    rw [List.map_map, List.map_map] at this
    exact this
  have hTT : b'.net.edges.map (fun e => e.bar.T) = b.net.edges.map (fun e => e.bar.T) := by
    have := congrArg (List.map fun q : Fin 2 × Fin 2 × ℝ × ℝ × (ℝ → ℝ) × Mat1 H => q.2.2.2.2.1) h1
    rw [List.map_map, List.map_map] at this
    exact this
  refine ⟨by rw [h2]; exact s.held, by rw [h2]; exact s.free, by rw [h3, hP, hw]; exact s.pulled,
    by rw [hp, hlen]; exact s.points, by rw [hw, hlen]; exact s.weights, ?_, by rw [hA, hw]; exact s.areas,
    by rw [hTT, hp, hT]; exact s.temps⟩
  intro e' he'
  have : Fixed e' ∈ b.net.edges.map Fixed := by rw [← h1]; exact List.mem_map_of_mem he'
  obtain ⟨e, he, heq⟩ := List.mem_map.1 this
  obtain ⟨q1, q2, q3⟩ := s.ends e he
  simp only [Fixed, Prod.mk.injEq] at heq
  exact ⟨by rw [← heq.1, q1], by rw [← heq.2.1, q2], by rw [← heq.2.2.2.1, q3]⟩

theorem solve_steps (net : Net H 2) (o : Opts) (fuel : ℕ) (dt : ℝ) : ∃ hs, Steps o net hs (net.solve o fuel dt).net :=
  solveLoop_steps o _ fuel net 0 _ dt 1 0

/-- What a call of `step` ends with, if it ends. -/
def Res.after : Res H → Option (Problem H)
  | .ok b => some b
  | .raised b => some b
  | .running => none

/-- **C135.** A new problem has this network, and keeps it in all steps, also in those that raise. -/
theorem C135_setup_step (b b' : Problem H) (s : Setup b) (o : Opts) (fuel : ℕ) (t r a : ℝ)
    (h : (b.step o fuel t r a).after = some b') : Setup b' := by
  unfold Problem.step at h
  by_cases ht : t - b.times.last < 0
  · rw [if_pos ht] at h
    obtain rfl : b = b' := by simpa [Res.after] using h
    exact s
  · rw [if_neg ht] at h
    obtain ⟨hs, hst⟩ := solve_steps b.net o fuel (t - b.times.last)
    revert h hst
    generalize b.net.solve o fuel (t - b.times.last) = res
    intro h hst
    cases res with
    | running net => simp [Res.after] at h
    | raised net =>
      obtain rfl : { b with net := net } = b' := by simpa [Res.after] using h
      exact s.keep rfl rfl rfl rfl (fixed_steps hst)
    | ok net =>
      obtain rfl : b.record net t = b' := by simpa [Res.after] using h
      exact s.keep rfl rfl rfl rfl (fixed_steps hst)

theorem materialsOf_length {α : Type} (mats : List α) (ns : List ℕ) (h : mats.length = ns.length) :
    (materialsOf mats ns).length = ns.sum := by
  induction ns generalizing mats with
  | nil => simp [materialsOf]
  | cons n ns ih =>
    cases mats with
    | nil => simp at h
    | cons m mats =>
      have := ih mats (by simpa using h)
      simp only [materialsOf] at this ⊢
      simp [this]

theorem pointsOf_length (rule : ℕ → List (ℝ × ℝ)) (hr : Rule rule) (rs : List ℝ) (ns : List ℕ)
    (h : rs.length = ns.length + 1) :
    (pointsOf rule rs ns).length = ns.sum ∧ (weightsOf rule rs ns).length = ns.sum := by
  induction ns generalizing rs with
  | nil => simp [pointsOf, weightsOf]
  | cons n ns ih =>
    match rs, h with
    | [a], h => simp at h
    | a :: b :: rs, h =>
      obtain ⟨h1, h2⟩ := ih (b :: rs) (by simpa using h)
      have e1 : pointsOf rule (a :: b :: rs) (n :: ns) =
          ((rule n).map fun x => (x.1 + 1) * (b - a) / 2 + a) ++ pointsOf rule (b :: rs) ns := by
        simp [pointsOf, diff_cons]
      have e2 : weightsOf rule (a :: b :: rs) (n :: ns) =
          ((rule n).map fun x => x.2 * (b - a) / 2) ++ weightsOf rule (b :: rs) ns := by
        simp [weightsOf, diff_cons]
      rw [e1, e2, List.length_append, List.length_append, h1, h2, List.length_map, List.length_map, hr.length,
        List.sum_cons]
      exact ⟨rfl, rfl⟩

theorem zip_zip_map {α β γ δ : Type} (f : α → δ) (l : List α) (m : List β) (k : List γ) (h1 : l.length ≤ m.length)
    (h2 : l.length ≤ k.length) : (((l.zip m).zip k).map fun q => f q.1.1) = l.map f := by
  induction l generalizing m k with
  | nil => simp
  | cons a l ih =>
    cases m with
    | nil => simp at h1
    | cons b m =>
      cases k with
      | nil => simp at h2
      | cons c k => simp [ih m k (by simpa using h1) (by simpa using h2)]

theorem zip_zip_map' {α β γ δ : Type} (f : β → δ) (l : List α) (m : List β) (k : List γ) (h1 : m.length ≤ l.length)
    (h2 : m.length ≤ k.length) : (((l.zip m).zip k).map fun q => f q.1.2) = m.map f := by
  induction m generalizing l k with
  | nil => simp
  | cons a m ih =>
    cases l with
    | nil => simp at h1
    | cons b l =>
      cases k with
      | nil => simp at h2
      | cons c k => simp [ih l k (by simpa using h1) (by simpa using h2)]

section
variable {rule : ℕ → List (ℝ × ℝ)} {rs : List ℝ} {mats : List (Mat1 H)} {ns : List ℕ} {T : ℝ → ℝ → ℝ}
  {p pext : ℝ → ℝ} {direct : Bool} {b : Problem H}

theorem new_spec (h : Problem.new rule rs mats ns T p pext direct = some b) :
    rs.length = mats.length + 1 ∧ mats.length = ns.length ∧ (diff rs).sum ≠ 0 ∧
    b.P = hoopOf direct (rs.headD 0) (rs.getLastD 0) (diff rs).sum p pext ∧ b.points = pointsOf rule rs ns ∧
    b.weights = weightsOf rule rs ns ∧ b.T = T ∧ b.p = p ∧ b.pext = pext ∧
    b.net = network T b.P b.points b.weights (materialsOf mats ns) ∧ b.times = ⟨0, []⟩ := by
  unfold Problem.new at h
  by_cases h1 : rs.length ≠ mats.length + 1 ∨ mats.length ≠ ns.length
  · rw [if_pos h1] at h; cases h
  · rw [if_neg h1] at h
    push Not at h1
    by_cases h2 : (diff rs).sum = 0
    · rw [if_pos h2] at h; cases h
    · rw [if_neg h2] at h
      simp only [Option.some.injEq] at h
      subst h
      exact ⟨h1.1, h1.2, h2, rfl, rfl, rfl, rfl, rfl, rfl, rfl, rfl⟩

/-- **C135.** A new problem has this network. -/
theorem C135_setup_new (hr : Rule rule) (h : Problem.new rule rs mats ns T p pext direct = some b) : Setup b := by
  obtain ⟨h1, h2, -, -, hp, hw, hT, -, -, hn, -⟩ := new_spec h
  obtain ⟨l1, l2⟩ := pointsOf_length rule hr rs ns (by omega)
  have l3 := materialsOf_length mats ns h2
  have he : b.net.edges = bars T b.points b.weights (materialsOf mats ns) := by rw [hn]; rfl
  have hl : b.net.edges.length = ns.sum := by
    rw [he, bars, List.length_map, List.length_zip, List.length_zip, hp, hw, l1, l2, l3]
    simp
  refine ⟨by rw [hn]; simp [network, Net.addForce, Net.addDisp], by rw [hn]; simp [network, Net.addForce],
    by rw [hn]; simp [network, Net.addForce], by rw [hl, hp, l1], by rw [hl, hw, l2], ?_, ?_, ?_⟩
  · intro e hm
    rw [he, bars] at hm
    obtain ⟨q, -, rfl⟩ := List.mem_map.1 hm
    exact ⟨rfl, rfl, rfl⟩
  · rw [he, bars, List.map_map]
    have := zip_zip_map' (fun x : ℝ => x) b.points b.weights (materialsOf mats ns) (by rw [hp, hw, l1, l2])
      (by rw [hw, l2, l3])
    rw [List.map_id'] at this
    exact this
  · rw [he, bars, List.map_map, hT]
    exact zip_zip_map T b.points b.weights (materialsOf mats ns) (by rw [hp, hw, l1, l2]) (by rw [hp, l1, l3])

end

/-- **C135.** After a change of the loading the network is that of the new loading. -/
theorem C135_setup_update (b : Problem H) (s : Setup b) (p : ℝ → ℝ) (T : ℝ → ℝ → ℝ) (pext : ℝ → ℝ) :
    Setup (b.update p T pext) := by
  have hl := s.points
  have hlen : (b.update p T pext).net.edges.length = b.net.edges.length := by
    simp [Problem.update, hl]
  refine ⟨s.held, s.free, by simp [Problem.update], by rw [hlen]; exact s.points, by rw [hlen]; exact s.weights, ?_, ?_,
    ?_⟩
  · intro e he
    simp only [Problem.update, List.mem_map] at he
    obtain ⟨q, hq, rfl⟩ := he
    exact s.ends q.1 (List.of_mem_zip hq).1
  · rw [show (b.update p T pext).weights = b.weights from rfl, ← s.areas]
    simp only [Problem.update, List.map_map]
    have : ∀ (l : List (Edge H 2)) (m : List ℝ), l.length ≤ m.length →
        ((l.zip m).map fun q => q.1.bar.A) = l.map fun e => e.bar.A := by
      intro l
      induction l with
      | nil => simp
      | cons e l ih =>
        intro m hm
        cases m with
        | nil => simp at hm
        | cons x m => simp [ih m (by simpa using hm)]
    exact this _ _ hl.ge
  · simp only [Problem.update, List.map_map]
    have : ∀ (l : List (Edge H 2)) (m : List ℝ), m.length ≤ l.length → ((l.zip m).map fun q => T q.2) = m.map T := by
      intro l m
      induction m generalizing l with
      | nil => simp
      | cons x m ih =>
        intro hm
        cases l with
        | nil => simp at hm
        | cons e l => simp [ih l (by simpa using hm)]
    exact this _ _ hl.le

/-! ## Steps -/

/-- The last one of a chain of accepted steps. -/
theorem steps_last {o : Opts} {net net' : Net H 2} {hs : List ℝ} (h : Steps o net hs net') (hne : hs ≠ []) :
    ∃ mid x hs', Steps o net hs' mid ∧ Accepted o mid x net' := by
  induction h with
  | nil => exact absurd rfl hne
  | @cons n0 n1 n2 x hs ha ht ih =>
    by_cases hh : hs = []
    · subst hh
      cases ht
      exact ⟨n0, x, [], Steps.nil _, ha⟩
    · obtain ⟨mid, y, hs', q1, q2⟩ := ih hh
      exact ⟨mid, y, x :: hs', Steps.cons ha q1, q2⟩

theorem step_ok {b b' : Problem H} {o : Opts} {fuel : ℕ} {t r a : ℝ} (h : b.step o fuel t r a = .ok b') :
    ¬ t - b.times.last < 0 ∧ ∃ net, b.net.solve o fuel (t - b.times.last) = .ok net ∧ b' = b.record net t := by
  unfold Problem.step at h
  by_cases ht : t - b.times.last < 0
  · rw [if_pos ht] at h; cases h
  · rw [if_neg ht] at h
    refine ⟨ht, ?_⟩
    cases hs : b.net.solve o fuel (t - b.times.last) with
    | running net => rw [hs] at h; cases h
    | raised net => rw [hs] at h; cases h
    | ok net =>
      rw [hs] at h
      simp only [Res.ok.injEq] at h
      exact ⟨net, rfl, h.symm⟩

section
variable {b b' : Problem H} {o : Opts} {fuel : ℕ} {t r a : ℝ} (s : Setup b) (hd : 0 < o.dfact)
  (hlt : b.times.last < t) (h : b.step o fuel t r a = .ok b')
include s hd hlt h

theorem step_net : Setup b' ∧ ∃ mid x, Accepted o mid x b'.net ∧ mid.dbc = b.net.dbc ∧ mid.fbc = b.net.fbc ∧
    mid.time.last + x = b'.net.time.last ∧ b'.net.time.last = b.net.time.last + (t - b.times.last) ∧
    ∃ net, b.net.solve o fuel (t - b.times.last) = .ok net ∧ b' = b.record net t := by
  have s' : Setup b' := C135_setup_step b b' s o fuel t r a (by rw [h]; rfl)
  obtain ⟨-, net, hn, rfl⟩ := step_ok h
  obtain ⟨hs, h1, h2, -⟩ := C69_solve o hd b.net net fuel _ hn
  have hne : hs ≠ [] := by
    rintro rfl
    simp only [List.sum_nil] at h2
    linarith
  obtain ⟨mid, x, hs', q1, q2⟩ := steps_last h1 hne
  obtain ⟨-, f2, f3⟩ := fixed_steps q1
  obtain ⟨-, -, -, -, -, ht, -⟩ := C69_step _ _ _ _ q2
  refine ⟨s', mid, x, q2, f2, f3, ?_, C69_time o hd b.net net fuel _ hn, net, hn, rfl⟩
  show _ = net.time.last
  rw [ht]
  rfl

omit hlt in
/-- **C135.** Records of a step: the time asked for, the pressures and the hoop stress of that time, one entry each. -/
theorem C135_records : b'.times = b.times.push t ∧ b'.pressures = b.pressures.push (b.p t) ∧
    b'.externals = b.externals.push (b.pext t) ∧ b'.hoop = b.hoop.push (b.P t) := by
  obtain ⟨-, net, hn, rfl⟩ := step_ok h
  exact ⟨rfl, rfl, rfl, rfl⟩

/-- **C135.** The force recorded is the stress integrated through the wall. -/
theorem C135_force : b'.force.last = (List.zipWith (· * ·) b'.weights b'.stresses.last).sum := by
  obtain ⟨s', mid, x, ha, -, -, -, -, net, hn, rfl⟩ := step_net s hd hlt h
  have hf := C69_forces o mid net x ha 1
  show (net.force 1).last = _
  rw [hf]
  have e1 : (net.edges.map fun e => (if e.j = (1 : Fin 2) then e.bar.stress.last * e.bar.A else 0) -
      (if e.i = 1 then e.bar.stress.last * e.bar.A else 0)) = net.edges.map fun e => e.bar.A * e.bar.stress.last := by
    refine List.map_congr_left fun e he => ?_
    obtain ⟨q1, q2, -⟩ := s'.ends e he
    rw [q1, q2]
    simp [mul_comm]
  rw [e1]
  have hA : net.edges.map (fun e => e.bar.A) = b.weights := s'.areas
  show _ = (List.zipWith (· * ·) b.weights (net.edges.map fun e => e.bar.stress.last)).sum
  rw [← hA, List.zipWith_map]
  simp [List.zipWith_self]

/-- **C135.** Equilibrium: if the solver is exact, the stresses integrated through the wall balance the hoop stress times
the thickness at the time of the network. -/
theorem C135_equilibrium (ho : o.rtol = 0 ∧ o.atol = 0) (hsync : b.net.time.last = b.times.last) :
    (List.zipWith (· * ·) b'.weights b'.stresses.last).sum = b.P t * b.weights.sum := by
  rw [← C135_force s hd hlt h]
  obtain ⟨s', mid, x, ha, h1, h2, h3, h4, net, hn, rfl⟩ := step_net s hd hlt h
  have := C69_equilibrium_exact o ho mid net x ha 1 (by rw [h1]; exact s.free)
  show (net.force 1).last = _
  rw [this, Net.applied, h2, s.pulled]
  simp only [Option.elim_some]
  have e : mid.time.last + x = t := by
    rw [h3, h4, hsync]; ring
  rw [e]

/-- **C135.** All points of the wall have the same strain, the recorded one; it is the sum of mechanical and thermal
strain. The temperatures recorded are those of the points at the time asked for. -/
theorem C135_compatible (hsync : b.net.time.last = b.times.last) :
    List.zipWith (· + ·) b'.mstrains.last b'.tstrains.last = b'.points.map (fun _ => b'.axial.last) ∧
    b'.temperatures.last = b.points.map fun x => b.T x t := by
  obtain ⟨s', mid, x, ha, h1, h2, h3, h4, net, hn, rfl⟩ := step_net s hd hlt h
  have hc := fun e he => C69_compatible o mid net x ha e he
  have h0 : (net.disp 0).last = 0 := C69_prescribed o mid net x ha 0 _ (by rw [h1]; exact s.held)
  have hpts : b.points.length = net.edges.length := s'.points
  have htm : net.time.last = t := by
    have : net.time.last = b.net.time.last + (t - b.times.last) := h4
    rw [this, hsync]; ring
  constructor
  · show List.zipWith (· + ·) (net.edges.map fun e => e.bar.mstrain.last) (net.edges.map fun e => e.bar.tstrain.last) =
      b.points.map fun _ => (net.disp 1).last
    rw [List.zipWith_map, List.zipWith_self]
    rw [List.map_const', hpts, ← List.map_const' (l := net.edges)]
    refine List.map_congr_left fun e he => ?_
    obtain ⟨c1, c2, -⟩ := hc e he
    obtain ⟨q1, q2, q3⟩ := s'.ends e he
    rw [← c2]
    rw [q3, q1, q2, h0] at c1
    simpa using c1
  · show (net.edges.map fun e => e.bar.temperature.last) = _
    have hT : net.edges.map (fun e => e.bar.T) = b.points.map b.T := s'.temps
    have : (net.edges.map fun e => e.bar.temperature.last) = (net.edges.map fun e => e.bar.T).map fun f => f t := by
      rw [List.map_map]
      refine List.map_congr_left fun e he => ?_
      rw [(hc e he).2.2, htm]
      rfl
    rw [this, hT, List.map_map]
    rfl

omit s hlt in
/-- **C135.** A step that returns keeps the clock of the network and the recorded time together. -/
theorem C135_clock (hsync : b.net.time.last = b.times.last) : b'.net.time.last = b'.times.last := by
  obtain ⟨-, net, hn, rfl⟩ := step_ok h
  show net.time.last = t
  rw [C69_time o hd b.net net fuel _ hn, hsync]
  ring

end

theorem foldl_sum {α : Type} (f : α → ℝ) (l : List α) (x : ℝ) :
    l.foldl (fun y q => y + f q) x = x + (l.map f).sum := by
  induction l generalizing x with
  | nil => simp
  | cons a l ih => rw [List.foldl_cons, ih, List.map_cons, List.sum_cons, add_assoc]

/-- **C135, disagreement.** The energy recorded is not the energy density integrated through the wall: the weights, which
are also the areas of the bars, are counted twice. With equal weights `w` it is `w` times the energy of the wall. The same
for the work. -/
theorem C135_energy_disagreement (b b' : Problem H) (s : Setup b) (o : Opts) (fuel : ℕ) (t r a w : ℝ)
    (h : b.step o fuel t r a = .ok b') (hw : ∀ x ∈ b.weights, x = w) :
    b'.energy.last = w * (List.zipWith (· * ·) b'.weights (b'.net.edges.map fun e => e.bar.energy.last)).sum ∧
    b'.work.last = w * (List.zipWith (· * ·) b'.weights (b'.net.edges.map fun e => e.bar.dissipation.last)).sum := by
  have s' : Setup b' := C135_setup_step b b' s o fuel t r a (by rw [h]; rfl)
  obtain ⟨-, net, hn, rfl⟩ := step_ok h
  have hA : net.edges.map (fun e => e.bar.A) = b.weights := s'.areas
  have key : ∀ f : Edge H 2 → ℝ, (b.weights.zip net.edges).foldl (fun x q => x + q.1 * f q.2 * q.2.bar.A * q.2.bar.l) 0 =
      w * (List.zipWith (· * ·) b.weights (net.edges.map f)).sum := by
    intro f
    rw [foldl_sum (fun q : ℝ × Edge H 2 => q.1 * f q.2 * q.2.bar.A * q.2.bar.l), zero_add]
    have ends : ∀ e ∈ net.edges, e.bar.l = 1 := fun e he => (s'.ends e he).2.2
    have h1 : ∀ e ∈ net.edges, e.bar.A = w := by
      intro e he
      apply hw
      rw [← hA]
      exact List.mem_map_of_mem he
    generalize b.weights = ws
    generalize net.edges = es at ends h1
    induction es generalizing ws with
    | nil => simp
    | cons e es ih =>
      cases ws with
      | nil => simp
      | cons x ws =>
        simp only [List.zip_cons_cons, List.map_cons, List.sum_cons, List.zipWith_cons_cons]
        rw [ih ws (fun e' he' => ends e' (by simp [he'])) (fun e' he' => h1 e' (by simp [he'])), ends e (by simp),
          h1 e (by simp)]
        ring
  exact ⟨key fun e => e.bar.energy.last, key fun e => e.bar.dissipation.last⟩

/-- **C135, disagreement.** After a change of the loading the pressures recorded are still those of the old loading. -/
theorem C135_pressures_disagreement (b b' : Problem H) (o : Opts) (fuel : ℕ) (t r a : ℝ) (p pext : ℝ → ℝ)
    (T : ℝ → ℝ → ℝ) (h : (b.update p T pext).step o fuel t r a = .ok b') :
    b'.pressures.last = b.p t ∧ b'.externals.last = b.pext t ∧
      b'.hoop.last = hoopOf b.direct b.inner b.outer b.thick p pext t := by
  obtain ⟨-, net, hn, rfl⟩ := step_ok h
  exact ⟨rfl, rfl, rfl⟩

/-- **C135, disagreement.** A step that raises leaves the network at a later time than the one recorded, if a part of it had
been accepted: the next step, which returns, then ends at a later time than the one asked for and recorded. -/
theorem C135_raised_disagreement (b b1 b2 : Problem H) (o : Opts) (hd : 0 < o.dfact) (fuel : ℕ) (t1 t2 r a : ℝ)
    (h1 : b.step o fuel t1 r a = .raised b1) (hlate : b.times.last < b1.net.time.last)
    (h2 : b1.step o fuel t2 r a = .ok b2) :
    b1.times.last = b.times.last ∧ b2.times.last = t2 ∧ t2 < b2.net.time.last := by
  have e1 : b1.times = b.times := by
    unfold Problem.step at h1
    by_cases ht : t1 - b.times.last < 0
    · rw [if_pos ht] at h1
      cases h1; rfl
    · rw [if_neg ht] at h1
      cases hs : b.net.solve o fuel (t1 - b.times.last) with
      | running net => rw [hs] at h1; cases h1
      | raised net => rw [hs] at h1; cases h1; rfl
      | ok net => rw [hs] at h1; cases h1
  refine ⟨by rw [e1], ?_⟩
  obtain ⟨-, net, hn, rfl⟩ := step_ok h2
  refine ⟨rfl, ?_⟩
  show t2 < net.time.last
  rw [C69_time o hd b1.net net fuel _ hn, e1]
  linarith

/-- **C135.** The tolerances given to a step have no effect. -/
theorem C135_tolerance_disagreement (b : Problem H) (o : Opts) (fuel : ℕ) (t r a r' a' : ℝ) :
    b.step o fuel t r a = b.step o fuel t r' a' := rfl

/-! ## Histories -/

/-- The states a problem gets to by steps that return. -/
inductive Run (o : Opts) (b0 : Problem H) : Problem H → Prop
  | start : Run o b0 b0
  | step {b b'} (fuel : ℕ) (t r a : ℝ) : Run o b0 b → b.step o fuel t r a = .ok b' → Run o b0 b'

section
variable {rule : ℕ → List (ℝ × ℝ)} {rs : List ℝ} {mats : List (Mat1 H)} {ns : List ℕ} {T : ℝ → ℝ → ℝ}
  {p pext : ℝ → ℝ} {direct : Bool} {b0 b : Problem H} {o : Opts}

theorem run_inv (hr : Rule rule) (hd : 0 < o.dfact) (h : Problem.new rule rs mats ns T p pext direct = some b0)
    (hrun : Run o b0 b) : Setup b ∧ b.net.time.last = b.times.last ∧ Reach b.net ∧ b.P = b0.P ∧ b.T = T ∧
      b.points = b0.points ∧ b.weights = b0.weights ∧ b.net.edges.map Fixed = b0.net.edges.map Fixed := by
  induction hrun with
  | start =>
    obtain ⟨-, -, -, -, -, -, hT, -, -, hn, ht⟩ := new_spec h
    refine ⟨C135_setup_new hr h, by rw [ht, hn]; rfl, ?_, rfl, hT, rfl, rfl, rfl⟩
    rw [hn]
    refine Reach.force _ _ (Reach.disp _ _ ?_)
    have := Reach.new (n := 2) (((b0.points.zip b0.weights).zip (materialsOf mats ns)).map fun q =>
      ((0 : Fin 2), (1 : Fin 2), q.2, q.1.2, (1 : ℝ), T q.1.1))
    rw [List.map_map] at this
    exact this
  | @step b b' fuel t r a _ hs ih =>
    obtain ⟨s, hsync, hre, hP, hT, hp, hw, hf⟩ := ih
    refine ⟨C135_setup_step b b' s o fuel t r a (by rw [hs]; rfl), C135_clock hd hs hsync, ?_⟩
    obtain ⟨-, net, hn, rfl⟩ := step_ok hs
    have hre' := Reach.solve o fuel (t - b.times.last) hre
    rw [hn] at hre'
    obtain ⟨hs', hst⟩ := solve_steps b.net o fuel (t - b.times.last)
    rw [hn] at hst
    exact ⟨hre', hP, hT, hp, hw, (fixed_steps hst).1.trans hf⟩

/-- **C135.** At every time of a history, if the solver is exact, the stress integrated through the wall is the inner
pressure times the inner radius minus the outer pressure times the outer radius. -/
theorem C135_membrane (hr : Rule rule) (hn : ∀ n ∈ ns, 0 < n) (hd : 0 < o.dfact) (ho : o.rtol = 0 ∧ o.atol = 0)
    (h : Problem.new rule rs mats ns T p pext false = some b0) (hrun : Run o b0 b) (b' : Problem H) (fuel : ℕ)
    (t r a : ℝ) (hlt : b.times.last < t) (hs : b.step o fuel t r a = .ok b') :
    (List.zipWith (· * ·) b'.weights b'.stresses.last).sum = p t * rs.headD 0 - pext t * rs.getLastD 0 := by
  obtain ⟨s, hsync, -, hP, -, -, hw, -⟩ := run_inv hr hd h hrun
  obtain ⟨h1, h2, h3, hP0, -, hw0, -⟩ := new_spec h
  rw [C135_equilibrium s hd hlt hs ho hsync, hP, hw, hP0, hw0, hoopOf]
  have e : (diff rs).sum = rs.getLastD 0 - rs.headD 0 := by
    cases rs with
    | nil => simp at h1
    | cons a rs => rw [diff_sum, List.headD_cons]
  rw [C135_weights rule hr rs ns (by omega) hn, ← e]
  simp only [Bool.false_eq_true, if_false]
  rw [div_mul_cancel₀ _ h3]

/-- **C135.** An elastic wall, with one modulus and one expansion coefficient: the stress at each point is the hoop stress
plus the modulus times the expansion coefficient times what the mean temperature rise exceeds the one of the point by. -/
theorem C135_elastic (hr : Rule rule) (hd : 0 < o.dfact) (ho : o.rtol = 0 ∧ o.atol = 0)
    (h : Problem.new rule rs mats ns T p pext direct = some b0) (hrun : Run o b0 b) (b' : Problem H) (fuel : ℕ)
    (t r a : ℝ) (hlt : b.times.last < t) (hs : b.step o fuel t r a = .ok b') (E α : ℝ)
    (hE : ∀ m ∈ mats, (∀ i out, m.update i = some out → out.s = E * i.e1) ∧ ∀ τ, m.alpha τ = α)
    (hw0 : b0.weights.sum ≠ 0) :
    b'.stresses.last = b0.points.map fun x => b0.P t + E * α *
      ((List.zipWith (fun w y => w * (T y t - T y 0)) b0.weights b0.points).sum / b0.weights.sum - (T x t - T x 0)) := by
  have hrun' : Run o b0 b' := Run.step fuel t r a hrun hs
  obtain ⟨s', hsync', hre', hP', hT', hp', hw', hf'⟩ := run_inv hr hd h hrun'
  obtain ⟨s, hsync, -, hP, hT, hp, hw, -⟩ := run_inv hr hd h hrun
  have eq := C135_equilibrium s hd hlt hs ho hsync
  have ht : b'.times.last = t := by rw [(C135_records s hd hs).1]; rfl
  obtain ⟨-, mid, x, ha, h1, -, -, -, net, hn, hb'⟩ := step_net s hd hlt hs
  have hnet : b'.net = net := by rw [hb']; rfl
  have mats0 : ∀ e ∈ b'.net.edges, e.bar.mat ∈ mats := by
    intro e he
    have : Fixed e ∈ b0.net.edges.map Fixed := by rw [← hf']; exact List.mem_map_of_mem he
    obtain ⟨e0, he0, heq⟩ := List.mem_map.1 this
    simp only [Fixed, Prod.mk.injEq] at heq
    rw [← heq.2.2.2.2.2]
    obtain ⟨-, -, -, -, -, -, -, -, -, hn0, -⟩ := new_spec h
    rw [hn0] at he0
    obtain ⟨q, hq, rfl⟩ := List.mem_map.1 (show e0 ∈ bars T b0.points b0.weights (materialsOf mats ns) from he0)
    have := (List.of_mem_zip hq).2
    rw [materialsOf, List.mem_flatMap] at this
    obtain ⟨z, hz, hz2⟩ := this
    rw [List.eq_of_mem_replicate hz2]
    exact (List.of_mem_zip hz).1
  set ε := (b'.net.disp 1).last with hε
  have h0 : (b'.net.disp 0).last = 0 := by
    rw [hnet]
    rw [hb'] at ha
    exact C69_prescribed o mid net x ha 0 _ (by rw [h1]; exact s.held)
  have stress : ∀ e ∈ b'.net.edges, e.bar.stress.last = E * (ε - α * (e.bar.T t - e.bar.T 0)) := by
    intro e he
    obtain ⟨e1, he1, hb⟩ := barStep_of_mem ha he
    obtain ⟨out, hu, hst, -⟩ := hb.material
    have hm : e1.bar.mat ∈ mats := by rw [← hb.same.1]; exact mats0 e he
    rw [hst]
    show out.s = _
    rw [(hE _ hm).1 _ _ hu]
    congr 1
    obtain ⟨c1, c2, -⟩ := C69_compatible_always b'.net hre' e he
    have th := C69_thermal b'.net hre' e he α (hE _ (mats0 e he)).2
    obtain ⟨q1, q2, q3⟩ := s'.ends e he
    rw [q3, q1, q2, h0] at c1
    rw [hsync', ht] at th
    show e.bar.mstrain.last = _
    linarith
  have hst : b'.stresses.last = b0.points.map fun x => E * (ε - α * (T x t - T x 0)) := by
    have : b'.stresses.last = b'.net.edges.map fun e => e.bar.stress.last := by rw [hb']; rfl
    rw [this]
    have e1 : (b'.net.edges.map fun e => e.bar.stress.last) =
        (b'.net.edges.map fun e => e.bar.T).map fun f => E * (ε - α * (f t - f 0)) := by
      rw [List.map_map]
      exact List.map_congr_left fun e he => stress e he
    rw [e1, s'.temps, List.map_map, hp', hT']
    rfl
  rw [hst] at eq
  have lens : b0.weights.length = b0.points.length := by rw [← hw', ← hp', s'.weights, s'.points]
  have sum : (List.zipWith (· * ·) b'.weights (b0.points.map fun x => E * (ε - α * (T x t - T x 0)))).sum =
      E * (ε * b0.weights.sum - α * (List.zipWith (fun w y => w * (T y t - T y 0)) b0.weights b0.points).sum) := by
    rw [hw']
    clear hst eq hrun hrun' hf' mats0 hw0
    revert lens
    generalize b0.weights = ws
    generalize b0.points = ps
    intro lens
    induction ws generalizing ps with
    | nil => simp
    | cons w ws ih =>
      cases ps with
      | nil => simp at lens
      | cons y ps =>
        simp only [List.map_cons, List.zipWith_cons_cons, List.sum_cons]
        rw [ih ps (by simpa using lens)]
        ring
  rw [sum, hP, hw] at eq
  rw [hst]
  refine List.map_congr_left fun x _ => ?_
  set Q := (List.zipWith (fun w y => w * (T y t - T y 0)) b0.weights b0.points).sum
  have : b0.P t = E * (ε - α * (Q / b0.weights.sum)) := by
    field_simp
    linarith
  rw [this]
  ring

end

/-- **C135.** A wall of elastic materials with positive weights takes every step to a time that is not earlier. -/
theorem C135_solves (b : Problem H) (s : Setup b) (hne : b.net.edges ≠ []) (hw : ∀ w ∈ b.weights, 0 < w)
    (hE : ∀ e ∈ b.net.edges, ∃ E : ℝ, 0 < E ∧ ∀ i, ∃ out, e.bar.mat.update i = some out ∧ out.s = E * i.e1 ∧ out.A = E)
    (o : Opts) (hd : 0 < o.dfact) (hr : 0 ≤ o.rtol) (ha : 0 ≤ o.atol) (hm : 0 < o.miter) (fuel : ℕ) (t r a : ℝ)
    (ht : b.times.last ≤ t) : ∃ b', b.step o (fuel + 2) t r a = .ok b' := by
  have hh : ∀ v, Held b.net v := by
    have h0 : Held b.net 0 := Held.fixed (by rw [s.held]; simp)
    obtain ⟨e, he⟩ := List.exists_mem_of_ne_nil _ hne
    obtain ⟨q1, q2, -⟩ := s.ends e he
    have h1 : Held b.net 1 := by
      rw [← q2]
      exact Held.right he (by rw [q1]; exact h0)
    intro v
    fin_cases v
    exacts [h0, h1]
  have hl : Linear b.net (b.net.time.last + (t - b.times.last)) := by
    intro e he
    obtain ⟨E, hE0, hE1⟩ := hE e he
    have hA : 0 < e.bar.A := by
      apply hw
      rw [← s.areas]
      exact List.mem_map_of_mem he
    obtain ⟨-, -, q3⟩ := s.ends e he
    refine ⟨E * e.bar.A, E * (e.bar.tstrain.last + (e.bar.T (b.net.time.last + (t - b.times.last)) -
      e.bar.temperature.last) * (e.bar.mat.alpha (e.bar.T (b.net.time.last + (t - b.times.last))) +
      e.bar.mat.alpha e.bar.temperature.last) / 2) * e.bar.A, mul_pos hE0 hA, fun x => ?_⟩
    unfold Bar.updateForce
    simp only
    rw [if_neg (by rw [q3]; exact one_ne_zero)]
    obtain ⟨out, ho, hs, hA'⟩ := hE1 ⟨x / e.bar.l - (e.bar.tstrain.last +
      (e.bar.T (b.net.time.last + (t - b.times.last)) - e.bar.temperature.last) *
      (e.bar.mat.alpha (e.bar.T (b.net.time.last + (t - b.times.last))) + e.bar.mat.alpha e.bar.temperature.last) / 2),
      e.bar.mstrain.last, e.bar.T (b.net.time.last + (t - b.times.last)), e.bar.temperature.last,
      b.net.time.last + (t - b.times.last), b.net.time.last, e.bar.stress.last, e.bar.history.last, e.bar.energy.last,
      e.bar.dissipation.last⟩
    rw [ho, Option.map_some]
    refine ⟨_, congrArg some (Prod.ext ?_ (Prod.ext ?_ rfl))⟩
    · show out.s * e.bar.A = _
      rw [hs, q3, div_one]; ring
    · show out.A * e.bar.A / e.bar.l = _
      rw [hA', q3, div_one]
  obtain ⟨net, hn, -⟩ := C113_solves o hd hr ha hm b.net _ hl hh fuel
  refine ⟨b.record net t, ?_⟩
  unfold Problem.step
  rw [if_neg (by linarith), hn]

/-! ## A concrete case -/

/-- Options with an exact solver. -/
def exact : Opts := ⟨4, 2, false, 0, 0, 50⟩

/-- A wall of two elastic layers with seven points, heated on the outside: the problem can be made, a step is taken, and the
stresses carry the pressure. -/
example : ∃ b b', Problem.new rect [1, 2, 4] [spring 2, spring 3] [3, 4] (fun x t => x * t) (fun t => 5 * t) (fun _ => 1)
      false = some b ∧ b.step exact 2 1 0 0 = .ok b' ∧
    (List.zipWith (· * ·) b'.weights b'.stresses.last).sum = 5 * 1 * 1 - 1 * 4 := by
  have hd : (diff [1, 2, 4]).sum ≠ 0 := by norm_num [diff]
  obtain ⟨b, hb⟩ : ∃ b, Problem.new rect [1, 2, 4] [spring 2, spring 3] [3, 4] (fun x t => x * t) (fun t => 5 * t)
      (fun _ => 1) false = some b := by
    unfold Problem.new
    rw [if_neg (by simp), if_neg hd]
    exact ⟨_, rfl⟩
  have s := C135_setup_new rect_rule hb
  obtain ⟨-, -, -, -, hp, hw, -, -, -, hn, ht⟩ := new_spec hb
  have hl : b.net.edges.length = 7 := by
    rw [← s.points, hp, (pointsOf_length rect rect_rule _ _ (by simp)).1]
    rfl
  obtain ⟨b', h'⟩ := C135_solves b s (by intro h; rw [h] at hl; simp at hl) (by
      intro w hm
      rw [hw] at hm
      simp only [weightsOf, List.mem_flatMap, List.mem_map] at hm
      obtain ⟨q, hq, x, hx, rfl⟩ := hm
      simp only [diff, List.tail_cons, List.zipWith_cons_cons, List.zipWith_nil_left, List.zip_cons_cons,
        List.zip_nil_left, List.mem_cons, List.not_mem_nil, or_false] at hq
      rcases hq with rfl | rfl
      · have := ((C134_rectangle 3 (by norm_num) 1 0).2 x hx).2.2
        norm_num
        linarith
      · have := ((C134_rectangle 4 (by norm_num) 1 0).2 x hx).2.2
        norm_num
        linarith) (by
      intro e he
      rw [hn] at he
      obtain ⟨q, hq, rfl⟩ := List.mem_map.1 (show e ∈ bars (fun x t => x * t) b.points b.weights
        (materialsOf [spring 2, spring 3] [3, 4]) from he)
      have := (List.of_mem_zip hq).2
      simp only [materialsOf, List.zip_cons_cons, List.zip_nil_left, List.mem_flatMap, List.mem_cons, List.not_mem_nil,
        or_false] at this
      obtain ⟨z, rfl | rfl, hz⟩ := this
      · refine ⟨2, by norm_num, fun i => ⟨⟨2 * i.e1, (), 2, 1, 0⟩, ?_, rfl, rfl⟩⟩
        show q.2.update i = _
        rw [List.eq_of_mem_replicate hz]
        rfl
      · refine ⟨3, by norm_num, fun i => ⟨⟨3 * i.e1, (), 3, 1, 0⟩, ?_, rfl, rfl⟩⟩
        show q.2.update i = _
        rw [List.eq_of_mem_replicate hz]
        rfl) exact (by norm_num [exact]) le_rfl le_rfl (by norm_num [exact]) 0 1 0 0 (by rw [ht]; norm_num)
  refine ⟨b, b', hb, h', ?_⟩
  have := C135_membrane rect_rule (by simp) (by norm_num [exact]) ⟨rfl, rfl⟩ hb Run.start b' 2 1 0 0
    (by rw [ht]; norm_num) h'
  rw [this]
  norm_num

end Neml.Bree
