import Verif.Props.BarNetworkStep
import Verif.Props.DriverJacobian

/-!
# C69, C113: whole histories of a bar network, its Jacobian, and when it can be solved -/

namespace Neml.BarNetwork

open Matrix Neml.PySolve Neml.Uniaxial Neml.Driver Neml.Damage Neml.Kinematics

variable {H : Type} {n : Nat}

/-! ## Histories -/

theorem solveLoop_steps (o : Opts) (total : ℝ) (fuel : Nat) (net : Net H n) (curr attempt dtA ef : ℝ) (k : Nat) :
    ∃ hs, Steps o net hs (solveLoop o total fuel net curr attempt dtA ef k).net := by
  induction fuel generalizing net curr attempt dtA ef k with
  | zero => exact ⟨[], Steps.nil _⟩
  | succ fuel ih =>
    rw [solveLoop]
    by_cases hc : curr < total
    · rw [if_pos hc]
      cases hn : newton (net.rj dtA) o.rtol o.atol o.miter net.edges (net.guess o.extrapolate ef) with
      | some r =>
        obtain ⟨d, es⟩ := r
        obtain ⟨hs, h⟩ := ih (net.apply es d dtA) (curr + attempt) attempt dtA 1 k
        exact ⟨_, Steps.cons ⟨ef, d, es, hn, rfl⟩ h⟩
      | none =>
        simp only
        by_cases hnd : k + 1 = o.ndiv
        · rw [if_pos hnd]; exact ⟨[], Steps.nil _⟩
        · rw [if_neg hnd]; exact ih _ _ _ _ _ _
    · rw [if_neg hc]; exact ⟨[], Steps.nil _⟩

/-- The networks a program can have: new bars between nodes; boundary conditions; calls of `solve` that return or
raise (or are interrupted), with any options. -/
inductive Reach : Net H n → Prop
  | new (l : List (Fin n × Fin n × Mat1 H × ℝ × ℝ × (ℝ → ℝ))) :
      Reach (Net.new (l.map fun q => ⟨q.1, q.2.1, Bar.new q.2.2.1 q.2.2.2.1 q.2.2.2.2.1 q.2.2.2.2.2⟩))
  | force {net} (v : Fin n) (f : ℝ → ℝ) : Reach net → Reach (net.addForce v f)
  | disp {net} (v : Fin n) (f : ℝ → ℝ) : Reach net → Reach (net.addDisp v f)
  | solve {net} (o : Opts) (fuel : Nat) (dt : ℝ) : Reach net → Reach (net.solve o fuel dt).net

/-- Something that holds of new networks, does not depend on boundary conditions and is kept by accepted steps holds of
all networks. -/
theorem reach_inv (P : Net H n → Prop) (hnew : ∀ l : List (Fin n × Fin n × Mat1 H × ℝ × ℝ × (ℝ → ℝ)),
      P (Net.new (l.map fun q => ⟨q.1, q.2.1, Bar.new q.2.2.1 q.2.2.2.1 q.2.2.2.2.1 q.2.2.2.2.2⟩)))
    (hf : ∀ net v f, P net → P (net.addForce v f)) (hd : ∀ net v f, P net → P (net.addDisp v f))
    (hs : ∀ o net h net', Accepted o net h net' → P net → P net') (net : Net H n) (h : Reach net) : P net := by
  induction h with
  | new l => exact hnew l
  | force v f _ ih => exact hf _ v f ih
  | disp v f _ ih => exact hd _ v f ih
  | @solve net o fuel dt _ ih =>
    obtain ⟨hs', hst⟩ := solveLoop_steps o ((o.dfact : ℝ) ^ o.ndiv) fuel net 0 ((o.dfact : ℝ) ^ o.ndiv) dt 1 0
    have key : ∀ net hs net', Steps o net hs net' → P net → P net' := by
      intro net hl net' h
      induction h with
      | nil => exact id
      | cons ha _ ih => exact fun hp => ih (hs _ _ _ _ ha hp)
    exact key _ _ _ hst ih

/-- The number of entries of a series. -/
def size {α : Type} (s : Series α) : Nat := s.toList.length

theorem size_push {α : Type} (s : Series α) (a : α) : size (s.push a) = size s + 1 := by
  simp [size, Series.toList, Series.push]

/-- All series of a network have as many entries as there are times. -/
def Aligned (net : Net H n) : Prop :=
  (∀ v, size (net.disp v) = size net.time ∧ size (net.force v) = size net.time) ∧
  size net.energy = size net.time ∧ size net.dissipation = size net.time ∧
  ∀ e ∈ net.edges, size e.bar.stress = size net.time ∧ size e.bar.strain = size net.time ∧
    size e.bar.mstrain = size net.time ∧ size e.bar.estrain = size net.time ∧ size e.bar.tstrain = size net.time ∧
    size e.bar.energy = size net.time ∧ size e.bar.dissipation = size net.time ∧
    size e.bar.temperature = size net.time ∧ size e.bar.history = size net.time

theorem barStep_of_mem {o : Opts} {net net' : Net H n} {h : ℝ} (ha : Accepted o net h net') {e' : Edge H n}
    (he : e' ∈ net'.edges) : ∃ e ∈ net.edges, BarStep net'.last (net.time.last + h) net.time.last e e' := by
  obtain ⟨hf, -⟩ := C69_step o net net' h ha
  obtain ⟨k, hk, rfl⟩ := List.getElem_of_mem he
  have hl : k < net.edges.length := by rw [hf.length_eq]; exact hk
  have hb := (List.forall₂_iff_get.1 hf).2 k hl hk
  exact ⟨_, List.get_mem net.edges ⟨k, hl⟩, hb⟩

/-- **C69.** All series have the same length, whatever has been done with the network: also after calls that raised. -/
theorem C69_aligned (net : Net H n) (h : Reach net) : Aligned net := by
  refine reach_inv Aligned (fun l => ?_) (fun net v f h => h) (fun net v f h => h) (fun o net h net' ha hp => ?_) net h
  · refine ⟨fun v => ⟨rfl, rfl⟩, rfl, rfl, fun e he => ?_⟩
    simp only [Net.new, List.mem_map] at he
    obtain ⟨q, -, rfl⟩ := he
    exact ⟨rfl, rfl, rfl, rfl, rfl, rfl, rfl, rfl, rfl⟩
  · obtain ⟨-, hd, hfo, -, -, ht, hen, hdi⟩ := C69_step o net net' h ha
    obtain ⟨p1, p2, p3, p4⟩ := hp
    have hT : size net'.time = size net.time + 1 := by rw [ht, size_push]
    refine ⟨fun v => ⟨?_, ?_⟩, ?_, ?_, fun e' he' => ?_⟩
    · obtain ⟨x, hx⟩ := hd v; rw [hx, size_push, hT, (p1 v).1]
    · obtain ⟨x, hx⟩ := hfo v; rw [hx, size_push, hT, (p1 v).2]
    · obtain ⟨x, hx⟩ := hen; rw [hx, size_push, hT, p2]
    · obtain ⟨x, hx⟩ := hdi; rw [hx, size_push, hT, p3]
    · obtain ⟨e, he, hb⟩ := barStep_of_mem ha he'
      obtain ⟨out, -, m1, m2, m3, m4, m5⟩ := hb.material
      obtain ⟨q1, q2, q3, q4, q5, q6, q7, q8, q9⟩ := p4 e he
      rw [m1, m2, m3, m4, m5, hb.strain, hb.temperature, hb.thermal, hb.mechanical, hT]
      simp only [size_push, q1, q2, q3, q4, q5, q6, q7, q8, q9, and_self]

/-- **C69.** At all times the strain of each bar is compatible with the displacements of its ends, it is the sum of
mechanical and thermal strain, and the temperature is that of the bar's own function at the current time. (A bar of length
zero never gets beyond the initial state.) -/
theorem C69_compatible_always (net : Net H n) (h : Reach net) (e : Edge H n) (he : e ∈ net.edges) :
    e.bar.strain.last * e.bar.l = (net.disp e.j).last - (net.disp e.i).last ∧
      e.bar.strain.last = e.bar.mstrain.last + e.bar.tstrain.last ∧ e.bar.temperature.last = e.bar.T net.time.last := by
  revert e
  refine reach_inv (fun net => ∀ e ∈ net.edges, e.bar.strain.last * e.bar.l = (net.disp e.j).last - (net.disp e.i).last ∧
      e.bar.strain.last = e.bar.mstrain.last + e.bar.tstrain.last ∧ e.bar.temperature.last = e.bar.T net.time.last)
    (fun l e he => ?_) (fun net v f h => h) (fun net v f h => h)
    (fun o net h net' ha hp e he => C69_compatible o net net' h ha e he) net h
  simp only [Net.new, List.mem_map] at he
  obtain ⟨q, -, rfl⟩ := he
  simp [Net.new, Bar.new]

/-- **C69.** With a constant expansion coefficient the thermal strain depends on the current temperature only. -/
theorem C69_thermal (net : Net H n) (h : Reach net) (e : Edge H n) (he : e ∈ net.edges) (a : ℝ)
    (ha : ∀ T, e.bar.mat.alpha T = a) : e.bar.tstrain.last = a * (e.bar.T net.time.last - e.bar.T 0) := by
  have key : ∀ e ∈ net.edges, (∀ T, e.bar.mat.alpha T = a) → e.bar.temperature.last = e.bar.T net.time.last ∧
      e.bar.tstrain.last = a * (e.bar.T net.time.last - e.bar.T 0) := by
    refine reach_inv (fun net => ∀ e ∈ net.edges, (∀ T, e.bar.mat.alpha T = a) →
      e.bar.temperature.last = e.bar.T net.time.last ∧ e.bar.tstrain.last = a * (e.bar.T net.time.last - e.bar.T 0))
      (fun l e he _ => ?_) (fun net v f h => h) (fun net v f h => h) (fun o net h net' ha hp e' he' hal => ?_) net h
    · simp only [Net.new, List.mem_map] at he
      obtain ⟨q, -, rfl⟩ := he
      simp [Net.new, Bar.new]
    · obtain ⟨e, he, hb⟩ := barStep_of_mem ha he'
      obtain ⟨-, -, -, -, -, ht, -⟩ := C69_step o net net' h ha
      have hal' : ∀ T, e.bar.mat.alpha T = a := by rw [← hb.same.1]; exact hal
      obtain ⟨h1, h2⟩ := hp e he hal'
      rw [hb.temperature, hb.thermal, hb.same.2.2.2, ht]
      simp only [Series.push, hal', h1, h2, true_and]
      ring
  exact (key e he ha).2

/-- One step of a material, as the uniaxial wrapper makes it (`Uniaxial.step1` is this for the wrapper). -/
def matStep (m : Mat1 H) (st : State1 H) (q : ℝ × ℝ × ℝ) : Option (State1 H) :=
  (m.update ⟨q.1, st.e, q.2.1, st.T, q.2.2, st.t, st.s, st.h, st.u, st.p⟩).map fun o =>
    ⟨q.1, q.2.1, q.2.2, o.s, o.h, o.u, o.p⟩

theorem runs_append {σ Q : Type} (f : σ → Q → Option σ) (s : σ) (qs : List Q) (ss : List σ) (q : Q) (s' : σ)
    (h : runs f s qs = some ss) (h' : f ((s :: ss).getLast (by simp)) q = some s') :
    runs f s (qs ++ [q]) = some (ss ++ [s']) := by
  induction qs generalizing s ss with
  | nil =>
    simp only [runs, Option.some.injEq] at h
    subst h
    simp only [List.getLast_singleton] at h'
    simp [runs, h']
  | cons q0 qs ih =>
    rw [runs] at h
    rw [List.cons_append, runs]
    split at h
    · cases h
    · rename_i s1 e1
      rw [Option.map_eq_some_iff] at h
      obtain ⟨ss1, e2, rfl⟩ := h
      rw [List.getLast_cons (by simp)] at h'
      simp only [e1, ih s1 ss1 e2 h', Option.map_some, List.cons_append]

theorem toList_push {α : Type} (s : Series α) (a : α) : (s.push a).toList = s.toList ++ [a] := by
  simp [Series.toList, Series.push]

theorem getLast_map {α β : Type} (l : List α) (hl : l ≠ []) (f : α → β) (s : Series β) (h : s.toList = l.map f) :
    f (l.getLast hl) = s.last := by
  have h1 : s.toList.getLast (by simp [Series.toList]) = s.last := by simp [Series.toList]
  rw [← h1]
  have : ∀ (m : List β) (hm : m ≠ []), m = l.map f → f (l.getLast hl) = m.getLast hm := by
    rintro m hm rfl
    rw [List.getLast_map]
  exact this _ _ h

/-- **C69.** What is recorded of each bar is a history of its material: starting from the unloaded state, the recorded
stresses, stores, energies and dissipations are those the material gives when driven through the recorded mechanical
strains, temperatures and times. -/
theorem C69_material (net : Net H n) (h : Reach net) (e : Edge H n) (he : e ∈ net.edges) :
    ∃ (qs : List (ℝ × ℝ × ℝ)) (sts : List (State1 H)),
      runs (matStep e.bar.mat) ⟨0, e.bar.T 0, 0, 0, e.bar.mat.init, 0, 0⟩ qs = some sts ∧
      ∀ all, all = (⟨0, e.bar.T 0, 0, 0, e.bar.mat.init, 0, 0⟩ : State1 H) :: sts →
        e.bar.mstrain.toList = all.map State1.e ∧ e.bar.temperature.toList = all.map State1.T ∧
        net.time.toList = all.map State1.t ∧ e.bar.stress.toList = all.map State1.s ∧
        e.bar.history.toList = all.map State1.h ∧ e.bar.energy.toList = all.map State1.u ∧
        e.bar.dissipation.toList = all.map State1.p := by
  revert e
  refine reach_inv (fun net => ∀ e ∈ net.edges, ∃ (qs : List (ℝ × ℝ × ℝ)) (sts : List (State1 H)),
      runs (matStep e.bar.mat) ⟨0, e.bar.T 0, 0, 0, e.bar.mat.init, 0, 0⟩ qs = some sts ∧
      ∀ all, all = (⟨0, e.bar.T 0, 0, 0, e.bar.mat.init, 0, 0⟩ : State1 H) :: sts →
        e.bar.mstrain.toList = all.map State1.e ∧ e.bar.temperature.toList = all.map State1.T ∧
        net.time.toList = all.map State1.t ∧ e.bar.stress.toList = all.map State1.s ∧
        e.bar.history.toList = all.map State1.h ∧ e.bar.energy.toList = all.map State1.u ∧
        e.bar.dissipation.toList = all.map State1.p)
      (fun l e he => ?_) (fun net v f h => h) (fun net v f h => h) (fun o net h net' ha hp e' he' => ?_) net h
  · simp only [Net.new, List.mem_map] at he
    obtain ⟨q, -, rfl⟩ := he
    refine ⟨[], [], rfl, ?_⟩
    rintro all rfl
    simp [Net.new, Bar.new, Series.toList]
  · obtain ⟨e, he, hb⟩ := barStep_of_mem ha he'
    obtain ⟨-, -, -, -, -, ht, -⟩ := C69_step o net net' h ha
    obtain ⟨qs, sts, hr, hall⟩ := hp e he
    obtain ⟨r1, r2, r3, r4, r5, r6, r7⟩ := hall _ rfl
    obtain ⟨out, hout, m1, m2, m3, m4, -⟩ := hb.material
    have hne : (⟨0, e.bar.T 0, 0, 0, e.bar.mat.init, 0, 0⟩ : State1 H) :: sts ≠ [] := by simp
    refine ⟨qs ++ [(e'.bar.mstrain.last, e'.bar.temperature.last, net.time.last + h)],
      sts ++ [⟨e'.bar.mstrain.last, e'.bar.temperature.last, net.time.last + h, out.s, out.h, out.u, out.p⟩], ?_, ?_⟩
    · rw [hb.same.1, hb.same.2.2.2]
      refine runs_append _ _ _ _ _ _ hr ?_
      unfold matStep
      rw [getLast_map _ hne _ _ r1, getLast_map _ hne _ _ r2, getLast_map _ hne _ _ r3, getLast_map _ hne _ _ r4,
        getLast_map _ hne _ _ r5, getLast_map _ hne _ _ r6, getLast_map _ hne _ _ r7, hout]
      rfl
    · rintro all rfl
      rw [hb.same.1, hb.same.2.2.2, m1, m2, m3, m4, ht]
      rw [← List.cons_append]
      simp only [List.map_append, toList_push, ← r3, ← r4, ← r5, ← r6, ← r7, List.map_cons, List.map_nil]
      have x1 : e'.bar.mstrain.toList = e.bar.mstrain.toList ++ [e'.bar.mstrain.last] := by
        rw [hb.mechanical, toList_push]; rfl
      have x2 : e'.bar.temperature.toList = e.bar.temperature.toList ++ [e'.bar.temperature.last] := by
        rw [hb.temperature, toList_push]; rfl
      rw [x1, x2, r1, r2]
      simp

/-- **C69.** Earlier records are never changed: an accepted step appends to every series. -/
theorem C69_prefix (o : Opts) (net net' : Net H n) (hs : List ℝ) (h : Steps o net hs net') :
    (∀ v, (net.disp v).toList <+: (net'.disp v).toList ∧ (net.force v).toList <+: (net'.force v).toList) ∧
      net.time.toList <+: net'.time.toList ∧ net.energy.toList <+: net'.energy.toList ∧
      List.Forall₂ (fun e e' : Edge H n => e'.i = e.i ∧ e'.j = e.j ∧ e.bar.stress.toList <+: e'.bar.stress.toList ∧
        e.bar.strain.toList <+: e'.bar.strain.toList ∧ e.bar.history.toList <+: e'.bar.history.toList)
        net.edges net'.edges := by
  induction h with
  | nil net =>
    refine ⟨fun v => ⟨List.prefix_rfl, List.prefix_rfl⟩, List.prefix_rfl, List.prefix_rfl, ?_⟩
    rw [List.forall₂_same]
    exact fun e _ => ⟨rfl, rfl, List.prefix_rfl, List.prefix_rfl, List.prefix_rfl⟩
  | cons ha _ ih =>
    obtain ⟨hf, hd, hfo, -, -, ht, ⟨xe, hen⟩, -⟩ := C69_step _ _ _ _ ha
    obtain ⟨i1, i2, i3, i4⟩ := ih
    have push : ∀ {α : Type} (s : Series α) (x : α) (l : List α), (s.push x).toList <+: l → s.toList <+: l :=
      fun s x l h => (List.prefix_append _ _).trans (by rwa [toList_push] at h)
    refine ⟨fun v => ⟨?_, ?_⟩, ?_, ?_, ?_⟩
    · obtain ⟨x, hx⟩ := hd v; exact push _ x _ (hx ▸ (i1 v).1)
    · obtain ⟨x, hx⟩ := hfo v; exact push _ x _ (hx ▸ (i1 v).2)
    · exact push _ _ _ (ht ▸ i2)
    · exact push _ _ _ (hen ▸ i3)
    · refine List.forall₂_iff_get.2 ⟨hf.length_eq.trans i4.length_eq, fun k h1 h2 => ?_⟩
      have hk : k < _ := hf.length_eq ▸ h1
      have b1 := (List.forall₂_iff_get.1 hf).2 k h1 hk
      obtain ⟨c1, c2, c3, c4, c5⟩ := (List.forall₂_iff_get.1 i4).2 k hk h2
      obtain ⟨out, -, m1, m2, -⟩ := b1.material
      exact ⟨c1.trans b1.ends.1, c2.trans b1.ends.2, push _ _ _ (m1 ▸ c3), push _ _ _ (b1.strain ▸ c4), push _ _ _ (m2 ▸ c5)⟩

/-! ## The Jacobian -/

/-- The tangents of the bars are the derivatives of their forces, for steps to `t1`. -/
def BarsRight (net : Net H n) (t1 : ℝ) : Prop :=
  ∀ e ∈ net.edges, ∃ F A : ℝ → ℝ, (∀ x, ∃ b, e.bar.updateForce x t1 net.time.last = some (F x, A x, b)) ∧
    ∀ x, HasDerivAt F (A x) x

/-- The displacements of all nodes that belong to a vector of unknowns, without the prescribed ones. -/
noncomputable def Net.extend (net : Net H n) (x : Fin net.free.length → ℝ) (v : Fin n) : ℝ :=
  (net.pos v).elim 0 x

theorem inc_sum (net : Net H n) (e : Edge H n) (x : Fin net.free.length → ℝ) :
    ∑ k, inc e (net.free.get k) * x k = net.extend x e.j - net.extend x e.i := by
  have one : ∀ v : Fin n, ∑ k, (if v = net.free.get k then (1 : ℝ) else 0) * x k = net.extend x v := by
    intro v
    unfold Net.extend
    cases hp : net.pos v with
    | none =>
      refine Finset.sum_eq_zero fun k _ => ?_
      have : v ≠ net.free.get k := fun e => by rw [← pos_eq, hp] at e; cases e
      rw [if_neg this, zero_mul]
    | some j =>
      have hj := (pos_eq net _ _).1 hp
      rw [Finset.sum_eq_single j]
      · rw [if_pos hj, one_mul]; rfl
      · intro k _ hk
        have : v ≠ net.free.get k := fun e => by rw [← pos_eq, hp] at e; cases e; exact hk rfl
        rw [if_neg this, zero_mul]
      · simp
  simp only [inc, sub_mul, Finset.sum_sub_distrib, one]

/-- **C113.** The Jacobian of a network is the derivative of its residual, if the tangents of the bars are right. -/
theorem C113_jacobian (net : Net H n) (dt : ℝ) (h : BarsRight net (net.time.last + dt)) :
    Jac fun d => (net.rj dt net.edges d).map fun r => (r.1, r.2.1) := by
  classical
  let F : Edge H n → ℝ → ℝ := fun e => if he : e ∈ net.edges then Classical.choose (h e he) else 0
  let A : Edge H n → ℝ → ℝ := fun e =>
    if he : e ∈ net.edges then Classical.choose (Classical.choose_spec (h e he)) else 0
  have hFA : ∀ e ∈ net.edges, (∀ x, ∃ b, e.bar.updateForce x (net.time.last + dt) net.time.last =
      some (F e x, A e x, b)) ∧ ∀ x, HasDerivAt (F e) (A e x) x := by
    intro e he
    have := Classical.choose_spec (Classical.choose_spec (h e he))
    simpa only [F, A, dif_pos he] using this
  let t1 := net.time.last + dt
  let X : (Fin net.free.length → ℝ) → Edge H n → ℝ := fun d e => net.value d t1 e.j - net.value d t1 e.i
  refine ⟨fun d k => (net.edges.map fun e => inc e (net.free.get k) * F e (X d e)).sum - net.applied t1 (net.free.get k),
    fun d => of fun k l => (net.edges.map fun e => A e (X d e) * inc e (net.free.get k) * inc e (net.free.get l)).sum,
    fun d => ?_, ?_⟩
  · let g : Edge H n → ℝ × ℝ × Bar H := fun e =>
      if he : e ∈ net.edges then (F e (X d e), A e (X d e), Classical.choose ((hFA e he).1 (X d e))) else (0, 0, e.bar)
    have hg : ∀ e ∈ net.edges, trial e (net.value d t1) t1 net.time.last = some (g e) := by
      intro e he
      simp only [g, dif_pos he]
      exact Classical.choose_spec ((hFA e he).1 (X d e))
    beta_reduce
    rw [rj_of net dt net.edges d g hg]
    simp only [Option.map_some, Option.some.injEq, Prod.mk.injEq]
    have g1 : ∀ e ∈ net.edges, (g e).1 = F e (X d e) := fun e he => by simp only [g, dif_pos he]
    have g2 : ∀ e ∈ net.edges, (g e).2.1 = A e (X d e) := fun e he => by simp only [g, dif_pos he]
    constructor
    · funext k
      rw [List.map_congr_left fun e he => by rw [g1 e he]]
    · ext k l
      simp only [of_apply]
      rw [List.map_congr_left fun e he => by rw [g2 e he]]
  · intro D D' τ hD k
    refine HasDerivAt.sub_const _ ?_
    have hval : ∀ v, HasDerivAt (fun t => net.value (D t) t1 v) (net.extend D' v) τ := by
      intro v
      unfold Net.extend
      cases hp : net.pos v with
      | none =>
        have : (fun t => net.value (D t) t1 v) = fun _ => net.value (D τ) t1 v := by
          funext t
          unfold Net.value
          rw [hp]
          cases net.dbc v <;> rfl
        rw [this]
        exact hasDerivAt_const _ _
      | some j =>
        have : (fun t => net.value (D t) t1 v) = fun t => D t j := by
          funext t
          unfold Net.value
          rw [hp]
        rw [this]
        exact hD j
    have hsum : ∀ es : List (Edge H n), (∀ e ∈ es, e ∈ net.edges) →
        HasDerivAt (fun t => (es.map fun e => inc e (net.free.get k) * F e (X (D t) e)).sum)
          (∑ l, (es.map fun e => A e (X (D τ) e) * inc e (net.free.get k) * inc e (net.free.get l)).sum * D' l) τ := by
      intro es hes
      induction es with
      | nil => simpa using hasDerivAt_const τ (0 : ℝ)
      | cons e es ih =>
        simp only [List.map_cons, List.sum_cons, add_mul, Finset.sum_add_distrib]
        refine HasDerivAt.add ?_ (ih fun e' he' => hes e' (List.mem_cons_of_mem _ he'))
        have e1 : ∑ l, A e (X (D τ) e) * inc e (net.free.get k) * inc e (net.free.get l) * D' l =
            inc e (net.free.get k) * (A e (X (D τ) e) * (net.extend D' e.j - net.extend D' e.i)) := by
          rw [← inc_sum net e D', Finset.mul_sum, Finset.mul_sum]
          exact Finset.sum_congr rfl fun l _ => by ring
        rw [e1]
        refine HasDerivAt.const_mul _ ?_
        have hx : HasDerivAt (fun t => X (D t) e) (net.extend D' e.j - net.extend D' e.i) τ :=
          (hval e.j).sub (hval e.i)
        exact HasDerivAt.comp τ ((hFA e (hes e (List.mem_cons_self ..))).2 (X (D τ) e)) hx
    simpa only [mulVec, dotProduct, of_apply] using hsum net.edges fun e he => he

/-- **C113.** The Jacobian is symmetric. -/
theorem C113_symmetric (net : Net H n) (dt : ℝ) (es : List (Edge H n)) (d R : Fin net.free.length → ℝ)
    (J : Matrix (Fin net.free.length) (Fin net.free.length) ℝ) (es' : List (Edge H n))
    (h : net.rj dt es d = some (R, J, es')) : Jᵀ = J := by
  obtain ⟨g, -, -, hJ, -⟩ := rj_spec net dt es d R J es' h
  ext k l
  rw [transpose_apply, hJ, hJ]
  exact congrArg List.sum (List.map_congr_left fun e _ => by ring)

/-- The quadratic form of the Jacobian: tangent times square of the elongation, summed over the bars. -/
theorem quadratic (net : Net H n) (es : List (Edge H n)) (A : Edge H n → ℝ)
    (J : Matrix (Fin net.free.length) (Fin net.free.length) ℝ)
    (hJ : ∀ k l, J k l = (es.map fun e => A e * inc e (net.free.get k) * inc e (net.free.get l)).sum)
    (x : Fin net.free.length → ℝ) :
    x ⬝ᵥ (J *ᵥ x) = (es.map fun e => A e * (net.extend x e.j - net.extend x e.i) ^ 2).sum := by
  have hJ' : J = of fun k l => (es.map fun e => A e * inc e (net.free.get k) * inc e (net.free.get l)).sum := by
    ext k l; rw [hJ]; rfl
  subst hJ'
  clear hJ
  induction es with
  | nil => simp [mulVec, dotProduct]
  | cons e es ih =>
    rw [List.map_cons, List.sum_cons, ← ih]
    simp only [dotProduct, mulVec, of_apply, List.map_cons, List.sum_cons, add_mul, Finset.sum_add_distrib, mul_add]
    congr 1
    rw [pow_two, ← inc_sum net e x, Finset.sum_mul_sum, Finset.mul_sum]
    refine Finset.sum_congr rfl fun k _ => ?_
    rw [Finset.mul_sum, Finset.mul_sum]
    exact Finset.sum_congr rfl fun l _ => by ring

/-- A node is held: its displacement is prescribed, or a chain of bars leads to a node that is held. -/
inductive Held (net : Net H n) : Fin n → Prop
  | fixed {v} : net.dbc v ≠ none → Held net v
  | right {e} : e ∈ net.edges → Held net e.i → Held net e.j
  | left {e} : e ∈ net.edges → Held net e.j → Held net e.i

/-- **C113.** If all tangents are positive and all nodes are held the Jacobian is positive definite, so that the Newton
step exists. -/
theorem C113_definite (net : Net H n) (dt : ℝ) (d R : Fin net.free.length → ℝ)
    (J : Matrix (Fin net.free.length) (Fin net.free.length) ℝ) (es' : List (Edge H n))
    (h : net.rj dt net.edges d = some (R, J, es'))
    (hpos : ∀ e ∈ net.edges, ∀ f A b, trial e (net.value d (net.time.last + dt)) (net.time.last + dt) net.time.last =
      some (f, A, b) → 0 < A) (hh : ∀ v, Held net v) (x : Fin net.free.length → ℝ) (hx : x ≠ 0) :
    0 < x ⬝ᵥ (J *ᵥ x) := by
  obtain ⟨g, hg, -, hJ, -⟩ := rj_spec net dt net.edges d R J es' h
  rw [quadratic net net.edges (fun e => (g e).2.1) J hJ x]
  have hA : ∀ e ∈ net.edges, 0 < (g e).2.1 := fun e he => hpos e he _ _ _ (hg e he)
  have hnn : ∀ y ∈ net.edges.map fun e => (g e).2.1 * (net.extend x e.j - net.extend x e.i) ^ 2, 0 ≤ y := by
    intro y hy
    obtain ⟨e, he, rfl⟩ := List.mem_map.1 hy
    exact mul_nonneg (hA e he).le (sq_nonneg _)
  refine lt_of_le_of_ne (List.sum_nonneg hnn) fun hz => hx ?_
  have hall : ∀ e ∈ net.edges, net.extend x e.j = net.extend x e.i := by
    intro e he
    have h1 := List.single_le_sum hnn _ (List.mem_map_of_mem he)
    rw [← hz] at h1
    have h2 := hA e he
    have h3 : (net.extend x e.j - net.extend x e.i) ^ 2 ≤ 0 := by
      by_contra hn
      rw [not_le] at hn
      have := mul_pos h2 hn
      linarith
    have := pow_eq_zero_iff two_ne_zero |>.1 (le_antisymm h3 (sq_nonneg _))
    linarith
  have hzero : ∀ v, Held net v → net.extend x v = 0 := by
    intro v hv
    induction hv with
    | fixed hf =>
      unfold Net.extend
      rw [(pos_fixed net _).2 hf]; rfl
    | right he _ ih => rw [hall _ he, ih]
    | left he _ ih => rw [← hall _ he, ih]
  funext k
  have := hzero (net.free.get k) (hh _)
  unfold Net.extend at this
  rw [pos_free] at this
  exact this

/-- **C113.** In particular the Jacobian is regular. -/
theorem C113_regular (net : Net H n) (dt : ℝ) (d R : Fin net.free.length → ℝ)
    (J : Matrix (Fin net.free.length) (Fin net.free.length) ℝ) (es' : List (Edge H n))
    (h : net.rj dt net.edges d = some (R, J, es'))
    (hpos : ∀ e ∈ net.edges, ∀ f A b, trial e (net.value d (net.time.last + dt)) (net.time.last + dt) net.time.last =
      some (f, A, b) → 0 < A) (hh : ∀ v, Held net v) : J.det ≠ 0 := by
  intro h0
  obtain ⟨v, hv, e⟩ := exists_mulVec_eq_zero_iff.2 h0
  have := C113_definite net dt d R J es' h hpos hh v hv
  rw [e, dotProduct_zero] at this
  exact lt_irrefl _ this

/-- **C113.** If a node is not held the Jacobian is singular, whatever the tangents: a part of the network floats, and
a Newton step raises. -/
theorem C113_floating (net : Net H n) (dt : ℝ) (d R : Fin net.free.length → ℝ)
    (J : Matrix (Fin net.free.length) (Fin net.free.length) ℝ) (es' : List (Edge H n))
    (h : net.rj dt net.edges d = some (R, J, es')) (v : Fin n) (hv : ¬ Held net v) : J.det = 0 := by
  obtain ⟨g, hg, -, hJ, -⟩ := rj_spec net dt net.edges d R J es' h
  classical
  refine exists_mulVec_eq_zero_iff.1 ⟨fun k => if Held net (net.free.get k) then 0 else 1, fun h => ?_, ?_⟩
  · have hf : net.dbc v = none := by
      by_contra hn
      exact hv (Held.fixed hn)
    obtain ⟨k, hk⟩ := List.mem_iff_get.1 ((mem_free net v).2 hf)
    have := congrFun h k
    simp only [hk, if_neg hv, Pi.zero_apply] at this
    exact one_ne_zero this
  · funext k
    have hext : ∀ u, net.extend (fun k => if Held net (net.free.get k) then 0 else 1) u = if Held net u then 0 else 1 := by
      intro u
      unfold Net.extend
      cases hp : net.pos u with
      | none => rw [if_pos (Held.fixed ((pos_fixed net u).1 hp))]; rfl
      | some j => rw [(pos_eq net _ _).1 hp]; rfl
    have hsame : ∀ e ∈ net.edges, (Held net e.j ↔ Held net e.i) := fun e he =>
      ⟨fun h => Held.left he h, fun h => Held.right he h⟩
    have key : ∀ es : List (Edge H n), (∀ e ∈ es, e ∈ net.edges) →
        ∑ l, (es.map fun e => (g e).2.1 * inc e (net.free.get k) * inc e (net.free.get l)).sum *
          (if Held net (net.free.get l) then 0 else 1) = (0 : ℝ) := by
      intro es hes
      induction es with
      | nil => simp
      | cons e es ih =>
        simp only [List.map_cons, List.sum_cons, add_mul, Finset.sum_add_distrib]
        rw [ih fun e' he' => hes e' (List.mem_cons_of_mem _ he'), add_zero]
        have e1 : ∑ l, (g e).2.1 * inc e (net.free.get k) * inc e (net.free.get l) *
            (if Held net (net.free.get l) then 0 else 1) = (g e).2.1 * inc e (net.free.get k) *
            ∑ l, inc e (net.free.get l) * (if Held net (net.free.get l) then 0 else 1) := by
          rw [Finset.mul_sum]
          exact Finset.sum_congr rfl fun l _ => by ring
        rw [e1, inc_sum net e (fun k => if Held net (net.free.get k) then 0 else 1), hext, hext]
        simp only [hsame e (hes e (List.mem_cons_self ..)), sub_self, mul_zero]
    simp only [mulVec, dotProduct, hJ, Pi.zero_apply]
    exact key net.edges fun e he => he

/-! ## Networks of elastic bars -/

/-- The force in each bar is an affine function of its elongation, with a positive stiffness (and the tangent says
so), for steps to `t1`. -/
def Linear (net : Net H n) (t1 : ℝ) : Prop :=
  ∀ e ∈ net.edges, ∃ κ c : ℝ, 0 < κ ∧ ∀ x, ∃ b, e.bar.updateForce x t1 net.time.last = some (κ * x - c, κ, b)

/-- The residual of such a network is affine. -/
theorem linear_rj (net : Net H n) (dt : ℝ) (hl : Linear net (net.time.last + dt)) (hh : ∀ v, Held net v) :
    ∃ (A : Matrix (Fin net.free.length) (Fin net.free.length) ℝ) (b : Fin net.free.length → ℝ), A.det ≠ 0 ∧
      ∀ d, ∃ es, net.rj dt net.edges d = some (A *ᵥ d - b, A, es) := by
  classical
  let t1 := net.time.last + dt
  let κ : Edge H n → ℝ := fun e => if he : e ∈ net.edges then Classical.choose (hl e he) else 0
  let c : Edge H n → ℝ := fun e => if he : e ∈ net.edges then Classical.choose (Classical.choose_spec (hl e he)) else 0
  have hκ : ∀ e ∈ net.edges, 0 < κ e ∧ ∀ x, ∃ b, e.bar.updateForce x t1 net.time.last = some (κ e * x - c e, κ e, b) := by
    intro e he
    have := Classical.choose_spec (Classical.choose_spec (hl e he))
    simpa only [κ, c, dif_pos he] using this
  let A : Matrix (Fin net.free.length) (Fin net.free.length) ℝ := of fun k l =>
    (net.edges.map fun e => κ e * inc e (net.free.get k) * inc e (net.free.get l)).sum
  let w0 : Fin n → ℝ := net.value 0 t1
  let b : Fin net.free.length → ℝ := fun k =>
    -((net.edges.map fun e => inc e (net.free.get k) * (κ e * (w0 e.j - w0 e.i) - c e)).sum -
      net.applied t1 (net.free.get k))
  have hval : ∀ d v, net.value d t1 v = net.extend d v + w0 v := by
    intro d v
    simp only [w0]
    unfold Net.extend Net.value
    cases net.pos v with
    | none => cases net.dbc v <;> simp
    | some j => simp
  have hrj : ∀ d, ∃ es, net.rj dt net.edges d = some (A *ᵥ d - b, A, es) := by
    intro d
    let g : Edge H n → ℝ × ℝ × Bar H := fun e =>
      if he : e ∈ net.edges then (κ e * (net.value d t1 e.j - net.value d t1 e.i) - c e, κ e,
        Classical.choose ((hκ e he).2 (net.value d t1 e.j - net.value d t1 e.i))) else (0, 0, e.bar)
    have hg : ∀ e ∈ net.edges, trial e (net.value d t1) t1 net.time.last = some (g e) := by
      intro e he
      simp only [g, dif_pos he]
      exact Classical.choose_spec ((hκ e he).2 _)
    have g1 : ∀ e ∈ net.edges, (g e).1 = κ e * (net.value d t1 e.j - net.value d t1 e.i) - c e := fun e he => by
      simp only [g, dif_pos he]
    have g2 : ∀ e ∈ net.edges, (g e).2.1 = κ e := fun e he => by simp only [g, dif_pos he]
    refine ⟨net.edges.map fun e => { e with bar := (g e).2.2 }, ?_⟩
    rw [rj_of net dt net.edges d g hg]
    simp only [Option.some.injEq, Prod.mk.injEq, and_true]
    · constructor
      · funext k
        rw [List.map_congr_left fun e he => by rw [g1 e he]]
        simp only [Pi.sub_apply, b, sub_neg_eq_add, mulVec, dotProduct, A, of_apply]
        rw [← add_sub_assoc]
        congr 1
        generalize net.edges = es
        induction es with
        | nil => simp
        | cons e es ih =>
          simp only [List.map_cons, List.sum_cons, add_mul, Finset.sum_add_distrib, ih]
          have e1 : ∑ l, κ e * inc e (net.free.get k) * inc e (net.free.get l) * d l =
              κ e * inc e (net.free.get k) * (net.extend d e.j - net.extend d e.i) := by
            rw [← inc_sum net e d, Finset.mul_sum]
            exact Finset.sum_congr rfl fun l _ => by ring
          rw [e1, hval d e.j, hval d e.i]
          ring
      · ext k l
        simp only [of_apply, A]
        rw [List.map_congr_left fun e he => by rw [g2 e he]]
  refine ⟨A, b, ?_, hrj⟩
  obtain ⟨es, he⟩ := hrj 0
  refine C113_regular net dt 0 _ A es he (fun e hem f a b hb => ?_) hh
  obtain ⟨b', hb'⟩ := (hκ e hem).2 (net.value 0 t1 e.j - net.value 0 t1 e.i)
  have : some (f, a, b) = some (_, _, b') := hb.symm.trans hb'
  simp only [Option.some.injEq, Prod.mk.injEq] at this
  rw [this.2.1]
  exact (hκ e hem).1

/-- **C113.** A network of elastic bars in which every node is held is solved in a single step, if one iteration is
allowed. -/
theorem C113_solves (o : Opts) (hd : 0 < o.dfact) (hr : 0 ≤ o.rtol) (ha : 0 ≤ o.atol) (hm : 0 < o.miter) (net : Net H n)
    (dt : ℝ) (hl : Linear net (net.time.last + dt)) (hh : ∀ v, Held net v) (fuel : Nat) :
    ∃ net', net.solve o (fuel + 2) dt = .ok net' ∧ Steps o net [dt] net' := by
  obtain ⟨A, b, hdet, hrj⟩ := linear_rj net dt hl hh
  obtain ⟨m, hm⟩ := Nat.exists_eq_succ_of_ne_zero hm.ne'
  have hsol : ∀ x0 : Fin net.free.length → ℝ, A *ᵥ (x0 - A⁻¹ *ᵥ (A *ᵥ x0 - b)) = b := by
    intro x0
    rw [mulVec_sub, mulVec_mulVec, mul_nonsing_inv _ (Ne.isUnit hdet), one_mulVec]
    exact sub_sub_cancel _ _
  have hn : ∃ d es, newton (net.rj dt) o.rtol o.atol o.miter net.edges (net.guess o.extrapolate 1) = some (d, es) := by
    set x0 := net.guess o.extrapolate 1
    obtain ⟨es1, h1⟩ := hrj x0
    unfold newton PySolve.solve
    simp only [plain, h1]
    rw [hm, loop]
    by_cases hdone : Done o.rtol o.atol (norm2 (A *ᵥ x0 - b)) (norm2 (A *ᵥ x0 - b))
    · exact ⟨x0, es1, if_pos hdone⟩
    · rw [if_neg hdone]
      simp only [linSolve_some hdet, Option.map_some]
      obtain ⟨es2, h2⟩ := hrj (x0 - A⁻¹ *ᵥ (A *ᵥ x0 - b))
      rw [C69_leftover net dt es1 net.edges (rj_clean net dt net.edges es1 x0 _ _ h1), h2]
      simp only
      rw [hsol, sub_self]
      have hz : Done o.rtol o.atol (norm2 (A *ᵥ x0 - b)) (norm2 (0 : Fin net.free.length → ℝ)) := by
        rw [done_iff, norm2_eq_zero.2 rfl]
        exact Or.inr ha
      cases m with
      | zero => rw [loop]; exact ⟨_, _, if_pos hz⟩
      | succ m => rw [loop]; exact ⟨_, _, if_pos hz⟩
  obtain ⟨d, es, hn⟩ := hn
  refine ⟨net.apply es d dt, ?_, Steps.cons ⟨1, d, es, hn, rfl⟩ (Steps.nil _)⟩
  have hp : (0 : ℝ) < (o.dfact : ℝ) ^ o.ndiv := pow_pos (by exact_mod_cast hd) _
  unfold Net.solve
  rw [solveLoop, if_pos hp, hn]
  simp only
  rw [solveLoop, if_neg (by simp)]

/-! ## Concrete cases -/

/-- An elastic material. -/
noncomputable def spring (E : ℝ) : Mat1 Unit where
  update i := some ⟨E * i.e1, (), E, 1, 0⟩
  alpha _ := 1
  elastic s _ _ := s / E
  init := ()

/-- Two springs in a row between three nodes: the left node is fixed, a force pulls the right one. -/
noncomputable def chain : Net Unit 3 :=
  ((Net.new [⟨0, 1, Bar.new (spring 2) 1 1 fun t => t⟩, ⟨1, 2, Bar.new (spring 3) 1 2 fun _ => 0⟩]).addDisp 0
    fun _ => 0).addForce 2 fun t => t

theorem chain_reach : Reach chain :=
  Reach.force _ _ (Reach.disp _ _ (Reach.new [(0, 1, spring 2, 1, 1, fun t => t), (1, 2, spring 3, 1, 2, fun _ => 0)]))

theorem chain_held (v : Fin 3) : Held chain v := by
  have h0 : Held chain 0 := Held.fixed (by simp [chain, Net.addDisp, Net.addForce, Net.new, Function.update])
  have h1 : Held chain 1 := Held.right (e := ⟨0, 1, Bar.new (spring 2) 1 1 fun t => t⟩) (by
    simp [chain, Net.addDisp, Net.addForce, Net.new]) h0
  have h2 : Held chain 2 := Held.right (e := ⟨1, 2, Bar.new (spring 3) 1 2 fun _ => 0⟩) (by
    simp [chain, Net.addDisp, Net.addForce, Net.new]) h1
  fin_cases v
  · exact h0
  · exact h1
  · exact h2

theorem spring_force (E A l : ℝ) (hl : l ≠ 0) (T : ℝ → ℝ) (x t1 t0 : ℝ) :
    ∃ b, (Bar.new (spring E) A l T).updateForce x t1 t0 = some (E * (x / l - (T t1 - T 0)) * A, E * A / l, b) := by
  simp only [Bar.updateForce, Bar.new, spring, hl, ↓reduceIte, Option.map_some, Option.some.injEq, Prod.mk.injEq]
  refine ⟨_, ?_, trivial, rfl⟩
  ring

theorem chain_linear (t1 : ℝ) : Linear chain t1 := by
  intro e he
  simp only [chain, Net.addDisp, Net.addForce, Net.new, List.mem_cons, List.not_mem_nil, or_false] at he
  rcases he with rfl | rfl
  · refine ⟨2, 2 * t1, by norm_num, fun x => ?_⟩
    obtain ⟨b, hb⟩ := spring_force 2 1 1 one_ne_zero (fun t => t) x t1 chain.time.last
    exact ⟨b, hb.trans (by congr 2 <;> norm_num; ring)⟩
  · refine ⟨3 / 2, 0, by norm_num, fun x => ?_⟩
    obtain ⟨b, hb⟩ := spring_force 3 1 2 two_ne_zero (fun _ => 0) x t1 chain.time.last
    exact ⟨b, hb.trans (by congr 2 <;> norm_num; ring)⟩

/-- The chain is solved, and pulled by the force given: in exact arithmetic the free end carries the force, the fixed
end the opposite reaction; the recorded dissipation is the stored energy, 3, although the material dissipates nothing. -/
example : ∃ net', chain.solve ⟨4, 2, false, 0, 0, 50⟩ 2 5 = .ok net' ∧ (net'.force 2).last = 5 ∧ (net'.force 1).last = 0 ∧
    (net'.force 0).last = -5 ∧ net'.time.last = 5 ∧ net'.dissipation.last = 3 ∧
    (net'.edges.map fun e => e.bar.dissipation.last * (e.bar.A * e.bar.l)).sum = 0 := by
  obtain ⟨net', h, hs⟩ := C113_solves ⟨4, 2, false, 0, 0, 50⟩ (by norm_num) le_rfl le_rfl (by norm_num) chain 5
    (chain_linear _) chain_held 0
  have ht : chain.time.last = 0 := rfl
  cases hs with
  | cons ha hn =>
    cases hn
    have h2 := C69_equilibrium_exact _ ⟨rfl, rfl⟩ chain net' 5 ha 2 (by simp [chain, Net.addForce])
    have h1 := C69_equilibrium_exact _ ⟨rfl, rfl⟩ chain net' 5 ha 1
      (by simp [chain, Net.addForce, Net.addDisp, Net.new, Function.update])
    have hb := C69_balance _ chain net' 5 ha
    have e2 : chain.applied (0 + 5) 2 = 5 := by simp [chain, Net.addForce, Net.applied]
    have e1 : chain.applied (0 + 5) 1 = 0 := by simp [chain, Net.addForce, Net.addDisp, Net.new, Net.applied, Function.update]
    rw [ht, e2] at h2
    rw [ht, e1] at h1
    rw [Fin.sum_univ_three, h1, h2] at hb
    obtain ⟨hf, -⟩ := C69_step _ chain net' 5 ha
    refine ⟨net', h, h2, h1, by linarith, ?_, ?_, ?_⟩
    · rw [C69_time _ (by norm_num) chain net' 2 5 h, ht, zero_add]
    · rw [C69_dissipation_disagreement _ chain net' 5 ha, C69_energy _ chain net' 5 ha]
      have hc : chain.edges = [⟨0, 1, Bar.new (spring 2) 1 1 fun t => t⟩, ⟨1, 2, Bar.new (spring 3) 1 2 fun _ => 0⟩] := rfl
      rw [hc] at hf
      match hne : net'.edges, hf with
      | [a, b], List.Forall₂.cons ba (List.Forall₂.cons bb List.Forall₂.nil) =>
        obtain ⟨o1, p1, -, -, q1, -⟩ := ba.material
        obtain ⟨o2, p2, -, -, q2, -⟩ := bb.material
        simp only [Bar.new, spring, Option.some.injEq] at p1 p2
        simp only [List.map_cons, List.map_nil, List.sum_cons, List.sum_nil, q1, q2, ba.same.2.1, bb.same.2.1,
          ba.same.2.2.1, bb.same.2.2.1, ← p1, ← p2, Bar.new, Series.push]
        norm_num
    · have hc : chain.edges = [⟨0, 1, Bar.new (spring 2) 1 1 fun t => t⟩, ⟨1, 2, Bar.new (spring 3) 1 2 fun _ => 0⟩] := rfl
      rw [hc] at hf
      match hne : net'.edges, hf with
      | [a, b], List.Forall₂.cons ba (List.Forall₂.cons bb List.Forall₂.nil) =>
        obtain ⟨o1, p1, -, -, -, q1, -⟩ := ba.material
        obtain ⟨o2, p2, -, -, -, q2, -⟩ := bb.material
        simp only [Bar.new, spring, Option.some.injEq] at p1 p2
        simp only [List.map_cons, List.map_nil, List.sum_cons, List.sum_nil, q1, q2, ← p1, ← p2, Series.push]
        norm_num

end Neml.BarNetwork
