import Verif.Props.BarNetwork

/-!
# C69: accepted steps of a bar network, and calls of `solve` -/

namespace Neml.BarNetwork

open Matrix Neml.PySolve Neml.Uniaxial Neml.Driver

variable {H : Type} {n : Nat}

/-! ## Trial values do not matter -/

/-- The bar without its trial values. -/
def Bar.clean (b : Bar H) : Bar H :=
  { b with
    stressN := 0, strainN := 0, mstrainN := 0, estrainN := 0, tstrainN := 0, energyN := 0, dissipationN := 0, TN := 0
    historyN := b.mat.init }

def Edge.clean (e : Edge H n) : Edge H n := { e with bar := e.bar.clean }

theorem updateForce_clean (b : Bar H) (d t1 t0 : ℝ) : b.clean.updateForce d t1 t0 = b.updateForce d t1 t0 := rfl

theorem trial_clean (e : Edge H n) (w : Fin n → ℝ) (t1 t0 : ℝ) : trial e.clean w t1 t0 = trial e w t1 t0 := rfl

theorem clean_updateForce {b b' : Bar H} {d t1 t0 f A : ℝ} (h : b.updateForce d t1 t0 = some (f, A, b')) :
    b'.clean = b.clean := by
  unfold Bar.updateForce at h
  simp only at h
  split_ifs at h
  rw [Option.map_eq_some_iff] at h
  obtain ⟨o, -, e⟩ := h
  simp only [Prod.mk.injEq] at e
  rw [← e.2.2]
  rfl

theorem assemble_clean (net : Net H n) (d : Fin net.free.length → ℝ) (t1 : ℝ) (es : List (Edge H n))
    (p : (Fin net.free.length → ℝ) × Matrix (Fin net.free.length) (Fin net.free.length) ℝ) :
    net.assemble d t1 (es.map Edge.clean) p = net.assemble d t1 es p := by
  induction es generalizing p with
  | nil => rfl
  | cons e es ih =>
    rw [List.map_cons, Net.assemble, Net.assemble]
    simp only [ih]
    rfl

/-- **C69.** The residual does not depend on what earlier evaluations, failed attempts included, have left in the
bars. -/
theorem C69_leftover (net : Net H n) (dt : ℝ) (es es' : List (Edge H n)) (h : es.map Edge.clean = es'.map Edge.clean)
    (d : Fin net.free.length → ℝ) : net.rj dt es d = net.rj dt es' d := by
  unfold Net.rj
  rw [← assemble_clean, h, assemble_clean]

theorem rj_clean (net : Net H n) (dt : ℝ) (es es' : List (Edge H n)) (d R : Fin net.free.length → ℝ)
    (J : Matrix (Fin net.free.length) (Fin net.free.length) ℝ) (h : net.rj dt es d = some (R, J, es')) :
    es'.map Edge.clean = es.map Edge.clean := by
  obtain ⟨g, hg, -, -, rfl⟩ := rj_spec net dt es d R J es' h
  rw [List.map_map]
  refine List.map_congr_left fun e he => ?_
  have := clean_updateForce (hg e he)
  simp only [Function.comp, Edge.clean, this]

theorem loop_inv {σ X R J : Type} (it : Iter σ X R J) (P : σ → Prop)
    (hrj : ∀ s x r j s', it.rj s x = some (r, j, s') → P s → P s')
    (hnext : ∀ s x r j x' s', it.next s x r j = some (x', s') → P s → P s') (rtol atol nR0 : ℝ) (k : Nat) (s : σ) (x : X)
    (r : R) (j : J) (x' : X) (s' : σ) (h : loop it rtol atol nR0 k s x r j = some (x', s'))
    (h0 : ∃ s0, P s0 ∧ it.rj s0 x = some (r, j, s)) :
    ∃ s0 r' j', P s0 ∧ it.rj s0 x' = some (r', j', s') ∧ (it.size r' ≤ rtol * nR0 ∨ it.size r' ≤ atol) := by
  induction k generalizing s x r j with
  | zero =>
    rw [loop] at h
    split_ifs at h with hd
    obtain ⟨s0, hp, e⟩ := h0
    simp only [Option.some.injEq, Prod.mk.injEq] at h
    exact ⟨s0, r, j, hp, by rw [← h.1, ← h.2, e], (done_iff _ _ _ _).1 hd⟩
  | succ k ih =>
    rw [loop] at h
    split_ifs at h with hd
    · obtain ⟨s0, hp, e⟩ := h0
      simp only [Option.some.injEq, Prod.mk.injEq] at h
      exact ⟨s0, r, j, hp, by rw [← h.1, ← h.2, e], (done_iff _ _ _ _).1 hd⟩
    · split at h
      · cases h
      · rename_i x1 s1 e1
        split at h
        · cases h
        · rename_i r2 j2 s2 e2
          obtain ⟨s0, hp, e⟩ := h0
          exact ih _ _ _ _ h ⟨_, hnext _ _ _ _ _ _ e1 (hrj _ _ _ _ _ e hp), e2⟩

/-- The answer of the solver on a network: the bars left belong to the answer and were computed from the recorded
state of the network. -/
theorem newton_answer (net : Net H n) (dt rtol atol : ℝ) (miter : Nat) (g d : Fin net.free.length → ℝ)
    (es : List (Edge H n)) (h : newton (net.rj dt) rtol atol miter net.edges g = some (d, es)) :
    ∃ R0 J0 e0 R J, net.rj dt net.edges g = some (R0, J0, e0) ∧ net.rj dt net.edges d = some (R, J, es) ∧
      (norm2 R ≤ rtol * norm2 R0 ∨ norm2 R ≤ atol) := by
  unfold newton solve at h
  split at h
  · cases h
  · rename_i r j s1 e
    have e' : net.rj dt net.edges g = some (r, j, s1) := e
    obtain ⟨s0, R, J, hp, e2, hR⟩ := loop_inv (plain (net.rj dt)) (fun s => s.map Edge.clean = net.edges.map Edge.clean)
      (fun s x r j s' e hp => (rj_clean net dt s s' x r j e).trans hp)
      (fun s x r j x' s' e hp => by
        simp only [plain, Option.map_eq_some_iff, Prod.mk.injEq] at e
        obtain ⟨a, -, -, rfl⟩ := e
        exact hp) rtol atol _ miter s1 g r j d es h ⟨net.edges, rfl, e'⟩
    have e3 : net.rj dt s0 d = some (R, J, es) := e2
    rw [C69_leftover net dt s0 net.edges hp] at e3
    exact ⟨r, j, s1, R, J, e', e3, hR⟩

/-! ## Accepted steps -/

/-- A step of size `h` has been accepted: the solver has answered, and the answer has been applied. -/
def Accepted (o : Opts) (net : Net H n) (h : ℝ) (net' : Net H n) : Prop :=
  ∃ ef d es, newton (net.rj h) o.rtol o.atol o.miter net.edges (net.guess o.extrapolate ef) = some (d, es) ∧
    net' = net.apply es d h

/-- What an accepted step records for a bar, `w` being the new displacements of the nodes. -/
structure BarStep (w : Fin n → ℝ) (t1 t0 : ℝ) (e e' : Edge H n) : Prop where
  ends : e'.i = e.i ∧ e'.j = e.j
  same : e'.bar.mat = e.bar.mat ∧ e'.bar.A = e.bar.A ∧ e'.bar.l = e.bar.l ∧ e'.bar.T = e.bar.T
  length : e.bar.l ≠ 0
  strain : e'.bar.strain = e.bar.strain.push ((w e.j - w e.i) / e.bar.l)
  temperature : e'.bar.temperature = e.bar.temperature.push (e.bar.T t1)
  thermal : e'.bar.tstrain = e.bar.tstrain.push (e.bar.tstrain.last + (e.bar.T t1 - e.bar.temperature.last) *
    (e.bar.mat.alpha (e.bar.T t1) + e.bar.mat.alpha e.bar.temperature.last) / 2)
  mechanical : e'.bar.mstrain = e.bar.mstrain.push (e'.bar.strain.last - e'.bar.tstrain.last)
  material : ∃ out, e.bar.mat.update ⟨e'.bar.mstrain.last, e.bar.mstrain.last, e'.bar.temperature.last,
      e.bar.temperature.last, t1, t0, e.bar.stress.last, e.bar.history.last, e.bar.energy.last,
      e.bar.dissipation.last⟩ = some out ∧
    e'.bar.stress = e.bar.stress.push out.s ∧ e'.bar.history = e.bar.history.push out.h ∧
    e'.bar.energy = e.bar.energy.push out.u ∧ e'.bar.dissipation = e.bar.dissipation.push out.p ∧
    e'.bar.estrain = e.bar.estrain.push (e.bar.mat.elastic out.s (e.bar.T t1) out.h)

theorem barStep_of (e : Edge H n) (w : Fin n → ℝ) (t1 t0 f A : ℝ) (b : Bar H)
    (h : trial e w t1 t0 = some (f, A, b)) :
    BarStep w t1 t0 e { e with bar := b.advance } ∧ f = b.stressN * b.A ∧
      ∃ out, e.bar.mat.update ⟨b.mstrainN, e.bar.mstrain.last, b.TN, e.bar.temperature.last, t1, t0, e.bar.stress.last,
        e.bar.history.last, e.bar.energy.last, e.bar.dissipation.last⟩ = some out ∧ A = out.A * e.bar.A / e.bar.l := by
  unfold trial Bar.updateForce at h
  simp only at h
  split_ifs at h with hl
  rw [Option.map_eq_some_iff] at h
  obtain ⟨out, ho, e1⟩ := h
  simp only [Prod.mk.injEq] at e1
  obtain ⟨rfl, rfl, rfl⟩ := e1
  exact ⟨⟨⟨rfl, rfl⟩, ⟨rfl, rfl, rfl, rfl⟩, hl, rfl, rfl, rfl, rfl, out, ho, rfl, rfl, rfl, rfl, rfl⟩, rfl, out, ho, rfl⟩

/-- The recorded displacements of the network. -/
def Net.last (net : Net H n) (v : Fin n) : ℝ := (net.disp v).last

/-- **C69.** What an accepted step records: every bar follows the recorded displacements and its material; every
series has one more entry; nothing else changes. -/
theorem C69_step (o : Opts) (net net' : Net H n) (h : ℝ) (ha : Accepted o net h net') :
    List.Forall₂ (BarStep net'.last (net.time.last + h) net.time.last) net.edges net'.edges ∧
    (∀ v, ∃ x, net'.disp v = (net.disp v).push x) ∧ (∀ v, ∃ x, net'.force v = (net.force v).push x) ∧
    net'.dbc = net.dbc ∧ net'.fbc = net.fbc ∧ net'.time = net.time.push (net.time.last + h) ∧
    (∃ x, net'.energy = net.energy.push x) ∧ ∃ x, net'.dissipation = net.dissipation.push x := by
  obtain ⟨ef, d, es, hn, rfl⟩ := ha
  obtain ⟨R0, J0, e0, R, J, -, hR, -⟩ := newton_answer net h _ _ _ _ _ _ hn
  obtain ⟨g, hg, -, -, rfl⟩ := rj_spec net h net.edges d R J es hR
  refine ⟨?_, fun v => ⟨_, rfl⟩, fun v => ⟨_, rfl⟩, rfl, rfl, rfl, ⟨_, rfl⟩, _, rfl⟩
  have hw : (net.apply (net.edges.map fun e => { e with bar := (g e).2.2 }) d h).last =
      net.value d (net.time.last + h) := rfl
  rw [hw]
  simp only [Net.apply, List.map_map, List.forall₂_map_right_iff]
  rw [List.forall₂_same]
  intro e he
  exact (barStep_of e _ _ _ _ _ _ (hg e he)).1

theorem sum_map_apply (net : Net H n) (es : List (Edge H n)) (d : Fin net.free.length → ℝ) (h : ℝ)
    (F : Edge H n → ℝ) :
    ((net.apply es d h).edges.map F).sum = (es.map fun e => F { e with bar := e.bar.advance }).sum := by
  simp only [Net.apply, List.map_map]
  rfl

/-- **C69.** The recorded force on each node is the sum of the forces of the bars that end there, a bar in tension
pulling its ends together. -/
theorem C69_forces (o : Opts) (net net' : Net H n) (h : ℝ) (ha : Accepted o net h net') (v : Fin n) :
    (net'.force v).last = (net'.edges.map fun e =>
      (if e.j = v then e.bar.stress.last * e.bar.A else 0) - (if e.i = v then e.bar.stress.last * e.bar.A else 0)).sum := by
  obtain ⟨ef, d, es, hn, rfl⟩ := ha
  rw [sum_map_apply]
  show forceSum es v = _
  rw [forceSum_eq]
  refine congrArg List.sum (List.map_congr_left fun e _ => ?_)
  simp only [inc, sub_mul, ite_mul, one_mul, zero_mul]
  rfl

/-- **C69.** Virtual work: for all displacements of the nodes, the work of the recorded forces is that of the stresses
in the bars. -/
theorem C69_virtual_work (o : Opts) (net net' : Net H n) (h : ℝ) (ha : Accepted o net h net') (w : Fin n → ℝ) :
    ∑ v, (net'.force v).last * w v = (net'.edges.map fun e => e.bar.stress.last * e.bar.A * (w e.j - w e.i)).sum := by
  simp only [C69_forces o net net' h ha]
  induction net'.edges with
  | nil => simp
  | cons e es ih =>
    simp only [List.map_cons, List.sum_cons, add_mul, Finset.sum_add_distrib, ih]
    congr 1
    simp only [sub_mul, ite_mul, zero_mul, Finset.sum_sub_distrib, Finset.sum_ite_eq, Finset.mem_univ, if_true]
    ring

/-- **C69.** The recorded forces add up to zero over the network. -/
theorem C69_balance (o : Opts) (net net' : Net H n) (h : ℝ) (ha : Accepted o net h net') :
    ∑ v, (net'.force v).last = 0 := by
  have := C69_virtual_work o net net' h ha 1
  simpa using this

/-- **C69.** The out of balance forces at the nodes that are free to move, that is recorded minus applied forces, are
within the tolerance of the solver, relative to those at the guess. -/
theorem C69_equilibrium (o : Opts) (net net' : Net H n) (h : ℝ) (ha : Accepted o net h net') :
    ∃ (R0 : Fin net.free.length → ℝ) (ef : ℝ), (∃ J0 e0, net.rj h net.edges (net.guess o.extrapolate ef) = some (R0, J0, e0)) ∧
      ∀ R : Fin net.free.length → ℝ,
      (∀ k, R k = (net'.force (net.free.get k)).last - net.applied (net.time.last + h) (net.free.get k)) →
      norm2 R ≤ o.rtol * norm2 R0 ∨ norm2 R ≤ o.atol := by
  obtain ⟨ef, d, es, hn, rfl⟩ := ha
  obtain ⟨R0, J0, e0, R, J, hR0, hR, ht⟩ := newton_answer net h _ _ _ _ _ _ hn
  obtain ⟨g, hg, hk, -, rfl⟩ := rj_spec net h net.edges d R J es hR
  refine ⟨R0, ef, ⟨J0, e0, hR0⟩, fun R' hR' => ?_⟩
  have : R' = R := by
    funext k
    rw [hR', hk]
    congr 1
    show forceSum _ _ = _
    rw [forceSum_eq, List.map_map]
    refine congrArg List.sum (List.map_congr_left fun e he => ?_)
    rw [(barStep_of e _ _ _ _ _ _ (hg e he)).2.1]
    rfl
  rw [this]; exact ht

/-- **C69.** With zero tolerances the recorded force on a node that is free to move is the applied force. -/
theorem C69_equilibrium_exact (o : Opts) (ho : o.rtol = 0 ∧ o.atol = 0) (net net' : Net H n) (h : ℝ)
    (ha : Accepted o net h net') (v : Fin n) (hv : net.dbc v = none) :
    (net'.force v).last = net.applied (net.time.last + h) v := by
  obtain ⟨R0, ef, -, hR⟩ := C69_equilibrium o net net' h ha
  have h0 := hR _ fun k => rfl
  rw [ho.1, ho.2, zero_mul, or_self] at h0
  have hz := norm2_eq_zero.1 (le_antisymm h0 (norm2_nonneg _))
  obtain ⟨k, rfl⟩ := List.mem_iff_get.1 ((mem_free net v).2 hv)
  have := congrFun hz k
  simp only [Pi.zero_apply] at this
  linarith

/-- **C69.** Then the forces on the nodes with prescribed displacements are reactions: they balance the applied
forces. -/
theorem C69_reactions (o : Opts) (ho : o.rtol = 0 ∧ o.atol = 0) (net net' : Net H n) (h : ℝ)
    (ha : Accepted o net h net') :
    ∑ v with net.dbc v ≠ none, (net'.force v).last =
      -∑ v with net.dbc v = none, net.applied (net.time.last + h) v := by
  have hb := C69_balance o net net' h ha
  rw [← Finset.sum_filter_add_sum_filter_not _ (fun v => net.dbc v = none)] at hb
  rw [Finset.sum_congr rfl fun v hv => (C69_equilibrium_exact o ho net net' h ha v (Finset.mem_filter.1 hv).2).symm]
  linarith

/-- **C69.** Prescribed displacements are met. -/
theorem C69_prescribed (o : Opts) (net net' : Net H n) (h : ℝ) (ha : Accepted o net h net') (v : Fin n) (f : ℝ → ℝ)
    (hv : net.dbc v = some f) : (net'.disp v).last = f (net.time.last + h) := by
  obtain ⟨ef, d, es, hn, rfl⟩ := ha
  exact value_fixed net d _ v f hv

/-- **C69.** The recorded energy is the sum over the bars of the energy density times the volume. -/
theorem C69_energy (o : Opts) (net net' : Net H n) (h : ℝ) (ha : Accepted o net h net') :
    net'.energy.last = (net'.edges.map fun e => e.bar.energy.last * (e.bar.A * e.bar.l)).sum := by
  obtain ⟨ef, d, es, hn, rfl⟩ := ha
  rw [sum_map_apply]
  exact energySum_eq es

/-- **C69, disagreement.** What is recorded as dissipation is the energy again. -/
theorem C69_dissipation_disagreement (o : Opts) (net net' : Net H n) (h : ℝ) (ha : Accepted o net h net') :
    net'.dissipation.last = net'.energy.last := by
  obtain ⟨ef, d, es, hn, rfl⟩ := ha
  rfl

/-- **C69, the part of the claim about the dissipation that holds.** It is the sum over the bars exactly when that sum
is the energy. -/
theorem C69_dissipation_partial (o : Opts) (net net' : Net H n) (h : ℝ) (ha : Accepted o net h net') :
    net'.dissipation.last = (net'.edges.map fun e => e.bar.dissipation.last * (e.bar.A * e.bar.l)).sum ↔
      (net'.edges.map fun e => e.bar.energy.last * (e.bar.A * e.bar.l)).sum =
        (net'.edges.map fun e => e.bar.dissipation.last * (e.bar.A * e.bar.l)).sum := by
  rw [C69_dissipation_disagreement o net net' h ha, C69_energy o net net' h ha]

/-- **C69.** Compatibility: the strain of each bar times its length is the difference of the displacements of its
ends; it is the sum of mechanical and thermal strain. -/
theorem C69_compatible (o : Opts) (net net' : Net H n) (h : ℝ) (ha : Accepted o net h net') (e : Edge H n)
    (he : e ∈ net'.edges) :
    e.bar.strain.last * e.bar.l = (net'.disp e.j).last - (net'.disp e.i).last ∧
      e.bar.strain.last = e.bar.mstrain.last + e.bar.tstrain.last ∧
      e.bar.temperature.last = e.bar.T net'.time.last := by
  obtain ⟨hf, -, -, -, -, ht, -⟩ := C69_step o net net' h ha
  obtain ⟨k, hk, rfl⟩ := List.getElem_of_mem he
  have hl : k < net.edges.length := by rw [hf.length_eq]; exact hk
  have hb := (List.forall₂_iff_get.1 hf).2 k hl hk
  simp only [List.get_eq_getElem] at hb
  have hm := congrArg Series.last hb.mechanical
  simp only [Series.push] at hm
  refine ⟨?_, by rw [hm]; ring, ?_⟩
  · rw [hb.strain, hb.ends.1, hb.ends.2, hb.same.2.2.1]
    show _ / _ * _ = _
    rw [div_mul_cancel₀ _ hb.length]
    rfl
  · rw [hb.temperature, ht, hb.same.2.2.2]
    rfl

/-! ## Boundary conditions -/

/-- A change of the boundary conditions: node, force (or displacement), function. -/
def Net.addBCs (net : Net H n) (l : List (Fin n × Bool × (ℝ → ℝ))) : Net H n :=
  l.foldl (fun net q => if q.2.1 then net.addForce q.1 q.2.2 else net.addDisp q.1 q.2.2) net

/-- **C69.** However the boundary conditions are set, no node has both kinds. -/
theorem C69_exclusive (net : Net H n) (l : List (Fin n × Bool × (ℝ → ℝ)))
    (h : ∀ v, net.dbc v = none ∨ net.fbc v = none) (v : Fin n) :
    (net.addBCs l).dbc v = none ∨ (net.addBCs l).fbc v = none := by
  unfold Net.addBCs
  induction l generalizing net with
  | nil => exact h v
  | cons q l ih =>
    rw [List.foldl_cons]
    refine ih _ fun u => ?_
    split_ifs
    · by_cases hu : u = q.1
      · subst hu; left; simp [Net.addForce]
      · simpa [Net.addForce, Function.update_of_ne hu] using h u
    · by_cases hu : u = q.1
      · subst hu; right; simp [Net.addDisp]
      · simpa [Net.addDisp, Function.update_of_ne hu] using h u

/-- **C69.** The last boundary condition given to a node is in force. -/
theorem C69_bc_last (net : Net H n) (v : Fin n) (f : ℝ → ℝ) :
    (net.addForce v f).fbc v = some f ∧ (net.addForce v f).dbc v = none ∧ (net.addDisp v f).dbc v = some f ∧
      (net.addDisp v f).fbc v = none ∧
      ∀ u, u ≠ v → (net.addForce v f).fbc u = net.fbc u ∧ (net.addForce v f).dbc u = net.dbc u ∧
        (net.addDisp v f).fbc u = net.fbc u ∧ (net.addDisp v f).dbc u = net.dbc u := by
  refine ⟨by simp [Net.addForce], by simp [Net.addForce], by simp [Net.addDisp], by simp [Net.addDisp], fun u hu => ?_⟩
  simp [Net.addForce, Net.addDisp, Function.update_of_ne hu]

/-! ## Calls of `solve` -/

/-- A chain of accepted steps. -/
inductive Steps (o : Opts) : Net H n → List ℝ → Net H n → Prop
  | nil (net) : Steps o net [] net
  | cons {net net1 net2 h hs} : Accepted o net h net1 → Steps o net1 hs net2 → Steps o net (h :: hs) net2

/-- The network a call ends with. -/
def Res.net : Res H n → Net H n
  | .ok net => net
  | .raised net => net
  | .running net => net

theorem solveLoop_spec (o : Opts) (total dt : ℝ) (htot : 0 < total) (hd : 0 < o.dfact) (fuel : Nat) (net : Net H n)
    (curr attempt dtA ef : ℝ) (k q : Nat) (hq : q ≤ o.dfact ^ k) (ha : attempt * (o.dfact : ℝ) ^ k = total)
    (hc : curr = q * attempt) (hdt : dtA * (o.dfact : ℝ) ^ k = dt) :
    ∃ hs, Steps o net hs (solveLoop o total fuel net curr attempt dtA ef k).net ∧
      (∀ h ∈ hs, ∃ m, h * (o.dfact : ℝ) ^ m = dt) ∧
      (∃ k' q' : Nat, q' ≤ o.dfact ^ k' ∧ (q * dtA + hs.sum) * (o.dfact : ℝ) ^ k' = q' * dt ∧
        ((∃ r, solveLoop o total fuel net curr attempt dtA ef k = .raised r) → q' < o.dfact ^ k')) ∧
      ((∃ r, solveLoop o total fuel net curr attempt dtA ef k = .ok r) → q * dtA + hs.sum = dt) := by
  have hpos : ∀ m : Nat, (0 : ℝ) < (o.dfact : ℝ) ^ m := fun m => pow_pos (by exact_mod_cast hd) m
  have hsum0 : (q * dtA) * (o.dfact : ℝ) ^ k = q * dt := by rw [mul_assoc, hdt]
  induction fuel generalizing net curr attempt dtA ef k q with
  | zero =>
    rw [solveLoop]
    refine ⟨[], Steps.nil _, by simp, ⟨k, q, hq, by simpa using hsum0, ?_⟩, ?_⟩
    · rintro ⟨r, h⟩; cases h
    · rintro ⟨r, h⟩; cases h
  | succ fuel ih =>
    rw [solveLoop]
    have hlt : curr < total ↔ q < o.dfact ^ k := by
      have hat : 0 < attempt := by
        by_contra hn
        rw [not_lt] at hn
        have := mul_nonpos_of_nonpos_of_nonneg hn (hpos k).le
        linarith
      rw [hc, ← ha, mul_comm, mul_lt_mul_iff_right₀ hat]
      exact_mod_cast Iff.rfl
    by_cases hcur : curr < total
    · rw [if_pos hcur]
      have hql := hlt.1 hcur
      cases hn : newton (net.rj dtA) o.rtol o.atol o.miter net.edges (net.guess o.extrapolate ef) with
      | some r =>
        obtain ⟨d, es⟩ := r
        simp only
        obtain ⟨hs, h1, h2, h3, h4⟩ := ih (net.apply es d dtA) (curr + attempt) attempt dtA 1 k (q + 1) (by omega) ha
          (by rw [hc]; push_cast; ring) hdt (by rw [mul_assoc, hdt])
        refine ⟨dtA :: hs, Steps.cons ⟨ef, d, es, hn, rfl⟩ h1, ?_, ?_, ?_⟩
        · intro h hh
          rcases List.mem_cons.1 hh with rfl | hh
          · exact ⟨k, hdt⟩
          · exact h2 h hh
        · obtain ⟨k', q', a1, a2, a3⟩ := h3
          refine ⟨k', q', a1, ?_, a3⟩
          rw [List.sum_cons, ← a2]
          push_cast
          ring
        · intro hr
          rw [List.sum_cons, ← h4 hr]
          push_cast
          ring
      | none =>
        simp only
        split_ifs with hnd
        · refine ⟨[], Steps.nil _, by simp, ⟨k, q, hq, by simpa using hsum0, fun _ => hql⟩, ?_⟩
          rintro ⟨r, h⟩; cases h
        · have hne : (o.dfact : ℝ) ≠ 0 := by exact_mod_cast hd.ne'
          obtain ⟨hs, h1, h2, h3, h4⟩ := ih net curr (attempt / o.dfact) (dtA / o.dfact) (ef / o.dfact) (k + 1)
            (q * o.dfact) (by rw [pow_succ]; exact Nat.mul_le_mul_right _ hq)
            (by rw [pow_succ, ← ha]; field_simp) (by rw [hc]; push_cast; field_simp)
            (by rw [pow_succ, ← hdt]; field_simp) (by rw [← hdt, pow_succ]; push_cast; field_simp)
          have hqq : ((q * o.dfact : ℕ) : ℝ) * (dtA / o.dfact) = q * dtA := by push_cast; field_simp
          rw [hqq] at h3 h4
          exact ⟨hs, h1, h2, h3, h4⟩
    · rw [if_neg hcur]
      have hqe : q = o.dfact ^ k := le_antisymm hq (not_lt.1 fun h => hcur (hlt.2 h))
      refine ⟨[], Steps.nil _, by simp, ⟨k, q, hq, by simpa using hsum0, ?_⟩, fun _ => ?_⟩
      · rintro ⟨r, h⟩; cases h
      · rw [List.sum_nil, add_zero, hqe]
        push_cast
        rw [mul_comm, hdt]

/-- **C69.** A call of `solve` that returns has made accepted steps that add up to the time increment asked for. -/
theorem C69_solve (o : Opts) (hd : 0 < o.dfact) (net net' : Net H n) (fuel : Nat) (dt : ℝ)
    (h : net.solve o fuel dt = .ok net') : ∃ hs, Steps o net hs net' ∧ hs.sum = dt ∧
      ∀ h ∈ hs, ∃ m, h * (o.dfact : ℝ) ^ m = dt := by
  have hp : (0 : ℝ) < (o.dfact : ℝ) ^ o.ndiv := pow_pos (by exact_mod_cast hd) _
  obtain ⟨hs, h1, h2, -, h4⟩ := solveLoop_spec o ((o.dfact : ℝ) ^ o.ndiv) dt hp hd fuel net 0 ((o.dfact : ℝ) ^ o.ndiv) dt 1
    0 0 (by simp) (by simp) (by simp) (by simp)
  unfold Net.solve at h
  rw [h] at h1 h4
  refine ⟨hs, h1, ?_, h2⟩
  have := h4 ⟨_, rfl⟩
  simpa using this

/-- **C69.** A call that raises leaves a network with a part of the increment, in accepted steps; the part is less
than the whole. -/
theorem C69_solve_raised (o : Opts) (hd : 0 < o.dfact) (net net' : Net H n) (fuel : Nat) (dt : ℝ)
    (h : net.solve o fuel dt = .raised net') : ∃ hs, Steps o net hs net' ∧ ∃ c : ℝ, 0 ≤ c ∧ c < 1 ∧ hs.sum = c * dt := by
  have hp : (0 : ℝ) < (o.dfact : ℝ) ^ o.ndiv := pow_pos (by exact_mod_cast hd) _
  obtain ⟨hs, h1, -, ⟨k, q, -, hs2, hlt⟩, -⟩ := solveLoop_spec o ((o.dfact : ℝ) ^ o.ndiv) dt hp hd fuel net 0
    ((o.dfact : ℝ) ^ o.ndiv) dt 1 0 0 (by simp) (by simp) (by simp) (by simp)
  unfold Net.solve at h
  rw [h] at h1 hlt
  have hk : (0 : ℝ) < (o.dfact : ℝ) ^ k := pow_pos (by exact_mod_cast hd) k
  have hq : (q : ℝ) < (o.dfact : ℝ) ^ k := by exact_mod_cast hlt ⟨_, rfl⟩
  refine ⟨hs, h1, q / (o.dfact : ℝ) ^ k, by positivity, (div_lt_one hk).2 hq, ?_⟩
  simp only [Nat.cast_zero, zero_mul, zero_add] at hs2
  rw [div_mul_eq_mul_div, eq_div_iff hk.ne', hs2]

theorem Steps.time {o : Opts} {net net' : Net H n} {hs : List ℝ} (h : Steps o net hs net') :
    net'.time.last = net.time.last + hs.sum := by
  induction h with
  | nil => simp
  | cons ha _ ih =>
    obtain ⟨-, -, -, -, -, ht, -⟩ := C69_step _ _ _ _ ha
    rw [ih, ht, List.sum_cons]
    show _ + _ + _ = _
    ring

/-- **C69.** A call that returns advances the time by exactly the increment. -/
theorem C69_time (o : Opts) (hd : 0 < o.dfact) (net net' : Net H n) (fuel : Nat) (dt : ℝ)
    (h : net.solve o fuel dt = .ok net') : net'.time.last = net.time.last + dt := by
  obtain ⟨hs, h1, h2, -⟩ := C69_solve o hd net net' fuel dt h
  rw [h1.time, h2]

theorem solveLoop_ends (o : Opts) (total : ℝ) (htot : total = (o.dfact : ℝ) ^ o.ndiv) (hd : 0 < o.dfact)
    (fuel : Nat) (net : Net H n) (curr attempt dtA ef : ℝ) (k q : Nat) (hk : k < o.ndiv) (hq : q ≤ o.dfact ^ k)
    (ha : attempt * (o.dfact : ℝ) ^ k = total) (hc : curr = q * attempt)
    (hf : (o.ndiv - k) + (o.dfact ^ o.ndiv - q * o.dfact ^ (o.ndiv - k)) < fuel) (r : Net H n) :
    solveLoop o total fuel net curr attempt dtA ef k ≠ .running r := by
  induction fuel generalizing net curr attempt dtA ef k q with
  | zero => omega
  | succ fuel ih =>
    rw [solveLoop]
    have hp : ∀ m : Nat, 0 < o.dfact ^ m := fun m => Nat.pow_pos hd
    have hpos : ∀ m : Nat, (0 : ℝ) < (o.dfact : ℝ) ^ m := fun m => pow_pos (by exact_mod_cast hd) m
    have hat : attempt = (o.dfact : ℝ) ^ (o.ndiv - k) := by
      have : (o.dfact : ℝ) ^ (o.ndiv - k) * (o.dfact : ℝ) ^ k = total := by
        rw [← pow_add, htot, Nat.sub_add_cancel hk.le]
      exact mul_right_cancel₀ (hpos k).ne' (ha.trans this.symm)
    have htn : o.dfact ^ (o.ndiv - k) * o.dfact ^ k = o.dfact ^ o.ndiv := by
      rw [← pow_add, Nat.sub_add_cancel hk.le]
    by_cases hcur : curr < total
    · rw [if_pos hcur]
      have hlt : q * o.dfact ^ (o.ndiv - k) < o.dfact ^ o.ndiv := by
        rw [hc, hat, htot] at hcur
        exact_mod_cast hcur
      cases hn : newton (net.rj dtA) o.rtol o.atol o.miter net.edges (net.guess o.extrapolate ef) with
      | some s =>
        obtain ⟨d, es⟩ := s
        simp only
        have hq1 : q + 1 ≤ o.dfact ^ k := by
          rw [← htn] at hlt
          rw [mul_comm (o.dfact ^ (o.ndiv - k)) (o.dfact ^ k)] at hlt
          exact Nat.lt_of_mul_lt_mul_right hlt
        refine ih _ _ _ _ _ k (q + 1) hk hq1 ha (by rw [hc]; push_cast; ring) ?_
        have h1 := hp (o.ndiv - k)
        rw [add_mul, one_mul]
        omega
      | none =>
        simp only
        by_cases hnd : k + 1 = o.ndiv
        · rw [if_pos hnd]; simp
        · rw [if_neg hnd]
          have hne : (o.dfact : ℝ) ≠ 0 := by exact_mod_cast hd.ne'
          refine ih _ _ _ _ _ (k + 1) (q * o.dfact) (by omega) (by rw [pow_succ]; exact Nat.mul_le_mul_right _ hq)
            (by rw [pow_succ, ← ha]; field_simp) (by rw [hc]; push_cast; field_simp) ?_
          have e1 : o.ndiv - k = (o.ndiv - (k + 1)) + 1 := by omega
          have e2 : q * o.dfact * o.dfact ^ (o.ndiv - (k + 1)) = q * o.dfact ^ (o.ndiv - k) := by
            rw [e1, pow_succ]; ring
          rw [e2]
          omega
    · rw [if_neg hcur]; simp

/-- **C69.** A call always ends: at most `ndiv` failed attempts and `dfact ^ ndiv` accepted steps, if at least one
division is allowed. -/
theorem C69_ends (o : Opts) (hn : 0 < o.ndiv) (hd : 0 < o.dfact) (net : Net H n) (fuel : Nat)
    (hf : o.ndiv + o.dfact ^ o.ndiv < fuel) (dt : ℝ) (r : Net H n) : net.solve o fuel dt ≠ .running r := by
  unfold Net.solve
  refine solveLoop_ends o _ rfl hd fuel net 0 _ dt 1 0 0 hn (by simp) (by simp) (by simp) ?_ r
  simpa using hf

theorem solveLoop_forever (o : Opts) (hn : o.ndiv = 0) (total : ℝ) (net : Net H n)
    (h : ∀ dt ef, newton (net.rj dt) o.rtol o.atol o.miter net.edges (net.guess o.extrapolate ef) = none) (fuel : Nat)
    (curr attempt dtA ef : ℝ) (k : Nat) (hc : curr < total) :
    solveLoop o total fuel net curr attempt dtA ef k = .running net := by
  induction fuel generalizing attempt dtA ef k with
  | zero => rfl
  | succ fuel ih =>
    rw [solveLoop, if_pos hc, h]
    simp only
    rw [if_neg (by omega), ih]

/-- **C69, disagreement.** With no division allowed (`ndiv = 0`) a step that cannot be solved is not reported: the call
goes on forever. -/
theorem C69_ends_disagreement (o : Opts) (hn : o.ndiv = 0) (net : Net H n)
    (h : ∀ dt ef, newton (net.rj dt) o.rtol o.atol o.miter net.edges (net.guess o.extrapolate ef) = none) (fuel : Nat)
    (dt : ℝ) : net.solve o fuel dt = .running net := by
  unfold Net.solve
  exact solveLoop_forever o hn _ net h fuel _ _ _ _ _ (by rw [hn]; norm_num)

end Neml.BarNetwork
