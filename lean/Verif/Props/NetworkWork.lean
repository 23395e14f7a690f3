import Verif.Props.NetworkContract

/-!
# C199, C200: work and energy of networks of bars, and the loads they can carry
-/

namespace Neml.BarNetwork

open Matrix Neml.PySolve Neml.Uniaxial Neml.Driver

variable {H : Type} {n : Nat}

/-! ## Work and energy -/

/-- A material that reports the work of its stress on the strain increment, by the trapezoidal rule. -/
def Works (m : Mat1 H) : Prop :=
  ∀ i o, m.update i = some o → o.u = i.u0 + (o.s + i.s0) / 2 * (i.e1 - i.e0)

/-- The recorded forces and energies belong to the stresses and energies of the bars. -/
def Booked (net : Net H n) : Prop :=
  (∀ w : Fin n → ℝ, ∑ v, (net.force v).last * w v =
    (net.edges.map fun e => e.bar.stress.last * e.bar.A * (w e.j - w e.i)).sum) ∧
  net.energy.last = (net.edges.map fun e => e.bar.energy.last * (e.bar.A * e.bar.l)).sum

/-- **C199.** Whatever has been done with a network, the recorded forces do on all displacements of the nodes the work the
stresses of the bars do, and the recorded energy is that of the bars. -/
theorem C199_booked (net : Net H n) (h : Reach net) : Booked net := by
  refine reach_inv Booked (fun l => ⟨fun w => ?_, ?_⟩) (fun net v f h => h) (fun net v f h => h)
    (fun o net h net' ha _ => ⟨C69_virtual_work o net net' h ha, C69_energy o net net' h ha⟩) net h
  · simp only [Net.new, List.map_map]
    rw [List.sum_eq_zero]
    · simp
    · intro x hx
      obtain ⟨q, -, rfl⟩ := List.mem_map.1 hx
      simp [Bar.new]
  · simp only [Net.new, List.map_map]
    rw [List.sum_eq_zero]
    intro x hx
    obtain ⟨q, -, rfl⟩ := List.mem_map.1 hx
    simp [Bar.new]

/-- Work of the forces at the nodes over a step, by the trapezoidal rule. -/
noncomputable def nodalWork (net net' : Net H n) : ℝ :=
  ∑ v, ((net'.force v).last + (net.force v).last) / 2 * (net'.last v - net.last v)

/-- Work of the stresses on the thermal strains over a step. -/
noncomputable def thermalWork (net net' : Net H n) : ℝ :=
  (List.zipWith (fun e e' : Edge H n => (e'.bar.stress.last + e.bar.stress.last) / 2 *
    (e'.bar.tstrain.last - e.bar.tstrain.last) * (e.bar.A * e.bar.l)) net.edges net'.edges).sum

theorem bars_work {w z : Fin n → ℝ} {t1 t0 : ℝ} {l l' : List (Edge H n)}
    (hb : List.Forall₂ (BarStep w t1 t0) l l') (hm : ∀ e ∈ l, Works e.bar.mat)
    (hc : ∀ e ∈ l, e.bar.strain.last * e.bar.l = z e.j - z e.i ∧
      e.bar.strain.last = e.bar.mstrain.last + e.bar.tstrain.last) :
    (l'.map fun e => e.bar.energy.last * (e.bar.A * e.bar.l)).sum =
      (l.map fun e => e.bar.energy.last * (e.bar.A * e.bar.l)).sum +
      ((l'.map fun e => e.bar.stress.last * e.bar.A * ((w - z) e.j - (w - z) e.i)).sum +
        (l.map fun e => e.bar.stress.last * e.bar.A * ((w - z) e.j - (w - z) e.i)).sum) / 2 -
      (List.zipWith (fun e e' : Edge H n => (e'.bar.stress.last + e.bar.stress.last) / 2 *
        (e'.bar.tstrain.last - e.bar.tstrain.last) * (e.bar.A * e.bar.l)) l l').sum := by
  induction hb with
  | nil => simp
  | @cons e e' l l' he _ ih =>
    have := ih (fun e h => hm e (List.mem_cons_of_mem _ h)) (fun e h => hc e (List.mem_cons_of_mem _ h))
    simp only [List.map_cons, List.sum_cons, List.zipWith_cons_cons]
    rw [this]
    obtain ⟨o, ho, m1, -, m3, -⟩ := he.material
    have hu := hm e (by simp) _ _ ho
    obtain ⟨h1, h2⟩ := hc e (by simp)
    have hm := congrArg Series.last he.mechanical
    simp only [Series.push] at hm
    have hs : e'.bar.strain.last = (w e.j - w e.i) / e.bar.l := by rw [he.strain]; rfl
    have n1 : e'.bar.stress.last = o.s := by rw [m1]; rfl
    have n2 : e'.bar.energy.last = o.u := by rw [m3]; rfl
    simp only at hu
    rw [n1, n2, hu, he.same.2.1, he.same.2.2.1, he.ends.1, he.ends.2, hm, hs]
    have hl := he.length
    have h3 : e.bar.mstrain.last = (z e.j - z e.i) / e.bar.l - e.bar.tstrain.last := by
      rw [eq_sub_iff_add_eq, ← h2, eq_div_iff hl, h1]
    rw [h3]
    simp only [Pi.sub_apply]
    field_simp
    ring

/-- **C199.** Over an accepted step the recorded energy of a network grows by the work of the forces at the nodes, less the
work of the stresses on the thermal strains. -/
theorem C199_energy {o : Opts} {h : ℝ} {net net' : Net H n} (hr : Reach net) (hm : ∀ e ∈ net.edges, Works e.bar.mat)
    (ha : Accepted o net h net') :
    net'.energy.last = net.energy.last + nodalWork net net' - thermalWork net net' := by
  obtain ⟨hb, -⟩ := C69_step o net net' h ha
  obtain ⟨f1, e1⟩ := C199_booked net hr
  have key := bars_work hb hm (fits_reach hr)
  rw [← C69_energy o net net' h ha, ← e1, ← C69_virtual_work o net net' h ha, ← f1] at key
  rw [key]
  unfold nodalWork thermalWork
  congr 2
  rw [← Finset.sum_add_distrib, Finset.sum_div]
  exact Finset.sum_congr rfl fun v _ => by simp only [Pi.sub_apply]; ring

/-- **C199.** With zero tolerances and no prescribed displacements but fixed ones the work is that of the applied forces. -/
theorem C199_loads {o : Opts} (ho : o.rtol = 0 ∧ o.atol = 0) {h : ℝ} {net net' : Net H n} (ha : Accepted o net h net')
    (hold : ∀ v, net.dbc v = none → (net.force v).last = net.applied net.time.last v)
    (hfix : ∀ v f, net.dbc v = some f → net.last v = f (net.time.last + h)) :
    nodalWork net net' = ∑ v with net.dbc v = none,
      (net.applied (net.time.last + h) v + net.applied net.time.last v) / 2 * (net'.last v - net.last v) := by
  unfold nodalWork
  rw [Finset.sum_filter]
  refine Finset.sum_congr rfl fun v _ => ?_
  split_ifs with hv
  · rw [C69_equilibrium_exact o ho net net' h ha v hv, hold v hv]
  · obtain ⟨f, hf⟩ := Option.ne_none_iff_exists'.1 hv
    have : net'.last v = f (net.time.last + h) := C69_prescribed o net net' h ha v f hf
    rw [this, hfix v f hf, sub_self, mul_zero]

/-- **C199.** The uniaxial wrapper reports the work of the axial stress if the material reports the work of its stress. -/
theorem C199_wrapped {H3 : Type} (m : Model3 H3)
    (hm : ∀ i o, m.update i = some o → o.u = i.u0 + ((o.s + i.s0) ⬝ᵥ (i.e1 - i.e0)) / 2) (miter : Nat)
    (i : In1 (Store H3)) (o : Out1 (Store H3)) (h : Uniaxial.update m 0 0 miter i = some o) :
    o.u = i.u0 + (o.s + i.s0) / 2 * (i.e1 - i.e0) := by
  obtain ⟨o3, h1, h2, -, h4, -⟩ := C70_exact m miter i o h
  have := hm _ _ h1
  simp only at this
  rw [h4, this, h2]
  have e : (![o.s, 0, 0, 0, 0, 0] : Fin 6 → ℝ) + ![i.s0, 0, 0, 0, 0, 0] = ![o.s + i.s0, 0, 0, 0, 0, 0] := by
    ext k; fin_cases k <;> simp
  rw [e, axial_dot]
  simp only [Pi.sub_apply, Fin.cons_zero]
  ring

/-! ## Limit loads -/

/-- A material whose stress is never beyond `y`, which may depend on the temperature. -/
def Yields (m : Mat1 H) (y : ℝ → ℝ) : Prop := ∀ i o, m.update i = some o → |o.s| ≤ y i.T1

/-- Work the bars can dissipate at most when the nodes move by `w`. -/
noncomputable def capacity (y : Mat1 H → ℝ → ℝ) (net : Net H n) (t : ℝ) (w : Fin n → ℝ) : ℝ :=
  (net.edges.map fun e => e.bar.A * y e.bar.mat (e.bar.T t) * |w e.j - w e.i|).sum

variable {y : Mat1 H → ℝ → ℝ}

/-- **C200.** On whatever displacements of the nodes the recorded forces do at most the work the bars can dissipate. -/
theorem C200_forces {o : Opts} {h : ℝ} {net net' : Net H n}
    (hy : ∀ e ∈ net.edges, 0 ≤ e.bar.A ∧ Yields e.bar.mat (y e.bar.mat)) (ha : Accepted o net h net') (w : Fin n → ℝ) :
    ∑ v, (net'.force v).last * w v ≤ capacity y net (net.time.last + h) w := by
  rw [C69_virtual_work o net net' h ha]
  obtain ⟨hb, -⟩ := C69_step o net net' h ha
  unfold capacity
  generalize net.edges = l at hy hb
  generalize net'.edges = l' at hb
  induction hb with
  | nil => simp
  | @cons e e' l l' he _ ih =>
    simp only [List.map_cons, List.sum_cons]
    refine add_le_add ?_ (ih fun e h => hy e (List.mem_cons_of_mem _ h))
    obtain ⟨hA, hY⟩ := hy e (by simp)
    obtain ⟨out, ho, m1, -⟩ := he.material
    have hs := hY _ _ ho
    have n1 : e'.bar.stress.last = out.s := by rw [m1]; rfl
    have nT : e'.bar.temperature.last = e.bar.T (net.time.last + h) := by rw [he.temperature]; rfl
    simp only [nT] at hs
    rw [n1, he.same.2.1, he.ends.1, he.ends.2]
    calc out.s * e.bar.A * (w e.j - w e.i) ≤ |out.s * e.bar.A * (w e.j - w e.i)| := le_abs_self _
      _ = e.bar.A * |out.s| * |w e.j - w e.i| := by rw [abs_mul, abs_mul, abs_of_nonneg hA]; ring
      _ ≤ _ := mul_le_mul_of_nonneg_right (mul_le_mul_of_nonneg_left hs hA) (abs_nonneg _)

/-- **C200.** With zero tolerances a step is accepted only if no mechanism, that is no displacements that leave the held
nodes where they are, lets the applied forces do more work than the bars can dissipate. -/
theorem C200_limit {o : Opts} (ho : o.rtol = 0 ∧ o.atol = 0) {h : ℝ} {net net' : Net H n}
    (hy : ∀ e ∈ net.edges, 0 ≤ e.bar.A ∧ Yields e.bar.mat (y e.bar.mat)) (ha : Accepted o net h net') (w : Fin n → ℝ)
    (hw : ∀ v, net.dbc v ≠ none → w v = 0) :
    ∑ v, net.applied (net.time.last + h) v * w v ≤ capacity y net (net.time.last + h) w := by
  refine le_trans (le_of_eq ?_) (C200_forces hy ha w)
  refine Finset.sum_congr rfl fun v _ => ?_
  by_cases hv : net.dbc v = none
  · rw [C69_equilibrium_exact o ho net net' h ha v hv]
  · rw [hw v hv, mul_zero, mul_zero]

theorem Steps.last {o : Opts} {net net' : Net H n} {hs : List ℝ} (h : Steps o net hs net') (hne : hs ≠ []) :
    ∃ net1 k, (∃ hs1, Steps o net hs1 net1) ∧ Accepted o net1 k net' := by
  induction h with
  | nil => exact absurd rfl hne
  | @cons net net1 net2 k hs ha hst ih =>
    by_cases he : hs = []
    · subst he
      cases hst
      exact ⟨net, k, ⟨[], .nil _⟩, ha⟩
    · obtain ⟨m, j, ⟨hs1, h1⟩, h2⟩ := ih he
      exact ⟨m, j, ⟨k :: hs1, .cons ha h1⟩, h2⟩

theorem Steps.keeps {o : Opts} {net net' : Net H n} {hs : List ℝ} (h : Steps o net hs net') :
    net'.dbc = net.dbc ∧ net'.fbc = net.fbc ∧
      ∃ f : Edge H n → Edge H n → Prop, (∀ e e', f e e' → e'.i = e.i ∧ e'.j = e.j ∧ e'.bar.mat = e.bar.mat ∧
        e'.bar.A = e.bar.A ∧ e'.bar.l = e.bar.l ∧ e'.bar.T = e.bar.T) ∧ List.Forall₂ f net.edges net'.edges := by
  induction h with
  | nil net => exact ⟨rfl, rfl, Eq, by rintro e _ rfl; simp, List.forall₂_same.2 fun _ _ => rfl⟩
  | @cons net net1 net2 k hs ha _ ih =>
    obtain ⟨hb, -, -, h1, h2, -⟩ := C69_step _ _ _ _ ha
    obtain ⟨i1, i2, f, hf, hl⟩ := ih
    refine ⟨i1.trans h1, i2.trans h2, fun e e' => e'.i = e.i ∧ e'.j = e.j ∧ e'.bar.mat = e.bar.mat ∧
        e'.bar.A = e.bar.A ∧ e'.bar.l = e.bar.l ∧ e'.bar.T = e.bar.T, fun _ _ h => h, ?_⟩
    clear i1 i2 h1 h2 ha
    generalize net.edges = l at hb
    generalize net1.edges = l1 at hb hl
    generalize net2.edges = l2 at hl
    induction hb generalizing l2 with
    | nil => cases hl; exact .nil
    | cons he _ ih =>
      cases hl with
      | cons hg hl =>
      obtain ⟨q1, q2, q3, q4, q5, q6⟩ := hf _ _ hg
      exact .cons ⟨q1.trans he.ends.1, q2.trans he.ends.2, q3.trans he.same.1, q4.trans he.same.2.1,
        q5.trans he.same.2.2.1, q6.trans he.same.2.2.2⟩ (ih _ hl)

/-- **C200.** A call of `solve` for loads beyond the limit load of some mechanism does not return: it raises. -/
theorem C200_raises {o : Opts} (ho : o.rtol = 0 ∧ o.atol = 0) (hn : 0 < o.ndiv) (hd : 0 < o.dfact) {net : Net H n}
    (hy : ∀ e ∈ net.edges, 0 ≤ e.bar.A ∧ Yields e.bar.mat (y e.bar.mat)) {dt : ℝ} (hdt : dt ≠ 0) (w : Fin n → ℝ)
    (hw : ∀ v, net.dbc v ≠ none → w v = 0)
    (hlim : capacity y net (net.time.last + dt) w < ∑ v, net.applied (net.time.last + dt) v * w v)
    {fuel : Nat} (hf : o.ndiv + o.dfact ^ o.ndiv < fuel) : ∃ net', net.solve o fuel dt = .raised net' := by
  cases hs : net.solve o fuel dt with
  | raised net' => exact ⟨net', rfl⟩
  | running r => exact absurd hs (C69_ends o hn hd net fuel hf dt r)
  | ok net' =>
    exfalso
    obtain ⟨hl, h1, h2, -⟩ := C69_solve o hd net net' fuel dt hs
    have hne : hl ≠ [] := by
      rintro rfl
      exact hdt (by rw [← h2]; rfl)
    obtain ⟨net1, k, ⟨hl1, h3⟩, h4⟩ := h1.last hne
    obtain ⟨c1, c2, f, hf1, hf2⟩ := h3.keeps
    have htime : net1.time.last + k = net.time.last + dt := by
      obtain ⟨-, -, -, -, -, ht, -⟩ := C69_step _ _ _ _ h4
      have : net'.time.last = net1.time.last + k := by rw [ht]; rfl
      rw [← this, h1.time, h2]
    have hcap : capacity y net1 (net1.time.last + k) w = capacity y net (net.time.last + dt) w := by
      rw [htime]
      unfold capacity
      generalize net.edges = l at hf2
      generalize net1.edges = l1 at hf2
      induction hf2 with
      | nil => rfl
      | cons he _ ih =>
        obtain ⟨q1, q2, q3, q4, q5, q6⟩ := hf1 _ _ he
        simp only [List.map_cons, List.sum_cons, q1, q2, q3, q4, q6, ih]
    have hy1 : ∀ e ∈ net1.edges, 0 ≤ e.bar.A ∧ Yields e.bar.mat (y e.bar.mat) := by
      generalize net.edges = l at hf2 hy
      generalize net1.edges = l1 at hf2
      induction hf2 with
      | nil => simp
      | cons he _ ih =>
        intro e hm
        rcases List.mem_cons.1 hm with rfl | hm
        · obtain ⟨q1, q2, q3, q4, q5, q6⟩ := hf1 _ _ he
          rw [q3, q4]
          exact hy _ (by simp)
        · exact ih (fun e h => hy e (List.mem_cons_of_mem _ h)) e hm
    have hlast := C200_limit ho hy1 h4 w (by rw [c1]; exact hw)
    rw [hcap, htime] at hlast
    have happ : net1.applied (net.time.last + dt) = net.applied (net.time.last + dt) := by
      funext v; unfold Net.applied; rw [c2]
    rw [happ] at hlast
    linarith

/-- **C200.** A bar of perfect J2 plasticity has no stress beyond the yield stress at its temperature. -/
theorem C200_bar {G Kb eps : ℝ} {el : SmallStrain.Elastic ℝ (Fin 6)} {s0 : ℝ → ℝ} (he : 0 < eps) (hG : 0 < G)
    (hC : ∀ T, el.C T = Elastic.isoC G Kb) (hs : ∀ T, eps ≤ √(2 / 3) * s0 T) (m : Model3 (Unit → ℝ))
    (hm : ∀ i o, m.update i = some o →
      SolveStep.Returns el eps (Flow.linearIso s0 0) (start i) i.e1 i.T1 o.s (o.h ()))
    (miter : Nat) (es : ℝ → ℝ → Store (Unit → ℝ) → ℝ) : Yields (wrapped m miter es) s0 := by
  intro i o h
  obtain ⟨o3, h1, h2, -⟩ := C70_exact m miter i o h
  obtain ⟨g, M, hx, -⟩ := (hm _ _ h1).moves he hG (hC _)
    (SolveStep.linear_tame hG (le_refl (0 : ℝ)) (by simpa using hs i.T1))
  rw [SolveStep.linear_excess, h2] at hx
  have hn : Flow.norm2 (Mandel.devVec ![o.s, 0, 0, 0, 0, 0]) = √(2 / 3) * |o.s| := by
    rw [← Real.sqrt_sq_eq_abs, ← Real.sqrt_mul (by norm_num)]
    unfold Flow.norm2
    congr 1
    simp [Mandel.devVec, dotProduct, Fin.sum_univ_succ]
    ring
  rw [hn] at hx
  have hp : 0 < √(2 / 3 : ℝ) := Real.sqrt_pos.mpr (by norm_num)
  simp only [Pi.zero_apply, zero_mul, mul_zero, sub_zero] at hx
  nlinarith

/-! ## Concrete cases -/

/-- An elastic material that reports its work. -/
noncomputable def hooke : Mat1 Unit where
  update i := some ⟨i.s0 + 2 * (i.e1 - i.e0), (), 2,
    i.u0 + (i.s0 + 2 * (i.e1 - i.e0) + i.s0) / 2 * (i.e1 - i.e0), 0⟩
  alpha _ := 1
  elastic s _ _ := s / 2
  init := ()

/-- A heated bar with a fixed end and an end that is moved takes a step, with this balance of energy. -/
example : ∃ net net' : Net Unit 2, Reach net ∧ Accepted ⟨1, 2, false, 0, 0, 50⟩ net 1 net' ∧
    net'.energy.last = net.energy.last + nodalWork net net' - thermalWork net net' := by
  have hr : Reach (((Net.new [⟨0, 1, Bar.new hooke 3 1 fun t => t⟩] : Net Unit 2).addDisp 0 fun _ => 0).addDisp 1 fun t => 5 * t) :=
    Reach.disp _ _ (Reach.disp _ _ (Reach.new [(0, 1, hooke, 3, 1, fun t => t)]))
  obtain ⟨net', h⟩ := driven_step ⟨1, 2, false, 0, 0, 50⟩ le_rfl
    (((Net.new [⟨0, 1, Bar.new hooke 3 1 fun t => t⟩] : Net Unit 2).addDisp 0 fun _ => 0).addDisp 1 fun t => 5 * t) (by
    intro v
    fin_cases v <;> simp [Net.addDisp, Net.new, Function.update]) 1 (fun e he w t1 t0 => by
    simp only [Net.addDisp, Net.new, List.mem_singleton] at he
    subst he
    simp [trial, Bar.updateForce, Bar.new, hooke])
  refine ⟨_, net', hr, h, C199_energy hr (fun e he => ?_) h⟩
  simp only [Net.addDisp, Net.new, List.mem_singleton] at he
  subst he
  intro i o ho
  obtain rfl := Option.some.inj ho
  rfl

/-- A bar with yield stress 1 and cross section 3 does not carry a force of 4. -/
example : ∃ net', (((Net.new [⟨0, 1, Bar.new clamp 3 1 fun t => t⟩] : Net Unit 2).addDisp 0 fun _ => 0).addForce 1
    fun _ => 4).solve ⟨4, 2, false, 0, 0, 50⟩ 21 1 = .raised net' := by
  refine C200_raises (y := fun _ _ => 1) ⟨rfl, rfl⟩ (by norm_num) (by norm_num) ?_ one_ne_zero ![0, 1] ?_ ?_ (by norm_num)
  · intro e he
    simp only [Net.addDisp, Net.addForce, Net.new, List.mem_singleton] at he
    subst he
    refine ⟨by norm_num [Bar.new], fun i o ho => ?_⟩
    obtain rfl := Option.some.inj ho
    rw [abs_le]
    exact ⟨le_max_left _ _, max_le (by norm_num) (min_le_left _ _)⟩
  · intro v hv
    fin_cases v
    · rfl
    · exact absurd (by simp [Net.addDisp, Net.addForce, Net.new]) hv
  · simp [capacity, Net.applied, Net.addDisp, Net.addForce, Net.new, Bar.new, Function.update]
    norm_num

end Neml.BarNetwork
