import Verif.Model.Slip
import Verif.Props.LatticeSystems

/-!
# C61, C62, C63, C100, C101: slip rates and strengths

Specifications: the numbering of the systems, the slip rate with the system's own resistance, the strength of the
documented formulas, the sign of the dissipation, and bounds over every sequence of implicit steps.
-/

namespace Neml.Slip

open Matrix

variable {N : Type} [DecidableEq N]

/-! ## Numbering -/

theorem systems_flat (c : Crys) : (c.systems.map fun p => c.flat p.1 p.2) = List.range c.ntotal := by
  have key : ∀ n, (((List.range n).flatMap fun g => (List.range (c.nslip g)).map fun i => (g, i)).map
      fun p => c.flat p.1 p.2) = List.range ((List.range n).map c.nslip).sum := by
    intro n
    induction n with
    | zero => simp
    | succ n ih =>
      rw [List.range_succ, List.flatMap_append, List.map_append, ih, List.map_append, List.sum_append]
      simp only [List.flatMap_cons, List.flatMap_nil, List.append_nil, List.map_map, List.map_cons, List.map_nil,
        List.sum_cons, List.sum_nil, add_zero, List.range_add]
      rfl
  exact key _

theorem mem_systems {c : Crys} {g i : Nat} : (g, i) ∈ c.systems ↔ g < c.ngroup ∧ i < c.nslip g := by
  simp [Crys.systems]

theorem systems_nodup (c : Crys) : (c.systems.map fun p => c.flat p.1 p.2).Nodup := by
  rw [systems_flat]; exact List.nodup_range

theorem flat_lt {c : Crys} {p : Nat × Nat} (h : p ∈ c.systems) : c.flat p.1 p.2 < c.ntotal := by
  rw [← List.mem_range, ← systems_flat]
  exact List.mem_map_of_mem (f := fun p => c.flat p.1 p.2) h

theorem flat_inj {c : Crys} {p q : Nat × Nat} (hp : p ∈ c.systems) (hq : q ∈ c.systems)
    (h : c.flat p.1 p.2 = c.flat q.1 q.2) : p = q :=
  List.inj_on_of_nodup_map (systems_nodup c) hp hq h

theorem flat_surj {c : Crys} {k : Nat} (h : k < c.ntotal) : ∃ p ∈ c.systems, c.flat p.1 p.2 = k := by
  rw [← List.mem_range, ← systems_flat] at h
  simpa using h

/-- C62, numbering: the systems are numbered in the order of the loops, without gaps or repeats. -/
theorem C62_numbering (c : Crys) : (∀ g i, g < c.ngroup → i < c.nslip g → c.flat g i < c.ntotal) ∧
    (∀ k < c.ntotal, ∃! p : Nat × Nat, p.1 < c.ngroup ∧ p.2 < c.nslip p.1 ∧ c.flat p.1 p.2 = k) := by
  refine ⟨fun g i hg hi => flat_lt (mem_systems.mpr ⟨hg, hi⟩), fun k hk => ?_⟩
  obtain ⟨p, hp, hf⟩ := flat_surj hk
  refine ⟨p, ⟨(mem_systems.mp hp).1, (mem_systems.mp hp).2, hf⟩, ?_⟩
  rintro ⟨g, i⟩ ⟨hg, hi, h⟩
  exact flat_inj (mem_systems.mpr ⟨hg, hi⟩) hp (h.trans hf.symm)

theorem ofLat_flat {hash asked ops dirOf planeOf} {L : Lattice.Lat}
    (h : Lattice.Reach hash asked ops dirOf planeOf L) (Q : Rotation.Quat) (b : Nat → Nat → ℝ) :
    (∀ g i s, Lattice.system L g i = some s → Lattice.flat L g i = some ((Crys.ofLat L Q b).flat g i)) ∧
      (Crys.ofLat L Q b).ntotal = Lattice.ntotal L := by
  have key : ∀ g ≤ L.groups.length, ((L.groups.take g).map fun G => G.systems.length) =
      (List.range g).map (Crys.ofLat L Q b).nslip := by
    intro g hg
    refine List.ext_getElem (by simp [hg]) fun j h1 h2 => ?_
    have hj : j < L.groups.length := by simp at h1; omega
    simp [Crys.ofLat, Lattice.nslip, List.getElem?_eq_getElem hj]
  constructor
  · intro g i s hs
    have hg : g < L.groups.length := by
      simp only [Lattice.system, Option.bind_eq_some_iff] at hs
      obtain ⟨G, hG, -⟩ := hs
      exact (List.getElem?_eq_some_iff.mp hG).1
    rw [(Lattice.C62_flat h).1 g i s hs, Crys.flat, key g hg.le]
  · have := key L.groups.length le_rfl
    rw [List.take_length] at this
    rw [Lattice.ntotal, this]
    rfl

/-! ## The loops -/

theorem foldl_update {α A : Type} (key : α → N) (val : α → A) :
    ∀ (l : List α) (r0 : N → A), (l.map key).Nodup →
      (∀ x ∈ l, l.foldl (fun r p => Function.update r (key p) (val p)) r0 (key x) = val x) ∧
      (∀ a, a ∉ l.map key → l.foldl (fun r p => Function.update r (key p) (val p)) r0 a = r0 a) := by
  intro l
  induction l with
  | nil => intro r0 _; simp
  | cons y l ih =>
    intro r0 hnd
    rw [List.map_cons, List.nodup_cons] at hnd
    obtain ⟨h1, h2⟩ := ih (Function.update r0 (key y) (val y)) hnd.2
    refine ⟨fun x hx => ?_, fun a ha => ?_⟩
    · rw [List.foldl_cons]
      rcases List.mem_cons.mp hx with rfl | hx
      · rw [h2 _ hnd.1, Function.update_self]
      · exact h1 x hx
    · rw [List.map_cons, List.mem_cons, not_or] at ha
      rw [List.foldl_cons, h2 a ha.2, Function.update_of_ne ha.1]

/-- The variables of a model have different names. -/
def Distinct (n : Nat) (vars : Nat → N) : Prop := ∀ i < n, ∀ j < n, vars i = vars j → i = j

theorem fill_apply {A : Type} [Zero A] {c : Crys} {vars : Nat → N} (hv : Distinct c.ntotal vars)
    (val : Nat → Nat → A) {p : Nat × Nat} (hp : p ∈ c.systems) :
    fill c vars val (vars (c.flat p.1 p.2)) = val p.1 p.2 := by
  refine (foldl_update (fun p : Nat × Nat => vars (c.flat p.1 p.2)) (fun p => val p.1 p.2) c.systems 0 ?_).1 p hp
  rw [show (c.systems.map fun p : Nat × Nat => vars (c.flat p.1 p.2)) =
    (c.systems.map fun p => c.flat p.1 p.2).map vars by simp, systems_flat]
  exact List.Nodup.map_on (fun i hi j hj h => hv i (List.mem_range.mp hi) j (List.mem_range.mp hj) h) List.nodup_range

theorem fillFlat_apply {A : Type} [Zero A] {n : Nat} {vars : Nat → N} (hv : Distinct n vars) (val : Nat → A) {i : Nat}
    (hi : i < n) : fillFlat n vars val (vars i) = val i := by
  refine (foldl_update vars val (List.range n) 0 ?_).1 i (List.mem_range.mpr hi)
  exact List.Nodup.map_on (fun i hi j hj h => hv i (List.mem_range.mp hi) j (List.mem_range.mp hj) h) List.nodup_range

theorem fillCount_eq {A : Type} [Zero A] (c : Crys) (vars : Nat → N) (val : Nat → Nat → A) :
    fillCount c vars val = fill c vars val := by
  have key : ∀ (l : List (Nat × Nat)) (r : N → A) (k : Nat), (l.map fun p => c.flat p.1 p.2) = List.range' k l.length →
      (l.foldl (fun r p => (Function.update r.1 (vars r.2) (val p.1 p.2), r.2 + 1)) (r, k)).1 =
        l.foldl (fun r p => Function.update r (vars (c.flat p.1 p.2)) (val p.1 p.2)) r := by
    intro l
    induction l with
    | nil => intro r k _; rfl
    | cons p l ih =>
      intro r k h
      rw [List.map_cons, List.length_cons, List.range'_succ, List.cons.injEq] at h
      rw [List.foldl_cons, List.foldl_cons, h.1]
      exact ih _ _ h.2
  refine key _ _ _ ?_
  rw [systems_flat, List.range_eq_range']
  congr 1
  have := congrArg List.length (systems_flat c)
  simpa using this.symm

theorem own_iff {n : Nat} {vars : Nat → N} {a : N} : ownOf n vars a = true ↔ ∃ k < n, vars k = a := by
  simp [ownOf]

theorem own_system {c : Crys} {vars : Nat → N} {a : N} (h : ownOf c.ntotal vars a = true) :
    ∃ p ∈ c.systems, vars (c.flat p.1 p.2) = a := by
  obtain ⟨k, hk, rfl⟩ := own_iff.mp h
  obtain ⟨p, hp, rfl⟩ := flat_surj hk
  exact ⟨p, hp, rfl⟩

theorem own_vars {c : Crys} {vars : Nat → N} {p : Nat × Nat} (hp : p ∈ c.systems) :
    ownOf c.ntotal vars (vars (c.flat p.1 p.2)) = true := own_iff.mpr ⟨_, flat_lt hp, rfl⟩

/-- A sum over the flat numbers is a sum over the systems. -/
theorem sum_flat {A : Type} [AddCommMonoid A] (c : Crys) (f : Nat → A) :
    ((List.range c.ntotal).map f).sum = (c.systems.map fun p => f (c.flat p.1 p.2)).sum := by
  rw [← systems_flat, List.map_map]
  rfl

/-! ## C61: own resistance -/

/-- C61 fails: two systems of a group with the same resolved shear slip at the same rate, whatever their
resistances. -/
theorem C61_ignores_own {m : Nat} (r : Rule N m) (c : Crys) (s : Fin 6 → ℝ) (h : N → ℝ) (g i j : Nat)
    (e : c.shear g i s = c.shear g j s) : r.slip c s h g i = r.slip c s h g j := by
  rw [Rule.slip, Rule.slip, e]

/-- The power law with resistance `str`: `g0` times the sign of the shear times the `n`-th power of the ratio. -/
noncomputable def powerSpec (g0 n tau str : ℝ) : ℝ := g0 * SignType.sign tau * (|tau| / str) ^ n

theorem powerLaw_spec {g0 n tau : ℝ} {s : Fin 1 → ℝ} (hard : Hard N) (hs : 0 < s 0) (hn : n ≠ 0) :
    (powerLaw hard g0 n).sslip tau s = powerSpec g0 n tau (s 0) := by
  simp only [powerLaw, powerSpec]
  rcases lt_trichotomy tau 0 with h | h | h
  · have hp : 0 < |tau| / s 0 := div_pos (abs_pos.mpr h.ne) hs
    have e : |tau / s 0| = |tau| / s 0 := by rw [abs_div, abs_of_pos hs]
    rw [e, sign_neg h, Real.rpow_sub_one hp.ne', abs_of_neg h]
    simp only [SignType.coe_neg, SignType.coe_one]
    have := h.ne
    field_simp
  · simp [h, Real.zero_rpow hn]
  · have hp : 0 < |tau| / s 0 := div_pos (abs_pos.mpr h.ne') hs
    have e : |tau / s 0| = |tau| / s 0 := by rw [abs_div, abs_of_pos hs]
    rw [e, sign_pos h, Real.rpow_sub_one hp.ne', abs_of_pos h]
    simp only [SignType.coe_one]
    have := h.ne'
    field_simp

/-- C61, exactly when it holds: the power law uses the resistance of the first system of the group, so the rate
of a loaded system is that of its own resistance only if the two are equal. -/
theorem C61_right_iff (hard : Hard N) {g0 n : ℝ} (hg : g0 ≠ 0) (hn : n ≠ 0) (c : Crys) (s : Fin 6 → ℝ) (h : N → ℝ)
    (g i : Nat) (h0 : 0 < hard.tau g 0 h) (hi : 0 < hard.tau g i h) (ht : c.shear g i s ≠ 0)
    (htw : ¬ (c.twin g ∧ c.shear g i s < 0)) :
    (powerLaw hard g0 n).slip c s h g i = powerSpec g0 n (c.shear g i s) (hard.tau g i h) ↔
      hard.tau g i h = hard.tau g 0 h := by
  have e : (powerLaw hard g0 n).slip c s h g i = powerSpec g0 n (c.shear g i s) (hard.tau g 0 h) := by
    rw [Rule.slip, if_neg htw, powerLaw_spec hard (s := (powerLaw hard g0 n).strengths g h) h0 hn]
    rfl
  rw [e]
  constructor
  · intro he
    have hsg : g0 * (SignType.sign (c.shear g i s) : ℝ) ≠ 0 := by
      rcases lt_or_gt_of_ne ht with h | h <;> simp [sign_neg, sign_pos, h, hg]
    have := mul_left_cancel₀ hsg he
    have hp : 0 < |c.shear g i s| := abs_pos.mpr ht
    rw [Real.rpow_left_inj (div_pos hp h0).le (div_pos hp hi).le hn] at this
    rw [div_eq_div_iff h0.ne' hi.ne'] at this
    exact mul_left_cancel₀ hp.ne' this
  · intro he
    rw [he]

/-- C61 in the case it holds for every rule: where every strength is the same for all systems of the group, the
strengths used are those of the system itself.

Missing: strengths that differ inside a group (`C61_right_iff`, `C61_ignores_own`). -/
theorem C61_same_partial {m : Nat} (r : Rule N m) (c : Crys) (s : Fin 6 → ℝ) (h : N → ℝ) (g i : Nat)
    (same : ∀ k j, (r.hard k).tau g j h = (r.hard k).tau g i h) :
    r.slip c s h g i = if c.twin g ∧ c.shear g i s < 0 then 0
      else r.sslip (c.shear g i s) fun k => (r.hard k).tau g i h := by
  rw [Rule.slip]
  congr 2
  funext k
  exact same k k

/-- The single strengths are the same for all systems. -/
theorem C61_single (c : Crys) (var : N) (ini static : ℝ) (f df : ℝ → ℝ) (vars : Nat → N) (n : Nat)
    (ms : Nat → Member) (g g' i j : Nat) (h : N → ℝ) :
    (plastic c var ini static f df).tau g j h = (plastic c var ini static f df).tau g' i h ∧
      (sumHard c vars n ms).tau g j h = (sumHard c vars n ms).tau g' i h := ⟨rfl, rfl⟩

/-- C61 fails across groups: in a group with one system the second strength of a rule is read from the first
system of the next group. -/
theorem C61_next_group (c : Crys) (str : Nat → ℝ) (g : Nat) (h1 : c.nslip g = 1) (h : N → ℝ) (back flow : Hard N)
    (g0 n : ℝ) : (kinematicPowerLaw back (fixedStrength c str) flow g0 n).strengths g h 1 = str (c.flat (g + 1) 0) := by
  simp only [Rule.strengths, kinematicPowerLaw, Matrix.cons_val_one, Matrix.cons_val_zero, fixedStrength]
  congr 1
  simp [Crys.flat, List.range_succ, h1]

/-- A case of `C61_right_iff` where it fails: two systems with resistances 1 and 2 and the same loading. -/
example : ∃ (c : Crys) (s : Fin 6 → ℝ),
    (powerLaw (fixedStrength c fun k => if k = 0 then 1 else 2 : Hard Nat) 1 2).slip c s 0 0 1 ≠
      powerSpec 1 2 (c.shear 0 1 s) ((fixedStrength c fun k => if k = 0 then 1 else 2 : Hard Nat).tau 0 1 0) := by
  refine ⟨⟨1, fun _ => 2, fun _ => false, 0, fun _ _ => fun _ => 1, 0⟩, fun _ => 1, ?_⟩
  rw [Ne, C61_right_iff _ one_ne_zero two_ne_zero]
  · simp [fixedStrength, Crys.flat]
  · simp [fixedStrength, Crys.flat]
  · simp [fixedStrength, Crys.flat]
  · simp [Crys.shear, dotProduct]
  · simp

/-! ## C62: interaction matrices -/

/-- C62, general linear hardening: the strength of a system grows by its row of the matrix times the slip rates of
all systems. -/
theorem C62_general {c : Crys} {vars : Nat → N} (hv : Distinct c.ntotal vars) (M : Nat → Nat → ℝ) (tau0 : Nat → ℝ)
    (absval : Bool) (R : Nat → Nat → ℝ) (h : N → ℝ) {p : Nat × Nat} (hp : p ∈ c.systems) :
    (generalLinear c vars M tau0 absval).rate R h (vars (c.flat p.1 p.2)) =
      (c.systems.map fun q => M (c.flat p.1 p.2) (c.flat q.1 q.2) *
        (if absval then |R q.1 q.2| else R q.1 q.2)).sum := by
  simp only [generalLinear]
  rw [fillFlat_apply hv _ (flat_lt hp), sum_flat]
  congr 1
  refine List.map_congr_left fun q hq => ?_
  have : fill c id R (c.flat q.1 q.2) = R q.1 q.2 :=
    fill_apply (vars := id) (fun i _ j _ h => h) R hq
  rw [this]

/-- The documented resistance of simple linear hardening. -/
noncomputable def simpleSpec (c : Crys) (vars : Nat → N) (G : Nat → Nat → ℝ) (tau0 : Nat → ℝ) (h : N → ℝ)
    (p : Nat × Nat) : ℝ :=
  tau0 (c.flat p.1 p.2) + (c.systems.map fun q => G (c.flat p.1 p.2) (c.flat q.1 q.2) * h (vars (c.flat q.1 q.2))).sum

/-- C62, simple linear hardening, first group: the resistance is the documented one, and the integrated slips are
those of the systems.

Missing: the other groups, see `C62_simple_row` and `C62_simple_wrong`. -/
theorem C62_simple_partial {c : Crys} {vars : Nat → N} (hv : Distinct c.ntotal vars) (G : Nat → Nat → ℝ)
    (tau0 : Nat → ℝ) (h : N → ℝ) :
    (∀ i, (simpleLinear c vars G tau0).tau 0 i h = simpleSpec c vars G tau0 h (0, i)) ∧
    (∀ (R : Nat → Nat → ℝ) p, p ∈ c.systems →
      (simpleLinear c vars G tau0).rate R h (vars (c.flat p.1 p.2)) = |R p.1 p.2|) := by
  refine ⟨fun i => ?_, fun R p hp => ?_⟩
  · simp only [simpleLinear, simpleSpec]
    rw [sum_flat, add_comm]
    simp [Crys.flat]
  · simp only [simpleLinear]
    rw [fillCount_eq]
    exact fill_apply hv _ hp

/-- C62 fails for the other groups: the row used is that of system `i` of the first group. -/
theorem C62_simple_row (c : Crys) (vars : Nat → N) (G : Nat → Nat → ℝ) (tau0 : Nat → ℝ) (h : N → ℝ) (g i : Nat) :
    (simpleLinear c vars G tau0).tau g i h - tau0 (c.flat g i) =
      (simpleLinear c vars G tau0).tau 0 i h - tau0 (c.flat 0 i) := by
  simp [simpleLinear]

/-- C62 fails for the other groups: where the two rows differ there is a history with a wrong resistance. -/
theorem C62_simple_wrong {c : Crys} {vars : Nat → N} (hv : Distinct c.ntotal vars) (G : Nat → Nat → ℝ)
    (tau0 : Nat → ℝ) {g i j : Nat} (hj : j < c.ntotal) (hG : G i j ≠ G (c.flat g i) j) :
    ∃ h, (simpleLinear c vars G tau0).tau g i h ≠ simpleSpec c vars G tau0 h (g, i) := by
  refine ⟨Function.update 0 (vars j) 1, ?_⟩
  have key : ∀ k, ((List.range c.ntotal).map fun l => G k l * (Function.update 0 (vars j) 1 : N → ℝ) (vars l)).sum =
      G k j := by
    intro k
    have e : ((List.range c.ntotal).map fun l => G k l * (Function.update 0 (vars j) 1 : N → ℝ) (vars l)) =
        (List.range c.ntotal).map fun l => if l = j then G k j else 0 := by
      refine List.map_congr_left fun l hl => ?_
      by_cases hjl : l = j
      · subst hjl; simp
      · rw [if_neg hjl, Function.update_of_ne fun he => hjl (hv _ (List.mem_range.mp hl) _ hj he)]
        simp
    rw [e, List.sum_map_ite_eq, List.count_eq_one_of_mem List.nodup_range (List.mem_range.mpr hj)]
    simp
  have hs := sum_flat c fun l => G (c.flat g i) l * (Function.update 0 (vars j) 1 : N → ℝ) (vars l)
  simp only [simpleLinear, simpleSpec]
  rw [← hs, key, key]
  intro he
  apply hG
  linarith

example : ∃ c : Crys, ∃ G : Nat → Nat → ℝ, Distinct c.ntotal (id : Nat → Nat) ∧ 1 < c.ntotal ∧
    G 0 1 ≠ G (c.flat 1 0) 1 :=
  ⟨⟨2, fun _ => 1, fun _ => false, 0, 0, 0⟩, fun i j => if i = j then 1 else 0, fun _ _ _ _ h => h,
    by simp [Crys.ntotal, List.range_succ], by simp [Crys.flat]⟩

/-! ## C63: initial strength -/

/-- C63: the strength of the initial state is the given one, for the models with one variable, for sums of them,
for fixed strengths, for the Voce law of each system and for simple linear hardening. -/
theorem C63_initial {c : Crys} {vars : Nat → N} (hv : Distinct c.ntotal vars) {p : Nat × Nat} (hp : p ∈ c.systems) :
    (∀ (var : N) (tau0 nye sat b : ℝ), (voce c var tau0 nye sat b).tau p.1 p.2 (voce c var tau0 nye sat b).init =
      tau0 + nye) ∧
    (∀ (var : N) (tau0 nye k1 : ℝ), (linear c var tau0 nye k1).tau p.1 p.2 (linear c var tau0 nye k1).init =
      tau0 + nye) ∧
    (∀ (n : Nat) (ms : Nat → Member), Distinct n vars →
      (sumHard c vars n ms).tau p.1 p.2 (sumHard c vars n ms).init =
        ((List.range n).map fun i => (ms i).ini + (ms i).static).sum) ∧
    (∀ str : Nat → ℝ, (fixedStrength c str).tau p.1 p.2 (fixedStrength (N := N) c str).init = str (c.flat p.1 p.2)) ∧
    (∀ ini k sat m : Nat → ℝ, (vocePer c vars ini k sat m).tau p.1 p.2 (vocePer c vars ini k sat m).init =
      ini (c.flat p.1 p.2)) ∧
    (∀ G tau0, (simpleLinear c vars G tau0).tau p.1 p.2 (simpleLinear c vars G tau0).init = tau0 (c.flat p.1 p.2)) := by
  refine ⟨fun var tau0 nye sat b => ?_, fun var tau0 nye k1 => ?_, fun n ms hn => ?_, fun str => rfl,
    fun ini k sat m => ?_, fun G tau0 => ?_⟩
  · simp [voce, plastic]
  · simp [linear, plastic]
  · simp only [sumHard]
    congr 1
    refine List.map_congr_left fun i hi => ?_
    rw [fillFlat_apply hn _ (List.mem_range.mp hi)]
  · simp only [vocePer]
    exact fillFlat_apply hv _ (flat_lt hp)
  · simp [simpleLinear]

/-- C63 for the model of slip and twinning: the strength of a slip system is the given one plus the part of the
initial dislocation density, and that of a twin system plus the part of its interactions. With no initial density
all are the given strengths. -/
theorem C63_lanl {c : Crys} {vars : Nat → N} (hv : Distinct c.ntotal vars) {p : Nat × Nat} (hp : p ∈ c.systems)
    (ns : Nat) (tau0 mu k1 k2 : Nat → ℝ) (C : Nat → Nat → ℝ) (X ini : ℝ) :
    (c.twin p.1 = false → c.flat p.1 p.2 < ns →
      (lanlTi c vars ns tau0 mu k1 k2 C X ini).tau p.1 p.2 (lanlTi c vars ns tau0 mu k1 k2 C X ini).init =
        tau0 (c.flat p.1 p.2) + X * c.burgers p.1 p.2 * mu (c.flat p.1 p.2) * ini) ∧
    (ini = 0 → (lanlTi c vars ns tau0 mu k1 k2 C X ini).tau p.1 p.2 (lanlTi c vars ns tau0 mu k1 k2 C X ini).init =
        tau0 (c.flat p.1 p.2)) := by
  have hi : ∀ q ∈ c.systems, (lanlTi c vars ns tau0 mu k1 k2 C X ini).init (vars (c.flat q.1 q.2)) =
      if c.flat q.1 q.2 < ns then ini else 0 := fun q hq => by
    simp only [lanlTi]; exact fillFlat_apply hv _ (flat_lt hq)
  constructor
  · intro ht hf
    have := hi p hp
    simp only [lanlTi] at this ⊢
    simp only [ht, this, if_pos hf, Bool.false_eq_true, if_false]
    ring
  · intro h0
    have hz : ∀ q ∈ c.systems, (lanlTi c vars ns tau0 mu k1 k2 C X ini).init (vars (c.flat q.1 q.2)) = 0 := by
      intro q hq
      rw [hi q hq, h0, ite_self]
    have hzp := hz p hp
    simp only [lanlTi] at hz hzp ⊢
    split_ifs with ht
    · have e : (c.systems.map fun p_1 : Nat × Nat => if c.twin p_1.1 then (0 : ℝ)
          else if 0 < fillFlat c.ntotal vars (fun i => if i < ns then ini else 0) (vars (c.flat p_1.1 p_1.2)) then
            C (c.flat p.1 p.2 - ns) (c.flat p_1.1 p_1.2) * c.burgers p_1.1 p_1.2 *
              fillFlat c.ntotal vars (fun i => if i < ns then ini else 0) (vars (c.flat p_1.1 p_1.2)) *
              fillFlat c.ntotal vars (fun i => if i < ns then ini else 0) (vars (c.flat p_1.1 p_1.2))
          else 0) = c.systems.map fun _ => 0 :=
        List.map_congr_left fun q hq => by rw [hz q hq]; simp
      rw [e]
      simp
    · rw [hzp]
      ring

/-- C63 fails for general linear hardening: the initial strength is twice the given one. -/
theorem C63_general_doubled {c : Crys} {vars : Nat → N} (hv : Distinct c.ntotal vars) (M : Nat → Nat → ℝ)
    (tau0 : Nat → ℝ) (absval : Bool) {p : Nat × Nat} (hp : p ∈ c.systems) :
    (generalLinear c vars M tau0 absval).tau p.1 p.2 (generalLinear c vars M tau0 absval).init =
      2 * tau0 (c.flat p.1 p.2) := by
  simp only [generalLinear]
  rw [fillFlat_apply hv _ (flat_lt hp)]
  ring

/-- C63 fails for a coefficient of the Nye tensor that vanishes at temperature zero: the part of the Nye tensor is
dropped at every temperature. -/
theorem C63_nye_dropped (k : ℝ → ℝ) (h0 : k 0 = 0) (T x : ℝ) (hT : k T ≠ 0) (hx : 0 < x) :
    voceNye k T (some x) = 0 ∧ k T * √x ≠ 0 := by
  refine ⟨?_, mul_ne_zero hT (Real.sqrt_pos.mpr hx).ne'⟩
  simp [voceNye, voceUsesNye, h0]

example : (fun T : ℝ => T) 0 = 0 ∧ (fun T : ℝ => T) 300 ≠ 0 := by norm_num

example : ∃ c : Crys, Distinct c.ntotal (id : Nat → Nat) ∧ (0, 1) ∈ c.systems :=
  ⟨⟨1, fun _ => 2, fun _ => false, 0, 0, 0⟩, fun _ _ _ _ h => h, mem_systems.mpr ⟨by norm_num, by norm_num⟩⟩

/-! ## C100: slip follows the shear -/

theorem sgn_mul (x : ℝ) : x * sgn x = |x| := by
  rw [sgn]
  split_ifs with h
  · rw [abs_of_neg h]; ring
  · rw [abs_of_nonneg (not_lt.mp h)]; ring

theorem sgn_abs (x : ℝ) : |sgn x| = 1 := by rw [sgn]; split_ifs <;> simp

/-- C100, power law: slip never does negative work, and twins only slip forwards. -/
theorem C100_power (hard : Hard N) {g0 n : ℝ} (hg : 0 ≤ g0) (c : Crys) (s : Fin 6 → ℝ) (h : N → ℝ) (g i : Nat)
    (h0 : 0 < hard.tau g 0 h) :
    0 ≤ c.shear g i s * (powerLaw hard g0 n).slip c s h g i ∧
      (c.twin g → 0 ≤ (powerLaw hard g0 n).slip c s h g i) := by
  have key : (powerLaw hard g0 n).sslip (c.shear g i s) ((powerLaw hard g0 n).strengths g h) =
      (g0 / hard.tau g 0 h * |c.shear g i s / hard.tau g 0 h| ^ (n - 1)) * c.shear g i s := by
    simp only [powerLaw, Rule.strengths]
    have : hard.tau g ((0 : Fin 1) : Nat) h = hard.tau g 0 h := rfl
    rw [this]
    ring
  have hp : 0 ≤ g0 / hard.tau g 0 h * |c.shear g i s / hard.tau g 0 h| ^ (n - 1) := by positivity
  refine ⟨?_, fun ht => ?_⟩
  · rw [Rule.slip]
    split_ifs with hc
    · simp
    · rw [key]
      nlinarith [mul_self_nonneg (c.shear g i s)]
  · rw [Rule.slip]
    split_ifs with hc
    · exact le_rfl
    · rw [key]
      have : 0 ≤ c.shear g i s := by
        by_contra hlt
        exact hc ⟨ht, not_le.mp hlt⟩
      exact mul_nonneg hp this

/-- C100, kinematic power law: slip does not work against the shear less the back strength, there is none inside
the elastic range. -/
theorem C100_kinematic (back iso flow : Hard N) {g0 n : ℝ} (c : Crys) (s : Fin 6 → ℝ) (h : N → ℝ) (g i : Nat) :
    0 ≤ (c.shear g i s - back.tau g 0 h) * (kinematicPowerLaw back iso flow g0 n).slip c s h g i ∧
      (|c.shear g i s - back.tau g 0 h| ≤ iso.tau g 1 h →
        (kinematicPowerLaw back iso flow g0 n).slip c s h g i = 0) := by
  have e0 : (kinematicPowerLaw back iso flow g0 n).strengths g h 0 = back.tau g 0 h := rfl
  have e1 : (kinematicPowerLaw back iso flow g0 n).strengths g h 1 = iso.tau g 1 h := rfl
  rw [Rule.slip]
  have hs : ∀ tau S, (kinematicPowerLaw back iso flow g0 n).sslip tau S =
    if |tau - S 0| - S 1 ≤ 0 then 0 else sgn (tau - S 0) * |g0 * ((|tau - S 0| - S 1) / S 2) ^ n| := fun _ _ => rfl
  rw [hs, e0, e1]
  refine ⟨?_, fun hin => ?_⟩
  · split_ifs
    · simp
    · simp
    · rw [← mul_assoc, sgn_mul]
      positivity
  · rw [if_pos (sub_nonpos.mpr hin), ite_self]

/-- C100, reversal: for the power law, slip systems answer the opposite stress with the opposite slip. -/
theorem C100_reversed (hard : Hard N) {g0 n : ℝ} (c : Crys) (s : Fin 6 → ℝ) (h : N → ℝ) (g i : Nat)
    (ht : c.twin g = false) :
    (powerLaw hard g0 n).slip c (-s) h g i = -(powerLaw hard g0 n).slip c s h g i := by
  have : c.shear g i (-s) = -c.shear g i s := by simp [Crys.shear]
  simp only [Rule.slip, ht, Bool.false_eq_true, false_and, if_false, this]
  simp only [powerLaw, neg_div, abs_neg, mul_neg, neg_mul]

/-! ## C101: bounds over every sequence of implicit steps -/

/-- One implicit step of size `dt` with the slip rates `R`. -/
def Step (H : Hard N) (dt : ℝ) (R : Nat → Nat → ℝ) (h0 h1 : N → ℝ) : Prop :=
  ∀ a, H.own a = true → h1 a = h0 a + H.rate R h1 a * dt

/-- Any number of implicit steps of any sizes with any slip rates. -/
inductive Path (H : Hard N) : (N → ℝ) → (N → ℝ) → Prop
  | refl (h) : Path H h h
  | step {h0 h1 h2} (dt : ℝ) (hdt : 0 ≤ dt) (R) : Path H h0 h1 → Step H dt R h1 h2 → Path H h0 h2

/-- A value moved by an implicit step towards `sat` stays between its old value and `sat`. -/
theorem relax {x0 x1 a sat : ℝ} (ha : 0 ≤ a) (h : x1 = x0 + a * (sat - x1)) :
    (x0 ≤ sat → x0 ≤ x1 ∧ x1 ≤ sat) ∧ (sat ≤ x0 → sat ≤ x1 ∧ x1 ≤ x0) := by
  have e : (1 + a) * (x1 - sat) = x0 - sat := by linear_combination h
  have e2 : (1 + a) * (x1 - x0) = a * (sat - x0) := by linear_combination h
  have hp : 0 < 1 + a := by linarith
  constructor
  · intro hs
    constructor
    · by_contra hc
      nlinarith [mul_nonneg ha (sub_nonneg.mpr hs), mul_pos hp (sub_pos.mpr (not_le.mp hc))]
    · by_contra hc
      nlinarith [mul_pos hp (sub_pos.mpr (not_le.mp hc))]
  · intro hs
    constructor
    · by_contra hc
      nlinarith [mul_pos hp (sub_pos.mpr (not_le.mp hc))]
    · by_contra hc
      nlinarith [mul_nonneg ha (sub_nonneg.mpr hs), mul_pos hp (sub_pos.mpr (not_le.mp hc))]

theorem sumSlip_nonneg (c : Crys) (R : Nat → Nat → ℝ) : 0 ≤ sumSlip c R := by
  apply List.sum_nonneg
  intro x hx
  obtain ⟨p, -, rfl⟩ := List.mem_map.mp hx
  exact abs_nonneg _

/-- C101, Voce hardening: from the initial state the strength grows with every step and never passes the
saturation value. -/
theorem C101_voce (c : Crys) (var : N) {tau0 nye sat b : ℝ} (hb : 0 ≤ b) (hs : 0 ≤ sat) {h1 h2 : N → ℝ}
    (p1 : Path (voce c var tau0 nye sat b) (voce c var tau0 nye sat b).init h1)
    (p2 : Path (voce c var tau0 nye sat b) h1 h2) (g i : Nat) :
    tau0 + nye ≤ (voce c var tau0 nye sat b).tau g i h1 ∧
      (voce c var tau0 nye sat b).tau g i h1 ≤ (voce c var tau0 nye sat b).tau g i h2 ∧
      (voce c var tau0 nye sat b).tau g i h2 ≤ tau0 + nye + sat := by
  have key : ∀ x y, Path (voce c var tau0 nye sat b) x y → x var ≤ sat → x var ≤ y var ∧ y var ≤ sat := by
    intro x y h
    induction h with
    | refl => intro hx; exact ⟨le_rfl, hx⟩
    | @step y1 y2 dt hdt R _ hst ih =>
      intro hx
      obtain ⟨i1, i2⟩ := ih hx
      have := hst var (by simp [voce, plastic])
      simp only [voce, plastic, Function.update_self] at this
      have hr := (relax (x0 := y1 var) (x1 := y2 var) (sat := sat)
        (mul_nonneg (mul_nonneg hb (sumSlip_nonneg c R)) hdt) (by linear_combination this)).1 i2
      exact ⟨i1.trans hr.1, hr.2⟩
  have h0 : (voce c var tau0 nye sat b).init var = 0 := by simp [voce, plastic]
  obtain ⟨a1, a2⟩ := key _ _ p1 (by rw [h0]; exact hs)
  obtain ⟨b1, b2⟩ := key _ _ p2 a2
  rw [h0] at a1
  have ht : ∀ x, (voce c var tau0 nye sat b).tau g i x = x var + (tau0 + nye) := fun _ => rfl
  rw [ht, ht]
  exact ⟨by linarith, by linarith, by linarith⟩

/-- C101, linear hardening: the strength never falls. -/
theorem C101_linear (c : Crys) (var : N) {tau0 nye k1 : ℝ} (hk : 0 ≤ k1) {h1 h2 : N → ℝ}
    (p : Path (linear c var tau0 nye k1) h1 h2) (g i : Nat) :
    (linear c var tau0 nye k1).tau g i h1 ≤ (linear c var tau0 nye k1).tau g i h2 := by
  have ht : ∀ x, (linear c var tau0 nye k1).tau g i x = x var + (tau0 + nye) := fun _ => rfl
  rw [ht, ht]
  induction p with
  | refl => exact le_rfl
  | step dt hdt R _ hst ih =>
    have := hst var (by simp [linear, plastic])
    simp only [linear, plastic, Function.update_self] at this
    have : 0 ≤ k1 * sumSlip c R * dt := mul_nonneg (mul_nonneg hk (sumSlip_nonneg c R)) hdt
    linarith

/-- C101, Frederick-Armstrong back strength: it never leaves the range of its saturation value. -/
theorem C101_fa {c : Crys} {vars : Nat → N} (hv : Distinct c.ntotal vars) {k sat : Nat → ℝ}
    (hk : ∀ j, 0 ≤ k j) (hs : ∀ j, 0 < sat j) {h : N → ℝ}
    (p : Path (faSlip c vars k sat) (faSlip c vars k sat).init h) {q : Nat × Nat} (hq : q ∈ c.systems) :
    |(faSlip c vars k sat).tau q.1 q.2 h| ≤ sat (c.flat q.1 q.2) := by
  change |h (vars (c.flat q.1 q.2))| ≤ _
  generalize hx : (faSlip c vars k sat).init = x at p
  induction p with
  | refl =>
    have : x (vars (c.flat q.1 q.2)) = 0 := by rw [← hx]; rfl
    rw [this, abs_zero]
    exact (hs _).le
  | @step x1 x2 dt hdt R _ hst ih =>
    have h0 := ih
    have := hst _ (own_vars hq)
    simp only [faSlip] at this
    rw [fill_apply hv _ hq] at this
    set j := c.flat q.1 q.2 with hj
    set y := x2 (vars j)
    have hsj := hs j
    have hkj := hk j
    have hR := abs_nonneg (R q.1 q.2)
    have l1 := le_abs_self (R q.1 q.2)
    have l2 := neg_abs_le (R q.1 q.2)
    rw [abs_le] at h0 ⊢
    have hc : 0 ≤ k j * dt / sat j := div_nonneg (mul_nonneg hkj hdt) hsj.le
    have e : (1 + k j * dt / sat j * |R q.1 q.2|) * y =
        x1 (vars j) + k j * dt / sat j * (sat j * R q.1 q.2) := by
      have h3 : k j * dt / sat j * (sat j * R q.1 q.2) = k j * dt * R q.1 q.2 := by field_simp
      rw [h3]
      have h4 : k j * dt / sat j * |R q.1 q.2| * y = k j * (y / sat j * |R q.1 q.2|) * dt := by field_simp
      linear_combination this + h4
    have hp : 0 < 1 + k j * dt / sat j * |R q.1 q.2| := by positivity
    have u1 : k j * dt / sat j * (sat j * R q.1 q.2) ≤ k j * dt / sat j * (sat j * |R q.1 q.2|) :=
      mul_le_mul_of_nonneg_left (mul_le_mul_of_nonneg_left l1 hsj.le) hc
    have u2 : k j * dt / sat j * (sat j * -|R q.1 q.2|) ≤ k j * dt / sat j * (sat j * R q.1 q.2) :=
      mul_le_mul_of_nonneg_left (mul_le_mul_of_nonneg_left l2 hsj.le) hc
    constructor
    · by_contra hlt
      nlinarith [mul_pos hp (sub_pos.mpr (not_le.mp hlt))]
    · by_contra hlt
      nlinarith [mul_pos hp (sub_pos.mpr (not_le.mp hlt))]

/-- C101, the model of slip and twinning: the square root of the dislocation density of a slip system stays
between its initial and its saturation value `k1 / k2`; the slip of a twin never falls. -/
theorem C101_lanl {c : Crys} {vars : Nat → N} (hv : Distinct c.ntotal vars) (ns : Nat) {tau0 mu k1 k2 : Nat → ℝ}
    {C : Nat → Nat → ℝ} {X ini : ℝ} {h1 h2 : N → ℝ} (p : Path (lanlTi c vars ns tau0 mu k1 k2 C X ini) h1 h2)
    {q : Nat × Nat} (hq : q ∈ c.systems) :
    (c.twin q.1 = true → h1 (vars (c.flat q.1 q.2)) ≤ h2 (vars (c.flat q.1 q.2))) ∧
    (c.twin q.1 = false → 0 < k2 (c.flat q.1 q.2) →
      h1 (vars (c.flat q.1 q.2)) ≤ k1 (c.flat q.1 q.2) / k2 (c.flat q.1 q.2) →
      h1 (vars (c.flat q.1 q.2)) ≤ h2 (vars (c.flat q.1 q.2)) ∧
        h2 (vars (c.flat q.1 q.2)) ≤ k1 (c.flat q.1 q.2) / k2 (c.flat q.1 q.2)) := by
  induction p with
  | refl => exact ⟨fun _ => le_rfl, fun _ _ hx => ⟨le_rfl, hx⟩⟩
  | @step x1 x2 dt hdt R _ hst ih =>
    have := hst _ (own_vars hq)
    simp only [lanlTi] at this
    rw [fill_apply hv _ hq] at this
    refine ⟨fun ht => ?_, fun ht hk2 hx => ?_⟩
    · rw [if_pos ht] at this
      have := mul_nonneg (abs_nonneg (R q.1 q.2)) hdt
      have := ih.1 ht
      linarith
    · obtain ⟨i1, i2⟩ := ih.2 ht hk2 hx
      rw [if_neg (by simp [ht])] at this
      set j := c.flat q.1 q.2
      have hdiv : k2 j * (k1 j / k2 j) = k1 j := by field_simp
      have hr := (relax (x0 := x1 (vars j)) (x1 := x2 (vars j)) (sat := k1 j / k2 j)
        (a := 0.5 * k2 j * |R q.1 q.2| * dt) (by positivity)
        (by linear_combination this - 0.5 * |R q.1 q.2| * dt * hdiv)).1 i2
      exact ⟨i1.trans hr.1, hr.2⟩

/-- C101, matrix hardening: with entries that are not negative and absolute slip rates no strength ever falls. -/
theorem C101_general {c : Crys} {vars : Nat → N} (hv : Distinct c.ntotal vars) {M : Nat → Nat → ℝ}
    (hM : ∀ i j, 0 ≤ M i j) {tau0 : Nat → ℝ} {h1 h2 : N → ℝ} (p : Path (generalLinear c vars M tau0 true) h1 h2)
    {q : Nat × Nat} (hq : q ∈ c.systems) :
    (generalLinear c vars M tau0 true).tau q.1 q.2 h1 ≤ (generalLinear c vars M tau0 true).tau q.1 q.2 h2 := by
  have ht : ∀ x, (generalLinear c vars M tau0 true).tau q.1 q.2 x = x (vars (c.flat q.1 q.2)) + tau0 (c.flat q.1 q.2) :=
    fun _ => rfl
  rw [ht, ht]
  induction p with
  | refl => exact le_rfl
  | @step x1 x2 dt hdt R _ hst ih =>
    have := hst _ (own_vars hq)
    rw [C62_general hv M tau0 true R x2 hq] at this
    have hnn : 0 ≤ (c.systems.map fun q_1 => M (c.flat q.1 q.2) (c.flat q_1.1 q_1.2) *
        (if true then |R q_1.1 q_1.2| else R q_1.1 q_1.2)).sum := by
      apply List.sum_nonneg
      intro x hx
      obtain ⟨y, -, rfl⟩ := List.mem_map.mp hx
      exact mul_nonneg (hM _ _) (by simp)
    have := mul_nonneg hnn hdt
    linarith

/-- C101, simple linear hardening: with entries that are not negative no strength ever falls. -/
theorem C101_simple {c : Crys} {vars : Nat → N} (hv : Distinct c.ntotal vars) {G : Nat → Nat → ℝ}
    (hG : ∀ i j, 0 ≤ G i j) {tau0 : Nat → ℝ} {h1 h2 : N → ℝ} (p : Path (simpleLinear c vars G tau0) h1 h2)
    (g i : Nat) : (simpleLinear c vars G tau0).tau g i h1 ≤ (simpleLinear c vars G tau0).tau g i h2 := by
  have key : ∀ j < c.ntotal, h1 (vars j) ≤ h2 (vars j) := by
    intro j hj
    obtain ⟨q, hq, rfl⟩ := flat_surj hj
    induction p with
    | refl => exact le_rfl
    | @step x1 x2 dt hdt R _ hst ih =>
      have := hst _ (own_vars hq)
      rw [(C62_simple_partial hv G tau0 x2).2 R q hq] at this
      have := mul_nonneg (abs_nonneg (R q.1 q.2)) hdt
      linarith
  have : ((List.range c.ntotal).map fun j => G i j * h1 (vars j)).sum ≤
      ((List.range c.ntotal).map fun j => G i j * h2 (vars j)).sum :=
    List.sum_le_sum fun j hj => mul_le_mul_of_nonneg_left (key j (List.mem_range.mp hj)) (hG _ _)
  simp only [simpleLinear]
  linarith

/-- C101 fails for the Voce law of each system: it is driven by the signed slip rate, so a step with backward slip
from the initial state leaves a system weaker than it was given. -/
theorem C101_per_system_softens {c : Crys} {vars : Nat → N} (hv : Distinct c.ntotal vars) {ini k sat m : Nat → ℝ}
    {q : Nat × Nat} (hq : q ∈ c.systems) (hk : 0 < k (c.flat q.1 q.2)) (hs : ini (c.flat q.1 q.2) < sat (c.flat q.1 q.2))
    {dt : ℝ} (hdt : 0 < dt) {R : Nat → Nat → ℝ} (hR : R q.1 q.2 < 0) {h : N → ℝ}
    (st : Step (vocePer c vars ini k sat m) dt R (vocePer c vars ini k sat m).init h)
    (hle : h (vars (c.flat q.1 q.2)) ≤ sat (c.flat q.1 q.2)) :
    (vocePer c vars ini k sat m).tau q.1 q.2 h < ini (c.flat q.1 q.2) := by
  change h (vars (c.flat q.1 q.2)) < _
  have := st _ (own_vars hq)
  have h0 : (vocePer c vars ini k sat m).init (vars (c.flat q.1 q.2)) = ini (c.flat q.1 q.2) := by
    simp only [vocePer]; exact fillFlat_apply hv _ (flat_lt hq)
  rw [h0] at this
  simp only [vocePer] at this
  rw [fill_apply hv _ hq] at this
  set j := c.flat q.1 q.2
  have hb : 0 ≤ 1 - (h (vars j) - ini j) / (sat j - ini j) := by
    rw [sub_nonneg, div_le_one (by linarith)]; linarith
  have hpw : 0 ≤ (1 - (h (vars j) - ini j) / (sat j - ini j)) ^ m j := Real.rpow_nonneg hb _
  by_contra hge
  push Not at hge
  have hz : k j * (1 - (h (vars j) - ini j) / (sat j - ini j)) ^ m j * R q.1 q.2 * dt ≤ 0 := by
    have := mul_nonneg (mul_nonneg (mul_nonneg hk.le hpw) (neg_nonneg.mpr hR.le)) hdt.le
    linarith
  have he : h (vars j) = ini j := by linarith
  rw [he] at this
  simp at this
  rcases this with ((h1 | h1) | h1) <;> linarith

/-- A case of `C101_per_system_softens`. -/
example : ∃ (c : Crys) (h : Nat → ℝ), (0, 0) ∈ c.systems ∧ Distinct c.ntotal (id : Nat → Nat) ∧ h 0 ≤ 2 ∧
    Step (vocePer c id (fun _ => 1) (fun _ => 1) (fun _ => 2) (fun _ => 1)) 0.5 (fun _ _ => -1)
      (vocePer c id (fun _ => 1) (fun _ => 1) (fun _ => 2) (fun _ => 1)).init h := by
  have hd : Distinct 1 (id : Nat → Nat) := fun _ _ _ _ h => h
  let c : Crys := ⟨1, fun _ => 1, fun _ => false, 0, 0, 0⟩
  have hn : c.ntotal = 1 := by simp [c, Crys.ntotal]
  have hm : (0, 0) ∈ c.systems := mem_systems.mpr ⟨by norm_num [c], by norm_num [c]⟩
  refine ⟨c, 0, hm, hn ▸ hd, by norm_num, ?_⟩
  intro a ha
  obtain ⟨q, hq, rfl⟩ := own_system ha
  obtain ⟨g, i⟩ := q
  have hgi := mem_systems.mp hq
  have hg : g = 0 := by simp only [c] at hgi; omega
  have hi : i = 0 := by simp only [c] at hgi; omega
  subst hg hi
  have h0 : (vocePer c id (fun _ => 1) (fun _ => 1) (fun _ => 2) (fun _ => 1)).init (id (c.flat 0 0)) = 1 := by
    simp only [vocePer]; exact fillFlat_apply (hn ▸ hd) _ (flat_lt hq)
  rw [h0]
  simp only [vocePer]
  rw [fill_apply (hn ▸ hd) _ hq]
  norm_num

end Neml.Slip
