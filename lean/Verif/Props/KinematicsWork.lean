import Verif.Props.KinematicsInel
import Verif.Props.LatticeExact

/-!
# C102: tangents of divided steps; C103: dissipation and volume of crystal flow
-/

namespace Neml.Kinematics

open Matrix Filter Topology Neml.Mandel Neml.Rotation Neml.Slip
open Neml.Damage (Moves)

variable {N : Type}

/-! ## Tangents of divided steps -/

/-- The reported tangent lacks the fraction of the step the last substep covers, so after a division it is wrong
whenever the stress changes at all. -/
theorem C102_divided [Fintype N] [DecidableEq N] (k : Kin N) (D : ℝ → Fin 6 → ℝ) (W : ℝ → Fin 3 → ℝ) (D0 : Fin 6 → ℝ)
    (W0 : Fin 3 → ℝ) (dt f : ℝ) (hdt : dt ≠ 0) (hf : f ≠ 1) (Sn s0 : Fin 6 → ℝ) (hn : N → ℝ) (s : ℝ → Fin 6 → ℝ)
    (h : ℝ → N → ℝ) (t0 : ℝ)
    (hsol : ∀ᶠ t in 𝓝 t0, Solution k (substep k (D t) D0 (W t) W0 dt f Sn hn s0) (s t) (h t))
    (D' s' : Fin 6 → ℝ) (W' : Fin 3 → ℝ) (h' : N → ℝ) (hD : Moves D D' t0) (hW : Moves W W' t0) (hs : Moves s s' t0)
    (hh : Moves h h' t0) (hr : k.inel.Right (s t0) (h t0))
    (h22 : (J22 k (substep k (D t0) D0 (W t0) W0 dt f Sn hn s0) (s t0) (h t0)).det ≠ 0)
    (hsc : (schur k (substep k (D t0) D0 (W t0) W0 dt f Sn hn s0) (s t0) (h t0)).det ≠ 0) (hne : s' ≠ 0) :
    s' ≠ tangentA k (substep k (D t0) D0 (W t0) W0 dt f Sn hn s0) (s t0) (h t0) *ᵥ D' +
      tangentB k (substep k (D t0) D0 (W t0) W0 dt f Sn hn s0) (s t0) (h t0) *ᵥ W' := by
  intro he
  have := C102_substep k D W D0 W0 dt f hdt Sn s0 hn s h t0 hsol D' s' W' h' hD hW hs hh hr h22 hsc
  rw [← he] at this
  apply hne
  have h1 : (1 - f) • s' = 0 := by rw [sub_smul, one_smul, sub_eq_zero]; exact this
  exact (smul_eq_zero.1 h1).resolve_left (sub_ne_zero.2 hf.symm)

/-- An elastic crystal with unit stiffness. -/
noncomputable def plain : Kin Empty := ⟨1, 1, noInel⟩

theorem plain_rate (s d : Fin 6 → ℝ) (w : Fin 3 → ℝ) (h : Empty → ℝ) (hw : w = 0) :
    plain.stressRate w s d h = d := by
  have : plain.inel.wp s h = 0 := rfl
  have h2 : plain.inel.dp s h = 0 := rfl
  have h3 : plain.C = 1 := rfl
  rw [Kin.stressRate, this, h2, hw, add_zero, symComm_zero_right, h3, one_mulVec, sub_zero, sub_zero]

theorem plain_spin (s : Fin 6 → ℝ) (h : Empty → ℝ) : plain.spin s 0 h = 0 := by
  have : plain.inel.wp s h = 0 := rfl
  have h2 : plain.inel.dp s h = 0 := rfl
  have h3 : usym (0 : Fin 6 → ℝ) = 0 := by ext i j; fin_cases i <;> fin_cases j <;> simp [usym]
  rw [Kin.spin, this, h2, skewComm, h3]
  ext i
  fin_cases i <;> simp [Lattice.skewOfFull]

theorem plain_schur (st : Step Empty) (s : Fin 6 → ℝ) (h : Empty → ℝ) (hw : st.espin = 0) : schur plain st s h = 1 := by
  have h0 : symSymSkew (1 : Matrix (Fin 6) (Fin 6) ℝ) 0 = 0 := by
    apply Matrix.ext_of_mulVec_single
    intro i
    rw [symSymSkew_mulVec, symComm_zero_right, zero_mulVec]
  have h1 : symSkewSym ((1 : Matrix (Fin 6) (Fin 6) ℝ) *ᵥ s) 0 = 0 := by
    apply Matrix.ext_of_mulVec_single
    intro i
    rw [symSkewSym_mulVec, zero_mulVec, symComm_zero_right, zero_mulVec]
  have e : plain.stressRateS st.espin s h = 0 := by
    have a1 : plain.inel.wp s h = 0 := rfl
    have a2 : plain.inel.dpS s h = 0 := rfl
    have a3 : plain.inel.wpS s h = 0 := rfl
    have a4 : plain.S = 1 := rfl
    rw [Kin.stressRateS, a1, a2, a3, a4, hw, add_zero, h0, h1]
    simp
  rw [schur, J11, e]
  have : J12 plain st s h * (J22 plain st s h)⁻¹ * J21 plain st s h = 0 := by
    ext i j
    simp [Matrix.mul_apply]
  rw [this]
  simp

/-- A step in two halves meets all that is asked above, and an undivided one all that `C102_tangent` asks: the tangent
is the stiffness for both, the stress of the divided one grows at half of it. -/
theorem C102_case (f : ℝ) (u : Fin 6 → ℝ) :
    (∀ t : ℝ, Solution plain (substep plain (t • u) 0 0 0 1 f 0 (fun _ => 0) 0) ((f * t) • u) fun _ => 0) ∧
    Moves (fun t : ℝ => (f * t) • u) (f • u) 0 ∧
    (∀ t : ℝ, (schur plain (substep plain (t • u) 0 0 0 1 f 0 (fun _ => 0) 0) ((f * t) • u) fun _ => 0).det ≠ 0) ∧
    (J22 plain (substep plain ((0 : ℝ) • u) 0 0 0 1 f 0 (fun _ => 0) 0) ((f * 0) • u) fun _ => 0).det ≠ 0 ∧
    tangentA plain (substep plain ((0 : ℝ) • u) 0 0 0 1 f 0 (fun _ => 0) 0) ((f * 0) • u) (fun _ => 0) *ᵥ u = u := by
  have hsp : ∀ t : ℝ, (substep plain (t • u) 0 0 0 1 f 0 (fun _ => 0) 0).espin = 0 := by
    intro t
    simp only [substep, sub_self, smul_zero]
    exact plain_spin _ _
  refine ⟨fun t => ⟨?_, by ext a; exact a.elim⟩, fun i => ?_, fun t => ?_, ?_, ?_⟩
  · rw [resS, plain_rate _ _ _ _ (hsp t)]
    simp [substep, smul_smul]
  · simpa [mul_comm, mul_left_comm] using (((hasDerivAt_id (0 : ℝ)).const_mul f).mul_const (u i))
  · rw [plain_schur _ _ _ (hsp t)]
    simp
  · simp
  · rw [tangentA, plain_schur _ _ _ (hsp 0)]
    have : plain.stressRateD = 1 := rfl
    rw [this]
    simp

/-! ## Specification of dissipation -/

/-- Plastic flow never gives work back, and keeps the volume. -/
def Dissipative (m : Inel N) (s : Fin 6 → ℝ) (h : N → ℝ) : Prop := 0 ≤ m.dp s h ⬝ᵥ s

def KeepsVolume (m : Inel N) (s : Fin 6 → ℝ) (h : N → ℝ) : Prop := (usym (m.dp s h)).trace = 0

theorem usym_trace (v : Fin 6 → ℝ) : (usym v).trace = v 0 + v 1 + v 2 := by
  simp [usym, trace, Fin.sum_univ_three]

/-- C103: the plastic work of slip is the sum over the systems of resolved shear times slip rate, whatever the rule. -/
theorem C103_work [DecidableEq N] {m : Nat} (c : Crys) (r : Rule N m) (s : Fin 6 → ℝ) (h : N → ℝ) :
    (asaro c r).dp s h ⬝ᵥ s = (c.systems.map fun p => c.shear p.1 p.2 s * r.slip c s h p.1 p.2).sum := by
  simp only [asaro, list_dot, smul_dotProduct, smul_eq_mul, Crys.shear]
  congr 1
  exact List.map_congr_left fun p _ => mul_comm _ _

theorem list_nonneg {α : Type} (l : List α) (f : α → ℝ) (h : ∀ p ∈ l, 0 ≤ f p) : 0 ≤ (l.map f).sum :=
  List.sum_nonneg (by simpa using h)

/-- C103, slip: a crystal that slips by the power law with positive strengths dissipates. -/
theorem C103_slip [DecidableEq N] (hard : Hard N) {g0 n : ℝ} (hg : 0 ≤ g0) (c : Crys) (s : Fin 6 → ℝ) (h : N → ℝ)
    (h0 : ∀ g < c.ngroup, 0 < hard.tau g 0 h) : Dissipative (asaro c (powerLaw hard g0 n)) s h := by
  rw [Dissipative, C103_work]
  refine list_nonneg _ _ fun p hp => (C100_power hard hg c s h p.1 p.2 (h0 p.1 ?_)).1
  simp only [Crys.systems, List.mem_flatMap, List.mem_map, List.mem_range] at hp
  obtain ⟨g, hgr, i, -, rfl⟩ := hp
  exact hgr

/-- With a back stress the power law dissipates at least what the back stresses take up. -/
theorem C103_slip_back [DecidableEq N] (back iso flow : Hard N) {g0 n : ℝ} (c : Crys) (s : Fin 6 → ℝ) (h : N → ℝ) :
    (c.systems.map fun p => back.tau p.1 0 h * (kinematicPowerLaw back iso flow g0 n).slip c s h p.1 p.2).sum ≤
      (asaro c (kinematicPowerLaw back iso flow g0 n)).dp s h ⬝ᵥ s := by
  rw [C103_work]
  refine List.sum_le_sum fun p _ => ?_
  have := (C100_kinematic back iso flow (g0 := g0) (n := n) c s h p.1 p.2).1
  rw [sub_mul] at this
  linarith

/-- C103, power law inelasticity. -/
theorem C103_power {A n eps : ℝ} (hA : 0 ≤ A) (s : Fin 6 → ℝ) (h : N → ℝ) :
    Dissipative (powerInel A n eps : Inel N) s h ∧ KeepsVolume (powerInel A n eps : Inel N) s h := by
  constructor
  · simp only [Dissipative, powerInel]
    split_ifs
    · simp
    · rw [smul_dotProduct, ← dev_dot]
      have h1 : 0 ≤ dev s ⬝ᵥ dev s := by
        simp only [dotProduct]
        exact Finset.sum_nonneg fun i _ => mul_self_nonneg _
      have h2 : 0 ≤ A * seq s ^ (n - 1) := mul_nonneg hA (Real.rpow_nonneg (seq_nonneg s) _)
      exact mul_nonneg h2 h1
  · simp only [KeepsVolume, powerInel, usym_trace]
    split_ifs
    · simp
    · have := dev_trace s
      simp only [Pi.smul_apply, smul_eq_mul, ← mul_add, this, mul_zero]

/-- C103, combinations: the dissipation of a combination is the sum over its parts, and so is the change of volume. -/
theorem C103_combined (ms : List (Inel N)) (s : Fin 6 → ℝ) (h : N → ℝ) :
    (combined ms).dp s h ⬝ᵥ s = (ms.map fun m => m.dp s h ⬝ᵥ s).sum ∧
      ((∀ m ∈ ms, Dissipative m s h) → Dissipative (combined ms) s h) ∧
      ((∀ m ∈ ms, KeepsVolume m s h) → KeepsVolume (combined ms) s h) := by
  have e : (combined ms).dp s h ⬝ᵥ s = (ms.map fun m => m.dp s h ⬝ᵥ s).sum := by simp only [combined, list_dot]
  refine ⟨e, fun hm => ?_, fun hm => ?_⟩
  · rw [Dissipative, e]
    exact list_nonneg _ _ hm
  · have : ∀ l : List (Inel N), (∀ m ∈ l, KeepsVolume m s h) →
        (l.map fun m => m.dp s h).sum 0 + (l.map fun m => m.dp s h).sum 1 + (l.map fun m => m.dp s h).sum 2 = 0 := by
      intro l
      induction l with
      | nil => intro; simp
      | cons m l ih =>
        intro hl
        have h1 := hl m (List.mem_cons_self ..)
        rw [KeepsVolume, usym_trace] at h1
        have h2 := ih fun m hm => hl m (List.mem_cons_of_mem _ hm)
        simp only [List.map_cons, List.sum_cons, Pi.add_apply]
        linarith
    rw [KeepsVolume, usym_trace]
    exact this ms hm

/-- C103, volume: slip of a lattice whose directions lie in their planes keeps the volume, at every orientation. -/
theorem C103_volume [DecidableEq N] {m : Nat} (L : Lattice.Lat) {Q : Quat} (hQ : Unit4 Q) (b : Nat → Nat → ℝ)
    (hperp : ∀ g i sy, Lattice.system L g i = some sy → sy.dir ⬝ᵥ sy.normal = 0) (r : Rule N m) (s : Fin 6 → ℝ)
    (h : N → ℝ) : KeepsVolume (asaro (Crys.ofLat L Q b) r) s h := by
  set c := Crys.ofLat L Q b with hc
  have hM : ∀ g i, c.M g i 0 + c.M g i 1 + c.M g i 2 = 0 := by
    intro g i
    simp only [hc, Crys.ofLat]
    cases e : Lattice.system L g i with
    | none => simp
    | some sy =>
      simp only [Option.map_some, Option.getD_some]
      rw [(Lattice.C59_schmid hQ sy 0 0).2.2.2.1, hperp g i sy e]
  rw [KeepsVolume, usym_trace]
  simp only [asaro, list_sum_apply]
  rw [list_add, list_add]
  have : ∀ p ∈ c.systems, (r.slip c s h p.1 p.2 • c.M p.1 p.2) 0 + (r.slip c s h p.1 p.2 • c.M p.1 p.2) 1 +
      (r.slip c s h p.1 p.2 • c.M p.1 p.2) 2 = 0 := by
    intro p _
    simp only [Pi.smul_apply, smul_eq_mul, ← mul_add, hM, mul_zero]
  rw [List.map_congr_left this]
  simp

/-- The octahedral systems of a cubic lattice are a case. -/
theorem C103_volume_cubic [DecidableEq N] {m : Nat} {a : ℝ} (ha : 0 < a) : ∃ L : Lattice.Lat,
    (∃ sy, Lattice.system L 0 0 = some sy) ∧ ∀ Q, Unit4 Q → ∀ (b : Nat → Nat → ℝ) (r : Rule N m) s (h : N → ℝ),
      KeepsVolume (asaro (Crys.ofLat L Q b) r) s h := by
  obtain ⟨ops, L', hops, hv, hadd, hb, hsys⟩ := Lattice.C59_case ha
  refine ⟨L', hsys, fun Q hQ b r s h => C103_volume L' hQ b (fun g i sy hsy => ?_) r s h⟩
  have hg : g = Lattice.ngroup Lattice.empty := by
    have hadd' := hadd
    simp only [Lattice.addSlip, Option.bind_eq_some_iff, Option.map_eq_some_iff] at hadd'
    obtain ⟨bv, -, nv, -, rfl⟩ := hadd'
    rw [Lattice.addGroup] at hsy
    split_ifs at hsy
    · simp [Lattice.system, Lattice.empty] at hsy
    · by_contra hne
      have : 1 ≤ g := Nat.one_le_iff_ne_zero.2 hne
      simp only [Lattice.system, Lattice.empty, List.nil_append] at hsy
      rw [List.getElem?_eq_none (by simpa using this)] at hsy
      simp at hsy
  subst hg
  exact (Lattice.C59_exact hv (Lattice.C59_cubic a hops) (Lattice.dirOf_whole _).1 hadd hb hsy).1

end Neml.Kinematics
