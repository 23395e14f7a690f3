import Verif.Props.KinematicsWork
import Verif.Props.RotationSpin

/-!
# C104: a crystal and its load turned together

Orientation, strain and spin increments, and stress of a step are turned by the same rotation `q`.
-/

namespace Neml.Kinematics

open Matrix Neml.Mandel Neml.Rotation Neml.Slip

variable {N : Type}

/-! ## Specification -/

/-- The rates of the second model at turned stresses are the turned rates of the first. -/
def Inel.Turned (q : Quat) (m m' : Inel N) : Prop := ∀ s h,
  m'.dp (applySym q s) h = applySym q (m.dp s h) ∧ m'.rate (applySym q s) h = m.rate s h ∧
    m'.wp (applySym q s) h = applySkew q (m.wp s h)

/-- The second crystal is the first one turned. -/
def Kin.Turned (q : Quat) (k k' : Kin N) : Prop :=
  k'.C = applySymSym q k.C ∧ k'.S = applySymSym q k.S ∧ k.inel.Turned q k'.inel

/-! ## Turned tensors -/

theorem applySym_add (q : Quat) (a b : Fin 6 → ℝ) : applySym q (a + b) = applySym q a + applySym q b := by
  simp only [← mandelRot_mulVec, mulVec_add]

theorem applySym_sub (q : Quat) (a b : Fin 6 → ℝ) : applySym q (a - b) = applySym q a - applySym q b := by
  simp only [← mandelRot_mulVec, mulVec_sub]

theorem applySym_smul (q : Quat) (c : ℝ) (a : Fin 6 → ℝ) : applySym q (c • a) = c • applySym q a := by
  simp only [← mandelRot_mulVec, mulVec_smul]

theorem applySym_zero (q : Quat) : applySym q 0 = 0 := by simp only [← mandelRot_mulVec, mulVec_zero]

theorem applySym_inj {q : Quat} (hq : Unit4 q) {a b : Fin 6 → ℝ} (h : applySym q a = applySym q b) : a = b := by
  have e : ∀ v : Fin 6 → ℝ, (mandelRot (toMatrix q))ᵀ *ᵥ applySym q v = v := by
    intro v
    rw [← mandelRot_mulVec, mulVec_mulVec, mandelRot_orth hq, one_mulVec]
  rw [← e a, ← e b, h]

theorem applySym_list {α : Type} (q : Quat) (l : List α) (f : α → Fin 6 → ℝ) :
    applySym q (l.map f).sum = (l.map fun p => applySym q (f p)).sum := by
  induction l with
  | nil => simp [applySym_zero]
  | cons p l ih => simp [applySym_add, ih]

theorem applySkew_add {q : Quat} (hq : Unit4 q) (a b : Fin 3 → ℝ) :
    applySkew q (a + b) = applySkew q a + applySkew q b := by simp only [applySkew_eq hq, mulVec_add]

theorem applySkew_sub {q : Quat} (hq : Unit4 q) (a b : Fin 3 → ℝ) :
    applySkew q (a - b) = applySkew q a - applySkew q b := by simp only [applySkew_eq hq, mulVec_sub]

theorem applySkew_smul {q : Quat} (hq : Unit4 q) (c : ℝ) (a : Fin 3 → ℝ) :
    applySkew q (c • a) = c • applySkew q a := by simp only [applySkew_eq hq, mulVec_smul]

theorem applySkew_zero {q : Quat} (hq : Unit4 q) : applySkew q 0 = 0 := by simp only [applySkew_eq hq, mulVec_zero]

theorem applySkew_list {α : Type} {q : Quat} (hq : Unit4 q) (l : List α) (f : α → Fin 3 → ℝ) :
    applySkew q (l.map f).sum = (l.map fun p => applySkew q (f p)).sum := by
  induction l with
  | nil => simp [applySkew_zero hq]
  | cons p l ih => simp [applySkew_add hq, ih]

theorem uskew_inj {a b : Fin 3 → ℝ} (h : uskew a = uskew b) : a = b := by
  have e : ∀ v : Fin 3 → ℝ, skew (uskew v) = v := by
    intro v
    ext i
    fin_cases i <;> simp [skew, uskew]
  rw [← e a, ← e b, h]

theorem uskew_skewComm (e d : Fin 6 → ℝ) : uskew (skewComm e d) = usym e * usym d - usym d * usym e := by
  have h := r2_sq
  ext i j
  fin_cases i <;> fin_cases j <;>
    simp [skewComm, uskew, Lattice.skewOfFull, usym, Matrix.mul_apply, Fin.sum_univ_three, div_r2, Lattice.half_eq] <;>
    grind

theorem conj_mul_conj {M A B : Matrix (Fin 3) (Fin 3) ℝ} (hM : Mᵀ * M = 1) :
    (M * A * Mᵀ) * (M * B * Mᵀ) = M * (A * B) * Mᵀ := by
  calc _ = M * A * (Mᵀ * M) * B * Mᵀ := by simp only [Matrix.mul_assoc]
    _ = _ := by rw [hM, Matrix.mul_one]; simp only [Matrix.mul_assoc]

theorem symComm_turn {q : Quat} (hq : Unit4 q) (e : Fin 6 → ℝ) (O : Fin 3 → ℝ) :
    symComm (applySym q e) (applySkew q O) = applySym q (symComm e O) := by
  apply usym_inj
  have ho : (toMatrix q)ᵀ * toMatrix q = 1 := mul_eq_one_comm.mp (toMatrix_SO3 hq).1
  rw [usym_symComm, applySkew_eq hq, uskew_mulVec (toMatrix_SO3 hq), applySym_eq, applySym_eq, Flow.usym_rot,
    Flow.usym_rot, usym_symComm, conj_mul_conj ho, conj_mul_conj ho, Matrix.mul_sub, Matrix.sub_mul]

theorem skewComm_turn {q : Quat} (hq : Unit4 q) (e d : Fin 6 → ℝ) :
    skewComm (applySym q e) (applySym q d) = applySkew q (skewComm e d) := by
  apply uskew_inj
  have ho : (toMatrix q)ᵀ * toMatrix q = 1 := mul_eq_one_comm.mp (toMatrix_SO3 hq).1
  rw [uskew_skewComm, applySkew_eq hq, uskew_mulVec (toMatrix_SO3 hq), applySym_eq, applySym_eq, Flow.usym_rot,
    Flow.usym_rot, uskew_skewComm, conj_mul_conj ho, conj_mul_conj ho, Matrix.mul_sub, Matrix.sub_mul]

/-! ## Rates and steps -/

/-- C104, rates: the stress rate and the spin of the turned crystal are the turned ones. -/
theorem C104_rates {q : Quat} (hq : Unit4 q) {k k' : Kin N} (hk : k.Turned q k') (w : Fin 3 → ℝ) (s d : Fin 6 → ℝ)
    (h : N → ℝ) :
    k'.stressRate (applySkew q w) (applySym q s) (applySym q d) h = applySym q (k.stressRate w s d h) ∧
      k'.spin (applySym q s) (applySkew q w) h = applySkew q (k.spin s w h) := by
  obtain ⟨hC, hS, hi⟩ := hk
  obtain ⟨h1, -, h3⟩ := hi s h
  have cc := fun C a => (C55_compact hq a 0 C).2.2.2.2
  constructor
  · rw [Kin.stressRate, Kin.stressRate, hC, hS, h1, h3, cc, ← applySkew_add hq, symComm_turn hq, ← applySym_sub,
      ← applySym_sub, cc]
  · rw [Kin.spin, Kin.spin, hS, h1, h3, cc, skewComm_turn hq, ← applySkew_sub hq, ← applySkew_sub hq]

/-- C104, step: a stress and a history solve a step of a crystal just if the turned stress and the same history solve
the turned step of the turned crystal. -/
theorem C104_step {q : Quat} (hq : Unit4 q) {k k' : Kin N} (hk : k.Turned q k') (D1 D0 : Fin 6 → ℝ) (W1 W0 : Fin 3 → ℝ)
    (dt f : ℝ) (Sn s0 : Fin 6 → ℝ) (hn : N → ℝ) (s : Fin 6 → ℝ) (h : N → ℝ) :
    Solution k' (substep k' (applySym q D1) (applySym q D0) (applySkew q W1) (applySkew q W0) dt f (applySym q Sn) hn
      (applySym q s0)) (applySym q s) h ↔ Solution k (substep k D1 D0 W1 W0 dt f Sn hn s0) s h := by
  have e1 : resS k' (substep k' (applySym q D1) (applySym q D0) (applySkew q W1) (applySkew q W0) dt f (applySym q Sn) hn
      (applySym q s0)) (applySym q s) h = applySym q (resS k (substep k D1 D0 W1 W0 dt f Sn hn s0) s h) := by
    simp only [resS, substep]
    rw [← applySkew_sub hq, ← applySkew_smul hq, ← applySym_sub q D1, ← applySym_smul, (C104_rates hq hk _ s0 0 hn).2,
      (C104_rates hq hk _ s _ h).1, ← applySym_smul, ← applySym_sub, ← applySym_sub]
  have e2 : resH k' (substep k' (applySym q D1) (applySym q D0) (applySkew q W1) (applySkew q W0) dt f (applySym q Sn) hn
      (applySym q s0)) (applySym q s) h = resH k (substep k D1 D0 W1 W0 dt f Sn hn s0) s h := by
    funext a
    simp only [resH, substep, (hk.2.2 s h).2.1]
  rw [Solution, Solution, e1, e2]
  refine and_congr_left fun _ => ⟨fun hz => ?_, fun hz => ?_⟩
  · exact applySym_inj hq (by rw [hz, applySym_zero])
  · rw [hz, applySym_zero]

theorem spinQuat_turn' {q : Quat} (hq : Unit4 q) (w : Fin 3 → ℝ) (t : ℝ) :
    qmul (spinQuat (applySkew q w) t) q = qmul q (spinQuat w t) := by
  have hn : norm3 (applySkew q w) = norm3 w := by
    have h := (C55_invariants hq 0 0 w w 0 0).2.2.1
    simp only [dotProduct, Fin.sum_univ_three] at h
    rw [norm3, norm3, h]
  simp only [spinQuat, hn]
  generalize Real.sin (t * norm3 w / 2) / norm3 w = f
  generalize Real.cos (t * norm3 w / 2) = c
  rw [applySkew_eq hq]
  unfold Unit4 at hq
  ext <;> simp [qmul, toMatrix, mulVec, dotProduct, Fin.sum_univ_succ] <;> grind

/-- C104, orientation: where the spin over the step is not zero, the new orientation of the turned crystal is the
turned new orientation. (For zero spin the update is wrong in any frame, see C53.) -/
theorem C104_orientation_partial {q : Quat} (hq : Unit4 q) {k k' : Kin N} (hk : k.Turned q k') (w : Fin 3 → ℝ)
    (s : Fin 6 → ℝ) (h : N → ℝ) (Q : Quat) {dt : ℝ} (hdt : dt ≠ 0) (hs : k.spin s w h ≠ 0) :
    updateRot (k'.spin (applySym q s) (applySkew q w) h) dt (qmul q Q) = qmul q (updateRot (k.spin s w h) dt Q) := by
  rw [(C104_rates hq hk w s 0 h).2]
  have hs' : applySkew q (k.spin s w h) ≠ 0 := by
    intro hz
    apply hs
    have := (C55_invariants hq 0 0 (k.spin s w h) (k.spin s w h) 0 0).2.2.1
    rw [hz, zero_dotProduct] at this
    exact dotProduct_self_eq_zero.1 this.symm
  rw [updateRot, updateRot, wexp_smul hs' hdt, wexp_smul hs hdt, ← qmul_assoc, spinQuat_turn' hq, qmul_assoc]

/-! ## Which crystals turn -/

theorem noInel_turned {q : Quat} (hq : Unit4 q) : (noInel : Inel N).Turned q noInel := by
  intro s h
  simp only [noInel, Pi.zero_apply]
  exact ⟨(applySym_zero q).symm, trivial, (applySkew_zero hq).symm⟩

theorem dev_turn {q : Quat} (hq : Unit4 q) (s : Fin 6 → ℝ) : dev (applySym q s) = applySym q (dev s) := by
  have ht := (C55_invariants hq s 0 0 0 0 0).2.1
  have hd : applySym q ![1, 1, 1, 0, 0, 0] = ![1, 1, 1, 0, 0, 0] := by
    rw [applySym_eq]; exact Elastic.rot_delta _ (toMatrix_SO3 hq).1
  rw [dev, dev, ht, applySym_sub, applySym_smul, hd]

theorem seq_turn {q : Quat} (hq : Unit4 q) (s : Fin 6 → ℝ) : seq (applySym q s) = seq s := by
  rw [seq, seq, dev_turn hq, (C55_invariants hq (dev s) (dev s) 0 0 0 0).1]

theorem powerInel_turned {q : Quat} (hq : Unit4 q) (A n eps : ℝ) :
    (powerInel A n eps : Inel N).Turned q (powerInel A n eps) := by
  intro s h
  refine ⟨?_, rfl, (applySkew_zero hq).symm⟩
  simp only [powerInel, seq_turn hq, dev_turn hq]
  split_ifs
  · exact (applySym_zero q).symm
  · rw [applySym_smul]

theorem combined_turned {q : Quat} (hq : Unit4 q) (ms : List (Inel N × Inel N)) (h : ∀ m ∈ ms, m.1.Turned q m.2) :
    (combined (ms.map Prod.fst)).Turned q (combined (ms.map Prod.snd)) := by
  intro s y
  simp only [combined, List.map_map, Function.comp_def, applySym_list, applySkew_list hq]
  refine ⟨?_, ?_, ?_⟩ <;> congr 1 <;> refine List.map_congr_left fun m hm => ?_
  · exact (h m hm s y).1
  · exact (h m hm s y).2.1
  · exact (h m hm s y).2.2

theorem ofLat_turn {q Q : Quat} (hq : Unit4 q) (hQ : Unit4 Q) (L : Lattice.Lat) (b : Nat → Nat → ℝ) (g i : Nat) :
    (Crys.ofLat L (qmul q Q) b).M g i = applySym q ((Crys.ofLat L Q b).M g i) ∧
      (Crys.ofLat L (qmul q Q) b).W g i = applySkew q ((Crys.ofLat L Q b).W g i) := by
  simp only [Crys.ofLat]
  cases Lattice.system L g i with
  | none => exact ⟨(applySym_zero q).symm, (applySkew_zero hq).symm⟩
  | some sy =>
    simp only [Option.map_some, Option.getD_some, Lattice.schmid]
    obtain ⟨-, -, h3, h4, -, -⟩ := C55_compose hq hQ 0 (Lattice.skewOfFull (Lattice.outer sy.dir sy.normal))
      (symOfFull (Lattice.outer sy.dir sy.normal)) 0 0 0
    exact ⟨h3, h4⟩

theorem ofLat_same (q Q : Quat) (L : Lattice.Lat) (b : Nat → Nat → ℝ) :
    (Crys.ofLat L q b).systems = (Crys.ofLat L Q b).systems ∧ (Crys.ofLat L q b).twin = (Crys.ofLat L Q b).twin := by
  simp only [Crys.systems, Crys.ofLat, and_self]

/-- C104, slip: the slip rates of a lattice at a turned orientation under the turned stress are the same. -/
theorem C104_slip [DecidableEq N] {m : Nat} {q Q : Quat} (hq : Unit4 q) (hQ : Unit4 Q) (L : Lattice.Lat)
    (b : Nat → Nat → ℝ) (r : Rule N m) (s : Fin 6 → ℝ) (h : N → ℝ) :
    r.slip (Crys.ofLat L (qmul q Q) b) (applySym q s) h = r.slip (Crys.ofLat L Q b) s h := by
  funext g i
  have e : (Crys.ofLat L (qmul q Q) b).shear g i (applySym q s) = (Crys.ofLat L Q b).shear g i s := by
    rw [Crys.shear, Crys.shear, (ofLat_turn hq hQ L b g i).1, (C55_invariants hq _ s 0 0 0 0).1]
  have ht : (Crys.ofLat L (qmul q Q) b).twin g = (Crys.ofLat L Q b).twin g := rfl
  rw [Rule.slip, Rule.slip, e, ht]

theorem asaro_turned [DecidableEq N] {m : Nat} {q Q : Quat} (hq : Unit4 q) (hQ : Unit4 Q) (L : Lattice.Lat)
    (b : Nat → Nat → ℝ) (r : Rule N m) :
    (asaro (Crys.ofLat L Q b) r).Turned q (asaro (Crys.ofLat L (qmul q Q) b) r) := by
  intro s h
  have hs := C104_slip hq hQ L b r s h
  obtain ⟨hsys, ht⟩ := ofLat_same (qmul q Q) Q L b
  refine ⟨?_, ?_, ?_⟩
  · simp only [asaro, applySym_list, hs, hsys, (ofLat_turn hq hQ L b _ _).1, applySym_smul]
  · funext a
    simp only [asaro, Rule.rate, hs]
  · simp only [asaro, applySkew_list hq, hs, hsys, ht, (ofLat_turn hq hQ L b _ _).2]
    congr 1
    refine List.map_congr_left fun p _ => ?_
    split_ifs
    · exact (applySkew_zero hq).symm
    · rw [applySkew_smul hq]

/-- elasticity.cxx:31-39, cp/kinematics.cxx: the crystal of a lattice at an orientation. -/
noncomputable def crystal [DecidableEq N] {m : Nat} (L : Lattice.Lat) (b : Nat → Nat → ℝ) (r : Rule N m)
    (C S : Matrix (Fin 6) (Fin 6) ℝ) (Q : Quat) : Kin N :=
  ⟨applySymSym Q C, applySymSym Q S, asaro (Crys.ofLat L Q b) r⟩

/-- C104, crystals: a crystal at a turned orientation is the crystal turned, for every lattice, stiffness and slip
rule. -/
theorem C104_crystal [DecidableEq N] {m : Nat} {q Q : Quat} (hq : Unit4 q) (hQ : Unit4 Q) (L : Lattice.Lat)
    (b : Nat → Nat → ℝ) (r : Rule N m) (C S : Matrix (Fin 6) (Fin 6) ℝ) :
    (crystal L b r C S Q).Turned q (crystal L b r C S (qmul q Q)) :=
  ⟨(C55_compose hq hQ 0 0 0 0 C 0).2.2.2.2.1, (C55_compose hq hQ 0 0 0 0 S 0).2.2.2.2.1, asaro_turned hq hQ L b r⟩

/-- The hardening of a lattice does not look at its orientation. -/
example (L : Lattice.Lat) (b : Nat → Nat → ℝ) (q Q : Quat) (tau0 nye sat k : ℝ) :
    (voce (Crys.ofLat L (qmul q Q) b) () tau0 nye sat k : Hard Unit) = voce (Crys.ofLat L Q b) () tau0 nye sat k := by
  simp only [voce, plastic, sumSlip, dSumSlip, (ofLat_same (qmul q Q) Q L b).1]

/-- A turn about the first axis is one of the rotations, and a crystal with unit stiffness and no slip can be turned. -/
example : Unit4 ⟨3 / 5, 4 / 5, 0, 0⟩ := by norm_num [Unit4]

end Neml.Kinematics
