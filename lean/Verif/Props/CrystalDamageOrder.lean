import Verif.Props.CrystalDamage
import Verif.Props.CrystalDamageMap
import Verif.Props.KinematicsFrame

/-!
# C111: names, order and orientation of the planes
-/

namespace Neml.CrystalDamage

open Matrix Neml.Mandel Neml.Rotation Neml.Slip Neml.Kinematics

/-- C111, sign: a plane has two unit normals and either gives the same projection. -/
theorem C111_sign (ds dn : ℝ) (n : Fin 3 → ℝ) : factor ds dn (-n) = factor ds dn n := by
  have h1 : normalSS (-n) = normalSS n := by
    ext i j
    fin_cases i <;> fin_cases j <;> simp [normalSS]
  have h2 : shearSS (-n) = shearSS n := by
    ext i j
    fin_cases i <;> fin_cases j <;> simp [shearSS]
  rw [factor, factor, h1, h2]

theorem usym_symm (s : Fin 6 → ℝ) : (usym s)ᵀ = usym s := by
  ext i j
  fin_cases i <;> fin_cases j <;> rfl

/-- C111, order: planes that are perpendicular may be taken in either order. -/
theorem C111_perpendicular {n m : Fin 3 → ℝ} (hnm : n ⬝ᵥ m = 0) (a b a' b' : ℝ) :
    factor a b n * factor a' b' m = factor a' b' m * factor a b n := by
  have key : ∀ {n m : Fin 3 → ℝ}, n ⬝ᵥ m = 0 → ∀ s : Fin 6 → ℝ,
      usym (shearSS n *ᵥ (shearSS m *ᵥ s)) = (n ⬝ᵥ usym s *ᵥ m) • (vecMulVec m n + vecMulVec n m) ∧
      usym (normalSS n *ᵥ (normalSS m *ᵥ s)) = 0 ∧ usym (normalSS n *ᵥ (shearSS m *ᵥ s)) = 0 ∧
      usym (shearSS n *ᵥ (normalSS m *ᵥ s)) = 0 := by
    intro n m h s
    have hmn : m ⬝ᵥ n = 0 := by rw [dotProduct_comm, h]
    have hs : traction (shearPart m (usym s)) n = (n ⬝ᵥ usym s *ᵥ m) • m := by
      rw [traction, shearPart, add_mulVec, vmv, vmv, hmn, zero_smul, zero_add, shearTraction, normalTraction, traction,
        sub_dotProduct, smul_dotProduct, hmn, dotProduct_comm (usym s *ᵥ m) n]
      simp
    have hn : traction (normalPart m (usym s)) n = 0 := by rw [traction, normalPart, vmv, hmn, zero_smul]
    have z : ∀ v : Fin 3 → ℝ, vecMulVec (0 : Fin 3 → ℝ) v = 0 ∧ vecMulVec v (0 : Fin 3 → ℝ) = 0 := by
      intro v
      constructor <;> ext i j <;> simp [vecMulVec_apply]
    refine ⟨?_, ?_, ?_, ?_⟩
    · rw [usym_shearSS, usym_shearSS, shearPart, shearTraction, normalTraction, hs, dotProduct_smul, h, smul_zero, zero_smul,
        sub_zero, smul_add]
      ext i j
      simp only [Matrix.add_apply, vecMulVec_apply, Pi.smul_apply, Matrix.smul_apply, smul_eq_mul]
      ring
    · rw [usym_normalSS, usym_normalSS, normalPart, normalTraction, hn, dotProduct_zero, zero_smul]
      exact (z n).1
    · rw [usym_normalSS, usym_shearSS, normalPart, normalTraction, hs, dotProduct_smul, h, smul_zero, zero_smul]
      exact (z n).1
    · rw [usym_shearSS, usym_normalSS, shearPart, shearTraction, normalTraction, hn, dotProduct_zero, zero_smul, sub_zero,
        (z n).1, (z n).2, add_zero]
  have hmn : m ⬝ᵥ n = 0 := by rw [dotProduct_comm, hnm]
  have c1 : shearSS n * shearSS m = shearSS m * shearSS n := by
    refine mat_ext fun s => ?_
    rw [← mulVec_mulVec, ← mulVec_mulVec, (key hnm s).1, (key hmn s).1, add_comm]
    congr 1
    rw [dotProduct_mulVec, ← mulVec_transpose, usym_symm, dotProduct_comm]
  have z0 : ∀ (A B : Matrix (Fin 6) (Fin 6) ℝ), (∀ s, usym (A *ᵥ (B *ᵥ s)) = 0) → A * B = 0 := by
    intro A B h
    refine mat_ext fun s => ?_
    rw [← mulVec_mulVec, h, zero_mulVec]
    ext i j
    fin_cases i <;> fin_cases j <;> simp [usym]
  have c2 := z0 _ _ fun s => (key hnm s).2.1
  have c3 := z0 _ _ fun s => (key hmn s).2.1
  have c4 := z0 _ _ fun s => (key hnm s).2.2.1
  have c5 := z0 _ _ fun s => (key hmn s).2.2.1
  have c6 := z0 _ _ fun s => (key hnm s).2.2.2
  have c7 := z0 _ _ fun s => (key hmn s).2.2.2
  rw [factor, factor]
  simp only [Matrix.sub_mul, Matrix.mul_sub, Matrix.smul_mul, Matrix.mul_smul, Matrix.one_mul, Matrix.mul_one, c1, c2, c3,
    c4, c5, c6, c7, smul_zero, sub_zero]
  module

/-- Two of the axes. -/
example : (![1, 0, 0] : Fin 3 → ℝ) ⬝ᵥ ![0, 1, 0] = 0 := by simp [dotProduct, Fin.sum_univ_three]

/-- The planes of a crystal with other numbers. -/
def Planes.relabel {p : Nat} (pl : Planes p) (e : Fin p ≃ Fin p) : Planes p := ⟨pl.normal ∘ e, pl.systems ∘ e⟩

/-- C111, order of other planes: with two planes that are not perpendicular, half damaged, the projection depends on which
of them has the number zero. -/
theorem C111_disagreement {N : Type} [DecidableEq N] {m : Nat} (c : Crys) (r : Rule N m) :
    ∃ (pl : Planes 2) (e : Fin 2 ≃ Fin 2), (∀ i, pl.normal i ⬝ᵥ pl.normal i = 1) ∧ ∀ s,
      (planar c r (pl.relabel e) (sigmoid 1 1 1) (sigmoid 1 1 1) workPlane).proj s (fun _ => 1 / 2) ≠
        (planar c r pl (sigmoid 1 1 1) (sigmoid 1 1 1) workPlane).proj s (fun _ => 1 / 2) := by
  refine ⟨⟨![![1, 0, 0], ![3 / 5, 4 / 5, 0]], fun _ => []⟩, Equiv.swap 0 1, ?_, fun s h => ?_⟩
  · intro i
    fin_cases i <;> simp [dotProduct, Fin.sum_univ_three] <;> norm_num
  · have hm : ∀ ns, (sigmoid 1 1 1).map (1 / 2) ns = 1 / 2 := by
      intro ns
      norm_num [sigmoid, sigTrial]
    rw [proj_eq, proj_eq] at h
    simp only [List.finRange_succ, List.finRange_zero, List.map_cons, List.map_nil, List.prod_cons, List.prod_nil,
      Matrix.mul_one, planeFactor, hm, Planes.relabel, Function.comp] at h
    have h1 := congrFun (congrArg (fun A => A *ᵥ (![1, 0, 0, 0, 0, 0] : Fin 6 → ℝ)) h) 1
    simp only [← mulVec_mulVec] at h1
    simp [factor, normalSS, shearSS, mulVec, dotProduct, Fin.sum_univ_succ, Matrix.sub_apply, Matrix.one_apply] at h1
    norm_num at h1

/-! ## Turning the crystal -/

theorem traction_turn {q : Quat} (hq : Unit4 q) (s : Fin 6 → ℝ) (n : Fin 3 → ℝ) :
    traction (usym (applySym q s)) (applyVec q n) = applyVec q (traction (usym s) n) := by
  have ho : (toMatrix q)ᵀ * toMatrix q = 1 := mul_eq_one_comm.mp (toMatrix_SO3 hq).1
  have ev : ∀ v, applyVec q v = toMatrix q *ᵥ v := fun v => (C51_faithful hq hq v).2.2.2.2.2.2
  rw [traction, traction, ev, ev, applySym_eq, Flow.usym_rot, mulVec_mulVec, Matrix.mul_assoc, ho, Matrix.mul_one,
    mulVec_mulVec]

theorem applyVec_dot {q : Quat} (hq : Unit4 q) (a b : Fin 3 → ℝ) : applyVec q a ⬝ᵥ applyVec q b = a ⬝ᵥ b := by
  have ho : (toMatrix q)ᵀ * toMatrix q = 1 := mul_eq_one_comm.mp (toMatrix_SO3 hq).1
  have ev : ∀ v, applyVec q v = toMatrix q *ᵥ v := fun v => (C51_faithful hq hq v).2.2.2.2.2.2
  rw [ev, ev, dotProduct_mulVec, ← mulVec_transpose, mulVec_mulVec, ho, one_mulVec]

theorem normalStress_turn {q : Quat} (hq : Unit4 q) (s : Fin 6 → ℝ) (n : Fin 3 → ℝ) :
    normalStress (applySym q s) (applyVec q n) = normalStress s n := by
  have := traction_turn hq s n
  rw [traction, traction] at this
  rw [normalStress, normalStress, this, applyVec_dot hq]

/-- Two matrices that agree on turned vectors are equal. -/
theorem turned_ext {q : Quat} (hq : Unit4 q) {A B : Matrix (Fin 6) (Fin 6) ℝ}
    (h : ∀ s, A *ᵥ applySym q s = B *ᵥ applySym q s) : A = B := by
  have ho := mul_eq_one_comm.mp (mandelRot_orth hq)
  refine Matrix.ext_of_mulVec_single fun j => ?_
  have e : applySym q ((mandelRot (toMatrix q))ᵀ *ᵥ Pi.single j 1) = Pi.single j 1 := by
    rw [← mandelRot_mulVec, mulVec_mulVec, ho, one_mulVec]
  rw [← e, h]

theorem factor_turn {q : Quat} (hq : Unit4 q) (ds dn : ℝ) (n : Fin 3 → ℝ) :
    factor ds dn (applyVec q n) = applySymSym q (factor ds dn n) := by
  have ev : ∀ v, applyVec q v = toMatrix q *ᵥ v := fun v => (C51_faithful hq hq v).2.2.2.2.2.2
  have vv : ∀ a b : Fin 3 → ℝ, vecMulVec (applyVec q a) (applyVec q b) =
      toMatrix q * vecMulVec a b * (toMatrix q)ᵀ := by
    intro a b
    rw [ev, ev, mul_vecMulVec, vecMulVec_mul, vecMul_transpose]
  have vs : ∀ (c : ℝ) (v : Fin 3 → ℝ), applyVec q (c • v) = c • applyVec q v := fun c v => by rw [ev, ev, mulVec_smul]
  have vb : ∀ a b : Fin 3 → ℝ, applyVec q (a - b) = applyVec q a - applyVec q b := fun a b => by
    rw [ev, ev, ev, mulVec_sub]
  have eN : ∀ s, normalSS (applyVec q n) *ᵥ applySym q s = applySym q (normalSS n *ᵥ s) := by
    intro s
    apply usym_inj
    rw [usym_normalSS, normalPart, normalTraction, traction_turn hq, applyVec_dot hq, ← vs, vv, applySym_eq, Flow.usym_rot,
      usym_normalSS, normalPart, normalTraction]
  have eS : ∀ s, shearSS (applyVec q n) *ᵥ applySym q s = applySym q (shearSS n *ᵥ s) := by
    intro s
    apply usym_inj
    rw [usym_shearSS, shearPart, shearTraction, normalTraction, traction_turn hq, applyVec_dot hq, ← vs, ← vb, vv, vv,
      ← Matrix.add_mul, ← Matrix.mul_add, applySym_eq, Flow.usym_rot, usym_shearSS, shearPart, shearTraction,
      normalTraction]
  refine turned_ext hq fun s => ?_
  rw [(C55_compact hq s 0 (factor ds dn n)).2.2.2.2, factor, factor]
  simp only [sub_mulVec, smul_mulVec, one_mulVec, eN, eS, applySym_sub, applySym_smul]

theorem symSym_mul {q : Quat} (hq : Unit4 q) (A B : Matrix (Fin 6) (Fin 6) ℝ) :
    applySymSym q (A * B) = applySymSym q A * applySymSym q B := by
  refine turned_ext hq fun s => ?_
  have cc := fun C a => (C55_compact hq a 0 C).2.2.2.2
  rw [← mulVec_mulVec, cc, cc, cc, mulVec_mulVec]

theorem symSym_one {q : Quat} (hq : Unit4 q) : applySymSym q 1 = 1 := by
  refine turned_ext hq fun s => ?_
  rw [(C55_compact hq s 0 1).2.2.2.2, one_mulVec, one_mulVec]

/-- Turning and inverting may be exchanged. -/
theorem symSym_inv {q : Quat} (hq : Unit4 q) (A : Matrix (Fin 6) (Fin 6) ℝ) :
    (applySymSym q A)⁻¹ = applySymSym q A⁻¹ := by
  have ho := mandelRot_orth hq
  have hd : (applySymSym q A).det = A.det := by
    have h1 : (mandelRot (toMatrix q)).det * (mandelRot (toMatrix q)).det = 1 := by
      have := congrArg det ho
      rwa [det_mul, det_transpose, det_one] at this
    rw [applySymSym, det_mul, det_mul, det_transpose, mul_right_comm, h1, one_mul]
  by_cases h : IsUnit A.det
  · refine inv_eq_left_inv ?_
    rw [← symSym_mul hq, nonsing_inv_mul _ h, symSym_one hq]
  · rw [nonsing_inv_apply_not_isUnit _ h, nonsing_inv_apply_not_isUnit _ (by rwa [hd])]
    simp [applySymSym]

/-! ### Specification -/

/-- The second damage model is the first one turned: its projection of a turned stress is turned and its damage grows at the
same rate. -/
def Dmg.Turned {N D : Type} (q : Quat) (g g' : Dmg N D) : Prop :=
  g'.init = g.init ∧ (∀ s d, g'.proj (applySym q s) d = applySymSym q (g.proj s d)) ∧
    ∀ s h, g'.rate (applySym q s) h = g.rate s h

/-- The second damaged crystal is the first one turned. -/
def DKin.Turned {N D : Type} (q : Quat) (k k' : DKin N D) : Prop :=
  k'.C = applySymSym q k.C ∧ k'.S = applySymSym q k.S ∧ k.inel.Turned q k'.inel ∧ k.dmg.Turned q k'.dmg

/-- C111, orientation: the planar damage model of a crystal at a turned orientation is the turned one, for every lattice,
slip rule, transformations and rule of the planes. -/
theorem C111_orientation {N : Type} [DecidableEq N] {m : Nat} {q Q : Quat} (hq : Unit4 q) (hQ : Unit4 Q) (L : Lattice.Lat)
    (b : Nat → Nat → ℝ) (r : Rule N m) (shear normal : Transform) (rule : PlaneRule) :
    (planar (Crys.ofLat L Q b) r (Planes.ofLat L Q) shear normal rule).Turned q
      (planar (Crys.ofLat L (qmul q Q) b) r (Planes.ofLat L (qmul q Q)) shear normal rule) := by
  have hn : ∀ i, (Planes.ofLat L (qmul q Q)).normal i = applyVec q ((Planes.ofLat L Q).normal i) := by
    intro i
    exact (C55_compose hq hQ L.normals[i] 0 0 0 0 0).1
  refine ⟨rfl, fun s d => ?_, fun s h => ?_⟩
  · rw [proj_eq, proj_eq]
    have e : ∀ l : List (Fin L.normals.length), (l.map (planeFactor (Planes.ofLat L (qmul q Q)) shear normal (applySym q s)
        d)).prod = applySymSym q (l.map (planeFactor (Planes.ofLat L Q) shear normal s d)).prod := by
      intro l
      induction l with
      | nil => exact (symSym_one hq).symm
      | cons i l ih =>
        rw [List.map_cons, List.map_cons, List.prod_cons, List.prod_cons, ih, symSym_mul hq]
        congr 1
        rw [planeFactor, planeFactor, hn, normalStress_turn hq, factor_turn hq]
    exact e _
  · funext i
    have hs := C104_slip hq hQ L b r s (h ∘ Sum.inl)
    have ht : ∀ g i, (Crys.ofLat L (qmul q Q) b).shear g i (applySym q s) = (Crys.ofLat L Q b).shear g i s := by
      intro g i
      rw [Crys.shear, Crys.shear, (ofLat_turn hq hQ L b g i).1, (C55_invariants hq _ s 0 0 0 0).1]
    have hsys : (Planes.ofLat L (qmul q Q)).systems = (Planes.ofLat L Q).systems := rfl
    simp only [planar, hs, ht, hn, normalStress_turn hq, hsys]

/-- C111, rates: the stress rate, the rates of all history variables, the spin, the elastic strain and the starting guess of
a turned damaged crystal are the turned ones. -/
theorem C111_rates {N D : Type} {q : Quat} (hq : Unit4 q) {k k' : DKin N D} (hk : k.Turned q k') (w : Fin 3 → ℝ)
    (s d : Fin 6 → ℝ) (h : N ⊕ D → ℝ) (dt : ℝ) :
    k'.stressRate (applySkew q w) (applySym q s) (applySym q d) h = applySym q (k.stressRate w s d h) ∧
      k'.rate (applySym q s) h = k.rate s h ∧ k'.spin (applySym q s) (applySkew q w) h = applySkew q (k.spin s w h) ∧
      k'.elastic (applySym q s) h = applySym q (k.elastic s h) ∧
      k'.increment (applySym q s) (applySym q d) dt h = applySym q (k.increment s d dt h) := by
  obtain ⟨hC, hS, hi, -, hp, hr⟩ := hk
  have cc := fun C a => (C55_compact hq a 0 C).2.2.2.2
  have eP : k'.P (applySym q s) h = applySymSym q (k.P s h) := hp s _
  have esp : k'.sp (applySym q s) h = applySym q (k.sp s h) := by
    rw [DKin.sp, DKin.sp, eP, symSym_inv hq, cc]
  obtain ⟨h1, h2, h3⟩ := hi (k.sp s h) (h ∘ Sum.inl)
  obtain ⟨g1, -, g3⟩ := hi s (h ∘ Sum.inl)
  refine ⟨?_, ?_, ?_, ?_, ?_⟩
  · simp only [DKin.stressRate, esp, eP, hC, h1, h3]
    rw [← applySym_sub, cc, cc, ← applySkew_add hq, symComm_turn hq, ← applySym_sub]
  · funext a
    cases a with
    | inl a => simp only [DKin.rate, esp, h2]
    | inr a => simp only [DKin.rate, esp, hr]
  · rw [DKin.spin, DKin.spin, eP, hS, symSym_inv hq, ← symSym_mul hq, cc, g1, g3, skewComm_turn hq, ← applySkew_sub hq,
      ← applySkew_sub hq]
  · rw [DKin.elastic, DKin.elastic, eP, hS, symSym_inv hq, cc, cc]
  · rw [DKin.increment, DKin.increment, eP, hC, ← applySym_smul, cc, cc]

/-- C111, step: a stress and a history solve a substep of a damaged crystal just if the turned stress and the same history
solve the turned substep of the turned crystal. -/
theorem C111_step {N D : Type} {q : Quat} (hq : Unit4 q) {k k' : DKin N D} (hk : k.Turned q k') (st : Step (N ⊕ D))
    (s : Fin 6 → ℝ) (h : N ⊕ D → ℝ) :
    (dresS k' { st with d := applySym q st.d, Sn := applySym q st.Sn, espin := applySkew q st.espin } (applySym q s) h = 0 ∧
      dresH k' { st with d := applySym q st.d, Sn := applySym q st.Sn, espin := applySkew q st.espin } (applySym q s) h = 0)
      ↔ dresS k st s h = 0 ∧ dresH k st s h = 0 := by
  obtain ⟨e1, e2, -⟩ := C111_rates hq hk st.espin s st.d h 0
  have a1 : dresS k' { st with d := applySym q st.d, Sn := applySym q st.Sn, espin := applySkew q st.espin } (applySym q s) h =
      applySym q (dresS k st s h) := by
    simp only [dresS, e1, applySym_sub, applySym_smul]
  have a2 : dresH k' { st with d := applySym q st.d, Sn := applySym q st.Sn, espin := applySkew q st.espin } (applySym q s) h =
      dresH k st s h := by
    funext a
    simp only [dresH, e2]
  rw [a1, a2]
  refine and_congr_left fun _ => ⟨fun h0 => ?_, fun h0 => by rw [h0, applySym_zero]⟩
  exact applySym_inj hq (by rw [h0, applySym_zero])

/-- A damaged crystal at an orientation: turning the orientation turns it. -/
example {N : Type} [DecidableEq N] {m : Nat} {q Q : Quat} (hq : Unit4 q) (hQ : Unit4 Q) (L : Lattice.Lat)
    (b : Nat → Nat → ℝ) (r : Rule N m) (C S : Matrix (Fin 6) (Fin 6) ℝ) (shear normal : Transform) :
    (DKin.mk (applySymSym Q C) (applySymSym Q S) (asaro (Crys.ofLat L Q b) r)
        (planar (Crys.ofLat L Q b) r (Planes.ofLat L Q) shear normal workPlane)).Turned q
      (DKin.mk (applySymSym (qmul q Q) C) (applySymSym (qmul q Q) S) (asaro (Crys.ofLat L (qmul q Q) b) r)
        (planar (Crys.ofLat L (qmul q Q) b) r (Planes.ofLat L (qmul q Q)) shear normal workPlane)) :=
  ⟨(C55_compose hq hQ 0 0 0 0 C 0).2.2.2.2.1, (C55_compose hq hQ 0 0 0 0 S 0).2.2.2.2.1, asaro_turned hq hQ L b r,
    C111_orientation hq hQ L b r shear normal workPlane⟩

end Neml.CrystalDamage
