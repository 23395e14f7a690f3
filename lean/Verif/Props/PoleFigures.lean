import Verif.Props.PoleProjections
import Verif.Props.LatticeExact

/-!
# C155: pole figures
-/

namespace Neml.PoleFigures

open Neml.Rotation Neml.Lattice Neml.Symmetry Matrix

theorem app {q : Quat} (hq : Unit4 q) (v : Vec) : applyVec q v = toMatrix q *ᵥ v := (C51_faithful hq hq v).2.2.2.2.2.2

theorem unit_conj {q : Quat} (hq : Unit4 q) : Unit4 (conj q) := by
  simpa [Unit4, conj] using hq

theorem app_conj {q : Quat} (hq : Unit4 q) (v : Vec) : applyVec (conj q) v = (toMatrix q)ᵀ *ᵥ v := by
  rw [app (unit_conj hq), toMatrix_conj]

theorem sphere_dot (v : Vec) : OnSphere v ↔ v ⬝ᵥ v = 1 := by
  simp only [OnSphere, dotProduct, Fin.sum_univ_three, sq]

theorem sphere_app {q : Quat} (hq : Unit4 q) {v : Vec} (h : OnSphere v) : OnSphere (applyVec q v) := by
  rw [sphere_dot] at h ⊢
  rw [(C55_invariants hq 0 0 v v 0 0).2.2.2.1, h]

theorem norm3_pos {v : Vec} (h : v ≠ 0) : 0 < norm3 v := by
  refine lt_of_le_of_ne (norm3_nonneg _) fun e => h ?_
  have h1 := norm3_sq v
  rw [← e, zero_mul] at h1
  exact dotProduct_self_eq_zero.mp h1.symm

theorem sphere_unit {v : Vec} (h : v ≠ 0) : OnSphere (unit v) := by
  have h1 := norm3_pos h
  rw [sphere_dot, unit, smul_dotProduct, dotProduct_smul, ← norm3_sq, smul_eq_mul, smul_eq_mul]
  field_simp

theorem unit_app {q : Quat} (hq : Unit4 q) (v : Vec) : unit (applyVec q v) = applyVec q (unit v) := by
  rw [unit, unit, norm3_applyVec hq, app hq, app hq, mulVec_smul]

/-- Images of the pole under the operators that agree up to the tolerance of the code are equal. -/
def Exact (ops : List Quat) (p : Vec) : Prop :=
  ∀ R ∈ ops, ∀ S ∈ ops, veq (applyVec R p) (applyVec S p) → applyVec R p = applyVec S p

theorem mem_equivalents {ops : List Quat} {p : Vec} (he : Exact ops p) (w : Vec) :
    w ∈ equivalentVectors ops p ↔ ∃ R ∈ ops, w = applyVec R p := by
  obtain ⟨h1, h2, -⟩ := C96_equivalent ops p
  refine ⟨h1 w, ?_⟩
  rintro ⟨R, hR, rfl⟩
  obtain ⟨w, hw, h⟩ := h2 R hR
  obtain ⟨S, hS, rfl⟩ := h1 w hw
  rwa [he S hS R hR h] at hw

theorem poles_from {ops sample : List Quat} (hu : ∀ R ∈ ops, Unit4 R) {p v : Vec} (h : v ∈ poles ops sample p) :
    ∃ R ∈ ops, ∃ s ∈ sample, v = applyVec s (applyVec R (unit p)) := by
  simp only [poles, List.mem_flatMap, List.mem_map] at h
  obtain ⟨_, ⟨w, hw, rfl⟩, s, hs, rfl⟩ := h
  obtain ⟨R, hR, rfl⟩ := (C96_equivalent ops p).1 w hw
  exact ⟨R, hR, s, hs, by rw [unit_app (hu R hR)]⟩

theorem mem_poles {ops sample : List Quat} (hu : ∀ R ∈ ops, Unit4 R) {p : Vec} (he : Exact ops p) (v : Vec) :
    v ∈ poles ops sample p ↔ ∃ R ∈ ops, ∃ s ∈ sample, v = applyVec s (applyVec R (unit p)) := by
  refine ⟨poles_from hu, ?_⟩
  rintro ⟨R, hR, s, hs, rfl⟩
  simp only [poles, List.mem_flatMap, List.mem_map]
  exact ⟨_, ⟨_, (mem_equivalents he _).mpr ⟨R, hR, rfl⟩, rfl⟩, s, hs, by rw [unit_app (hu R hR)]⟩

theorem mem_polePoints {srot : Quat} {os : List Quat} {eq : List Vec} {v : Vec} :
    v ∈ polePoints srot os eq ↔ 0 ≤ v 2 ∧ ∃ pp ∈ eq, ∃ o ∈ os, v = applyVec srot (applyVec (conj o) pp) := by
  simp only [polePoints, List.mem_filter, List.mem_flatMap, List.mem_map, decide_eq_true_eq, ge_iff_le]
  constructor
  · rintro ⟨⟨pp, hp, o, ho, rfl⟩, h⟩
    exact ⟨h, pp, hp, o, ho, rfl⟩
  · rintro ⟨h, pp, hp, o, ho, rfl⟩
    exact ⟨⟨pp, hp, o, ho, rfl⟩, h⟩

/-- The radius of the circle drawn around the figure. -/
noncomputable def limit (projection : String) : ℝ := if projection = "lambert" then √2 else 1

/-- Every point of a pole figure is inside the circle drawn around it. A projection that is not known is refused. -/
theorem C155_inside {dirOf : List ℤ → Option Vec} {ops os sample : List Quat} {pole : List ℤ} {projection : String}
    {x y : Vec} (ho : ∀ R ∈ ops, Unit4 R) (hos : ∀ o ∈ os, Unit4 o) (hs : ∀ s ∈ sample, Unit4 s)
    (hx : x ⬝ᵥ x = 1) (hy : y ⬝ᵥ y = 1) (hxy : x ⬝ᵥ y = 0) (hp : ∀ p, dirOf pole = some p → p ≠ 0) :
    (∀ l, poleFigure dirOf ops os pole projection sample x y = some l →
      (projection = "stereographic" ∨ projection = "lambert") ∧
        ∀ pt ∈ l, √(radius2 pt) ≤ limit projection) ∧
      (projection ≠ "stereographic" → projection ≠ "lambert" →
        poleFigure dirOf ops os pole projection sample x y = none) := by
  obtain ⟨q, hq, uq, -, -⟩ := C52_vectors hx hy hxy
  constructor
  · intro l hl
    simp only [poleFigure, hq, Option.bind_some, Option.bind_eq_some_iff, Option.map_eq_some_iff] at hl
    obtain ⟨p, hdir, ⟨f, r⟩, hf, rfl⟩ := hl
    have key : ∀ v ∈ polePoints q os (poles ops sample p), OnSphere v ∧ 0 ≤ v 2 := by
      intro v hv
      obtain ⟨h0, pp, hpp, o, hoo, rfl⟩ := mem_polePoints.mp hv
      obtain ⟨R, hR, s, hss, rfl⟩ := poles_from ho hpp
      exact ⟨sphere_app uq (sphere_app (unit_conj (hos o hoo)) (sphere_app (hs s hss) (sphere_app (ho R hR)
        (sphere_unit (hp p hdir))))), h0⟩
    unfold chosen at hf
    split_ifs at hf with h1 h2
    · obtain ⟨rfl, rfl⟩ := Prod.mk.inj (Option.some.inj hf)
      refine ⟨Or.inl h1, fun pt hpt => ?_⟩
      obtain ⟨v, hv, rfl⟩ := List.mem_map.mp hpt
      obtain ⟨k1, k2⟩ := key v hv
      rw [limit, if_neg (by rw [h1]; decide), Real.sqrt_le_left (by norm_num)]
      exact (C154_disc k1 (by linarith)).1.mpr k2
    · obtain ⟨rfl, rfl⟩ := Prod.mk.inj (Option.some.inj hf)
      refine ⟨Or.inr h2, fun pt hpt => ?_⟩
      obtain ⟨v, hv, rfl⟩ := List.mem_map.mp hpt
      obtain ⟨k1, k2⟩ := key v hv
      rw [limit, if_pos h2, Real.sqrt_le_left (by positivity)]
      exact (C154_disc k1 (by linarith)).2.1.mpr k2
  · intro h1 h2
    simp [poleFigure, hq, chosen, h1, h2]

/-- The two figures show the same points. -/
def SameFigure (a b : Option (List (Fin 2 → ℝ))) : Prop :=
  match a, b with
  | some l, some l' => ∀ pt, pt ∈ l ↔ pt ∈ l'
  | none, none => True
  | _, _ => False

theorem same_of_poles {dirOf : List ℤ → Option Vec} {ops os os' sample sample' : List Quat} {pole : List ℤ}
    {projection : String} {x y : Vec}
    (h : ∀ srot p, dirOf pole = some p → ∀ v, v ∈ polePoints srot os (poles ops sample p) ↔
      v ∈ polePoints srot os' (poles ops sample' p)) :
    SameFigure (poleFigure dirOf ops os pole projection sample x y)
      (poleFigure dirOf ops os' pole projection sample' x y) := by
  unfold poleFigure
  cases h1 : setVectors x y with
  | none => simp [SameFigure]
  | some q =>
    cases h2 : dirOf pole with
    | none => simp [SameFigure]
    | some p =>
      cases h3 : chosen projection with
      | none => simp [SameFigure]
      | some pr =>
        simp only [Option.bind_some, Option.map_some, SameFigure]
        intro pt
        simp only [List.mem_map]
        constructor
        · rintro ⟨v, hv, rfl⟩
          exact ⟨v, (h q p h2 v).mp hv, rfl⟩
        · rintro ⟨v, hv, rfl⟩
          exact ⟨v, (h q p h2 v).mpr hv, rfl⟩

/-- The rotations of one list are among those of another. -/
def Within (sample ops : List Quat) : Prop := ∀ s ∈ sample, ∃ R ∈ ops, toMatrix s = toMatrix R

theorem pole_within {ops sample : List Quat} (hg : RotationGroup ops) (hs : ∀ s ∈ sample, Unit4 s)
    (hne : sample ≠ []) (hw : Within sample ops) {p : Vec} (he : Exact ops p) (v : Vec) :
    v ∈ poles ops sample p ↔ ∃ R ∈ ops, v = applyVec R (unit p) := by
  rw [mem_poles hg.unit he]
  constructor
  · rintro ⟨R, hR, s, hss, rfl⟩
    obtain ⟨S, hS, e⟩ := hw s hss
    obtain ⟨T, hT, e'⟩ := op_product hg hS hR
    refine ⟨T, hT, ?_⟩
    rw [app (hs s hss), app (hg.unit R hR), app (hg.unit T hT), mulVec_mulVec, e, e']
  · rintro ⟨R, hR, rfl⟩
    obtain ⟨s, hss⟩ := List.exists_mem_of_ne_nil _ hne
    obtain ⟨S, hS, e⟩ := hw s hss
    obtain ⟨S', hS', e1⟩ := op_inverse hg hS
    obtain ⟨T, hT, e2⟩ := op_product hg hS' hR
    refine ⟨T, hT, s, hss, ?_⟩
    rw [app (hs s hss), app (hg.unit R hR), app (hg.unit T hT), mulVec_mulVec, e, e2, e1, ← Matrix.mul_assoc,
      (toMatrix_SO3 (hg.unit S hS)).1, Matrix.one_mul]

theorem forall2_mem {α β : Type} {r : α → β → Prop} {l : List α} {l' : List β} (h : List.Forall₂ r l l') :
    (∀ a ∈ l, ∃ b ∈ l', r a b) ∧ ∀ b ∈ l', ∃ a ∈ l, r a b := by
  induction h with
  | nil => simp
  | cons h _ ih =>
    obtain ⟨h1, h2⟩ := ih
    constructor
    · intro a ha
      rcases List.mem_cons.mp ha with rfl | ha
      · exact ⟨_, by simp, h⟩
      · obtain ⟨b, hb, hr⟩ := h1 a ha
        exact ⟨b, by simp [hb], hr⟩
    · intro b hb
      rcases List.mem_cons.mp hb with rfl | hb
      · exact ⟨_, by simp, h⟩
      · obtain ⟨a, ha, hr⟩ := h2 b hb
        exact ⟨a, by simp [ha], hr⟩

/-- What holds of the invariance under the symmetry of the crystal: if the sample symmetry is part of the symmetry of the
crystal, grains with equivalent orientations give the same figure. -/
theorem C155_crystal_partial {dirOf : List ℤ → Option Vec} {ops os os' sample : List Quat} {pole : List ℤ}
    {projection : String} {x y : Vec} (hg : RotationGroup ops) (hs : ∀ s ∈ sample, Unit4 s) (hne : sample ≠ [])
    (hw : Within sample ops) (he : ∀ p, dirOf pole = some p → Exact ops p)
    (hq : List.Forall₂ (fun o o' => Unit4 o ∧ Unit4 o' ∧ ∃ R ∈ ops, toMatrix o' = toMatrix R * toMatrix o) os os') :
    SameFigure (poleFigure dirOf ops os pole projection sample x y)
      (poleFigure dirOf ops os' pole projection sample x y) := by
  apply same_of_poles
  intro srot p hp v
  rw [mem_polePoints, mem_polePoints]
  apply and_congr_right
  intro _
  have key : ∀ o o', Unit4 o → Unit4 o' → (∃ R ∈ ops, toMatrix o' = toMatrix R * toMatrix o) →
      ((∃ pp ∈ poles ops sample p, v = applyVec srot (applyVec (conj o) pp)) ↔
        ∃ pp ∈ poles ops sample p, v = applyVec srot (applyVec (conj o') pp)) := by
    rintro o o' uo uo' ⟨R, hR, e⟩
    constructor
    · rintro ⟨pp, hpp, rfl⟩
      obtain ⟨S, hS, rfl⟩ := (pole_within hg hs hne hw (he p hp) _).mp hpp
      obtain ⟨T, hT, e1⟩ := op_product hg hR hS
      refine ⟨_, (pole_within hg hs hne hw (he p hp) _).mpr ⟨T, hT, rfl⟩, ?_⟩
      rw [app_conj uo, app_conj uo', app (hg.unit T hT), app (hg.unit S hS), e, e1, transpose_mul, mulVec_mulVec,
        mulVec_mulVec]
      congr 2
      rw [Matrix.mul_assoc, ← Matrix.mul_assoc (toMatrix R)ᵀ, mul_eq_one_comm.mp (toMatrix_SO3 (hg.unit R hR)).1,
        Matrix.one_mul]
    · rintro ⟨pp, hpp, rfl⟩
      obtain ⟨S, hS, rfl⟩ := (pole_within hg hs hne hw (he p hp) _).mp hpp
      obtain ⟨R', hR', e0⟩ := op_inverse hg hR
      obtain ⟨T, hT, e1⟩ := op_product hg hR' hS
      refine ⟨_, (pole_within hg hs hne hw (he p hp) _).mpr ⟨T, hT, rfl⟩, ?_⟩
      rw [app_conj uo, app_conj uo', app (hg.unit T hT), app (hg.unit S hS), e, e1, e0, transpose_mul, mulVec_mulVec,
        mulVec_mulVec, Matrix.mul_assoc]
  clear he
  obtain ⟨q1, q2⟩ := forall2_mem hq
  constructor
  · rintro ⟨pp, hpp, o, ho, h⟩
    obtain ⟨o', ho', u1, u2, hR⟩ := q1 o ho
    obtain ⟨pp', hpp', h'⟩ := (key o o' u1 u2 hR).mp ⟨pp, hpp, h⟩
    exact ⟨pp', hpp', o', ho', h'⟩
  · rintro ⟨pp, hpp, o', ho', h⟩
    obtain ⟨o, ho, u1, u2, hR⟩ := q2 o' ho'
    obtain ⟨pp', hpp', h'⟩ := (key o o' u1 u2 hR).mpr ⟨pp, hpp, h⟩
    exact ⟨pp', hpp', o, ho, h'⟩

/-- A sample symmetry that is part of the symmetry of the crystal adds nothing to the figure: it is applied to the poles
of the crystal, where it permutes them. -/
theorem C155_sample_idle {dirOf : List ℤ → Option Vec} {ops os sample : List Quat} {pole : List ℤ}
    {projection : String} {x y : Vec} (hg : RotationGroup ops) (hs : ∀ s ∈ sample, Unit4 s) (hne : sample ≠ [])
    (hw : Within sample ops) (he : ∀ p, dirOf pole = some p → Exact ops p) :
    SameFigure (poleFigure dirOf ops os pole projection sample x y)
      (poleFigure dirOf ops os pole projection [Rotation.one] x y) := by
  apply same_of_poles
  intro srot p hp v
  have u1 : ∀ s ∈ [Rotation.one], Unit4 s := by simpa using hg.unit _ hg.one
  have w1 : Within [Rotation.one] ops := by
    intro s hs
    rw [List.mem_singleton.mp hs]
    exact ⟨_, hg.one, rfl⟩
  rw [mem_polePoints, mem_polePoints]
  apply and_congr_right
  intro _
  simp only [pole_within hg hs hne hw (he p hp), pole_within hg u1 (by simp) w1 (he p hp)]

/-! ## Cubic crystals -/

/-- The whole-number matrix of an operator of the cubic class. -/
def intM (u : QZ) : Matrix (Fin 3) (Fin 3) ℤ := of fun i j => matA 2 u i j / 2

theorem toMatrix_intM {u : QZ} (hu : u ∈ slice 0 24 cubZ) : toMatrix (u.val 2) = (intM u).map Int.cast := by
  obtain ⟨hB, hA⟩ := cub_whole u hu
  ext i j
  rw [toMatrix_val (by norm_num), hB, Matrix.map_apply, Matrix.zero_apply, intM, of_apply]
  obtain ⟨c, hc⟩ := hA i j
  rw [hc]
  simp

theorem ops432 : symmetryRotations "432" = some ((slice 0 24 cubZ).map (QZ.val 2)) :=
  rotations_table ("432", 2, slice 0 24 cubZ) (by simp [table])

theorem ops222 : symmetryRotations "222" = some ((slice 0 4 tetZ).map (QZ.val 2)) :=
  rotations_table ("222", 2, slice 0 4 tetZ) (by simp [table])

theorem tet_val_mat : ∀ u ∈ slice 0 4 tetZ, ∃ w ∈ slice 0 24 cubZ, matA 2 u = matA 2 w ∧ matB u = matB w := by
  decide +kernel

/-- The default sample symmetry is part of the symmetry of a cubic crystal. -/
theorem within_cubic {ops sample : List Quat} (h : symmetryRotations "432" = some ops)
    (h' : symmetryRotations "222" = some sample) : Within sample ops := by
  rw [ops432] at h
  rw [ops222] at h'
  obtain rfl := Option.some.inj h
  obtain rfl := Option.some.inj h'
  intro s hs
  obtain ⟨u, hu, rfl⟩ := List.mem_map.mp hs
  obtain ⟨w, hw, e1, e2⟩ := tet_val_mat u hu
  refine ⟨_, List.mem_map_of_mem hw, ?_⟩
  ext i j
  rw [toMatrix_val (by norm_num), toMatrix_val (by norm_num), e1, e2]

theorem intM_small : ∀ u ∈ slice 0 24 cubZ, ∀ i j, |intM u i j| ≤ 1 := by decide +kernel

theorem cubic_image {ops : List Quat} (h : symmetryRotations "432" = some ops) {R : Quat} (hR : R ∈ ops) :
    ∃ u ∈ slice 0 24 cubZ, ∀ v, applyVec R v = (intM u).map Int.cast *ᵥ v := by
  have hu := (C68_group h).unit R hR
  rw [ops432] at h
  obtain rfl := Option.some.inj h
  obtain ⟨u, hu', rfl⟩ := List.mem_map.mp hR
  exact ⟨u, hu', fun v => by rw [app hu, toMatrix_intM hu']⟩

theorem cubic_whole {ops : List Quat} (h : symmetryRotations "432" = some ops) {R : Quat} (hR : R ∈ ops) (a : ℝ)
    {m : ℤ × ℤ × ℤ} (h0 : |m.1| ≤ 30000) (h1 : |m.2.1| ≤ 30000) (h2 : |m.2.2| ≤ 30000) (i : Fin 3) :
    ∃ n : ℤ, |n| ≤ 90000 ∧ applyVec R (combine (cubicBasis a) m) i = a * n := by
  obtain ⟨u, hu, e⟩ := cubic_image h hR
  have b := intM_small u hu i
  refine ⟨intM u i 0 * m.1 + intM u i 1 * m.2.1 + intM u i 2 * m.2.2, ?_, ?_⟩
  · have b0 := abs_mul (intM u i 0) m.1
    have b1 := abs_mul (intM u i 1) m.2.1
    have b2 := abs_mul (intM u i 2) m.2.2
    have c0 := mul_le_mul (b 0) h0 (abs_nonneg _) (by norm_num)
    have c1 := mul_le_mul (b 1) h1 (abs_nonneg _) (by norm_num)
    have c2 := mul_le_mul (b 2) h2 (abs_nonneg _) (by norm_num)
    have := abs_add_three (intM u i 0 * m.1) (intM u i 1 * m.2.1) (intM u i 2 * m.2.2)
    linarith
  · rw [e]
    simp [mulVec, dotProduct, Fin.sum_univ_three, combine, cubicBasis]
    ring

/-- If the lattice parameter is at least 1e-6 and the indices are at most 30000 the tolerance keeps the images apart. -/
theorem exact_cubic {ops : List Quat} (h : symmetryRotations "432" = some ops) {a : ℝ} (ha : 1e-6 ≤ a)
    {m : ℤ × ℤ × ℤ} (h0 : |m.1| ≤ 30000) (h1 : |m.2.1| ≤ 30000) (h2 : |m.2.2| ≤ 30000) :
    Exact ops (combine (cubicBasis a) m) := by
  intro R hR S hS hv
  ext i
  have hv := hv i
  obtain ⟨n, hn, e1⟩ := cubic_whole h hR a h0 h1 h2 i
  obtain ⟨k, hk, e2⟩ := cubic_whole h hS a h0 h1 h2 i
  have ha0 : 0 < a := by norm_num at ha; linarith
  rw [e1, e2] at hv ⊢
  unfold isclose at hv
  rw [← mul_sub, abs_mul, abs_mul, abs_of_pos ha0] at hv
  have hk' : |(k : ℝ)| ≤ 90000 := by exact_mod_cast hk
  have h3 : a * |(n : ℝ) - k| < a * 1 := by
    norm_num at hv ha ⊢
    nlinarith
  have h4 : |(n : ℝ) - k| < 1 := lt_of_mul_lt_mul_left h3 ha0.le
  have h5 : |n - k| < 1 := by exact_mod_cast h4
  have h6 : n - k = 0 := Int.abs_lt_one_iff.mp h5
  rw [show n = k by omega]

theorem miller100 (a : ℝ) : miller2cart (cubicBasis a) [1, 0, 0] = some (combine (cubicBasis a) (1, 0, 0)) := by
  have r1 : reduceGcd (1, 0, 0) = some (1, 0, 0) := by
    refine ((C96_reduce _).2 _).mpr ⟨?_, 1, by norm_num, by norm_num⟩
    rintro d h - -
    exact Int.isUnit_iff.mp (isUnit_of_dvd_one h)
  simp only [miller2cart, assertMiller, Option.bind_some, r1, Option.map_some]

/-- The hypotheses of the two theorems hold for a cubic crystal with the default sample symmetry, one orientation and its
image under an operator. -/
example {ops sample : List Quat} (h : symmetryRotations "432" = some ops) (h' : symmetryRotations "222" = some sample)
    {q R : Quat} (hq : Unit4 q) (hR : R ∈ ops) :
    RotationGroup ops ∧ (∀ s ∈ sample, Unit4 s) ∧ sample ≠ [] ∧ Within sample ops ∧
      (∀ p, miller2cart (cubicBasis 3.6) [1, 0, 0] = some p → Exact ops p ∧ p ≠ 0) ∧
      List.Forall₂ (fun o o' => Unit4 o ∧ Unit4 o' ∧ ∃ R ∈ ops, toMatrix o' = toMatrix R * toMatrix o) [q]
        [qmul R q] := by
  have hg := C68_group h
  have hg' := C68_group h'
  refine ⟨hg, hg'.unit, List.ne_nil_of_mem hg'.one, within_cubic h h', ?_, ?_⟩
  · intro p hp
    rw [miller100] at hp
    rw [← Option.some.inj hp]
    refine ⟨exact_cubic h (by norm_num) (by norm_num) (by norm_num) (by norm_num), fun e => ?_⟩
    have := congrFun e 0
    simp [combine, cubicBasis] at this
    norm_num at this
  · have u := hg.unit R hR
    exact List.Forall₂.cons ⟨hq, u.mul hq, R, hR, toMatrix_mul u hq⟩ List.Forall₂.nil

/-- The orientation of the example. -/
noncomputable def tilted : Quat := ⟨4 / 5, 2 / 5, 2 / 5, 1 / 5⟩

theorem tilted_unit : Unit4 tilted := by norm_num [Unit4, tilted]

theorem tilted_matrix : toMatrix tilted =
    !![3 / 5, 0, 4 / 5; 16 / 25, 3 / 5, -12 / 25; -12 / 25, 4 / 5, 9 / 25] := by
  ext i j
  fin_cases i <;> fin_cases j <;> simp [toMatrix, tilted] <;> norm_num

theorem miller100' : miller2cart (cubicBasis 1) [1, 0, 0] = some ![1, 0, 0] := by
  rw [miller100]
  congr 1
  ext i
  fin_cases i <;> simp [combine, cubicBasis]

theorem standard_frame : ∃ q, setVectors ![1, 0, 0] ![0, 1, 0] = some q ∧ ∀ v, applyVec q v = v := by
  obtain ⟨q, h, u, h1, h2⟩ := C52_vectors (x := ![1, 0, 0]) (y := ![0, 1, 0]) (by simp) (by simp) (by simp)
  refine ⟨q, h, fun v => ?_⟩
  have hc : ¬ |(![1, 0, 0] : Vec) ⬝ᵥ ![0, 1, 0]| > 1e-16 := by simp; norm_num
  rw [setVectors, if_neg hc] at h
  have e : (!![(![1, 0, 0] : Vec) 0, (![0, 1, 0] : Vec) 0, cross ![1, 0, 0] ![0, 1, 0] 0;
      (![1, 0, 0] : Vec) 1, (![0, 1, 0] : Vec) 1, cross ![1, 0, 0] ![0, 1, 0] 1;
      (![1, 0, 0] : Vec) 2, (![0, 1, 0] : Vec) 2, cross ![1, 0, 0] ![0, 1, 0] 2] : Matrix (Fin 3) (Fin 3) ℝ) = 1 := by
    ext i j
    fin_cases i <;> fin_cases j <;> simp [cross]
  have h3 := Option.some.inj h
  rw [e] at h3
  have h4 := (C52_matrix (M := 1) ⟨by simp, by simp⟩).1
  rw [h3] at h4
  rw [app u, h4, one_mulVec]

theorem axis_images : ∀ u ∈ slice 0 24 cubZ, (intM u).mulVec ![1, 0, 0] ∈
    ([![1, 0, 0], ![-1, 0, 0], ![0, 1, 0], ![0, -1, 0], ![0, 0, 1], ![0, 0, -1]] : List (Fin 3 → ℤ)) := by
  decide +kernel

theorem half_turn : ∃ u ∈ slice 0 4 tetZ, matA 2 u = !![-2, 0, 0; 0, -2, 0; 0, 0, 2] ∧ matB u = 0 := by
  decide +kernel

/-- The default sample symmetry contains the half turn about the normal of the figure, yet the figure of a cubic
crystal is not symmetric under it: the (1,0,0) poles of one crystal are drawn at (1/3, 0) but not at (-1/3, 0). The
operators of the sample are applied to directions in the crystal. -/
theorem C155_sample_disagreement {ops sample : List Quat} (h : symmetryRotations "432" = some ops)
    (h' : symmetryRotations "222" = some sample) :
    (∃ s ∈ sample, ∀ v, applyVec s v = ![-v 0, -v 1, v 2]) ∧
      ∃ l, poleFigure (miller2cart (cubicBasis 1)) ops [tilted] [1, 0, 0] "stereographic" sample ![1, 0, 0] ![0, 1, 0] =
        some l ∧ ![1 / 3, 0] ∈ l ∧ ![-1 / 3, 0] ∉ l := by
  have hg := C68_group h
  have hg' := C68_group h'
  obtain ⟨srot, hs, hid⟩ := standard_frame
  have he : Exact ops ![1, 0, 0] := by
    have := exact_cubic h (a := 1) (m := (1, 0, 0)) (by norm_num) (by norm_num) (by norm_num) (by norm_num)
    convert this using 1
    ext i
    fin_cases i <;> simp [combine, cubicBasis]
  have hn : unit ![1, 0, 0] = ![1, 0, 0] := by
    simp [unit, norm3]
  refine ⟨?_, ?_⟩
  · obtain ⟨u, hu, e1, e2⟩ := half_turn
    rw [ops222] at h'
    obtain rfl := Option.some.inj h'
    have hm := List.mem_map_of_mem (f := QZ.val 2) hu
    refine ⟨_, hm, fun v => ?_⟩
    rw [app (hg'.unit _ hm)]
    have e3 : toMatrix (u.val 2) = !![-1, 0, 0; 0, -1, 0; 0, 0, 1] := by
      ext i j
      rw [toMatrix_val (by norm_num), e1, e2]
      fin_cases i <;> fin_cases j <;> simp
    rw [e3]
    ext i
    fin_cases i <;> simp [mulVec, dotProduct, Fin.sum_univ_three]
  refine ⟨_, by rw [poleFigure, hs, miller100']; rfl, ?_, ?_⟩
  · refine List.mem_map.mpr ⟨![3 / 5, 0, 4 / 5], ?_, ?_⟩
    · rw [mem_polePoints]
      refine ⟨by simp; norm_num, ![1, 0, 0], ?_, tilted, by simp, ?_⟩
      · rw [pole_within hg hg'.unit (List.ne_nil_of_mem hg'.one) (within_cubic h h') he]
        exact ⟨_, hg.one, by rw [hn, app (hg.unit _ hg.one), toMatrix_one, one_mulVec]⟩
      · rw [hid, app_conj tilted_unit, tilted_matrix]
        ext i
        fin_cases i <;> simp [mulVec, dotProduct, Fin.sum_univ_three]
    · refine vec2 ?_ ?_ <;> simp [stereo]
      norm_num
  · intro hmem
    obtain ⟨v, hv, e⟩ := List.mem_map.mp hmem
    obtain ⟨h0, pp, hpp, o, ho, rfl⟩ := mem_polePoints.mp hv
    rw [List.mem_singleton.mp ho, hid, app_conj tilted_unit] at *
    obtain ⟨R, hR, rfl⟩ := (pole_within hg hg'.unit (List.ne_nil_of_mem hg'.one) (within_cubic h h') he _).mp hpp
    obtain ⟨u, hu, hi⟩ := cubic_image h hR
    have ax := axis_images u hu
    have e0 := congrFun e 0
    have e1 := congrFun e 1
    have hi' : applyVec R (unit ![1, 0, 0]) = fun i => (((intM u).mulVec ![1, 0, 0] i : ℤ) : ℝ) := by
      rw [hn, hi]
      ext i
      simp [mulVec, dotProduct, Fin.sum_univ_three]
    rw [hi', tilted_matrix] at h0 e0 e1
    generalize (intM u).mulVec ![1, 0, 0] = w at ax h0 e0 e1
    simp only [List.mem_cons, List.not_mem_nil, or_false] at ax
    rcases ax with rfl | rfl | rfl | rfl | rfl | rfl <;>
      simp [stereo, mulVec, dotProduct, Fin.sum_univ_three] at h0 e0 e1 <;>
      first | (norm_num at h0; done) | (norm_num at e0; done) | (norm_num at e1; done)

/-! ## The axes of the figure -/

/-- The coordinates of a direction in the axes asked for. -/
def inAxes (x y d : Vec) : Vec := ![d ⬝ᵥ x, d ⬝ᵥ y, d ⬝ᵥ cross x y]

theorem axes_apply {x y : Vec} (hx : x ⬝ᵥ x = 1) (hy : y ⬝ᵥ y = 1) (hxy : x ⬝ᵥ y = 0) :
    ∃ q, setVectors x y = some q ∧ Unit4 q ∧ ∀ d, applyVec q d = d 0 • x + d 1 • y + d 2 • cross x y := by
  obtain ⟨q, h, u, h1, h2⟩ := C52_vectors hx hy hxy
  refine ⟨q, h, u, fun d => ?_⟩
  have hc : ¬ |x ⬝ᵥ y| > 1e-16 := by rw [hxy]; norm_num
  simp only [dotProduct, Fin.sum_univ_three] at hx hy hxy
  have hM : SO3 !![x 0, y 0, cross x y 0; x 1, y 1, cross x y 1; x 2, y 2, cross x y 2] := by
    constructor
    · rw [mul_eq_one_comm]
      ext i j
      fin_cases i <;> fin_cases j <;>
        simp [Matrix.mul_apply, Fin.sum_univ_succ, cross] <;> grind
    · rw [det_fin_three]
      simp [cross]
      grind
  rw [setVectors, if_neg hc] at h
  rw [app u, ← Option.some.inj h, (C52_matrix hM).1]
  ext i
  fin_cases i <;> simp [mulVec, dotProduct, Fin.sum_univ_three] <;> ring

/-- The rotation that the code applies is the right one exactly if the matrix of the axes is symmetric, as it is for the
default axes. It is otherwise the inverse of the right one. -/
theorem C155_axes_partial {x y : Vec} (hx : x ⬝ᵥ x = 1) (hy : y ⬝ᵥ y = 1) (hxy : x ⬝ᵥ y = 0) :
    ∃ q, setVectors x y = some q ∧ (∀ d, applyVec (conj q) d = inAxes x y d) ∧
      ((∀ d, applyVec q d = inAxes x y d) ↔ x 1 = y 0 ∧ x 2 = cross x y 0 ∧ y 2 = cross x y 1) ∧
      (x = ![1, 0, 0] → y = ![0, 1, 0] → ∀ d, applyVec q d = inAxes x y d) := by
  obtain ⟨q, h, u, hq⟩ := axes_apply hx hy hxy
  have key : (∀ d, applyVec q d = inAxes x y d) ↔ x 1 = y 0 ∧ x 2 = cross x y 0 ∧ y 2 = cross x y 1 := by
    constructor
    · intro hd
      have e1 := hd ![1, 0, 0]
      have e2 := hd ![0, 1, 0]
      rw [hq] at e1 e2
      have a1 := congrFun e1 1
      have a2 := congrFun e1 2
      have a3 := congrFun e2 2
      simp [inAxes] at a1 a2 a3
      exact ⟨a1, a2, a3⟩
    · rintro ⟨h1, h2, h3⟩ d
      rw [hq]
      ext i
      fin_cases i <;> simp [inAxes, dotProduct, Fin.sum_univ_three, h1, h2, h3]
  refine ⟨q, h, fun d => ?_, key, ?_⟩
  · have hM : toMatrix q = !![x 0, y 0, cross x y 0; x 1, y 1, cross x y 1; x 2, y 2, cross x y 2] := by
      ext i j
      have := congrFun (hq (Pi.single j 1)) i
      rw [app u, mulVec_single_one] at this
      have e : toMatrix q i j = (toMatrix q).col j i := rfl
      rw [e, this]
      fin_cases i <;> fin_cases j <;> simp
    rw [app_conj u, hM]
    ext i
    fin_cases i <;> simp [inAxes, mulVec, dotProduct, Fin.sum_univ_three] <;> ring
  · rintro rfl rfl
    exact key.mpr (by simp [cross])

/-- With other axes the figure is drawn in the wrong place: a pole along the direction asked for as the x axis of the
figure is drawn at the centre. -/
theorem C155_axes_disagreement :
    inAxes ![0, 1, 0] ![0, 0, 1] ![0, 1, 0] = ![1, 0, 0] ∧ stereo ![1, 0, 0] = ![1, 0] ∧
      poleFigure (fun _ => some ![0, 1, 0]) [Rotation.one] [Rotation.one] [0, 1, 0] "stereographic" [Rotation.one]
        ![0, 1, 0] ![0, 0, 1] = some [![0, 0]] := by
  have hone : ∀ v, applyVec Rotation.one v = v := fun v => by
    have hu : Unit4 Rotation.one := by norm_num [Unit4, Rotation.one]
    rw [app hu, toMatrix_one, one_mulVec]
  have hone' : ∀ v, applyVec (conj Rotation.one) v = v := fun v => by
    have e : conj Rotation.one = Rotation.one := by simp [conj, Rotation.one]
    rw [e, hone]
  obtain ⟨q, h, u, hq⟩ := axes_apply (x := ![0, 1, 0]) (y := ![0, 0, 1]) (by simp) (by simp) (by simp)
  have h1 : unit ![0, 1, 0] = ![0, 1, 0] := by simp [unit, norm3]
  have h2 : applyVec q ![0, 1, 0] = ![0, 0, 1] := by
    rw [hq]
    ext i
    fin_cases i <;> simp
  refine ⟨?_, ?_, ?_⟩
  · ext i
    fin_cases i <;> simp [inAxes, cross]
  · refine vec2 ?_ ?_ <;> simp [stereo]
  · simp only [poleFigure, h, Option.bind_some, chosen, if_true, Option.map_some, poles, equivalentVectors,
      List.foldl_cons, List.foldl_nil, hone, List.not_mem_nil, false_and, exists_const, if_false, List.nil_append,
      List.map_cons, List.map_nil, List.flatMap_cons, List.flatMap_nil, List.append_nil, polePoints, hone', h1, h2]
    simp [stereo]

end Neml.PoleFigures
