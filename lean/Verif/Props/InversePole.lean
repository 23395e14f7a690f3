import Verif.Props.PoleFigures
import Mathlib.GroupTheory.Perm.Sign
import Mathlib.GroupTheory.Perm.Fin
import Mathlib.Data.Fin.Tuple.Sort

/-!
# C156: inverse pole figures
-/

namespace Neml.PoleFigures

open Neml.Rotation Neml.Lattice Neml.Symmetry Matrix

theorem mem_ipf {trans q : Quat} {ops sample : List Quat} {d v : Vec} :
    v ∈ ipfPoints trans q ops sample d ↔
      0 < v 2 ∧ ∃ s ∈ sample, ∃ R ∈ ops, v = applyVec trans (applyVec R (applyVec q (applyVec s (unit d)))) := by
  simp only [ipfPoints, List.mem_filter, List.mem_flatMap, List.mem_map, decide_eq_true_eq, gt_iff_lt]
  constructor
  · rintro ⟨⟨s, hs, R, hR, rfl⟩, h⟩
    exact ⟨h, s, hs, R, hR, rfl⟩
  · rintro ⟨h, s, hs, R, hR, rfl⟩
    exact ⟨⟨s, hs, R, hR, rfl⟩, h⟩

/-- Orthogonal crystal directions give a rotation that carries them to the axes of the figure. Directions that are not
orthogonal to the tolerance are refused. -/
theorem C156_frame (dirOf : List ℤ → Option Vec) {x y : List ℤ} {xv yv : Vec} (hx : dirOf x = some xv)
    (hy : dirOf y = some yv) (x0 : xv ≠ 0) (y0 : yv ≠ 0) :
    (xv ⬝ᵥ yv = 0 → ∃ t, frame dirOf x y = some t ∧ Unit4 t ∧ applyVec t (unit xv) = ![1, 0, 0] ∧
      applyVec t (unit yv) = ![0, 1, 0]) ∧
      (|xv ⬝ᵥ yv| > 1e-8 * (norm3 xv * norm3 yv) → frame dirOf x y = none) := by
  have nx := norm3_pos x0
  have ny := norm3_pos y0
  have hd : unit xv ⬝ᵥ unit yv = (norm3 xv * norm3 yv)⁻¹ * (xv ⬝ᵥ yv) := by
    rw [unit, unit, smul_dotProduct, dotProduct_smul, smul_eq_mul, smul_eq_mul]
    field_simp
  constructor
  · intro h
    have hxy : unit xv ⬝ᵥ unit yv = 0 := by rw [hd, h, mul_zero]
    have hxx := (sphere_dot _).mp (sphere_unit x0)
    have hyy := (sphere_dot _).mp (sphere_unit y0)
    simp only [frame, hx, hy, Option.bind_some]
    rw [if_pos (by rw [hxy]; norm_num)]
    generalize unit xv = a at hxy hxx
    generalize unit yv = b at hxy hyy
    have ea : ![a 0, a 1, a 2] = a := vec3 rfl rfl rfl
    have eb : ![b 0, b 1, b 2] = b := vec3 rfl rfl rfl
    simp only [dotProduct, Fin.sum_univ_three] at hxx hyy hxy
    have hM : SO3 !![a 0, a 1, a 2; b 0, b 1, b 2; cross a b 0, cross a b 1, cross a b 2] := by
      constructor
      · ext i j
        fin_cases i <;> fin_cases j <;>
          simp [Matrix.mul_apply, Fin.sum_univ_succ, cross] <;> grind
      · rw [det_fin_three]
        simp [cross]
        grind
    obtain ⟨h1, h2⟩ := C52_matrix hM
    refine ⟨_, rfl, h2, ?_, ?_⟩
    · rw [app h2, h1]
      ext i
      fin_cases i <;> simp [mulVec, dotProduct, Fin.sum_univ_three, cross] <;> grind
    · rw [app h2, h1]
      ext i
      fin_cases i <;> simp [mulVec, dotProduct, Fin.sum_univ_three, cross] <;> grind
  · intro h
    simp only [frame, hx, hy, Option.bind_some]
    rw [if_neg]
    rw [hd, abs_mul, abs_inv, abs_of_pos (mul_pos nx ny), not_le]
    rw [lt_inv_mul_iff₀ (mul_pos nx ny)]
    linarith

/-- The points of an inverse pole figure are directions in the upper half, so inside the circle of the figure. -/
theorem C156_inside {trans q : Quat} {ops sample : List Quat} {d v : Vec} (ht : Unit4 trans) (hq : Unit4 q)
    (ho : ∀ R ∈ ops, Unit4 R) (hs : ∀ s ∈ sample, Unit4 s) (hd : d ≠ 0) (hv : v ∈ ipfPoints trans q ops sample d) :
    OnSphere v ∧ 0 < v 2 ∧ radius2 (stereo v) < 1 := by
  obtain ⟨h0, s, hss, R, hR, rfl⟩ := mem_ipf.mp hv
  have h1 : OnSphere (applyVec trans (applyVec R (applyVec q (applyVec s (unit d))))) :=
    sphere_app ht (sphere_app (ho R hR) (sphere_app hq (sphere_app (hs s hss) (sphere_unit hd))))
  refine ⟨h1, h0, ?_⟩
  have h2 := height h1 (by linarith)
  rw [stereo_radius h1 (by linarith), div_lt_one h2]
  linarith

/-- Equivalent orientations of the crystal and equivalent directions of the sample give the same points. -/
theorem C156_invariant {trans q q' S : Quat} {ops sample : List Quat} {d : Vec} (hq : Unit4 q) (hq' : Unit4 q')
    (ho : RotationGroup ops) (hs : RotationGroup sample) (hS : S ∈ sample)
    (hR : ∃ R ∈ ops, toMatrix q' = toMatrix R * toMatrix q) (v : Vec) :
    v ∈ ipfPoints trans q' ops sample (applyVec S d) ↔ v ∈ ipfPoints trans q ops sample d := by
  obtain ⟨R, hR, e⟩ := hR
  rw [mem_ipf, mem_ipf]
  apply and_congr_right
  intro _
  have hSu := hs.unit S hS
  constructor
  · rintro ⟨s, hss, T, hT, rfl⟩
    obtain ⟨s', hs', e1⟩ := op_product hs hss hS
    obtain ⟨T', hT', e2⟩ := op_product ho hT hR
    refine ⟨s', hs', T', hT', ?_⟩
    rw [unit_app hSu, app (ho.unit T hT), app hq', app (hs.unit s hss), app hSu, app (ho.unit T' hT'), app hq,
      app (hs.unit s' hs'), e, e1, e2]
    simp only [mulVec_mulVec, Matrix.mul_assoc]
  · rintro ⟨s, hss, T, hT, rfl⟩
    obtain ⟨S', hS', e3⟩ := op_inverse hs hS
    obtain ⟨s', hs', e1⟩ := op_product hs hss hS'
    obtain ⟨R', hR', e4⟩ := op_inverse ho hR
    obtain ⟨T', hT', e2⟩ := op_product ho hT hR'
    refine ⟨s', hs', T', hT', ?_⟩
    have k1 := mul_eq_one_comm.mp (toMatrix_SO3 hSu).1
    have k2 := mul_eq_one_comm.mp (toMatrix_SO3 (ho.unit R hR)).1
    rw [unit_app hSu, app (ho.unit T' hT'), app hq', app (hs.unit s' hs'), app hSu, app (ho.unit T hT), app hq,
      app (hs.unit s hss), e, e1, e2, e3, e4]
    simp only [mulVec_mulVec]
    congr 2
    have : toMatrix T * (toMatrix R)ᵀ * (toMatrix R * toMatrix q * (toMatrix s * (toMatrix S)ᵀ * toMatrix S)) =
        toMatrix T * ((toMatrix R)ᵀ * toMatrix R) * toMatrix q * toMatrix s * ((toMatrix S)ᵀ * toMatrix S) := by
      simp only [Matrix.mul_assoc]
    rw [this, k1, k2]
    simp only [Matrix.mul_one, Matrix.mul_assoc]

/-- The hypotheses hold for a cubic crystal with the default sample symmetry. -/
example : ∃ ops sample q R S, symmetryRotations "432" = some ops ∧ symmetryRotations "222" = some sample ∧
    RotationGroup ops ∧ RotationGroup sample ∧ S ∈ sample ∧ R ∈ ops ∧ Unit4 q ∧ Unit4 (qmul R q) ∧
    toMatrix (qmul R q) = toMatrix R * toMatrix q := by
  have g1 := C68_group ops432
  have g2 := C68_group ops222
  exact ⟨_, _, tilted, _, _, ops432, ops222, g1, g2, g2.one, g1.one, tilted_unit, (g1.unit _ g1.one).mul tilted_unit,
    toMatrix_mul (g1.unit _ g1.one) tilted_unit⟩

/-! ## The cubic triangle -/

/-- The standard triangle: the third component is the largest, the second the smallest, none is negative. -/
def Standard (v : Vec) : Prop := v 0 ≤ v 2 ∧ v 1 ≤ v 0 ∧ 0 ≤ v 1

theorem within_standard (v : Vec) : within (unit (corner 0)) (unit (corner 1)) (unit (corner 2)) v ↔ Standard v := by
  have n0 : unit (corner 0) = ![0, 0, 1] := by
    simp [unit, norm3, corner]
  have n1 : unit (corner 1) = ![(√2)⁻¹, 0, (√2)⁻¹] := by
    have : norm3 (corner 1) = √2 := by simp [norm3, corner]; norm_num
    rw [unit, this]; simp [corner]
  have n2 : unit (corner 2) = ![(√3)⁻¹, (√3)⁻¹, (√3)⁻¹] := by
    have : norm3 (corner 2) = √3 := by simp [norm3, corner]; norm_num
    rw [unit, this]; simp [corner]
  have p2 : 0 < (√2)⁻¹ := by positivity
  have p3 : 0 < (√3)⁻¹ := by positivity
  rw [n0, n1, n2]
  generalize (√2)⁻¹ = a at p2
  generalize (√3)⁻¹ = b at p3
  simp only [within, Standard, cross, dotProduct, Fin.sum_univ_three, cons_val_zero, cons_val_one, cons_val]
  have e1 : v 0 * (0 * a - 1 * 0) + v 1 * (1 * a - 0 * a) + v 2 * (0 * 0 - 0 * a) = a * v 1 := by ring
  have e2 : v 0 * (0 * b - a * b) + v 1 * (a * b - a * b) + v 2 * (a * b - 0 * b) = (a * b) * (v 2 - v 0) := by ring
  have e3 : v 0 * (b * 1 - b * 0) + v 1 * (b * 0 - b * 1) + v 2 * (b * 0 - b * 0) = b * (v 0 - v 1) := by ring
  rw [e1, e2, e3, ge_iff_le, ge_iff_le, ge_iff_le, mul_nonneg_iff_of_pos_left p2,
    mul_nonneg_iff_of_pos_left (mul_pos p2 p3), mul_nonneg_iff_of_pos_left p3, sub_nonneg, sub_nonneg]
  tauto

theorem mem_reduce {l : List Vec} {v : Vec} :
    v ∈ reduceTriangle l (corner 0) (corner 1) (corner 2) ↔ v ∈ l ∧ Standard v := by
  simp only [reduceTriangle, List.mem_filter, decide_eq_true_eq, within_standard]

/-- The matrix that puts component `σ i` with sign `e i` in place `i`. -/
def signed (σ : Equiv.Perm (Fin 3)) (e : Fin 3 → ℤˣ) : Matrix (Fin 3) (Fin 3) ℤ :=
  of fun i j => if σ i = j then (e i : ℤ) else 0

theorem cub_signed : ∀ u ∈ slice 0 24 cubZ, ∃ σ : Equiv.Perm (Fin 3), ∃ e : Fin 3 → ℤˣ,
    intM u = signed σ e ∧ Equiv.Perm.sign σ * (e 0 * e 1 * e 2) = 1 := by decide +kernel

theorem signed_cub : ∀ σ : Equiv.Perm (Fin 3), ∀ e : Fin 3 → ℤˣ, Equiv.Perm.sign σ * (e 0 * e 1 * e 2) = 1 →
    ∃ u ∈ slice 0 24 cubZ, intM u = signed σ e := by decide +kernel

/-- The operators of a cubic crystal are exactly the permutations of the components with signs, of determinant one. -/
theorem C156_octahedral {ops : List Quat} (h : symmetryRotations "432" = some ops) :
    (∀ R ∈ ops, ∃ (σ : Equiv.Perm (Fin 3)) (e : Fin 3 → ℤˣ), Equiv.Perm.sign σ * (e 0 * e 1 * e 2) = 1 ∧
      ∀ v i, applyVec R v i = ((e i : ℤ) : ℝ) * v (σ i)) ∧
      ∀ (σ : Equiv.Perm (Fin 3)) (e : Fin 3 → ℤˣ), Equiv.Perm.sign σ * (e 0 * e 1 * e 2) = 1 →
        ∃ R ∈ ops, ∀ v i, applyVec R v i = ((e i : ℤ) : ℝ) * v (σ i) := by
  have act : ∀ (σ : Equiv.Perm (Fin 3)) (e : Fin 3 → ℤˣ) (v : Vec) (i : Fin 3),
      ((signed σ e).map (Int.cast : ℤ → ℝ) *ᵥ v) i = ((e i : ℤ) : ℝ) * v (σ i) := by
    intro σ e v i
    simp only [mulVec, dotProduct, Matrix.map_apply, signed, of_apply]
    rw [Finset.sum_eq_single (σ i)]
    · simp
    · intro b _ hb
      rw [if_neg (Ne.symm hb)]
      simp
    · simp
  constructor
  · intro R hR
    obtain ⟨u, hu, e1⟩ := cubic_image h hR
    obtain ⟨σ, e, e2, e3⟩ := cub_signed u hu
    exact ⟨σ, e, e3, fun v i => by rw [e1, e2, act]⟩
  · intro σ e hs
    obtain ⟨u, hu, e2⟩ := signed_cub σ e hs
    have hg := C68_group h
    rw [ops432] at h
    obtain rfl := Option.some.inj h
    have hm := List.mem_map_of_mem (f := QZ.val 2) hu
    exact ⟨_, hm, fun v i => by rw [app (hg.unit _ hm), toMatrix_intM hu, e2, act]⟩

/-- The components of `w` are those of `v` without signs, put in the order of the standard triangle. -/
def Sorted (v w : Vec) : Prop := Standard w ∧ ∃ σ : Equiv.Perm (Fin 3), ∀ i, w i = |v (σ i)|

theorem sorted_unique {v w w' : Vec} (h : Sorted v w) (h' : Sorted v w') : w = w' := by
  obtain ⟨⟨a1, a2, a3⟩, σ, hσ⟩ := h
  obtain ⟨⟨b1, b2, b3⟩, τ, hτ⟩ := h'
  have lo : ∀ i, w 1 ≤ |v i| := by
    intro i
    have := hσ (σ.symm i)
    rw [Equiv.apply_symm_apply] at this
    rw [← this]
    generalize σ.symm i = k
    fin_cases k
    exacts [a2, le_refl _, a2.trans a1]
  have hi : ∀ i, |v i| ≤ w 2 := by
    intro i
    have := hσ (σ.symm i)
    rw [Equiv.apply_symm_apply] at this
    rw [← this]
    generalize σ.symm i = k
    fin_cases k
    exacts [a1, a2.trans a1, le_refl _]
  have lo' : ∀ i, w' 1 ≤ |v i| := by
    intro i
    have := hτ (τ.symm i)
    rw [Equiv.apply_symm_apply] at this
    rw [← this]
    generalize τ.symm i = k
    fin_cases k
    exacts [b2, le_refl _, b2.trans b1]
  have hi' : ∀ i, |v i| ≤ w' 2 := by
    intro i
    have := hτ (τ.symm i)
    rw [Equiv.apply_symm_apply] at this
    rw [← this]
    generalize τ.symm i = k
    fin_cases k
    exacts [b1, b2.trans b1, le_refl _]
  have c1 : w 1 = w' 1 := le_antisymm ((lo _).trans (hτ 1).ge) ((lo' _).trans (hσ 1).ge)
  have c2 : w 2 = w' 2 := le_antisymm ((hσ 2).le.trans (hi' _)) ((hτ 2).le.trans (hi _))
  have s1 : ∑ i, w i = ∑ i, |v i| := by
    rw [← Equiv.sum_comp σ fun i => |v i|]
    exact Finset.sum_congr rfl fun i _ => hσ i
  have s2 : ∑ i, w' i = ∑ i, |v i| := by
    rw [← Equiv.sum_comp τ fun i => |v i|]
    exact Finset.sum_congr rfl fun i _ => hτ i
  rw [← s2, Fin.sum_univ_three, Fin.sum_univ_three] at s1
  exact vec3 (by linarith) c1 c2

theorem sorted_neg {v w : Vec} : Sorted (-v) w ↔ Sorted v w := by
  simp [Sorted]

theorem sorted_exists (v : Vec) : ∃ w, Sorted v w := by
  have hm := Tuple.monotone_sort fun i => |v i|
  let τ : Equiv.Perm (Fin 3) := Equiv.swap 0 1
  refine ⟨fun i => |v ((τ.trans (Tuple.sort fun i => |v i|)) i)|, ⟨?_, ?_, ?_⟩, _, fun i => rfl⟩
  · exact hm (show τ 0 ≤ τ 2 by decide)
  · exact hm (show τ 1 ≤ τ 0 by decide)
  · exact abs_nonneg _

/-- The images in the standard triangle are the sorted direction. -/
theorem image_sorted {ops : List Quat} (h : symmetryRotations "432" = some ops) {R : Quat} (hR : R ∈ ops) {v : Vec}
    (hs : Standard (applyVec R v)) : Sorted v (applyVec R v) := by
  obtain ⟨σ, e, -, ha⟩ := (C156_octahedral h).1 R hR
  refine ⟨hs, σ, fun i => ?_⟩
  have h0 : 0 ≤ applyVec R v i := by
    obtain ⟨h1, h2, h3⟩ := hs
    fin_cases i
    exacts [h3.trans h2, h3, (h3.trans h2).trans h1]
  rw [ha] at h0 ⊢
  rw [← abs_of_nonneg h0, abs_mul]
  rcases Int.units_eq_one_or (e i) with he | he <;> simp [he]

/-- Of a direction and its opposite one has an equivalent in the triangle. -/
theorem image_exists {ops : List Quat} (h : symmetryRotations "432" = some ops) {v w : Vec} (hw : Sorted v w) :
    ∃ R ∈ ops, applyVec R v = w ∨ applyVec R (-v) = w := by
  obtain ⟨-, σ, hσ⟩ := hw
  let e : Fin 3 → ℤˣ := fun i => if 0 ≤ v (σ i) then 1 else -1
  have he : ∀ i, ((e i : ℤ) : ℝ) * v (σ i) = w i := by
    intro i
    rw [hσ]
    by_cases h0 : 0 ≤ v (σ i)
    · simp [e, h0, abs_of_nonneg h0]
    · simp [e, h0, abs_of_neg (not_le.mp h0)]
  rcases Int.units_eq_one_or (Equiv.Perm.sign σ * (e 0 * e 1 * e 2)) with hs | hs
  · obtain ⟨R, hR, ha⟩ := (C156_octahedral h).2 σ e hs
    refine ⟨R, hR, Or.inl ?_⟩
    ext i
    rw [ha, he]
  · obtain ⟨R, hR, ha⟩ := (C156_octahedral h).2 σ (fun i => -e i) (by
      simp only [neg_mul, mul_neg, neg_neg]
      rw [hs]
      simp)
    refine ⟨R, hR, Or.inr ?_⟩
    ext i
    rw [ha, ← he]
    simp

theorem frame_cubic {a : ℝ} (ha : 0 < a) : ∃ t, frame (miller2cart (cubicBasis a)) [1, 0, 0] [0, 1, 0] = some t ∧
    ∀ v, applyVec t v = v := by
  have r1 : reduceGcd (0, 1, 0) = some (0, 1, 0) := by
    refine ((C96_reduce _).2 _).mpr ⟨?_, 1, by norm_num, by norm_num⟩
    rintro d - h -
    exact Int.isUnit_iff.mp (isUnit_of_dvd_one h)
  have m2 : miller2cart (cubicBasis a) [0, 1, 0] = some (combine (cubicBasis a) (0, 1, 0)) := by
    simp only [miller2cart, assertMiller, Option.bind_some, r1, Option.map_some]
  have e1 : unit (combine (cubicBasis a) (1, 0, 0)) = ![1, 0, 0] := by
    have : combine (cubicBasis a) (1, 0, 0) = ![a, 0, 0] := by simp [combine, cubicBasis]
    rw [this]
    simp [unit, norm3, ha.le, ha.ne']
  have e2 : unit (combine (cubicBasis a) (0, 1, 0)) = ![0, 1, 0] := by
    have : combine (cubicBasis a) (0, 1, 0) = ![0, a, 0] := by simp [combine, cubicBasis]
    rw [this]
    simp [unit, norm3, ha.le, ha.ne']
  refine ⟨setMatrix 1, ?_, fun v => ?_⟩
  · simp only [frame, miller100, m2, Option.bind_some, e1, e2]
    rw [if_pos (by simp; norm_num)]
    congr 2
    ext i j
    fin_cases i <;> fin_cases j <;> simp [cross]
  · obtain ⟨h1, h2⟩ := C52_matrix (M := 1) ⟨by simp, by simp⟩
    rw [app h2, h1, one_mulVec]

/-- In the cubic triangle an orientation can only show one point for directions that the sample symmetry carries to
themselves or their opposite: the sorted absolute components of the direction seen from the crystal. It shows that
point if the symmetry carries the direction to its opposite. -/
theorem C156_triangle {ops sample : List Quat} (h : symmetryRotations "432" = some ops) {a : ℝ} (ha : 0 < a) {q : Quat}
    (hq : Unit4 q) {d : Vec} (hd : d ≠ 0) (hs : ∀ s ∈ sample, applyVec s d = d ∨ applyVec s d = -d)
    (hsu : ∀ s ∈ sample, Unit4 s) :
    ∃ l, projectIpf (miller2cart (cubicBasis a)) ops q d sample [1, 0, 0] [0, 1, 0] = some l ∧
      (∀ v ∈ reduceTriangle l (corner 0) (corner 1) (corner 2), Sorted (applyVec q (unit d)) v) ∧
      ((∃ s ∈ sample, applyVec s d = d) → (∃ s ∈ sample, applyVec s d = -d) →
        ∀ v, v ∈ reduceTriangle l (corner 0) (corner 1) (corner 2) ↔ Sorted (applyVec q (unit d)) v) := by
  obtain ⟨t, ht, hid⟩ := frame_cubic ha
  have hd' : ∀ s ∈ sample, applyVec s (unit d) = unit d ∨ applyVec s (unit d) = -unit d := by
    intro s hss
    rw [← unit_app (hsu s hss)]
    have n := norm3_applyVec (hsu s hss) d
    rcases hs s hss with e | e
    · left; rw [e]
    · right
      rw [e] at n ⊢
      rw [unit, n, unit, smul_neg]
  have lin : ∀ v, applyVec q (-v) = -applyVec q v := fun v => by rw [app hq, app hq, mulVec_neg]
  refine ⟨ipfPoints t q ops sample d, by rw [projectIpf, ht]; rfl, ?_⟩
  have key : ∀ v ∈ reduceTriangle (ipfPoints t q ops sample d) (corner 0) (corner 1) (corner 2),
      Sorted (applyVec q (unit d)) v := by
    intro v hv
    obtain ⟨h1, h2⟩ := mem_reduce.mp hv
    obtain ⟨-, s, hss, R, hR, rfl⟩ := mem_ipf.mp h1
    rw [hid] at h2 ⊢
    have h3 := image_sorted h hR h2
    rcases hd' s hss with e | e
    · rwa [e] at h3 ⊢
    · rw [e, lin] at h3 ⊢
      rwa [sorted_neg] at h3
  refine ⟨key, ?_⟩
  · rintro ⟨s, hss, e⟩ ⟨s', hss', e'⟩ v
    constructor
    · exact key v
    · intro hv
      rw [mem_reduce, mem_ipf]
      have u1 : OnSphere (applyVec q (unit d)) := sphere_app hq (sphere_unit hd)
      obtain ⟨R, hR, h1⟩ := image_exists h hv
      have u2 : OnSphere v := by
        have hu := (C68_group h).unit R hR
        rcases h1 with rfl | rfl
        · exact sphere_app hu u1
        · rw [← lin]
          refine sphere_app hu (sphere_app hq ?_)
          have := sphere_unit hd
          simp only [OnSphere, Pi.neg_apply, neg_sq] at this ⊢
          exact this
      have u3 : 0 < v 2 := by
        obtain ⟨⟨k1, k2, k3⟩, -⟩ := hv
        have : 0 ≤ v 2 := (k3.trans k2).trans k1
        rcases lt_or_eq_of_le this with h | h
        · exact h
        · have z0 : v 0 = 0 := le_antisymm (by linarith) (k3.trans k2)
          have z1 : v 1 = 0 := le_antisymm (by linarith) k3
          simp [OnSphere, z0, z1, ← h] at u2
      refine ⟨⟨u3, ?_⟩, hv.1⟩
      rcases h1 with h1 | h1
      · refine ⟨s, hss, R, hR, ?_⟩
        rw [hid, ← unit_app (hsu s hss), e, h1]
      · refine ⟨s', hss', R, hR, ?_⟩
        have n := norm3_applyVec (hsu s' hss') d
        rw [e'] at n
        rw [hid, ← unit_app (hsu s' hss'), e', unit, n, smul_neg, lin, ← h1, unit]

theorem turns222 : ∀ u ∈ slice 0 4 tetZ, matB u = 0 ∧ (matA 2 u).mulVec ![0, 0, 1] ∈
    ([![0, 0, 2], ![0, 0, -2]] : List (Fin 3 → ℤ)) := by decide +kernel

theorem turns222' : (∃ u ∈ slice 0 4 tetZ, matB u = 0 ∧ (matA 2 u).mulVec ![0, 0, 1] = ![0, 0, 2]) ∧
    ∃ u ∈ slice 0 4 tetZ, matB u = 0 ∧ (matA 2 u).mulVec ![0, 0, 1] = ![0, 0, -2] := by decide +kernel

theorem apply222 {sample : List Quat} (h : symmetryRotations "222" = some sample) {u : QZ} (hu : u ∈ slice 0 4 tetZ)
    (hB : matB u = 0) : u.val 2 ∈ sample ∧ ∀ m : Fin 3 → ℤ,
      applyVec (u.val 2) (fun i => (m i : ℝ)) = fun i => (((matA 2 u).mulVec m i : ℤ) : ℝ) / 2 := by
  have hg := C68_group h
  rw [ops222] at h
  obtain rfl := Option.some.inj h
  have hm := List.mem_map_of_mem (f := QZ.val 2) hu
  refine ⟨hm, fun m => ?_⟩
  rw [app (hg.unit _ hm)]
  ext i
  simp only [mulVec, dotProduct, Fin.sum_univ_three, toMatrix_val (d := 2) (by norm_num), hB, Matrix.zero_apply]
  push_cast
  ring

/-- The default sample symmetry carries the normal direction to itself and to its opposite, and nowhere else. -/
example {sample : List Quat} (h : symmetryRotations "222" = some sample) :
    (∀ s ∈ sample, applyVec s ![0, 0, 1] = ![0, 0, 1] ∨ applyVec s ![0, 0, 1] = -![0, 0, 1]) ∧
      (∃ s ∈ sample, applyVec s ![0, 0, 1] = ![0, 0, 1]) ∧ ∃ s ∈ sample, applyVec s ![0, 0, 1] = -![0, 0, 1] := by
  have c : (fun i => ((![0, 0, 1] : Fin 3 → ℤ) i : ℝ)) = ![0, 0, 1] := vec3 (by simp) (by simp) (by simp)
  have c1 : (fun i => (((![0, 0, 2] : Fin 3 → ℤ) i : ℤ) : ℝ) / 2) = ![0, 0, 1] := vec3 (by simp) (by simp) (by simp)
  have c2 : (fun i => (((![0, 0, -2] : Fin 3 → ℤ) i : ℤ) : ℝ) / 2) = -![0, 0, 1] := vec3 (by simp) (by simp) (by simp)
  refine ⟨fun s hs => ?_, ?_, ?_⟩
  · have h' := h
    rw [ops222] at h'
    obtain rfl := Option.some.inj h'
    obtain ⟨u, hu, rfl⟩ := List.mem_map.mp hs
    obtain ⟨hB, ht⟩ := turns222 u hu
    have := (apply222 h hu hB).2 ![0, 0, 1]
    rw [c] at this
    simp only [List.mem_cons, List.not_mem_nil, or_false] at ht
    rcases ht with e | e
    · left; rw [this, e, c1]
    · right; rw [this, e, c2]
  · obtain ⟨u, hu, hB, e⟩ := turns222'.1
    obtain ⟨hm, ha⟩ := apply222 h hu hB
    have := ha ![0, 0, 1]
    rw [c, e, c1] at this
    exact ⟨_, hm, this⟩
  · obtain ⟨u, hu, hB, e⟩ := turns222'.2
    obtain ⟨hm, ha⟩ := apply222 h hu hB
    have := ha ![0, 0, 1]
    rw [c, e, c2] at this
    exact ⟨_, hm, this⟩

theorem missing123 : ∀ u ∈ slice 0 24 cubZ, ¬ ((intM u).mulVec ![1, 2, 3] 0 ≤ (intM u).mulVec ![1, 2, 3] 2 ∧
    (intM u).mulVec ![1, 2, 3] 1 ≤ (intM u).mulVec ![1, 2, 3] 0 ∧ 0 ≤ (intM u).mulVec ![1, 2, 3] 1) := by
  decide +kernel

/-- Other directions can be missing from the cubic triangle altogether: with the default sample symmetry the direction
(1, 2, 3) of a crystal in the reference orientation has no point in it. The triangle is a cell of the group with
inversion, and the points are only turned. -/
theorem C156_missing_disagreement {ops sample : List Quat} (h : symmetryRotations "432" = some ops)
    (h' : symmetryRotations "222" = some sample) {a : ℝ} (ha : 0 < a) :
    cubicFigure (miller2cart (cubicBasis a)) ops [Rotation.one] ![1, 2, 3] sample [1, 0, 0] [0, 1, 0] = some [] := by
  obtain ⟨t, ht, hid⟩ := frame_cubic ha
  have hg := C68_group h
  have hg' := C68_group h'
  have hd : (![1, 2, 3] : Vec) ≠ 0 := fun e => by simpa using congrFun e 0
  have hn := norm3_pos hd
  have key : reduceTriangle (ipfPoints t Rotation.one ops sample ![1, 2, 3]) (corner 0) (corner 1) (corner 2) = [] := by
    rw [List.eq_nil_iff_forall_not_mem]
    intro v hv
    obtain ⟨h1, h2⟩ := mem_reduce.mp hv
    obtain ⟨-, s, hs, R, hR, rfl⟩ := mem_ipf.mp h1
    obtain ⟨S, hS, e⟩ := within_cubic h h' s hs
    obtain ⟨T, hT, e'⟩ := op_product hg hR hS
    obtain ⟨u, hu, hi⟩ := cubic_image h hT
    have eq : applyVec R (applyVec Rotation.one (applyVec s (unit ![1, 2, 3]))) =
        (norm3 ![1, 2, 3])⁻¹ • fun i => (((intM u).mulVec ![1, 2, 3] i : ℤ) : ℝ) := by
      have e2 : applyVec R (applyVec Rotation.one (applyVec s (unit ![1, 2, 3]))) = applyVec T (unit ![1, 2, 3]) := by
        rw [app (hg.unit R hR), app (hg.unit _ hg.one), toMatrix_one, one_mulVec, app (hg'.unit s hs),
          app (hg.unit T hT), mulVec_mulVec, e, e']
      rw [e2, hi, unit, mulVec_smul]
      congr 1
      ext i
      simp [mulVec, dotProduct, Fin.sum_univ_three]
    rw [hid, eq] at h2
    obtain ⟨k1, k2, k3⟩ := h2
    simp only [Pi.smul_apply, smul_eq_mul] at k1 k2 k3
    have hp : 0 < (norm3 (![1, 2, 3] : Vec))⁻¹ := inv_pos.mpr hn
    refine missing123 u hu ⟨?_, ?_, ?_⟩
    · exact_mod_cast le_of_mul_le_mul_left k1 hp
    · exact_mod_cast le_of_mul_le_mul_left k2 hp
    · exact_mod_cast (mul_nonneg_iff_of_pos_left hp).mp k3
  simp [cubicFigure, projectIpf, ht, key]

/-! ## Colours -/

theorem smallest_facts (vs : Fin 3 → Vec) (i : Fin 3) :
    smallest vs i ≤ 1 ∧ (∀ j, smallest vs i ≤ unit (vs i) ⬝ᵥ unit (vs j)) ∧
      (smallest vs i = 1 ∨ ∃ j, smallest vs i = unit (vs i) ⬝ᵥ unit (vs j)) := by
  have e : smallest vs i = min (min (min 1 (unit (vs i) ⬝ᵥ unit (vs 0))) (unit (vs i) ⬝ᵥ unit (vs 1)))
      (unit (vs i) ⬝ᵥ unit (vs 2)) := by
    have m : ∀ a b : ℝ, (if b < a then b else a) = min a b := by
      intro a b
      split_ifs with h
      · rw [min_eq_right h.le]
      · rw [min_eq_left (not_lt.mp h)]
    simp [smallest, List.finRange_succ, m]
  rw [e]
  refine ⟨?_, fun j => ?_, ?_⟩
  · exact ((min_le_left _ _).trans (min_le_left _ _)).trans (min_le_left _ _)
  · fin_cases j
    · exact ((min_le_left _ _).trans (min_le_left _ _)).trans (min_le_right _ _)
    · exact (min_le_left _ _).trans (min_le_right _ _)
    · exact min_le_right _ _
  · rcases min_choice (min (min 1 (unit (vs i) ⬝ᵥ unit (vs 0))) (unit (vs i) ⬝ᵥ unit (vs 1)))
      (unit (vs i) ⬝ᵥ unit (vs 2)) with h | h
    · rw [h]
      rcases min_choice (min 1 (unit (vs i) ⬝ᵥ unit (vs 0))) (unit (vs i) ⬝ᵥ unit (vs 1)) with h | h
      · rw [h]
        rcases min_choice 1 (unit (vs i) ⬝ᵥ unit (vs 0)) with h | h
        · exact Or.inl h
        · exact Or.inr ⟨0, h⟩
      · exact Or.inr ⟨1, h⟩
    · exact Or.inr ⟨2, h⟩

/-- A triangle of directions: positively oriented, with no edge longer than a right angle. -/
structure Triangle (vs : Fin 3 → Vec) : Prop where
  nonzero : ∀ i, vs i ≠ 0
  oriented : 0 < vs 0 ⬝ᵥ cross (vs 1) (vs 2)
  acute : ∀ i j, 0 ≤ vs i ⬝ᵥ vs j

theorem dot_le_one {u v : Vec} (hu : OnSphere u) (hv : OnSphere v) : u ⬝ᵥ v ≤ 1 ∧ (u ⬝ᵥ v = 1 ↔ u = v) := by
  have e : (u 0 - v 0) ^ 2 + (u 1 - v 1) ^ 2 + (u 2 - v 2) ^ 2 = 2 * (1 - u ⬝ᵥ v) := by
    unfold OnSphere at hu hv
    simp only [dotProduct, Fin.sum_univ_three]
    linear_combination hu + hv
  have h0 := sq_nonneg (u 0 - v 0)
  have h1 := sq_nonneg (u 1 - v 1)
  have h2 := sq_nonneg (u 2 - v 2)
  refine ⟨by linarith, fun h => ?_, fun h => ?_⟩
  · rw [h] at e
    have e0 : (u 0 - v 0) ^ 2 = 0 := by linarith
    have e1 : (u 1 - v 1) ^ 2 = 0 := by linarith
    have e2 : (u 2 - v 2) ^ 2 = 0 := by linarith
    exact vec3 (sub_eq_zero.mp (pow_eq_zero_iff two_ne_zero |>.mp e0)) (sub_eq_zero.mp (pow_eq_zero_iff two_ne_zero |>.mp e1))
      (sub_eq_zero.mp (pow_eq_zero_iff two_ne_zero |>.mp e2))
  · rw [h, ← sphere_dot]; exact hv

theorem unit_dot (u v : Vec) : unit u ⬝ᵥ unit v = (norm3 u)⁻¹ * (norm3 v)⁻¹ * (u ⬝ᵥ v) := by
  rw [unit, unit, smul_dotProduct, dotProduct_smul, smul_eq_mul, smul_eq_mul]
  ring

/-- The colours of the points of a triangle are between none and full, and each corner is full in its own colour and
only in that. -/
theorem C156_color {vs : Fin 3 → Vec} (ht : Triangle vs) {p : Vec} (hp : OnSphere p)
    (hw : within (unit (vs 0)) (unit (vs 1)) (unit (vs 2)) p) (i : Fin 3) :
    0 ≤ color vs p i ∧ color vs p i ≤ 1 ∧ (color vs p i = 1 ↔ p = unit (vs i)) := by
  have nn : ∀ i, 0 < (norm3 (vs i))⁻¹ := fun i => inv_pos.mpr (norm3_pos (ht.nonzero i))
  have us : ∀ i, OnSphere (unit (vs i)) := fun i => sphere_unit (ht.nonzero i)
  have acute : ∀ i j, 0 ≤ unit (vs i) ⬝ᵥ unit (vs j) := fun i j => by
    rw [unit_dot]
    exact mul_nonneg (mul_pos (nn i) (nn j)).le (ht.acute i j)
  have hD : 0 < unit (vs 0) ⬝ᵥ cross (unit (vs 1)) (unit (vs 2)) := by
    have e : unit (vs 0) ⬝ᵥ cross (unit (vs 1)) (unit (vs 2)) =
        (norm3 (vs 0))⁻¹ * (norm3 (vs 1))⁻¹ * (norm3 (vs 2))⁻¹ * (vs 0 ⬝ᵥ cross (vs 1) (vs 2)) := by
      simp only [unit, dotProduct, Fin.sum_univ_three, cross, Pi.smul_apply, smul_eq_mul, cons_val_zero, cons_val_one,
        cons_val]
      ring
    rw [e]
    exact mul_pos (mul_pos (mul_pos (nn 0) (nn 1)) (nn 2)) ht.oriented
  obtain ⟨f1, f2, f3⟩ := smallest_facts vs i
  have f0 : 0 ≤ smallest vs i := by
    rcases f3 with h | ⟨j, h⟩
    · rw [h]; norm_num
    · rw [h]; exact acute i j
  have f4 : smallest vs i < 1 := by
    have : ∃ j, unit (vs i) ≠ unit (vs j) := by
      by_contra hc
      push Not at hc
      rw [← hc 0, ← hc 1, ← hc 2] at hD
      have z : unit (vs i) ⬝ᵥ cross (unit (vs i)) (unit (vs i)) = 0 := by
        simp only [dotProduct, Fin.sum_univ_three, cross, cons_val_zero, cons_val_one, cons_val]
        ring
      rw [z] at hD
      exact lt_irrefl _ hD
    obtain ⟨j, hj⟩ := this
    obtain ⟨g1, g2⟩ := dot_le_one (us i) (us j)
    exact (f2 j).trans_lt (lt_of_le_of_ne g1 fun e => hj (g2.mp e))
  have u0 := (dot_le_one (us 0) hp).1
  have u1 := (dot_le_one (us 1) hp).1
  have u2 := (dot_le_one (us 2) hp).1
  obtain ⟨w0, w1, w2⟩ := hw
  obtain ⟨g1, g2⟩ := dot_le_one (us i) hp
  have hpp := (sphere_dot p).mp hp
  have lower : smallest vs i ≤ unit (vs i) ⬝ᵥ p := by
    have b0 := f2 0
    have b1 := f2 1
    have b2 := f2 2
    generalize unit (vs i) = V at b0 b1 b2
    generalize unit (vs 0) = a at *
    generalize unit (vs 1) = b at *
    generalize unit (vs 2) = c at *
    have c1 : (a ⬝ᵥ cross b c) * (V ⬝ᵥ p) =
        (p ⬝ᵥ cross b c) * (V ⬝ᵥ a) + (p ⬝ᵥ cross c a) * (V ⬝ᵥ b) + (p ⬝ᵥ cross a b) * (V ⬝ᵥ c) := by
      simp only [dotProduct, Fin.sum_univ_three, cross, cons_val_zero, cons_val_one, cons_val]
      ring
    have c2 : (a ⬝ᵥ cross b c) * (p ⬝ᵥ p) =
        (p ⬝ᵥ cross b c) * (a ⬝ᵥ p) + (p ⬝ᵥ cross c a) * (b ⬝ᵥ p) + (p ⬝ᵥ cross a b) * (c ⬝ᵥ p) := by
      simp only [dotProduct, Fin.sum_univ_three, cross, cons_val_zero, cons_val_one, cons_val]
      ring
    rw [hpp, mul_one] at c2
    have d1 := mul_le_mul_of_nonneg_left b0 w1
    have d2 := mul_le_mul_of_nonneg_left b1 w2
    have d3 := mul_le_mul_of_nonneg_left b2 w0
    have d4 := mul_le_mul_of_nonneg_left u0 w1
    have d5 := mul_le_mul_of_nonneg_left u1 w2
    have d6 := mul_le_mul_of_nonneg_left u2 w0
    have d7 : a ⬝ᵥ cross b c ≤ p ⬝ᵥ cross b c + p ⬝ᵥ cross c a + p ⬝ᵥ cross a b := by linarith
    have d8 := mul_le_mul_of_nonneg_right d7 f0
    refine le_of_mul_le_mul_left ?_ hD
    linarith
  have hpos : 0 < 1 - smallest vs i := by linarith
  refine ⟨div_nonneg (by linarith) hpos.le, ?_, ?_⟩
  · rw [color, div_le_one hpos]; linarith
  · rw [color, div_eq_one_iff_eq hpos.ne']
    constructor
    · intro h
      exact (g2.mp (by linarith)).symm
    · intro h
      have := g2.mpr h.symm
      linarith

/-- The cubic triangle is one, and the direction (1, 0, 2) / √5 is in it. -/
example : Triangle corner ∧ Standard (unit ![1, 0, 2]) ∧ OnSphere (unit ![1, 0, 2]) := by
  refine ⟨⟨fun i e => ?_, ?_, fun i j => ?_⟩, ?_, sphere_unit fun e => by simpa using congrFun e 0⟩
  · have := congrFun e 2
    fin_cases i <;> simp [corner] at this
  · simp [corner, cross, dotProduct, Fin.sum_univ_three]
  · fin_cases i <;> fin_cases j <;> simp [corner, dotProduct, Fin.sum_univ_three] <;> norm_num
  · have : 0 < (norm3 ![1, 0, 2])⁻¹ := inv_pos.mpr (norm3_pos fun e => by simpa using congrFun e 0)
    simp only [Standard, unit, Pi.smul_apply, smul_eq_mul, cons_val_zero, cons_val_one, cons_val]
    refine ⟨by linarith, by linarith, by simp⟩

end Neml.PoleFigures
