import Verif.Props.PoleFigures
import Mathlib.Data.Fintype.Perm
import Mathlib.Data.Fintype.Quotient
import Mathlib.Data.Fintype.Pi

/-! # The slip systems of a cubic lattice

C159: a slip family of a cubic lattice holds each of its systems once, whatever the lattice parameter, as long as this
is not small against the absolute tolerance of the comparison of vectors.

Specification: the directions (planes) of a cubic family are all the vectors obtained from the given indices by permuting
them and changing their signs. A system is a direction in a plane; the signs of the two do not matter. -/

namespace Neml.Lattice

open Neml.Rotation Neml.Symmetry Neml.PoleFigures Matrix

/-- All permutations and changes of sign of three indices. -/
def family (d : Fin 3 → ℤ) : Finset (Fin 3 → ℤ) :=
  (Finset.univ : Finset (Equiv.Perm (Fin 3) × (Fin 3 → Bool))).image fun x i =>
    if x.2 i then d (x.1 i) else -d (x.1 i)

example : (family ![1, 0, 0]).card = 6 ∧ (family ![1, 1, 0]).card = 12 ∧ (family ![1, 1, 1]).card = 8 ∧
    (family ![1, 2, 3]).card = 48 := by decide +kernel

/-- Pairs of a direction and a plane of two families, the direction in the plane. -/
def incident (d p : Fin 3 → ℤ) : Finset ((Fin 3 → ℤ) × (Fin 3 → ℤ)) :=
  (family d ×ˢ family p).filter fun x => x.1 ⬝ᵥ x.2 = 0

/-- The Cartesian vector `a z`. -/
def scaled (a : ℝ) (z : Fin 3 → ℤ) : Vec := fun i => a * z i

example : (incident ![1, 1, 0] ![1, 1, 1]).card = 4 * 12 := by decide +kernel

/-! ## Families -/

theorem mem_family {d z : Fin 3 → ℤ} : z ∈ family d ↔
    ∃ (σ : Equiv.Perm (Fin 3)) (s : Fin 3 → Bool), ∀ i, z i = if s i then d (σ i) else -d (σ i) := by
  simp only [family, Finset.mem_image, Finset.mem_univ, true_and, Prod.exists]
  constructor
  · rintro ⟨σ, s, rfl⟩; exact ⟨σ, s, fun _ => rfl⟩
  · rintro ⟨σ, s, h⟩; exact ⟨σ, s, (funext h).symm⟩

theorem family_neg {d z : Fin 3 → ℤ} (h : z ∈ family d) : -z ∈ family d := by
  obtain ⟨σ, s, h⟩ := mem_family.mp h
  refine mem_family.mpr ⟨σ, fun i => !s i, fun i => ?_⟩
  rw [Pi.neg_apply, h]
  cases hs : s i <;> simp [hs]

theorem family_bound {d z : Fin 3 → ℤ} (h : z ∈ family d) {c : ℤ} (hd : ∀ i, |d i| ≤ c) (i : Fin 3) : |z i| ≤ c := by
  obtain ⟨σ, s, h⟩ := mem_family.mp h
  rw [h]
  have := hd (σ i)
  split_ifs
  · exact this
  · rwa [abs_neg]

theorem family_ne {d z : Fin 3 → ℤ} (h : z ∈ family d) (hd : d ≠ 0) : z ≠ 0 := by
  obtain ⟨σ, s, h⟩ := mem_family.mp h
  rintro rfl
  apply hd
  ext i
  have := h (σ.symm i)
  rw [Equiv.apply_symm_apply, Pi.zero_apply] at this
  rw [Pi.zero_apply]
  split_ifs at this <;> omega

theorem family_square {d z : Fin 3 → ℤ} (h : z ∈ family d) : z ⬝ᵥ z = d ⬝ᵥ d := by
  obtain ⟨σ, s, h⟩ := mem_family.mp h
  simp only [dotProduct]
  rw [← Equiv.sum_comp σ fun i => d i * d i]
  refine Finset.sum_congr rfl fun i _ => ?_
  rw [h]
  split_ifs <;> ring

/-- A permutation with signs as a matrix. -/
def signedM (σ : Equiv.Perm (Fin 3)) (s : Fin 3 → Bool) : Matrix (Fin 3) (Fin 3) ℤ :=
  of fun i j => if σ i = j then (if s i then 1 else -1) else 0

theorem signedM_mulVec (σ : Equiv.Perm (Fin 3)) (s : Fin 3 → Bool) (d : Fin 3 → ℤ) (i : Fin 3) :
    (signedM σ s *ᵥ d) i = if s i then d (σ i) else -d (σ i) := by
  simp only [mulVec, dotProduct, signedM, of_apply, ite_mul, zero_mul, Finset.sum_ite_eq, Finset.mem_univ, if_true]
  split_ifs <;> ring

theorem rotation_signed : ∀ u ∈ slice 0 24 cubZ, ∃ (σ : Equiv.Perm (Fin 3)) (s : Fin 3 → Bool),
    intM u = signedM σ s := by decide +kernel

theorem signed_rotation : ∀ (σ : Equiv.Perm (Fin 3)) (s : Fin 3 → Bool), ∃ u ∈ slice 0 24 cubZ,
    intM u = signedM σ s ∨ intM u = -signedM σ s := by decide +kernel

theorem scaled_image (u : QZ) (a : ℝ) (d : Fin 3 → ℤ) :
    (intM u).map Int.cast *ᵥ scaled a d = scaled a (intM u *ᵥ d) := by
  ext i
  simp only [mulVec, dotProduct, scaled, Matrix.map_apply, Int.cast_sum, Int.cast_mul, Finset.mul_sum]
  exact Finset.sum_congr rfl fun j _ => by ring

/-- Every image under a rotation of the group is in the family. -/
theorem image_family {ops : List Quat} (h : symmetryRotations "432" = some ops) {R : Quat} (hR : R ∈ ops) (a : ℝ)
    (d : Fin 3 → ℤ) : ∃ z ∈ family d, applyVec R (scaled a d) = scaled a z := by
  obtain ⟨u, hu, e⟩ := cubic_image h hR
  obtain ⟨σ, s, hs⟩ := rotation_signed u hu
  refine ⟨intM u *ᵥ d, mem_family.mpr ⟨σ, s, fun i => ?_⟩, by rw [e, scaled_image]⟩
  rw [hs, signedM_mulVec]

/-- Every vector of the family or its opposite is such an image. -/
theorem family_image {ops : List Quat} (h : symmetryRotations "432" = some ops) (a : ℝ) {d z : Fin 3 → ℤ}
    (hz : z ∈ family d) : ∃ R ∈ ops, applyVec R (scaled a d) = scaled a z ∨ applyVec R (scaled a d) = scaled a (-z) := by
  have hg := C68_group h
  obtain ⟨σ, s, hz⟩ := mem_family.mp hz
  obtain ⟨u, hu, hs⟩ := signed_rotation σ s
  have hm : u.val 2 ∈ ops := by
    rw [ops432] at h
    rw [← Option.some.inj h]
    exact List.mem_map_of_mem hu
  refine ⟨_, hm, ?_⟩
  rw [app (hg.unit _ hm), toMatrix_intM hu, scaled_image]
  have hz' : signedM σ s *ᵥ d = z := by ext i; rw [signedM_mulVec, hz]
  rcases hs with hs | hs
  · left
    rw [hs, hz']
  · right
    rw [hs, neg_mulVec, hz']

theorem scaled_neg (a : ℝ) (z : Fin 3 → ℤ) : -scaled a z = scaled a (-z) := by
  ext i; simp [scaled]

theorem scaled_inj {a : ℝ} (ha : a ≠ 0) {z w : Fin 3 → ℤ} (h : scaled a z = scaled a w) : z = w := by
  ext i
  have := congrFun h i
  simp only [scaled] at this
  exact_mod_cast mul_left_cancel₀ ha this

/-- The tolerance keeps vectors with different small indices apart. -/
theorem veq_scaled {a : ℝ} (ha : 1e-6 ≤ a) {z w : Fin 3 → ℤ} (hw : ∀ i, |w i| ≤ 5000) (h : veq (scaled a z) (scaled a w)) :
    z = w := by
  have ha0 : 0 < a := by norm_num at ha; linarith
  ext i
  have hv := h i
  simp only [scaled, isclose] at hv
  rw [← mul_sub, abs_mul, abs_mul, abs_of_pos ha0] at hv
  have hk' : |(w i : ℝ)| ≤ 5000 := by exact_mod_cast hw i
  have h3 : a * |(z i : ℝ) - w i| < a * 1 := by
    norm_num at hv ha ⊢
    nlinarith
  have h4 : |(z i : ℝ) - w i| < 1 := lt_of_mul_lt_mul_left h3 ha0.le
  have h5 : |z i - w i| < 1 := by exact_mod_cast h4
  have h6 : z i - w i = 0 := Int.abs_lt_one_iff.mp h5
  omega

theorem lift_list {α β : Type} (g : α → β) (P : α → Prop) : ∀ l : List β, (∀ v ∈ l, ∃ z, P z ∧ v = g z) →
    ∃ m : List α, (∀ z ∈ m, P z) ∧ l = m.map g
  | [], _ => ⟨[], by simp, rfl⟩
  | v :: l, h => by
    obtain ⟨z, hz, rfl⟩ := h v (by simp)
    obtain ⟨m, hm, rfl⟩ := lift_list g P l fun w hw => h w (by simp [hw])
    exact ⟨z :: m, by simpa [hz] using hm, rfl⟩

/-- The vectors kept of a family: one of each pair of opposite ones. -/
structure Half (l : List (Fin 3 → ℤ)) (S : Finset (Fin 3 → ℤ)) : Prop where
  mem : ∀ z ∈ l, z ∈ S
  all : ∀ z ∈ S, z ∈ l ∨ -z ∈ l
  apart : l.Pairwise fun x y => x ≠ y ∧ y ≠ -x

/-- What the list of equivalent vectors without opposites holds. -/
theorem half {ops : List Quat} (h : symmetryRotations "432" = some ops) {a : ℝ} (ha : 1e-6 ≤ a) {d : Fin 3 → ℤ}
    (hd : ∀ i, |d i| ≤ 5000) : ∃ l, Half l (family d) ∧ bidirectional ops (scaled a d) = l.map (scaled a) := by
  obtain ⟨h1, h2, h3⟩ := C96_bidirectional ops (scaled a d)
  obtain ⟨e1, e2, -⟩ := C96_equivalent ops (scaled a d)
  obtain ⟨l, hl, e⟩ := lift_list (scaled a) (· ∈ family d) (bidirectional ops (scaled a d)) fun v hv => by
    obtain ⟨R, hR, rfl⟩ := h1 v hv
    exact image_family h hR a d
  have key : ∀ R ∈ ops, ∀ z ∈ family d, applyVec R (scaled a d) = scaled a z → z ∈ l ∨ -z ∈ l := by
    intro R hR z hz he
    obtain ⟨w, hw, hv⟩ := e2 R hR
    obtain ⟨S, hS, rfl⟩ := e1 w hw
    obtain ⟨y, hy, hy'⟩ := image_family h hS a d
    rw [he, hy'] at hv
    have := veq_scaled ha (fun i => family_bound hz hd i) hv
    subst this
    rcases h2 _ hw with hb | ⟨b, hb, hv'⟩
    · rw [e, hy'] at hb
      obtain ⟨x, hx, hxe⟩ := List.mem_map.mp hb
      rw [scaled_inj (by norm_num at ha; linarith) hxe] at hx
      exact Or.inl hx
    · rw [e] at hb
      obtain ⟨x, hx, rfl⟩ := List.mem_map.mp hb
      rw [hy', scaled_neg] at hv'
      have := veq_scaled ha (fun i => by rw [Pi.neg_apply, abs_neg]; exact family_bound (hl x hx) hd i) hv'
      rw [this, neg_neg]
      exact Or.inr hx
  refine ⟨l, ⟨hl, fun z hz => ?_, ?_⟩, e⟩
  · obtain ⟨R, hR, he | he⟩ := family_image h a hz
    · exact key R hR z hz he
    · have := key R hR (-z) (family_neg hz) he
      rw [neg_neg] at this
      exact this.symm
  · rw [e, List.pairwise_map] at h3
    refine h3.imp fun {x y} hxy => ⟨?_, ?_⟩
    · rintro rfl; exact hxy.1 (veq_refl _)
    · rintro rfl; exact hxy.2 (by rw [scaled_neg]; exact veq_refl _)

/-! ## The systems of a family -/

/-- The unit vector along indices. -/
noncomputable def along (z : Fin 3 → ℤ) : Vec := fun i => (√((z ⬝ᵥ z : ℤ) : ℝ))⁻¹ * z i

theorem square_pos {z : Fin 3 → ℤ} (h : z ≠ 0) : 0 < z ⬝ᵥ z := by
  rw [dotProduct, Fin.sum_univ_three]
  have : z 0 ≠ 0 ∨ z 1 ≠ 0 ∨ z 2 ≠ 0 := by
    by_contra hc
    push Not at hc
    apply h
    ext i
    fin_cases i
    · exact hc.1
    · exact hc.2.1
    · exact hc.2.2
  have h0 := mul_self_nonneg (z 0)
  have h1 := mul_self_nonneg (z 1)
  have h2 := mul_self_nonneg (z 2)
  rcases this with h | h | h
  · have := mul_self_pos.mpr h; linarith
  · have := mul_self_pos.mpr h; linarith
  · have := mul_self_pos.mpr h; linarith

theorem sqrt_square_pos {z : Fin 3 → ℤ} (h : z ≠ 0) : 0 < √((z ⬝ᵥ z : ℤ) : ℝ) :=
  Real.sqrt_pos.mpr (by exact_mod_cast square_pos h)

theorem norm3_scaled {a : ℝ} (ha : 0 < a) (z : Fin 3 → ℤ) : norm3 (scaled a z) = a * √((z ⬝ᵥ z : ℤ) : ℝ) := by
  have : norm3 (scaled a z) = √(a ^ 2 * ((z ⬝ᵥ z : ℤ) : ℝ)) := by
    rw [norm3]
    congr 1
    simp only [scaled, dotProduct, Fin.sum_univ_three]
    push_cast
    ring
  rw [this, Real.sqrt_mul (by positivity), Real.sqrt_sq ha.le]

theorem unit_scaled {a : ℝ} (ha : 0 < a) (z : Fin 3 → ℤ) : unit (scaled a z) = along z := by
  ext i
  rw [unit, norm3_scaled ha]
  simp only [Pi.smul_apply, smul_eq_mul, scaled, along, mul_inv]
  field_simp

theorem along_dot (z w : Fin 3 → ℤ) :
    along z ⬝ᵥ along w = ((z ⬝ᵥ w : ℤ) : ℝ) / (√((z ⬝ᵥ z : ℤ) : ℝ) * √((w ⬝ᵥ w : ℤ) : ℝ)) := by
  rw [div_eq_mul_inv, mul_inv]
  unfold along
  generalize (√((z ⬝ᵥ z : ℤ) : ℝ))⁻¹ = x
  generalize (√((w ⬝ᵥ w : ℤ) : ℝ))⁻¹ = y
  simp only [dotProduct, Fin.sum_univ_three]
  push_cast
  ring

theorem sqrt_square_le {z : Fin 3 → ℤ} (h : ∀ i, |z i| ≤ 5000) : √((z ⬝ᵥ z : ℤ) : ℝ) ≤ 9000 := by
  rw [Real.sqrt_le_left (by norm_num)]
  have k : ∀ i, z i * z i ≤ 25000000 := fun i => by
    have := abs_le.mp (h i)
    nlinarith
  have : z ⬝ᵥ z ≤ 81000000 := by
    rw [dotProduct, Fin.sum_univ_three]
    have := k 0
    have := k 1
    have := k 2
    linarith
  have h' : ((z ⬝ᵥ z : ℤ) : ℝ) ≤ 81000000 := by exact_mod_cast this
  norm_num
  exact h'

/-- The tolerance of the test for a direction in a plane makes no difference. -/
theorem isclose_dot {z w : Fin 3 → ℤ} (hz : z ≠ 0) (hw : w ≠ 0) (bz : ∀ i, |z i| ≤ 5000) (bw : ∀ i, |w i| ≤ 5000) :
    isclose (along z ⬝ᵥ along w) 0 ↔ z ⬝ᵥ w = 0 := by
  rw [along_dot]
  have p1 := sqrt_square_pos hz
  have p2 := sqrt_square_pos hw
  have q1 := sqrt_square_le bz
  have q2 := sqrt_square_le bw
  constructor
  · intro h
    by_contra hne
    have h1 : (1 : ℤ) ≤ |z ⬝ᵥ w| := Int.one_le_abs hne
    have h1' : (1 : ℝ) ≤ |((z ⬝ᵥ w : ℤ) : ℝ)| := by exact_mod_cast h1
    rw [isclose, sub_zero, abs_zero, mul_zero, add_zero, abs_div, abs_of_pos (mul_pos p1 p2),
      div_le_iff₀ (mul_pos p1 p2)] at h
    have := mul_le_mul q1 q2 p2.le (by norm_num)
    norm_num at h this
    linarith
  · intro h
    rw [h]
    norm_num [isclose]

/-- The system of a direction and a plane. -/
noncomputable def sysOf (a : ℝ) (z w : Fin 3 → ℤ) : Sys := ⟨scaled a z, along z, along w, ⟨1, 0, 0, 0⟩⟩

theorem slip_list {a b : ℝ} (ha : 0 < a) (hb : 0 < b) {l m : List (Fin 3 → ℤ)} (hl : ∀ z ∈ l, z ≠ 0 ∧ ∀ i, |z i| ≤ 5000)
    (hm : ∀ z ∈ m, z ≠ 0 ∧ ∀ i, |z i| ≤ 5000) : slipSystems (l.map (scaled a)) (m.map (scaled b)) =
      l.flatMap fun z => (m.filter fun w => z ⬝ᵥ w = 0).map (sysOf a z) := by
  classical
  rw [slipSystems, List.flatMap_map]
  refine List.flatMap_congr fun z hz => ?_
  rw [List.filterMap_map]
  obtain ⟨nz, bz⟩ := hl z hz
  have p1 := sqrt_square_pos nz
  clear hl
  induction m with
  | nil => rfl
  | cons w m ih =>
    obtain ⟨nw, bw⟩ := hm w (by simp)
    have p2 := sqrt_square_pos nw
    have hs : (norm3 (scaled a z) ≠ 0 ∧ norm3 (scaled b w) ≠ 0 ∧
        isclose (unit (scaled a z) ⬝ᵥ unit (scaled b w)) 0) ↔ z ⬝ᵥ w = 0 := by
      rw [unit_scaled ha, unit_scaled hb, norm3_scaled ha, norm3_scaled hb, isclose_dot nz nw bz bw]
      exact ⟨fun h => h.2.2, fun h => ⟨(mul_pos ha p1).ne', (mul_pos hb p2).ne', h⟩⟩
    rw [List.filterMap_cons, List.filter_cons, ih fun x hx => hm x (by simp [hx])]
    by_cases h0 : z ⬝ᵥ w = 0
    · simp only [Function.comp, if_pos (hs.mpr h0)]
      simp only [h0, decide_true, if_true, List.map_cons, sysOf, unit_scaled ha, unit_scaled hb]
    · simp only [Function.comp, if_neg (fun h => h0 (hs.mp h)), h0, decide_false, Bool.false_eq_true, if_false]

theorem half_sum {l : List (Fin 3 → ℤ)} {S : Finset (Fin 3 → ℤ)} (h : Half l S) (h0 : (0 : Fin 3 → ℤ) ∉ S)
    (hn : ∀ z ∈ S, -z ∈ S) (f : (Fin 3 → ℤ) → ℕ) (hf : ∀ z, f (-z) = f z) : ∑ z ∈ S, f z = 2 * (l.map f).sum := by
  have nd : l.Nodup := h.apart.imp fun h => h.1
  have neg_not : ∀ z ∈ l, -z ∉ l := by
    intro z hz hz'
    have hne : z ≠ -z := fun e => h0 (by
      have : z = 0 := by
        ext i
        have := congrFun e i
        rw [Pi.neg_apply] at this
        rw [Pi.zero_apply]
        omega
      rw [← this]; exact h.mem z hz)
    have hs : Std.Symm fun x y : Fin 3 → ℤ => x ≠ y ∧ y ≠ -x :=
      ⟨fun x y hxy => ⟨hxy.1.symm, fun e => hxy.2 (by rw [e, neg_neg])⟩⟩
    exact (h.apart.forall hz hz' hne).2 rfl
  have e : S = l.toFinset ∪ l.toFinset.image fun z => -z := by
    ext z
    simp only [Finset.mem_union, List.mem_toFinset, Finset.mem_image]
    constructor
    · intro hz
      rcases h.all z hz with h | h
      · exact Or.inl h
      · exact Or.inr ⟨-z, h, neg_neg z⟩
    · rintro (hz | ⟨w, hw, rfl⟩)
      · exact h.mem z hz
      · exact hn w (h.mem w hw)
  rw [e, Finset.sum_union, Finset.sum_image, Finset.sum_congr rfl fun z _ => hf z, List.sum_toFinset f nd]
  · ring
  · intro x _ y _ hxy
    exact neg_injective hxy
  · rw [Finset.disjoint_left]
    intro z hz hz'
    simp only [List.mem_toFinset, Finset.mem_image] at hz hz'
    obtain ⟨w, hw, rfl⟩ := hz'
    exact neg_not w hw hz

theorem count_filter {α : Type} (m : List α) (P : α → Prop) [DecidablePred P] :
    (m.map fun w => if P w then 1 else 0).sum = (m.filter fun w => P w).length := by
  induction m with
  | nil => rfl
  | cons w m ih =>
    rw [List.map_cons, List.sum_cons, ih, List.filter_cons]
    by_cases h : P w
    · simp [h]; ring
    · simp [h]

theorem half_count {l m : List (Fin 3 → ℤ)} {d p : Fin 3 → ℤ} (hd : d ≠ 0) (hp : p ≠ 0) (hl : Half l (family d))
    (hm : Half m (family p)) :
    4 * (l.map fun z => (m.filter fun w => z ⬝ᵥ w = 0).length).sum = (incident d p).card := by
  have inner : ∀ z : Fin 3 → ℤ, ∑ w ∈ family p, (if z ⬝ᵥ w = 0 then 1 else 0) =
      2 * (m.filter fun w => z ⬝ᵥ w = 0).length := by
    intro z
    rw [half_sum hm (fun h => family_ne h hp rfl) (fun w => family_neg)]
    · congr 1
      exact count_filter m _
    · intro w
      simp only [dotProduct_neg, neg_eq_zero]
  rw [incident, Finset.card_filter, Finset.sum_product, half_sum hl (fun h => family_ne h hd rfl) (fun w => family_neg)]
  · simp only [inner]
    rw [List.sum_map_mul_left]
    ring
  · intro z
    simp only [neg_dotProduct, neg_eq_zero]

/-! ## C159 -/

theorem family_smul {f : ℤ} (r : Fin 3 → ℤ) : family (f • r) = (family r).image fun z => f • z := by
  ext z
  rw [Finset.mem_image]
  constructor
  · intro h
    obtain ⟨σ, s, h⟩ := mem_family.mp h
    refine ⟨fun i => if s i then r (σ i) else -r (σ i), mem_family.mpr ⟨σ, s, fun _ => rfl⟩, ?_⟩
    ext i
    rw [h]
    simp only [Pi.smul_apply, smul_eq_mul]
    split_ifs <;> ring
  · rintro ⟨w, hw, rfl⟩
    obtain ⟨σ, s, h⟩ := mem_family.mp hw
    refine mem_family.mpr ⟨σ, s, fun i => ?_⟩
    simp only [Pi.smul_apply, smul_eq_mul, h]
    split_ifs <;> ring

theorem smul_inj' {f : ℤ} (hf : 0 < f) {z w : Fin 3 → ℤ} (h : f • z = f • w) : z = w := by
  ext i
  have := congrFun h i
  simp only [Pi.smul_apply, smul_eq_mul] at this
  exact mul_left_cancel₀ hf.ne' this

theorem incident_smul {f g : ℤ} (hf : 0 < f) (hg : 0 < g) (r q : Fin 3 → ℤ) :
    incident (f • r) (g • q) = (incident r q).image fun x => (f • x.1, g • x.2) := by
  ext ⟨z, w⟩
  simp only [incident, family_smul, Finset.mem_filter, Finset.mem_product, Finset.mem_image, Prod.exists, Prod.mk.injEq]
  constructor
  · rintro ⟨⟨⟨z', hz, rfl⟩, w', hw, rfl⟩, h⟩
    refine ⟨z', w', ⟨⟨hz, hw⟩, ?_⟩, rfl, rfl⟩
    rw [smul_dotProduct, dotProduct_smul, smul_eq_mul, smul_eq_mul] at h
    rcases mul_eq_zero.mp h with h | h
    · omega
    · rcases mul_eq_zero.mp h with h | h
      · omega
      · exact h
  · rintro ⟨z', w', ⟨⟨hz, hw⟩, h⟩, rfl, rfl⟩
    refine ⟨⟨⟨z', hz, rfl⟩, w', hw, rfl⟩, ?_⟩
    rw [smul_dotProduct, dotProduct_smul, h, smul_zero, smul_zero]

theorem incident_card {f g : ℤ} (hf : 0 < f) (hg : 0 < g) (r q : Fin 3 → ℤ) :
    (incident (f • r) (g • q)).card = (incident r q).card := by
  rw [incident_smul hf hg, Finset.card_image_of_injective]
  rintro ⟨a, b⟩ ⟨c, d⟩ h
  simp only [Prod.mk.injEq] at h
  rw [smul_inj' hf h.1, smul_inj' hg h.2]

theorem cubic_reciprocal {a : ℝ} (ha : 0 < a) : reciprocal (cubicBasis a) = cubicBasis a⁻¹ := by
  simp only [reciprocal, cubicBasis, Basis.mk.injEq]
  refine ⟨?_, ?_, ?_⟩ <;>
    (ext i; fin_cases i <;> simp [cross, dotProduct, Fin.sum_univ_three] <;> try field_simp)

theorem combine_cubic (a : ℝ) (r : ℤ × ℤ × ℤ) : combine (cubicBasis a) r = scaled a ![r.1, r.2.1, r.2.2] := by
  ext i
  fin_cases i <;> simp [combine, cubicBasis, scaled, mul_comm]

/-- The reduced indices behind a Cartesian vector. -/
theorem miller_cubic {a : ℝ} {d : Fin 3 → ℤ} {v : Vec} (h : miller2cart (cubicBasis a) [d 0, d 1, d 2] = some v)
    (hd : ∀ i, |d i| ≤ 5000) : ∃ (f : ℤ) (r : Fin 3 → ℤ), 0 < f ∧ d = f • r ∧ r ≠ 0 ∧ (∀ i, |r i| ≤ 5000) ∧
      v = scaled a r := by
  simp only [miller2cart, assertMiller, Option.bind_some, Option.map_eq_some_iff] at h
  obtain ⟨r, hr, rfl⟩ := h
  have hne : ¬ (d 0, d 1, d 2) = (0, 0, 0) := fun e => by
    rw [((C96_reduce _).1).mpr e] at hr
    exact absurd hr (by simp)
  obtain ⟨-, f, hf, e⟩ := ((C96_reduce _).2 r).mp hr
  simp only [Prod.mk.injEq] at e
  have hd' : d = f • ![r.1, r.2.1, r.2.2] := by
    ext i
    fin_cases i
    · simpa using e.1
    · simpa using e.2.1
    · simpa using e.2.2
  refine ⟨f, ![r.1, r.2.1, r.2.2], hf, hd', ?_, ?_, combine_cubic a r⟩
  · intro h0
    rw [h0, smul_zero] at hd'
    apply hne
    rw [hd']
    rfl
  · intro i
    have := hd i
    rw [hd', Pi.smul_apply, smul_eq_mul, abs_mul, abs_of_pos hf] at this
    nlinarith [abs_nonneg ((![r.1, r.2.1, r.2.2] : Fin 3 → ℤ) i)]

/-- The list of systems that a slip family adds. -/
theorem slip_cubic {ops : List Quat} (h : symmetryRotations "432" = some ops) {a : ℝ} (ha : 1e-6 ≤ a) (ha' : a ≤ 1e6)
    {d p : Fin 3 → ℤ} (hd : ∀ i, |d i| ≤ 5000) (hp : ∀ i, |p i| ≤ 5000) {L L' : Lat}
    (hL : addSlip ops (miller2cart (cubicBasis a)) (miller2cart (reciprocal (cubicBasis a))) L [d 0, d 1, d 2]
      [p 0, p 1, p 2] = some L') :
    ∃ (f g : ℤ) (r q : Fin 3 → ℤ) (l m : List (Fin 3 → ℤ)), 0 < f ∧ 0 < g ∧ d = f • r ∧ p = g • q ∧ r ≠ 0 ∧ q ≠ 0 ∧
      Half l (family r) ∧ Half m (family q) ∧
      L' = addGroup L ⟨false, 0, l.flatMap fun z => (m.filter fun w => z ⬝ᵥ w = 0).map (sysOf a z)⟩ := by
  have ha0 : 0 < a := by norm_num at ha; linarith
  rw [addSlip, cubic_reciprocal ha0] at hL
  obtain ⟨v, hv, hL⟩ := Option.bind_eq_some_iff.mp hL
  obtain ⟨n, hn, rfl⟩ := Option.map_eq_some_iff.mp hL
  obtain ⟨f, r, hf, e1, n1, b1, rfl⟩ := miller_cubic hv hd
  obtain ⟨g, q, hg, e2, n2, b2, rfl⟩ := miller_cubic hn hp
  have hi : (1e-6 : ℝ) ≤ a⁻¹ := by
    rw [le_inv_comm₀ (by norm_num) ha0]
    norm_num at ha' ⊢
    exact ha'
  obtain ⟨l, hl, el⟩ := half h ha b1
  obtain ⟨m, hm, em⟩ := half h hi b2
  refine ⟨f, g, r, q, l, m, hf, hg, e1, e2, n1, n2, hl, hm, ?_⟩
  rw [el, em, slip_list ha0 (inv_pos.mpr ha0)]
  · exact fun z hz => ⟨family_ne (hl.mem z hz) n1, family_bound (hl.mem z hz) b1⟩
  · exact fun z hz => ⟨family_ne (hm.mem z hz) n2, family_bound (hm.mem z hz) b2⟩

/-- The number of slip systems a family adds to a cubic lattice, four times for the two signs, is the number of pairs of
a direction and a plane with the direction in the plane. It does not depend on the lattice parameter between `1e-6` and
`1e6`. -/
theorem C159_count {ops : List Quat} (h : symmetryRotations "432" = some ops) {a : ℝ} (ha : 1e-6 ≤ a) (ha' : a ≤ 1e6)
    {d p : Fin 3 → ℤ} (hd : ∀ i, |d i| ≤ 5000) (hp : ∀ i, |p i| ≤ 5000) {L L' : Lat}
    (hL : addSlip ops (miller2cart (cubicBasis a)) (miller2cart (reciprocal (cubicBasis a))) L [d 0, d 1, d 2]
      [p 0, p 1, p 2] = some L') : 4 * ntotal L' = 4 * ntotal L + (incident d p).card := by
  obtain ⟨f, g, r, q, l, m, hf, hg, rfl, rfl, n1, n2, hl, hm, rfl⟩ := slip_cubic h ha ha' hd hp hL
  rw [incident_card hf hg, ← half_count n1 n2 hl hm]
  have e : ∀ G : Group, ntotal (addGroup L G) = ntotal L + G.systems.length := by
    intro G
    rw [addGroup]
    split_ifs with he
    · rw [he]; rfl
    · simp [ntotal]
  rw [e]
  simp only [List.length_flatMap, List.length_map]
  ring

/-- A vector along a line given by indices. -/
def OnLine (v : Vec) (z : Fin 3 → ℤ) : Prop := ∃ c : ℝ, c ≠ 0 ∧ ∀ i, v i = c * z i

theorem onLine_same {r z y b : Fin 3 → ℤ} (hr : r ≠ 0) (hz : z ∈ family r) (hy : y ∈ family r) (h1 : OnLine (along z) b)
    (h2 : OnLine (along y) b) : z = y ∨ y = -z := by
  obtain ⟨c, hc, e1⟩ := h1
  obtain ⟨k, hk, e2⟩ := h2
  simp only [along, family_square hz] at e1
  simp only [along, family_square hy] at e2
  have hs := (inv_pos.mpr (sqrt_square_pos hr)).ne'
  generalize (√((r ⬝ᵥ r : ℤ) : ℝ))⁻¹ = x at e1 e2 hs
  have e : ∀ i, (y i : ℝ) = k / c * z i := fun i => by
    have h1 := e1 i
    have h2 := e2 i
    have : (b i : ℝ) = x * z i / c := by rw [eq_div_iff hc]; linarith
    rw [this] at h2
    apply mul_left_cancel₀ hs
    rw [h2]
    ring
  have sq : (k / c) * (k / c) = 1 := by
    have hz' : ((z ⬝ᵥ z : ℤ) : ℝ) ≠ 0 := by exact_mod_cast (square_pos (family_ne hz hr)).ne'
    have : ((y ⬝ᵥ y : ℤ) : ℝ) = (k / c) * (k / c) * ((z ⬝ᵥ z : ℤ) : ℝ) := by
      simp only [dotProduct, Fin.sum_univ_three]
      push_cast
      rw [e, e, e]
      ring
    rw [family_square hy, ← family_square hz] at this
    exact (mul_right_cancel₀ hz' (by rw [one_mul]; exact this)).symm
  rcases mul_self_eq_one_iff.mp sq with he | he
  · left
    ext i
    have := e i
    rw [he, one_mul] at this
    exact_mod_cast this.symm
  · right
    ext i
    have := e i
    rw [he] at this
    rw [Pi.neg_apply]
    have h2 : (y i : ℝ) = ((-z i : ℤ) : ℝ) := by rw [this]; push_cast; ring
    exact_mod_cast h2

theorem onLine_along {f : ℤ} (hf : 0 < f) {z w : Fin 3 → ℤ} (hz : z ≠ 0) (h : w = z ∨ w = -z) : OnLine (along z) (f • w) := by
  have hs := (inv_pos.mpr (sqrt_square_pos hz)).ne'
  have hf' : (f : ℝ) ≠ 0 := by exact_mod_cast hf.ne'
  rcases h with rfl | rfl
  · refine ⟨(√((w ⬝ᵥ w : ℤ) : ℝ))⁻¹ / f, div_ne_zero hs hf', fun i => ?_⟩
    simp only [along, Pi.smul_apply, smul_eq_mul]
    push_cast
    field_simp
  · refine ⟨-((√((z ⬝ᵥ z : ℤ) : ℝ))⁻¹ / f), neg_ne_zero.mpr (div_ne_zero hs hf'), fun i => ?_⟩
    simp only [along, Pi.smul_apply, Pi.neg_apply, smul_eq_mul]
    push_cast
    field_simp

/-- Each system of the family is there, once, and there are no others. -/
theorem C159_each {ops : List Quat} (h : symmetryRotations "432" = some ops) {a : ℝ} (ha : 1e-6 ≤ a) (ha' : a ≤ 1e6)
    {d p : Fin 3 → ℤ} (hd : ∀ i, |d i| ≤ 5000) (hp : ∀ i, |p i| ≤ 5000) {L L' : Lat}
    (hL : addSlip ops (miller2cart (cubicBasis a)) (miller2cart (reciprocal (cubicBasis a))) L [d 0, d 1, d 2]
      [p 0, p 1, p 2] = some L') :
    (∀ b ∈ family d, ∀ n ∈ family p, b ⬝ᵥ n = 0 →
      ∃! i, ∃ s, system L' (ngroup L) i = some s ∧ OnLine s.dir b ∧ OnLine s.normal n) ∧
    ∀ i s, system L' (ngroup L) i = some s →
      ∃ b ∈ family d, ∃ n ∈ family p, b ⬝ᵥ n = 0 ∧ OnLine s.dir b ∧ OnLine s.normal n := by
  obtain ⟨f, g, r, q, l, m, hf, hg, rfl, rfl, n1, n2, hl, hm, rfl⟩ := slip_cubic h ha ha' hd hp hL
  clear hd hp hL h
  set T := l.flatMap fun z => (m.filter fun w => z ⬝ᵥ w = 0).map (sysOf a z) with hT
  have mem : ∀ s, s ∈ T ↔ ∃ z ∈ l, ∃ w ∈ m, z ⬝ᵥ w = 0 ∧ sysOf a z w = s := by
    intro s
    simp only [hT, List.mem_flatMap, List.mem_map, List.mem_filter, decide_eq_true_eq]
    constructor
    · rintro ⟨z, hz, w, ⟨hw, h0⟩, e⟩; exact ⟨z, hz, w, hw, h0, e⟩
    · rintro ⟨z, hz, w, hw, h0, e⟩; exact ⟨z, hz, w, ⟨hw, h0⟩, e⟩
  have sys : ∀ i, system (addGroup L ⟨false, 0, T⟩) (ngroup L) i = T[i]? := by
    intro i
    rw [addGroup]
    split_ifs with he
    · simp only at he
      simp [system, ngroup, he]
    · simp [system, ngroup]
  have pw : T.Pairwise fun s t => ¬ ∃ b n, OnLine s.dir b ∧ OnLine t.dir b ∧ OnLine s.normal n ∧ OnLine t.normal n := by
    rw [hT, List.pairwise_flatMap]
    constructor
    · intro z hz
      rw [List.pairwise_map]
      refine ((hm.apart.sublist List.filter_sublist).imp_of_mem ?_)
      rintro x y hx hy hxy ⟨b, n, -, -, h3, h4⟩
      rcases onLine_same n2 (hm.mem x (List.mem_of_mem_filter hx)) (hm.mem y (List.mem_of_mem_filter hy)) h3 h4 with e | e
      · exact hxy.1 e
      · exact hxy.2 e
    · refine hl.apart.imp_of_mem ?_
      rintro x y hx hy hxy s hs t ht ⟨b, n, h1, h2, -, -⟩
      obtain ⟨w, -, rfl⟩ := List.mem_map.mp hs
      obtain ⟨v, -, rfl⟩ := List.mem_map.mp ht
      rcases onLine_same n1 (hl.mem x hx) (hl.mem y hy) h1 h2 with e | e
      · exact hxy.1 e
      · exact hxy.2 e
  constructor
  · intro b hb n hn h0
    rw [family_smul] at hb hn
    obtain ⟨z, hz, rfl⟩ := Finset.mem_image.mp hb
    obtain ⟨w, hw, rfl⟩ := Finset.mem_image.mp hn
    have h0' : z ⬝ᵥ w = 0 := by
      rw [smul_dotProduct, dotProduct_smul, smul_eq_mul, smul_eq_mul] at h0
      rcases mul_eq_zero.mp h0 with h | h
      · omega
      · rcases mul_eq_zero.mp h with h | h
        · omega
        · exact h
    have ex : ∀ {k : List (Fin 3 → ℤ)} {t z : Fin 3 → ℤ}, Half k (family t) → z ∈ family t →
        ∃ y ∈ k, z = y ∨ z = -y := by
      intro k t z hk hz
      rcases hk.all z hz with h | h
      · exact ⟨z, h, Or.inl rfl⟩
      · exact ⟨-z, h, Or.inr (neg_neg z).symm⟩
    obtain ⟨z', hz', ez⟩ := ex hl hz
    obtain ⟨w', hw', ew⟩ := ex hm hw
    have h00 : z' ⬝ᵥ w' = 0 := by
      rcases ez with rfl | rfl <;> rcases ew with rfl | rfl <;> simpa using h0'
    have hs : sysOf a z' w' ∈ T := (mem _).mpr ⟨z', hz', w', hw', h00, rfl⟩
    obtain ⟨i, hi, ei⟩ := List.getElem_of_mem hs
    refine ⟨i, ⟨_, by rw [sys, List.getElem?_eq_getElem hi, ei],
      onLine_along hf (family_ne (hl.mem _ hz') n1) ez, onLine_along hg (family_ne (hm.mem _ hw') n2) ew⟩, ?_⟩
    rintro j ⟨s, hj, l1, l2⟩
    rw [sys] at hj
    obtain ⟨hj', rfl⟩ := List.getElem?_eq_some_iff.mp hj
    have l3 := onLine_along hf (family_ne (hl.mem _ hz') n1) ez
    have l4 := onLine_along hg (family_ne (hm.mem _ hw') n2) ew
    rw [List.pairwise_iff_getElem] at pw
    by_contra hne
    rcases lt_or_gt_of_ne hne with hlt | hlt
    · refine pw j i hj' hi hlt ⟨_, _, l1, ?_, l2, ?_⟩
      · rw [ei]; exact l3
      · rw [ei]; exact l4
    · refine pw i j hi hj' hlt ⟨_, _, ?_, l1, ?_, l2⟩
      · rw [ei]; exact l3
      · rw [ei]; exact l4
  · intro i s hs
    rw [sys] at hs
    obtain ⟨z, hz, w, hw, h0, rfl⟩ := (mem s).mp (List.mem_of_getElem? hs)
    refine ⟨f • z, ?_, g • w, ?_, ?_, onLine_along hf (family_ne (hl.mem _ hz) n1) (Or.inl rfl),
      onLine_along hg (family_ne (hm.mem _ hw) n2) (Or.inl rfl)⟩
    · rw [family_smul]; exact Finset.mem_image_of_mem _ (hl.mem z hz)
    · rw [family_smul]; exact Finset.mem_image_of_mem _ (hm.mem w hw)
    · rw [smul_dotProduct, dotProduct_smul, h0, smul_zero, smul_zero]

theorem addSlip_cubic {ops : List Quat} {a : ℝ} (ha : 0 < a) {d p : Fin 3 → ℤ} (hd : d ≠ 0) (hp : p ≠ 0) (L : Lat) :
    ∃ L', addSlip ops (miller2cart (cubicBasis a)) (miller2cart (reciprocal (cubicBasis a))) L [d 0, d 1, d 2]
      [p 0, p 1, p 2] = some L' := by
  have k : ∀ (b : ℝ) {d : Fin 3 → ℤ}, d ≠ 0 → ∃ v, miller2cart (cubicBasis b) [d 0, d 1, d 2] = some v := by
    intro b d hd
    simp only [miller2cart, assertMiller, Option.bind_some]
    rcases hr : reduceGcd (d 0, d 1, d 2) with _ | r
    · have := ((C96_reduce _).1).mp hr
      simp only [Prod.mk.injEq] at this
      exact absurd (by ext i; fin_cases i; exacts [this.1, this.2.1, this.2.2]) hd
    · exact ⟨_, rfl⟩
  obtain ⟨v, hv⟩ := k a hd
  obtain ⟨n, hn⟩ := k a⁻¹ hp
  rw [addSlip, cubic_reciprocal ha, hv, hn]
  exact ⟨_, rfl⟩

/-- The well known numbers: twelve systems for face centred crystals; twelve, twelve and twenty-four for body centred ones;
six for cubes. -/
theorem C159_known {ops : List Quat} (h : symmetryRotations "432" = some ops) {a : ℝ} (ha : 1e-6 ≤ a) (ha' : a ≤ 1e6)
    {d p : Fin 3 → ℤ} {n : ℕ} (hn : (d, p, n) ∈ [(![1, 1, 0], ![1, 1, 1], 12), (![1, 1, 1], ![1, 1, 0], 12),
      (![1, 1, 1], ![1, 1, 2], 12), (![1, 1, 1], ![1, 2, 3], 24), (![1, 0, 0], ![0, 1, 0], 6)]) (L : Lat) :
    ∃ L', addSlip ops (miller2cart (cubicBasis a)) (miller2cart (reciprocal (cubicBasis a))) L [d 0, d 1, d 2]
      [p 0, p 1, p 2] = some L' ∧ ntotal L' = ntotal L + n := by
  have all : ∀ x ∈ ([(![1, 1, 0], ![1, 1, 1], 12), (![1, 1, 1], ![1, 1, 0], 12), (![1, 1, 1], ![1, 1, 2], 12),
      (![1, 1, 1], ![1, 2, 3], 24), (![1, 0, 0], ![0, 1, 0], 6)] : List ((Fin 3 → ℤ) × (Fin 3 → ℤ) × ℕ)),
      x.1 ≠ 0 ∧ x.2.1 ≠ 0 ∧ (∀ i, |x.1 i| ≤ 5000) ∧ (∀ i, |x.2.1 i| ≤ 5000) ∧
        (incident x.1 x.2.1).card = 4 * x.2.2 := by decide +kernel
  obtain ⟨h1, h2, h3, h4, h5⟩ := all _ hn
  have ha0 : 0 < a := by norm_num at ha; linarith
  obtain ⟨L', hL⟩ := addSlip_cubic (ops := ops) ha0 h1 h2 L
  have := C159_count h ha ha' h3 h4 hL
  exact ⟨L', hL, by
    have h6 : (incident d p).card = 4 * n := h5
    rw [h6] at this
    omega⟩

/-- The hypotheses of the two theorems hold for the octahedral family of a lattice with parameter 3.6. -/
example : ∃ ops L', symmetryRotations "432" = some ops ∧
    addSlip ops (miller2cart (cubicBasis 3.6)) (miller2cart (reciprocal (cubicBasis 3.6))) empty
      [(![1, 1, 0] : Fin 3 → ℤ) 0, (![1, 1, 0] : Fin 3 → ℤ) 1, (![1, 1, 0] : Fin 3 → ℤ) 2]
      [(![1, 1, 1] : Fin 3 → ℤ) 0, (![1, 1, 1] : Fin 3 → ℤ) 1, (![1, 1, 1] : Fin 3 → ℤ) 2] = some L' ∧ ntotal L' = 12 := by
  obtain ⟨L', h, e⟩ := C159_known ops432 (a := 3.6) (by norm_num) (by norm_num) (d := ![1, 1, 0]) (p := ![1, 1, 1]) (n := 12) (by simp) empty
  exact ⟨_, L', ops432, h, by rw [e]; rfl⟩

/-- If the lattice parameter is given in metres the comparison of vectors takes all directions of the family for the same
one. A face centred crystal then has two slip systems instead of twelve. -/
theorem C159_scale_disagreement {ops : List Quat} (h : symmetryRotations "432" = some ops) {a : ℝ} (ha : 0 < a)
    (ha' : a ≤ 1e-9) : ∃ L', addSlip ops (miller2cart (cubicBasis a)) (miller2cart (reciprocal (cubicBasis a))) empty
      [1, 1, 0] [1, 1, 1] = some L' ∧ ntotal L' = 2 := by
  classical
  have nz1 : (![1, 1, 0] : Fin 3 → ℤ) ≠ 0 := by decide
  have nz2 : (![1, 1, 1] : Fin 3 → ℤ) ≠ 0 := by decide
  have hi : (1e-6 : ℝ) ≤ a⁻¹ := by
    rw [le_inv_comm₀ (by norm_num) ha]
    norm_num at ha' ⊢
    linarith
  have r : ∀ {x y z : ℤ}, x = 1 → reduceGcd (x, y, z) = some (x, y, z) := by
    rintro x y z rfl
    refine ((C96_reduce _).2 _).mpr ⟨?_, 1, by norm_num, by simp⟩
    rintro d h - -
    exact Int.isUnit_iff.mp (isUnit_of_dvd_one h)
  have m1 : miller2cart (cubicBasis a) [1, 1, 0] = some (scaled a ![1, 1, 0]) := by
    simp only [miller2cart, assertMiller, Option.bind_some, r rfl, Option.map_some, combine_cubic]
  have m2 : miller2cart (cubicBasis a⁻¹) [1, 1, 1] = some (scaled a⁻¹ ![1, 1, 1]) := by
    simp only [miller2cart, assertMiller, Option.bind_some, r rfl, Option.map_some, combine_cubic]
  have near : ∀ R ∈ ops, veq (scaled a ![1, 1, 0]) (applyVec R (scaled a ![1, 1, 0])) := by
    intro R hR i
    obtain ⟨z, hz, e⟩ := image_family h hR a ![1, 1, 0]
    have b1 := family_bound hz (c := 1) (by decide) i
    have b2 : |(![1, 1, 0] : Fin 3 → ℤ) i| ≤ 1 := (by decide : ∀ i, |(![1, 1, 0] : Fin 3 → ℤ) i| ≤ 1) i
    rw [e, isclose]
    simp only [scaled]
    rw [← mul_sub, abs_mul, abs_of_pos ha]
    have : |(((![1, 1, 0] : Fin 3 → ℤ) i : ℤ) : ℝ) - (z i : ℝ)| ≤ 2 := by
      have : |(![1, 1, 0] : Fin 3 → ℤ) i - z i| ≤ 2 := by
        rw [abs_le] at b1 b2 ⊢
        constructor <;> linarith [b1.1, b1.2, b2.1, b2.2]
      exact_mod_cast this
    have h1 := mul_le_mul ha' this (abs_nonneg _) (by norm_num)
    have h2 : (0 : ℝ) ≤ 1e-5 * |a * (z i : ℝ)| := by positivity
    norm_num at h1 h2 ⊢
    linarith
  have single : bidirectional ops (scaled a ![1, 1, 0]) = [![1, 1, 0]].map (scaled a) := by
    obtain ⟨rest, hrest⟩ := class432
    rw [h] at hrest
    obtain rfl := Option.some.inj hrest
    have h1 : applyVec Rotation.one (scaled a ![1, 1, 0]) = scaled a ![1, 1, 0] := by
      have hu : Unit4 Rotation.one := by norm_num [Unit4, Rotation.one]
      rw [(C51_faithful hu hu _).2.2.2.2.2.2, toMatrix_one, one_mulVec]
    have gen : ∀ l : List Quat, (∀ R ∈ l, veq (scaled a ![1, 1, 0]) (applyVec R (scaled a ![1, 1, 0]))) →
        l.foldl (fun uniques R => if ∃ u ∈ uniques, veq u (applyVec R (scaled a ![1, 1, 0])) then uniques
          else uniques ++ [applyVec R (scaled a ![1, 1, 0])]) [scaled a ![1, 1, 0]] = [scaled a ![1, 1, 0]] := by
      intro l
      induction l with
      | nil => intro _; rfl
      | cons R l ih =>
        intro hl
        rw [List.foldl_cons, if_pos ⟨_, List.mem_singleton_self _, hl R (by simp)⟩]
        exact ih fun S hS => hl S (by simp [hS])
    have e : equivalentVectors (Rotation.one :: rest) (scaled a ![1, 1, 0]) = [scaled a ![1, 1, 0]] := by
      rw [equivalentVectors, List.foldl_cons, if_neg (by simp), h1, List.nil_append]
      exact gen rest fun R hR => near R (by simp [hR])
    rw [bidirectional, e, List.foldl_cons, if_neg (by simp)]
    rfl
  obtain ⟨m, hm, em⟩ := half h hi (d := ![1, 1, 1]) (by decide)
  refine ⟨_, by rw [addSlip, cubic_reciprocal ha, m1, m2]; rfl, ?_⟩
  have hlen : (m.filter fun w => (![1, 1, 0] : Fin 3 → ℤ) ⬝ᵥ w = 0).length = 2 := by
    have e1 := half_sum hm (fun h => family_ne h nz2 rfl) (fun w => family_neg)
      (fun w => if (![1, 1, 0] : Fin 3 → ℤ) ⬝ᵥ w = 0 then 1 else 0) (fun w => by simp only [dotProduct_neg, neg_eq_zero])
    rw [count_filter] at e1
    have e2 : ∑ w ∈ family ![1, 1, 1], (if (![1, 1, 0] : Fin 3 → ℤ) ⬝ᵥ w = 0 then 1 else 0) = 4 := by decide +kernel
    have e3 : 4 = 2 * (m.filter fun w => (![1, 1, 0] : Fin 3 → ℤ) ⬝ᵥ w = 0).length := e2.symm.trans e1
    omega
  beta_reduce
  rw [single, em, slip_list ha (inv_pos.mpr ha)]
  · have e : ∀ G : Group, ntotal (addGroup empty G) = G.systems.length := by
      intro G
      rw [addGroup]
      split_ifs with he
      · rw [he]; rfl
      · simp [ntotal, empty]
    rw [e]
    simp only [List.length_flatMap, List.length_map, List.map_cons, List.map_nil, List.sum_cons, List.sum_nil, hlen,
      add_zero]
  · intro z hz
    rw [List.mem_singleton.mp hz]
    exact ⟨nz1, by decide⟩
  · exact fun z hz => ⟨family_ne (hm.mem z hz) nz2, family_bound (hm.mem z hz) (by decide)⟩

end Neml.Lattice
