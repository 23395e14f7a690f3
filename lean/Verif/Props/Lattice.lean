import Verif.Model.Lattice
import Verif.Props.Symmetry

/-!
# C59 and C96: reciprocal vectors, Miller indices and families of equivalent vectors
-/

namespace Neml.Lattice

open Neml.Rotation Neml.Mandel Neml.Symmetry Matrix

/-! ## Miller indices -/

theorem gcd_natAbs (a b : ℤ) : (gcd a b).natAbs = Int.gcd a b := by
  induction a, b using gcd.induct with
  | case1 b => rw [gcd]; simp
  | case2 a b h ih =>
    rw [gcd, dif_neg h, ih, Int.gcd_def, Int.natAbs_tmod, Int.gcd_def, ← Nat.gcd_rec]

theorem commonGcd_natAbs (m : ℤ × ℤ × ℤ) : (commonGcd m).natAbs = Nat.gcd (Int.gcd m.1 m.2.1) m.2.2.natAbs := by
  rw [commonGcd, gcd_natAbs, Int.gcd_def, gcd_natAbs]

/-- Three integers without a common factor. -/
def Primitive (m : ℤ × ℤ × ℤ) : Prop := ∀ d : ℤ, d ∣ m.1 → d ∣ m.2.1 → d ∣ m.2.2 → d = 1 ∨ d = -1

/-- Reducing Miller indices fails only for three zeros. Otherwise it divides them by a positive common factor
and leaves indices without a common factor. -/
theorem C96_reduce (m : ℤ × ℤ × ℤ) :
    (reduceGcd m = none ↔ m = (0, 0, 0)) ∧
      ∀ r, reduceGcd m = some r ↔
        Primitive r ∧ ∃ f : ℤ, 0 < f ∧ m = (f * r.1, f * r.2.1, f * r.2.2) := by
  obtain ⟨h, k, l⟩ := m
  have hg : (commonGcd (h, k, l)).natAbs = Nat.gcd (Int.gcd h k) l.natAbs := commonGcd_natAbs _
  have hzero : commonGcd (h, k, l) = 0 ↔ (h, k, l) = (0, 0, 0) := by
    rw [← Int.natAbs_eq_zero, hg, Nat.gcd_eq_zero_iff, Int.gcd_eq_zero_iff, Int.natAbs_eq_zero]
    simp [and_assoc]
  have hone : reduceGcd (h, k, l) = none ↔ (h, k, l) = (0, 0, 0) := by
    rw [← hzero, reduceGcd]
    by_cases h0 : commonGcd (h, k, l) = 0 <;> simp [h0]
  refine ⟨hone, fun r => ?_⟩
  have habs : |commonGcd (h, k, l)| = ((Nat.gcd (Int.gcd h k) l.natAbs : ℕ) : ℤ) := by
    rw [← hg, Int.natCast_natAbs]
  set F : ℕ := Nat.gcd (Int.gcd h k) l.natAbs with hF
  have dh : (F : ℤ) ∣ h := Int.natCast_dvd.mpr ((Nat.gcd_dvd_left _ _).trans (Nat.gcd_dvd_left _ _))
  have dk : (F : ℤ) ∣ k := Int.natCast_dvd.mpr ((Nat.gcd_dvd_left _ _).trans (Nat.gcd_dvd_right _ _))
  have dl : (F : ℤ) ∣ l := Int.natCast_dvd.mpr (Nat.gcd_dvd_right _ _)
  have hmax : ∀ d : ℤ, d ∣ h → d ∣ k → d ∣ l → d ∣ F := by
    intro d a b c
    rw [← Int.natAbs_dvd_natAbs] at a b c
    rw [← Int.natAbs_dvd_natAbs, Int.natAbs_natCast]
    exact Nat.dvd_gcd (Nat.dvd_gcd a b) c
  constructor
  · intro hr
    have hne : commonGcd (h, k, l) ≠ 0 := by
      intro h0
      rw [hone.mpr (hzero.mp h0)] at hr
      cases hr
    have hFpos : 0 < (F : ℤ) := by rw [← habs]; exact abs_pos.mpr hne
    simp only [reduceGcd, if_neg hne, habs, Option.some.injEq] at hr
    subst hr
    have eh : (F : ℤ) * h.tdiv F = h := Int.mul_tdiv_cancel' dh
    have ek : (F : ℤ) * k.tdiv F = k := Int.mul_tdiv_cancel' dk
    have el : (F : ℤ) * l.tdiv F = l := Int.mul_tdiv_cancel' dl
    refine ⟨fun d a b c => ?_, F, hFpos, by rw [eh, ek, el]⟩
    have : (F : ℤ) * d ∣ F := hmax _ (by rw [← eh]; exact mul_dvd_mul_left _ a)
      (by rw [← ek]; exact mul_dvd_mul_left _ b) (by rw [← el]; exact mul_dvd_mul_left _ c)
    have h1 : d ∣ 1 := by
      rw [← mul_dvd_mul_iff_left hFpos.ne', mul_one]; exact this
    exact Int.isUnit_iff.mp (isUnit_of_dvd_one h1)
  · rintro ⟨hp, f, hf, hm⟩
    obtain ⟨u, v, w⟩ := r
    simp only [Prod.mk.injEq] at hm
    obtain ⟨rfl, rfl, rfl⟩ := hm
    have h1 : f ∣ F := hmax f ⟨_, rfl⟩ ⟨_, rfl⟩ ⟨_, rfl⟩
    obtain ⟨c, hc⟩ := h1
    have hc' : c = 1 ∨ c = -1 := by
      apply hp
      · rw [hc] at dh; exact (mul_dvd_mul_iff_left hf.ne').mp dh
      · rw [hc] at dk; exact (mul_dvd_mul_iff_left hf.ne').mp dk
      · rw [hc] at dl; exact (mul_dvd_mul_iff_left hf.ne').mp dl
    have hFf : (F : ℤ) = f := by
      rcases hc' with rfl | rfl
      · rw [hc, mul_one]
      · have := Int.natCast_nonneg F
        rw [hc] at this
        linarith
    have hne : commonGcd (f * u, f * v, f * w) ≠ 0 := by
      rw [← abs_pos, habs, hFf]; exact hf
    simp only [reduceGcd, if_neg hne, habs, hFf, Int.mul_tdiv_cancel_left _ hf.ne']

/-- Indices that are positive multiples of each other name the same family. -/
theorem C96_multiple (m : ℤ × ℤ × ℤ) {f : ℤ} (hf : 0 < f) :
    reduceGcd (f * m.1, f * m.2.1, f * m.2.2) = reduceGcd m := by
  cases h : reduceGcd m with
  | none =>
    rw [(C96_reduce m).1] at h
    rw [(C96_reduce _).1, h]; simp
  | some r =>
    obtain ⟨hp, g, hg, hm⟩ := ((C96_reduce m).2 r).mp h
    refine ((C96_reduce _).2 r).mpr ⟨hp, f * g, mul_pos hf hg, ?_⟩
    rw [hm]; simp only [mul_assoc]

example : reduceGcd (2, -4, 6) = some (1, -2, 3) ∧ reduceGcd (0, 0, 0) = none := by
  constructor
  · refine ((C96_reduce _).2 _).mpr ⟨?_, 2, by norm_num, by norm_num⟩
    rintro d h - -
    exact Int.isUnit_iff.mp (isUnit_of_dvd_one h)
  · exact (C96_reduce _).1.mpr rfl

/-! ## Reciprocal vectors -/

/-- The volume of the cell. -/
def volume (a : Basis) : ℝ := a.v1 ⬝ᵥ cross a.v2 a.v3

/-- The vectors of a basis by number. -/
def Basis.v (a : Basis) : Fin 3 → Vec := ![a.v1, a.v2, a.v3]

/-- The reciprocal vectors are dual to the lattice vectors. -/
theorem C59_dual {a : Basis} (h : volume a ≠ 0) (i j : Fin 3) :
    a.v i ⬝ᵥ (reciprocal a).v j = if i = j then 1 else 0 := by
  have e1 : volume a = a.v2 ⬝ᵥ cross a.v3 a.v1 := by
    simp [volume, cross, dotProduct, Fin.sum_univ_three]; ring
  have e2 : volume a = a.v3 ⬝ᵥ cross a.v1 a.v2 := by
    simp [volume, cross, dotProduct, Fin.sum_univ_three]; ring
  have h0 : a.v1 ⬝ᵥ cross a.v2 a.v3 ≠ 0 := h
  have h1 := h; rw [e1] at h1
  have h2 := h; rw [e2] at h2
  have z : ∀ u v : Vec, u ⬝ᵥ cross u v = 0 ∧ v ⬝ᵥ cross u v = 0 := by
    intro u v
    constructor <;> (simp [cross, dotProduct, Fin.sum_univ_three]; ring)
  fin_cases i <;> fin_cases j <;>
    simp [Basis.v, reciprocal, dotProduct_smul, (z _ _).1, (z _ _).2, h0, h1, h2]

/-- A direction and a plane normal multiply to the sum of the products of the indices. -/
theorem combine_dot {a : Basis} (h : volume a ≠ 0) (m k : ℤ × ℤ × ℤ) :
    combine a m ⬝ᵥ combine (reciprocal a) k = ((m.1 * k.1 + m.2.1 * k.2.1 + m.2.2 * k.2.2 : ℤ) : ℝ) := by
  have d := C59_dual h
  have d00 := d 0 0; have d01 := d 0 1; have d02 := d 0 2
  have d10 := d 1 0; have d11 := d 1 1; have d12 := d 1 2
  have d20 := d 2 0; have d21 := d 2 1; have d22 := d 2 2
  simp [Basis.v] at d00 d01 d02 d10 d11 d12 d20 d21 d22
  simp only [combine, add_dotProduct, dotProduct_add, smul_dotProduct, dotProduct_smul, smul_eq_mul, d00, d01, d02,
    d10, d11, d12, d20, d21, d22]
  push_cast
  ring

/-- The Cartesian vectors of a direction and of a plane are orthogonal exactly if the indices fulfil the zone
law. Three zeros are refused. -/
theorem C59_zone {a : Basis} (h : volume a ≠ 0) (u v w p q r : ℤ) {d n : Vec}
    (hd : miller2cart a [u, v, w] = some d) (hn : miller2cart (reciprocal a) [p, q, r] = some n) :
    ∃ f : ℝ, 0 < f ∧ f * (d ⬝ᵥ n) = ((u * p + v * q + w * r : ℤ) : ℝ) := by
  simp only [miller2cart, assertMiller, Option.bind_some, Option.map_eq_some_iff] at hd hn
  obtain ⟨m, hm, rfl⟩ := hd
  obtain ⟨k, hk, rfl⟩ := hn
  obtain ⟨-, f, hf, e⟩ := ((C96_reduce _).2 m).mp hm
  obtain ⟨-, g, hg, e'⟩ := ((C96_reduce _).2 k).mp hk
  simp only [Prod.mk.injEq] at e e'
  obtain ⟨rfl, rfl, rfl⟩ := e
  obtain ⟨rfl, rfl, rfl⟩ := e'
  refine ⟨(f : ℝ) * g, mul_pos (by exact_mod_cast hf) (by exact_mod_cast hg), ?_⟩
  rw [combine_dot h]
  push_cast
  ring

/-- The same with four indices for hexagonal lattices, whose third index is minus the sum of the first two. -/
theorem C59_zone_hexagonal {a : Basis} (h : volume a ≠ 0) (u v t w p q s r : ℤ) {d n : Vec}
    (hd : hcpDirection a [u, v, t, w] = some d) (hn : hcpPlane a [p, q, s, r] = some n) :
    u + v + t = 0 ∧ p + q + s = 0 ∧
      ∃ f : ℝ, 0 < f ∧ f * (d ⬝ᵥ n) = ((u * p + v * q + t * s + w * r : ℤ) : ℝ) := by
  simp only [hcpDirection, assertMillerBravais] at hd
  simp only [hcpPlane, assertMillerBravais] at hn
  by_cases h1 : u + v + t = 0
  swap
  · rw [if_neg h1] at hd; simp at hd
  by_cases h2 : p + q + s = 0
  swap
  · rw [if_neg h2] at hn; simp at hn
  rw [if_pos h1, Option.bind_some] at hd
  rw [if_pos h2, Option.bind_some] at hn
  refine ⟨h1, h2, ?_⟩
  obtain ⟨f, hf, e⟩ := C59_zone h _ _ _ _ _ _ hd hn
  refine ⟨f, hf, e.trans ?_⟩
  have ht : t = -(u + v) := by omega
  have hs : s = -(p + q) := by omega
  rw [ht, hs]
  push_cast
  ring

theorem cubic_volume (a : ℝ) : volume (cubicBasis a) = a ^ 3 := by
  simp [volume, cubicBasis, cross, dotProduct, Fin.sum_univ_three]; ring

theorem hcp_volume (a c : ℝ) : volume (hcpBasis a c) = √3 / 2 * a ^ 2 * c := by
  simp [volume, hcpBasis, cross, dotProduct, Fin.sum_univ_three]
  ring

example : volume (cubicBasis 2) ≠ 0 ∧ volume (hcpBasis 3 5) ≠ 0 := by
  rw [cubic_volume, hcp_volume]
  constructor
  · norm_num
  · positivity

/-! ## Equivalent vectors -/

open Classical in
/-- Keeping only what is not yet there. -/
theorem keep_spec {α : Type} (r : α → α → Prop) (l init : List α) (hi : init.Pairwise fun x y => ¬ r x y) :
    let out := l.foldl (fun acc x => if ∃ b ∈ acc, r b x then acc else acc ++ [x]) init
    (∀ x ∈ init, x ∈ out) ∧ (∀ x ∈ out, x ∈ init ∨ x ∈ l) ∧ (∀ x ∈ l, x ∈ out ∨ ∃ b ∈ out, r b x) ∧
      out.Pairwise (fun x y => ¬ r x y) ∧ (out.Sublist (init ++ l)) := by
  induction l generalizing init with
  | nil => simp [hi]
  | cons x l ih =>
    simp only [List.foldl_cons]
    by_cases hx : ∃ b ∈ init, r b x
    · rw [if_pos hx]
      obtain ⟨h1, h2, h3, h4, h5⟩ := ih init hi
      refine ⟨h1, fun y hy => ?_, fun y hy => ?_, h4, h5.trans ?_⟩
      · rcases h2 y hy with h | h
        · exact Or.inl h
        · exact Or.inr (List.mem_cons_of_mem _ h)
      · rcases List.mem_cons.mp hy with rfl | hy
        · obtain ⟨b, hb, hr⟩ := hx
          exact Or.inr ⟨b, h1 b hb, hr⟩
        · exact h3 y hy
      · exact List.Sublist.append_left (List.sublist_cons_self _ _) _
    · rw [if_neg hx]
      push Not at hx
      obtain ⟨h1, h2, h3, h4, h5⟩ := ih (init ++ [x]) (by
        rw [List.pairwise_append]
        exact ⟨hi, by simp, fun a ha b hb => by rw [List.mem_singleton.mp hb]; exact hx a ha⟩)
      refine ⟨fun y hy => h1 y (by simp [hy]), fun y hy => ?_, fun y hy => ?_, h4, by simpa using h5⟩
      · rcases h2 y hy with h | h
        · rcases List.mem_append.mp h with h | h
          · exact Or.inl h
          · rw [List.mem_singleton.mp h]; exact Or.inr (by simp)
        · exact Or.inr (List.mem_cons_of_mem _ h)
      · rcases List.mem_cons.mp hy with rfl | hy
        · exact Or.inl (h1 _ (by simp))
        · exact h3 y hy

theorem isclose_refl (x : ℝ) : isclose x x := by
  unfold isclose; rw [sub_self, abs_zero]; positivity

theorem veq_refl (v : Vec) : veq v v := fun _ => isclose_refl _

/-- The listed vectors are images of the given one, every image is listed up to the tolerance, and no two
listed vectors agree up to the tolerance. -/
theorem C96_equivalent (ops : List Quat) (v : Vec) :
    (∀ w ∈ equivalentVectors ops v, ∃ R ∈ ops, w = applyVec R v) ∧
      (∀ R ∈ ops, ∃ w ∈ equivalentVectors ops v, veq w (applyVec R v)) ∧
      (equivalentVectors ops v).Pairwise fun x y => ¬ veq x y := by
  have e : equivalentVectors ops v = (ops.map fun R => applyVec R v).foldl (fun acc x =>
      open Classical in if ∃ b ∈ acc, veq b x then acc else acc ++ [x]) [] := by
    rw [List.foldl_map]; rfl
  obtain ⟨-, h2, h3, h4, -⟩ := keep_spec veq (ops.map fun R => applyVec R v) [] List.Pairwise.nil
  rw [← e] at h2 h3 h4
  refine ⟨fun w hw => ?_, fun R hR => ?_, h4⟩
  · rcases h2 w hw with h | h
    · simp at h
    · obtain ⟨R, hR, rfl⟩ := List.mem_map.mp h
      exact ⟨R, hR, rfl⟩
  · rcases h3 _ (List.mem_map_of_mem hR) with h | h
    · exact ⟨_, h, veq_refl _⟩
    · exact h

/-- Of a vector and its opposite one is listed: every image has itself or, up to the tolerance, its opposite in
the list, and no vector of the list agrees with a listed one or with the opposite of an earlier one. -/
theorem C96_bidirectional (ops : List Quat) (v : Vec) :
    (∀ w ∈ bidirectional ops v, ∃ R ∈ ops, w = applyVec R v) ∧
      (∀ w ∈ equivalentVectors ops v, w ∈ bidirectional ops v ∨ ∃ b ∈ bidirectional ops v, veq w (-b)) ∧
      (bidirectional ops v).Pairwise fun x y => ¬ veq x y ∧ ¬ veq y (-x) := by
  obtain ⟨h1, h2, h3⟩ := C96_equivalent ops v
  obtain ⟨-, g2, g3, g4, g5⟩ := keep_spec (fun b a => veq a (-b)) (equivalentVectors ops v) [] List.Pairwise.nil
  refine ⟨fun w hw => ?_, g3, ?_⟩
  · rcases g2 w hw with h | h
    · simp at h
    · exact h1 w h
  · rw [List.nil_append] at g5
    have : (bidirectional ops v).Pairwise fun x y => ¬ veq x y := h3.sublist g5
    exact this.and g4

end Neml.Lattice
