import Verif.Props.CrystalDamage
import Verif.Props.SlipDeriv
import Mathlib.Analysis.SpecialFunctions.Pow.Deriv

/-!
# C107: damage fractions and damage rates
-/

namespace Neml.CrystalDamage

open Matrix Filter Topology Neml.Mandel Neml.Rotation Neml.Slip Neml.Kinematics
open Neml.Damage (Moves)

/-! ## Fractions -/

theorem sigTrial_pos {c β d : ℝ} (h0 : 0 < d) (hc : d < c) : 0 < sigTrial c β d ∧ sigTrial c β d < 1 := by
  have hr : 0 < c / d - 1 := by rw [sub_pos, lt_div_iff₀ h0]; linarith
  have hp : 0 < (c / d - 1) ^ β := Real.rpow_pos_of_pos hr β
  rw [sigTrial, if_neg h0.ne']
  exact ⟨by positivity, by rw [div_lt_one (by positivity)]; linarith⟩

theorem sigTrial_mono {c β d e : ℝ} (hβ : 0 < β) (h0 : 0 ≤ d) (hde : d ≤ e) (hc : e < c) :
    sigTrial c β d ≤ sigTrial c β e := by
  rcases h0.eq_or_lt with rfl | h0
  · rcases hde.eq_or_lt with rfl | he
    · exact le_rfl
    · have : sigTrial c β 0 = 0 := by simp [sigTrial, hβ]
      rw [this]
      exact (sigTrial_pos he hc).1.le
  · have he : 0 < e := h0.trans_le hde
    rw [sigTrial, sigTrial, if_neg h0.ne', if_neg he.ne']
    have h1 : 0 < c / e - 1 := by rw [sub_pos, lt_div_iff₀ he]; linarith
    have h2 : c / e - 1 ≤ c / d - 1 := by
      have := div_le_div_of_nonneg_left (by linarith : 0 ≤ c) h0 hde
      linarith
    have h3 := Real.rpow_le_rpow h1.le h2 hβ.le
    have h4 : 0 < (c / e - 1) ^ β := Real.rpow_pos_of_pos h1 β
    exact one_div_le_one_div_of_le (by linarith) (by linarith)

/-- C107, range: the reported fraction lies between zero and the cut, for every damage and stress. -/
theorem C107_range {c β cut : ℝ} (hβ : 0 < β) (hcut : 0 ≤ cut) (d ns : ℝ) :
    0 ≤ (sigmoid c β cut).map d ns ∧ (sigmoid c β cut).map d ns ≤ cut ∧
    0 ≤ (switch (sigmoid c β cut)).map d ns ∧ (switch (sigmoid c β cut)).map d ns ≤ cut := by
  have key : 0 ≤ (sigmoid c β cut).map d ns ∧ (sigmoid c β cut).map d ns ≤ cut := by
    simp only [sigmoid]
    split_ifs with h1 h2 h3
    · exact ⟨le_rfl, hcut⟩
    · exact ⟨hcut, le_rfl⟩
    · refine ⟨?_, not_lt.1 h3⟩
      rcases (not_lt.1 h1).eq_or_lt with rfl | h0
      · simp [sigTrial, hβ]
      · exact (sigTrial_pos h0 h2).1.le
    · exact ⟨hcut, le_rfl⟩
  refine ⟨key.1, key.2, ?_⟩
  simp only [switch]
  split_ifs
  · exact key
  · exact ⟨le_rfl, hcut⟩

/-- C107, growth of the fraction: more damage is never a smaller fraction, at the same normal stress. -/
theorem C107_monotone {c β cut : ℝ} (hβ : 0 < β) (hcut : 0 ≤ cut) {d e : ℝ} (hde : d ≤ e) (ns : ℝ) :
    (sigmoid c β cut).map d ns ≤ (sigmoid c β cut).map e ns ∧
    (switch (sigmoid c β cut)).map d ns ≤ (switch (sigmoid c β cut)).map e ns := by
  have key : (sigmoid c β cut).map d ns ≤ (sigmoid c β cut).map e ns := by
    by_cases hd : d < 0
    · have : (sigmoid c β cut).map d ns = 0 := by simp [sigmoid, hd]
      rw [this]
      exact (C107_range hβ hcut e ns).1
    · by_cases he : e < c
      · have hm := sigTrial_mono hβ (not_lt.1 hd) hde he
        have hd' : d < c := hde.trans_lt he
        have he' : ¬ e < 0 := not_lt.2 ((not_lt.1 hd).trans hde)
        simp only [sigmoid, hd, he, hd', he', if_true, if_false]
        split_ifs with h1 h2 h2
        · exact le_rfl
        · exact absurd (h1.trans_le hm) h2
        · exact not_lt.1 h1
        · exact hm
      · have : (sigmoid c β cut).map e ns = cut := by
          by_cases he' : e < 0
          · exact absurd (hde.trans_lt he') hd
          · simp [sigmoid, he, he']
        rw [this]
        exact (C107_range hβ hcut d ns).2.1
  refine ⟨key, ?_⟩
  simp only [switch]
  split_ifs
  · exact key
  · exact le_rfl

/-- C107, closed planes: under compression the switched transformation reports no damage, under tension what its base
reports. -/
theorem C107_switch (t : Transform) (d ns : ℝ) :
    (ns < 0 → (switch t).map d ns = 0) ∧ (0 ≤ ns → (switch t).map d ns = t.map d ns) := by
  constructor
  · intro h
    simp [switch, not_le.2 h]
  · intro h
    simp [switch, h]

/-! ## Rates -/

section

variable {N : Type} [DecidableEq N] {m p : Nat} (c : Crys) (r : Rule N m) (pl : Planes p) (shear normal : Transform)

theorem zipWith_map {α : Type} (l : List α) (f g : α → ℝ) :
    List.zipWith (· * ·) (l.map f) (l.map g) = l.map fun q => f q * g q := by
  rw [List.zipWith_map, List.zipWith_self]

/-- C107, work: the damage of a plane grows by the work of slip on the systems of that plane. -/
theorem C107_work (s : Fin 6 → ℝ) (h : N ⊕ Fin p → ℝ) (i : Fin p) :
    (planar c r pl shear normal workPlane).rate s h i =
      ((pl.systems i).map fun q => c.shear q.1 q.2 s * r.slip c s (h ∘ Sum.inl) q.1 q.2).sum := by
  simp only [planar, workPlane, zipWith_map]

/-- C107, no healing: with slip that never does negative work the damage variables of a damaged crystal do not decrease
in a substep, whatever the stress and history that solve it. -/
theorem C107_growth (C S : Matrix (Fin 6) (Fin 6) ℝ) (st : Step (N ⊕ Fin p)) (hdt : 0 ≤ st.dt) (s : Fin 6 → ℝ)
    (h : N ⊕ Fin p → ℝ) (hw : ∀ v g i, 0 ≤ c.shear g i v * r.slip c v (h ∘ Sum.inl) g i)
    (hsol : dresH (DKin.mk C S (asaro c r) (planar c r pl shear normal workPlane)) st s h = 0) (i : Fin p) :
    st.hn (.inr i) ≤ h (.inr i) := by
  have h1 := congrFun hsol (.inr i)
  simp only [dresH, DKin.rate, Pi.zero_apply] at h1
  have h2 := C107_work c r pl shear normal
    (DKin.sp (DKin.mk C S (asaro c r) (planar c r pl shear normal workPlane)) s h) h i
  rw [h2] at h1
  have h3 : 0 ≤ ((pl.systems i).map fun q =>
      c.shear q.1 q.2 (DKin.sp (DKin.mk C S (asaro c r) (planar c r pl shear normal workPlane)) s h) *
      r.slip c (DKin.sp (DKin.mk C S (asaro c r) (planar c r pl shear normal workPlane)) s h) (h ∘ Sum.inl)
        q.1 q.2).sum := by
    apply List.sum_nonneg
    intro x hx
    obtain ⟨q, -, rfl⟩ := List.mem_map.1 hx
    exact hw _ _ _
  have := mul_nonneg h3 hdt
  linarith

/-- The power law is such a rule while the strengths are positive. -/
theorem C107_power (hard : Hard N) {g0 n : ℝ} (hg : 0 ≤ g0) (h : N → ℝ) (h0 : ∀ g, 0 < hard.tau g 0 h) (v : Fin 6 → ℝ)
    (g i : Nat) : 0 ≤ c.shear g i v * (powerLaw hard g0 n).slip c v h g i :=
  (C100_power hard hg c v h g i (h0 g)).1

/-- Every stress and history is the end of some substep. -/
example (C S : Matrix (Fin 6) (Fin 6) ℝ) (s : Fin 6 → ℝ) (h : N ⊕ Fin p → ℝ) : ∃ st : Step (N ⊕ Fin p), st.dt = 1 ∧
    dresH (DKin.mk C S (asaro c r) (planar c r pl shear normal workPlane)) st s h = 0 :=
  ⟨⟨0, 0, fun a => h a - (DKin.mk C S (asaro c r) (planar c r pl shear normal workPlane)).rate s h a, 1, 0⟩, rfl, by
    funext a
    simp [dresH]⟩

end

/-- One slip system on one plane, sheared by the last component of the stress. -/
def oneCrys : Crys where
  ngroup := 1
  nslip _ := 1
  twin _ := false
  burgers _ _ := 1
  M _ _ := ![0, 0, 0, 0, 0, 1]
  W _ _ := 0

/-- C107, healing: with a back strength the slip may work against the shear, and then the damage decreases. The shear is
one, the back strength two. -/
theorem C107_disagreement : ∃ (r : Rule Unit 3) (pl : Planes 1) (s : Fin 6 → ℝ) (h : Unit ⊕ Fin 1 → ℝ),
    r = kinematicPowerLaw (fixedStrength oneCrys fun _ => 2) (fixedStrength oneCrys fun _ => 0)
      (fixedStrength oneCrys fun _ => 1) 1 1 ∧
    (planar oneCrys r pl (sigmoid 1 1 1) (sigmoid 1 1 1) workPlane).rate s h 0 < 0 := by
  refine ⟨_, ⟨fun _ => ![0, 1, 0], fun _ => [(0, 0)]⟩, ![0, 0, 0, 0, 0, 1], 0, rfl, ?_⟩
  rw [C107_work]
  have h1 : oneCrys.shear 0 0 (![0, 0, 0, 0, 0, 1] : Fin 6 → ℝ) = 1 := by
    simp [Crys.shear, oneCrys, dotProduct, Fin.sum_univ_succ]
  simp only [List.map_cons, List.map_nil, List.sum_cons, List.sum_nil, h1, Rule.slip]
  simp [oneCrys, kinematicPowerLaw, Rule.strengths, fixedStrength, sgn]
  norm_num

end Neml.CrystalDamage
