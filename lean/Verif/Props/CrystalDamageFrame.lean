import Verif.Props.CrystalDamageJacobian
import Verif.Props.Elastic

/-!
# C109 and C110: spinning a crystal, and a damage model without damage

A stress that only turns with the spin `O` changes at the rate `O σ - σ O`.
-/

namespace Neml.CrystalDamage

open Matrix Neml.Mandel Neml.Rotation Neml.Slip Neml.Kinematics Neml.Elastic

variable {N D : Type}

/-! ## Isotropic and cubic stiffness -/

theorem symComm_smul_left (c : ℝ) (a : Fin 6 → ℝ) (O : Fin 3 → ℝ) : symComm (c • a) O = c • symComm a O := by
  apply usym_inj
  rw [usym_symComm, LargeDef.usym_smul, LargeDef.usym_smul, usym_symComm, Matrix.smul_mul, Matrix.mul_smul, smul_sub]

theorem symComm_delta (O : Fin 3 → ℝ) : symComm delta O = 0 := by
  apply usym_inj
  rw [usym_symComm, usym_delta, Matrix.one_mul, Matrix.mul_one, sub_self]
  ext i j
  fin_cases i <;> fin_cases j <;> simp [usym]

theorem symComm_trace (e : Fin 6 → ℝ) (O : Fin 3 → ℝ) : symComm e O 0 + symComm e O 1 + symComm e O 2 = 0 := by
  rw [sum_eq_trace, usym_symComm, trace_sub, trace_mul_comm, sub_self]

/-- The isotropic stiffness of a turning strain is the turning stress. -/
theorem iso_symComm {G K : ℝ} (hG : 0 < G) (hK : 0 < K) (s : Fin 6 → ℝ) (O : Fin 3 → ℝ) :
    isoC G K *ᵥ symComm (isoS G K *ᵥ s) O = symComm s O := by
  have e : s = isoC G K *ᵥ (isoS G K *ᵥ s) := by
    rw [mulVec_mulVec, (C36_iso_inverse G K hG hK).2, one_mulVec]
  conv_rhs => rw [e]
  rw [isoC_apply, isoC_apply, symComm_trace, symComm_add_left, symComm_smul_left, symComm_smul_left, symComm_delta]
  simp

/-! ## C109: spin without deformation -/

/-- C109, isotropic crystal: spun without being deformed and without inelastic flow, its stress only turns. -/
theorem C109_isotropic {G K : ℝ} (hG : 0 < G) (hK : 0 < K) (s : Fin 6 → ℝ) (O : Fin 3 → ℝ) (h : N → ℝ) :
    usym ((Kin.mk (isoC G K) (isoS G K) noInel : Kin N).stressRate O s 0 h) = uskew O * usym s - usym s * uskew O := by
  have : (Kin.mk (isoC G K) (isoS G K) noInel : Kin N).stressRate O s 0 h = (-1 : ℝ) • symComm s O := by
    simp only [Kin.stressRate, noInel, Pi.zero_apply, add_zero, sub_zero, zero_sub, mulVec_neg, iso_symComm hG hK]
    module
  rw [this, LargeDef.usym_smul, usym_symComm]
  module

/-- C109 fails for a cubic crystal: here the stress of a spinning crystal turns at twice the rate of the spin. The stiffness
is positive, and the compliance is its inverse. -/
theorem C109_cubic : ∃ (C S : Matrix (Fin 6) (Fin 6) ℝ) (s : Fin 6 → ℝ) (O : Fin 3 → ℝ),
    C = cubicC 1 0 2 ∧ C * S = 1 ∧ (∀ e, e ≠ 0 → 0 < e ⬝ᵥ C *ᵥ e) ∧ ∀ (h : N → ℝ),
      uskew O * usym s - usym s * uskew O ≠ 0 ∧
      usym ((Kin.mk C S noInel : Kin N).stressRate O s 0 h) = (2 : ℝ) • (uskew O * usym s - usym s * uskew O) := by
  have hsc : symComm (![1, 0, 0, 0, 0, 0] : Fin 6 → ℝ) ![0, 0, 1] = ![0, 0, 0, 0, 0, -√2] := by
    apply usym_inj
    rw [usym_symComm]
    ext i j
    fin_cases i <;> fin_cases j <;> simp [usym, uskew, Matrix.mul_apply, Fin.sum_univ_three]
  refine ⟨cubicC 1 0 2, cubicC 1 0 (1 / 2), ![1, 0, 0, 0, 0, 0], ![0, 0, 1], rfl, ?_, ?_, fun h => ⟨?_, ?_⟩⟩
  · ext i j
    fin_cases i <;> fin_cases j <;> simp [cubicC, Matrix.mul_apply, Fin.sum_univ_succ]
  · intro e he
    rw [cubic_energy]
    by_contra hle
    apply he
    have : ∀ i, e i = 0 := by
      intro i
      fin_cases i <;> simp <;> nlinarith [sq_nonneg (e 0), sq_nonneg (e 1), sq_nonneg (e 2), sq_nonneg (e 3), sq_nonneg (e 4),
        sq_nonneg (e 5)]
    exact funext this
  · intro hz
    have := congrFun (congrFun hz 0) 1
    simp [usym, uskew, Matrix.mul_apply, Fin.sum_univ_three] at this
  · have e1 : (Kin.mk (cubicC 1 0 2) (cubicC 1 0 (1 / 2)) noInel : Kin N).stressRate ![0, 0, 1] ![1, 0, 0, 0, 0, 0] 0 h =
        (-2 : ℝ) • symComm ![1, 0, 0, 0, 0, 0] ![0, 0, 1] := by
      have e2 : cubicC 1 0 (1 / 2) *ᵥ (![1, 0, 0, 0, 0, 0] : Fin 6 → ℝ) = ![1, 0, 0, 0, 0, 0] := by
        ext i
        fin_cases i <;> simp [cubicC, mulVec, dotProduct, Fin.sum_univ_succ]
      simp only [Kin.stressRate, noInel, Pi.zero_apply, add_zero, sub_zero, zero_sub, mulVec_neg, e2, hsc]
      ext i
      fin_cases i <;> simp [cubicC, mulVec, dotProduct, Fin.sum_univ_succ]
      ring
    rw [e1, LargeDef.usym_smul, usym_symComm]
    module

/-- C109, damaged kinematics: as long as the projection is the identity the stress only turns, for every stiffness. -/
theorem C109_fresh (k : DKin N D) (hk : k.inel = noInel) {s : Fin 6 → ℝ} {h : N ⊕ D → ℝ} (hP : k.P s h = 1)
    (O : Fin 3 → ℝ) : usym (k.stressRate O s 0 h) = uskew O * usym s - usym s * uskew O := by
  have : k.stressRate O s 0 h = (-1 : ℝ) • symComm s O := by
    simp only [DKin.stressRate, DKin.sp, hk, hP, noInel, Pi.zero_apply, add_zero, sub_zero, mulVec_zero, zero_sub, inv_one,
      one_mulVec]
    module
  rw [this, LargeDef.usym_smul, usym_symComm]
  module

/-- C109 fails for a damaged crystal: here one plane is half damaged and the stress of the spinning crystal turns at twice
the rate of the spin, for every stiffness. -/
theorem C109_damaged [DecidableEq N] {m : Nat} (c : Crys) (r : Rule N m) :
    ∃ (pl : Planes 1) (s : Fin 6 → ℝ) (O : Fin 3 → ℝ) (d : Fin 1 → ℝ), pl.normal 0 ⬝ᵥ pl.normal 0 = 1 ∧ 0 < d 0 ∧ d 0 < 1 ∧
      uskew O * usym s - usym s * uskew O ≠ 0 ∧ ∀ (C S : Matrix (Fin 6) (Fin 6) ℝ) (h : N ⊕ Fin 1 → ℝ), h ∘ Sum.inr = d →
      usym ((DKin.mk C S noInel (planar c r pl (sigmoid 1 1 1) (sigmoid 1 1 1) workPlane)).stressRate O s 0 h) =
        (2 : ℝ) • (uskew O * usym s - usym s * uskew O) := by
  refine ⟨⟨fun _ => ![1, 0, 0], fun _ => []⟩, ![1, 0, 0, 0, 0, 0], ![0, 0, 1], fun _ => 1 / 2, ?_, ?_, ?_, ?_, ?_⟩
  · simp [dotProduct, Fin.sum_univ_three]
  · norm_num
  · norm_num
  · intro hz
    have := congrFun (congrFun hz 0) 1
    simp [usym, uskew, Matrix.mul_apply, Fin.sum_univ_three] at this
  · intro C S h hd
    set k := DKin.mk C S (noInel : Inel N) (planar c r ⟨fun _ => ![1, 0, 0], fun _ => []⟩ (sigmoid 1 1 1) (sigmoid 1 1 1)
      workPlane) with hk
    have hm : ∀ ns, (sigmoid 1 1 1).map (1 / 2) ns = 1 / 2 := by
      intro ns
      norm_num [sigmoid, sigTrial]
    have hP : k.P ![1, 0, 0, 0, 0, 0] h = factor (1 / 2) (1 / 2) ![1, 0, 0] := by
      rw [DKin.P, hk, hd, proj_eq]
      simp [List.finRange_succ, planeFactor, -one_div, hm]
    have hdet : (factor (1 / 2) (1 / 2) (![1, 0, 0] : Fin 3 → ℝ)).det ≠ 0 :=
      (C106_factor (by simp [dotProduct, Fin.sum_univ_three]) _ _).2 ⟨by norm_num, by norm_num⟩
    have hf : factor (1 / 2) (1 / 2) (![1, 0, 0] : Fin 3 → ℝ) *ᵥ ((2 : ℝ) • (![1, 0, 0, 0, 0, 0] : Fin 6 → ℝ)) =
        ![1, 0, 0, 0, 0, 0] := by
      ext i
      fin_cases i <;> simp [factor, normalSS, shearSS, mulVec, dotProduct, Fin.sum_univ_succ, Matrix.one_apply] <;> norm_num
    have hsp : k.sp ![1, 0, 0, 0, 0, 0] h = (2 : ℝ) • ![1, 0, 0, 0, 0, 0] := by
      rw [DKin.sp, hP]
      conv_lhs => rw [← hf]
      rw [mulVec_mulVec, nonsing_inv_mul _ (isUnit_iff_ne_zero.2 hdet), one_mulVec]
    have : k.stressRate ![0, 0, 1] ![1, 0, 0, 0, 0, 0] 0 h = (-2 : ℝ) • symComm ![1, 0, 0, 0, 0, 0] ![0, 0, 1] := by
      simp only [DKin.stressRate, hsp]
      simp only [hk, noInel, Pi.zero_apply, add_zero, sub_zero, mulVec_zero, zero_sub, symComm_smul_left]
      module
    rw [this, LargeDef.usym_smul, usym_symComm]
    module

/-! ## C110: no damage -/

/-- C110, parts other than the stress rate: as long as the projection is the identity, the lattice spin, the elastic strain
and the rates of the inelastic variables are those of the crystal without a damage model. -/
theorem C110_spin (k : DKin N D) {s : Fin 6 → ℝ} {h : N ⊕ D → ℝ} (hP : k.P s h = 1) (w : Fin 3 → ℝ) :
    k.spin s w h = (Kin.mk k.C k.S k.inel).spin s w (h ∘ Sum.inl) ∧ k.elastic s h = k.S *ᵥ s ∧
      ∀ a, k.rate s h (.inl a) = k.inel.rate s (h ∘ Sum.inl) a := by
  have hsp : k.sp s h = s := by rw [DKin.sp, hP, inv_one, one_mulVec]
  refine ⟨?_, ?_, fun a => ?_⟩
  · rw [DKin.spin, Kin.spin, hP, inv_one, Matrix.mul_one]
  · rw [DKin.elastic, hP, inv_one, one_mulVec]
  · rw [DKin.rate, hsp]

/-- C110, isotropic crystal: as long as the projection is the identity, the stress rate is that of the crystal without a
damage model. -/
theorem C110_isotropic {G K : ℝ} (hG : 0 < G) (hK : 0 < K) (i : Inel N) (g : Dmg N D) {s : Fin 6 → ℝ} {h : N ⊕ D → ℝ}
    (hP : (DKin.mk (isoC G K) (isoS G K) i g).P s h = 1) (w : Fin 3 → ℝ) (d : Fin 6 → ℝ) :
    (DKin.mk (isoC G K) (isoS G K) i g).stressRate w s d h =
      (Kin.mk (isoC G K) (isoS G K) i).stressRate w s d (h ∘ Sum.inl) := by
  have hsp : (DKin.mk (isoC G K) (isoS G K) i g).sp s h = s := by rw [DKin.sp, hP, inv_one, one_mulVec]
  simp only [DKin.stressRate, hsp, hP, Kin.stressRate, one_mulVec, mulVec_sub, iso_symComm hG hK]

/-- C110, other crystals: the two stress rates agree just if the stiffness of the turning elastic strain is the turning
stress. -/
theorem C110_iff (k : DKin N D) {s : Fin 6 → ℝ} {h : N ⊕ D → ℝ} (hP : k.P s h = 1) (w : Fin 3 → ℝ) (d : Fin 6 → ℝ) :
    k.stressRate w s d h = (Kin.mk k.C k.S k.inel).stressRate w s d (h ∘ Sum.inl) ↔
      symComm s (w + k.inel.wp s (h ∘ Sum.inl)) = k.C *ᵥ symComm (k.S *ᵥ s) (w + k.inel.wp s (h ∘ Sum.inl)) := by
  have hsp : k.sp s h = s := by rw [DKin.sp, hP, inv_one, one_mulVec]
  simp only [DKin.stressRate, hsp, hP, Kin.stressRate, one_mulVec, mulVec_sub, sub_right_inj]

/-- C110 fails for a cubic crystal: with the model that never damages, the stress rate differs from that of the crystal
without a damage model. -/
theorem C110_cubic (i : Inel N) (h : N ⊕ Unit → ℝ) : ∃ (S : Matrix (Fin 6) (Fin 6) ℝ) (s : Fin 6 → ℝ) (w : Fin 3 → ℝ),
    cubicC 1 0 2 * S = 1 ∧ ∀ d, (DKin.mk (cubicC 1 0 2) S i (nilDmg N)).stressRate w s d h ≠
      (Kin.mk (cubicC 1 0 2) S i).stressRate w s d (h ∘ Sum.inl) := by
  refine ⟨cubicC 1 0 (1 / 2), ![1, 0, 0, 0, 0, 0],
    ![0, 0, 1] - i.wp ![1, 0, 0, 0, 0, 0] (h ∘ Sum.inl), ?_, fun d he => ?_⟩
  · ext i j
    fin_cases i <;> fin_cases j <;> simp [cubicC, Matrix.mul_apply, Fin.sum_univ_succ]
  · have h1 := (C110_iff (DKin.mk (cubicC 1 0 2) (cubicC 1 0 (1 / 2)) i (nilDmg N)) (h := h) rfl _ d).1 he
    simp only [sub_add_cancel] at h1
    have hsc : symComm (![1, 0, 0, 0, 0, 0] : Fin 6 → ℝ) ![0, 0, 1] = ![0, 0, 0, 0, 0, -√2] := by
      apply usym_inj
      rw [usym_symComm]
      ext i j
      fin_cases i <;> fin_cases j <;> simp [usym, uskew, Matrix.mul_apply, Fin.sum_univ_three]
    have e2 : cubicC 1 0 (1 / 2) *ᵥ (![1, 0, 0, 0, 0, 0] : Fin 6 → ℝ) = ![1, 0, 0, 0, 0, 0] := by
      ext i
      fin_cases i <;> simp [cubicC, mulVec, dotProduct, Fin.sum_univ_succ]
    rw [e2, hsc] at h1
    have h2 := congrFun h1 5
    simp [cubicC, mulVec, dotProduct, Fin.sum_univ_succ] at h2

/-- The model that never damages, and fresh planes, have the identity as their projection. -/
example (C S : Matrix (Fin 6) (Fin 6) ℝ) (i : Inel N) (s : Fin 6 → ℝ) (h : N ⊕ Unit → ℝ) :
    (DKin.mk C S i (nilDmg N)).P s h = 1 := rfl

/-- C110, the model that never damages: its variable starts at zero and has no rate, the rates do not depend on it, and the
derivatives of the rates of the other variables are those without a damage model. -/
theorem C110_nil [DecidableEq N] (C S : Matrix (Fin 6) (Fin 6) ℝ) (i : Inel N) (w : Fin 3 → ℝ) (s d : Fin 6 → ℝ)
    (h : N ⊕ Unit → ℝ) :
    let k := DKin.mk C S i (nilDmg N)
    k.dmg.init () = 0 ∧ (∀ a, k.rate s h a = Sum.elim (i.rate s (h ∘ Sum.inl)) (fun _ => 0) a) ∧
      (∀ a j, k.rateS s h a j = Sum.elim (fun a => i.rateS s (h ∘ Sum.inl) a j) (fun _ => 0) a) ∧
      (∀ a b, k.rateH s h a (.inl b) = Sum.elim (fun a => i.rateH s (h ∘ Sum.inl) a b) (fun _ => 0) a) ∧
      (∀ a b, k.rateH s h a (.inr b) = 0) ∧ (∀ j b, k.stressRateH w s d h j (.inr b) = 0) ∧
      (∀ j l m, k.dmg.projS s (h ∘ Sum.inr) j l m = 0) := by
  have hsp : (DKin.mk C S i (nilDmg N)).sp s h = s := by
    simp [DKin.sp, DKin.P, nilDmg]
  have hP : (DKin.mk C S i (nilDmg N)).P s h = 1 := rfl
  refine ⟨rfl, ?_, ?_, ?_, ?_, ?_, fun _ _ _ => rfl⟩
  · rintro (a | a)
    · simp [DKin.rate, hsp]
    · rfl
  · rintro (a | a) j
    · simp [DKin.rateS, DKin.rateP, hsp, hP]
    · rw [DKin.rateS, hP, inv_one, Matrix.mul_one]
      rfl
  · rintro (a | a) b
    · simp [DKin.rateH, hsp]
    · rfl
  · rintro (a | a) b
    · simp [DKin.rateH, hsp, nilDmg]
    · simp [DKin.rateH, hsp, nilDmg]
  · intro j b
    simp [DKin.stressRateH, nilDmg]

/-! ## C108: a whole model -/

/-- C108, a whole model: power law slip with Voce hardening, planes damaged by the work of slip, and sigmoid transformations
with any exponents. The Jacobian of a substep is right at every stress and history with a positive strength and
damages between zero and the critical value whose transformed values are below the cut. -/
theorem C108_whole [Fintype N] [DecidableEq N] {c : Crys} (var : N) (hN : ∀ a : N, a = var)
    {g0 n tau0 nye sat b : ℝ} (hn : 1 < n) {p : Nat} (pl : Planes p) (hpl : ∀ i, pl.normal i ⬝ᵥ pl.normal i = 1)
    (C S : Matrix (Fin 6) (Fin 6) ℝ) {cr β cut cr' β' cut' : ℝ} (st : Step (N ⊕ Fin p)) (s : Fin 6 → ℝ) (h : N ⊕ Fin p → ℝ)
    (hS : 0 < h (.inl var) + (tau0 + nye))
    (hd : ∀ i, 0 < h (.inr i) ∧ h (.inr i) < cr ∧ sigTrial cr β (h (.inr i)) < cut ∧ h (.inr i) < cr' ∧
      sigTrial cr' β' (h (.inr i)) < cut') (hc : cut ≤ 1) (hc' : cut' ≤ 1)
    (x : ℝ → Fin 6 → ℝ) (x' : Fin 6 → ℝ) (y : ℝ → N ⊕ Fin p → ℝ) (y' : N ⊕ Fin p → ℝ) (t0 : ℝ)
    (hx : Damage.Moves x x' t0) (hy : Damage.Moves y y' t0) (ex : x t0 = s) (ey : y t0 = h) :
    let r := powerLaw (voce c var tau0 nye sat b) g0 n
    let k := DKin.mk C S (asaro c r) (planar c r pl (sigmoid cr β cut) (sigmoid cr' β' cut') workPlane)
    Damage.Moves (fun t => dresS k st (x t) (y t)) (dJ11 k st s h *ᵥ x' + dJ12 k st s h *ᵥ y') t0 ∧
    Damage.Moves (fun t => dresH k st (x t) (y t)) (dJ21 k st s h *ᵥ x' + dJ22 k st s h *ᵥ y') t0 := by
  intro r k
  have z : ∀ (a b e : ℝ) (d ns : ℝ), (sigmoid a b e).dNormal d ns = 0 := fun _ _ _ _ _ => rfl
  have mp : ∀ {a b e d ns : ℝ}, 0 < d → d < a → sigTrial a b d < e → e ≤ 1 → (sigmoid a b e).map d ns ≠ 1 := by
    intro a b e d ns h0 h1 h2 h3
    simp only [sigmoid, not_lt.2 h0.le, if_false, if_pos h1, not_lt.2 h2.le]
    linarith
  have sl : ∀ s' : Fin 6 → ℝ, ∀ g i, r.SlipRight c s' (h ∘ Sum.inl) g i := by
    intro s' g i x x' y y' t0 hx hy ex ey
    exact (C99_power_voce var hN hn s' (h ∘ Sum.inl) hS x x' y y' t0 hx hy ex ey).1 g i
  refine C108_jacobian k st ?_ ?_ ?_ ?_ ?_ x x' y y' t0 hx hy ex ey
  · refine C108_projection c r pl _ _ workPlane (z _ _ _) (z _ _ _) s _ fun i => ?_
    obtain ⟨h0, h1, h2, h3, h4⟩ := hd i
    exact ⟨C108_sigmoid _ (Or.inr (Or.inr ⟨h0, h1, h2.ne⟩)), C108_sigmoid _ (Or.inr (Or.inr ⟨h0, h3, h4.ne⟩))⟩
  · exact projS_zero c r pl _ _ workPlane (z _ _ _) (z _ _ _) s _
  · refine (C106_invertible c r pl _ _ workPlane hpl s _).2 fun i => ?_
    obtain ⟨h0, h1, h2, h3, h4⟩ := hd i
    exact ⟨mp h0 h1 h2 hc, mp h0 h3 h4 hc'⟩
  · exact C102_power_voce var hN hn _ _ hS
  · exact C108_rates c r pl _ _ C108_work _ h fun i q _ => sl _ _ _

/-- Numbers that meet the conditions on the damage. -/
example : (0 : ℝ) < 1 / 2 ∧ (1 / 2 : ℝ) < 1 ∧ sigTrial 1 1 (1 / 2) < 3 / 4 := by norm_num [sigTrial]

end Neml.CrystalDamage
