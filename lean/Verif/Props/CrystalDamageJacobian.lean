import Verif.Props.CrystalDamageTangent

/-!
# C108: the Jacobian of a substep of the damaged crystal
-/

namespace Neml.CrystalDamage

open Matrix Filter Topology Neml.Mandel Neml.Rotation Neml.Slip Neml.Kinematics
open Neml.Damage (Moves)

/-! ## Damage rates -/

/-- The derivatives of a rule for one plane are right, for every number of systems. -/
def PlaneRule.Right (ρ : PlaneRule) : Prop :=
  ∀ (l : List (Nat × Nat)) (τ γ : ℝ → Nat × Nat → ℝ) (τ' γ' : Nat × Nat → ℝ) (ns d : ℝ → ℝ) (ns' d' t0 : ℝ),
    (∀ q ∈ l, HasDerivAt (fun t => τ t q) (τ' q) t0) → (∀ q ∈ l, HasDerivAt (fun t => γ t q) (γ' q) t0) →
    HasDerivAt ns ns' t0 → HasDerivAt d d' t0 →
    (ρ.dShear (l.map (τ t0)) (l.map (γ t0)) (ns t0) (d t0)).length = l.length ∧
    (ρ.dSlip (l.map (τ t0)) (l.map (γ t0)) (ns t0) (d t0)).length = l.length ∧
    HasDerivAt (fun t => ρ.rate (l.map (τ t)) (l.map (γ t)) (ns t) (d t))
      ((List.zipWith (· * ·) (ρ.dShear (l.map (τ t0)) (l.map (γ t0)) (ns t0) (d t0)) (l.map τ')).sum +
        (List.zipWith (· * ·) (ρ.dSlip (l.map (τ t0)) (l.map (γ t0)) (ns t0) (d t0)) (l.map γ')).sum +
        ρ.dNormal (l.map (τ t0)) (l.map (γ t0)) (ns t0) (d t0) * ns' +
        ρ.dDamage (l.map (τ t0)) (l.map (γ t0)) (ns t0) (d t0) * d') t0

/-- C108, work: the derivatives of the rule for the work of slip are right. -/
theorem C108_work : workPlane.Right := by
  intro l τ γ τ' γ' ns d ns' d' t0 hτ hγ hn hd
  refine ⟨by simp [workPlane], by simp [workPlane], ?_⟩
  simp only [workPlane, zero_mul, add_zero, zipWith_map]
  clear hn hd ns d ns' d'
  induction l with
  | nil => simpa using hasDerivAt_const t0 (0 : ℝ)
  | cons q l ih =>
    have h1 := hτ q (List.mem_cons_self ..)
    have h2 := hγ q (List.mem_cons_self ..)
    have h3 := ih (fun q hq => hτ q (List.mem_cons_of_mem _ hq)) fun q hq => hγ q (List.mem_cons_of_mem _ hq)
    simp only [List.map_cons, List.sum_cons]
    refine ((h1.fun_mul h2).fun_add h3).congr_deriv ?_
    ring

theorem outer_dot (n : Fin 3 → ℝ) (x : Fin 6 → ℝ) : symOfFull (vecMulVec n n) ⬝ᵥ x = normalStress x n := by
  have h := r2_sq
  simp only [symOfFull, normalStress, usym, mulVec, dotProduct, Fin.sum_univ_succ, vecMulVec_apply, Matrix.add_apply,
    Matrix.smul_apply, smul_eq_mul, transpose_apply, Lattice.half_eq]
  simp [div_r2]
  grind

theorem zip_dot {κ : Type} [Fintype κ] (l : List (Nat × Nat)) (A B : List ℝ) (hA : A.length = l.length)
    (hB : B.length = l.length) (F G : Nat × Nat → κ → ℝ) (x : κ → ℝ) :
    (List.zipWith (· + ·) (List.zipWith (fun a q => a • F q) A l) (List.zipWith (fun a q => a • G q) B l)).sum ⬝ᵥ x =
      (List.zipWith (· * ·) A (l.map fun q => F q ⬝ᵥ x)).sum + (List.zipWith (· * ·) B (l.map fun q => G q ⬝ᵥ x)).sum := by
  induction l generalizing A B with
  | nil =>
    simp
  | cons q l ih =>
    cases A with
    | nil => simp at hA
    | cons a A =>
      cases B with
      | nil => simp at hB
      | cons b B =>
        simp only [List.zipWith_cons_cons, List.map_cons, List.sum_cons, add_dotProduct, smul_dotProduct, smul_eq_mul]
        rw [ih A B (by simpa using hA) (by simpa using hB)]
        ring

theorem zip_sum {κ : Type} [Fintype κ] (l : List (Nat × Nat)) (B : List ℝ) (G : Nat × Nat → κ → ℝ) (y : κ → ℝ) :
    ∑ a, (List.zipWith (fun b (q : Nat × Nat) => b * G q a) B l).sum * y a =
      (List.zipWith (· * ·) B (l.map fun q => G q ⬝ᵥ y)).sum := by
  induction l generalizing B with
  | nil => simp
  | cons q l ih =>
    cases B with
    | nil => simp
    | cons b B =>
      simp only [List.zipWith_cons_cons, List.map_cons, List.sum_cons, add_mul, Finset.sum_add_distrib, ih B, dotProduct,
        Finset.mul_sum, mul_assoc]

/-- C108, damage rates: their derivatives are right wherever those of the slip rates are. -/
theorem C108_rates {N : Type} [DecidableEq N] [Fintype N] {m p : Nat} (c : Crys) (r : Rule N m) (pl : Planes p)
    (shear normal : Transform) {rule : PlaneRule} (hr : rule.Right) (s : Fin 6 → ℝ) (h : N ⊕ Fin p → ℝ)
    (hs : ∀ i, ∀ q ∈ pl.systems i, r.SlipRight c s (h ∘ Sum.inl) q.1 q.2) :
    (planar c r pl shear normal rule).RateRight s h := by
  intro x x' y y' t0 hx hy ex ey i
  have hyl : Moves (fun t => y t ∘ Sum.inl) (y' ∘ Sum.inl) t0 := fun a => hy (.inl a)
  obtain ⟨l1, l2, hd⟩ := hr (pl.systems i) (fun t q => c.shear q.1 q.2 (x t))
    (fun t q => r.slip c (x t) (y t ∘ Sum.inl) q.1 q.2) (fun q => c.shear q.1 q.2 x')
    (fun q => r.slipS c s (h ∘ Sum.inl) q.1 q.2 ⬝ᵥ x' + r.slipH c s (h ∘ Sum.inl) q.1 q.2 ⬝ᵥ (y' ∘ Sum.inl))
    (fun t => normalStress (x t) (pl.normal i)) (fun t => y t (.inr i)) (normalStress x' (pl.normal i)) (y' (.inr i)) t0
    (fun q _ => dot_deriv (c.M q.1 q.2) hx)
    (fun q hq => hs i q hq x x' _ _ t0 hx hyl ex (by simp only [ey]))
    (normalStress_moves (pl.normal i) hx) (hy (.inr i))
  refine hd.congr_deriv ?_
  simp only [ex, ey] at l1 l2 ⊢
  simp only [Pi.add_apply]
  have e1 : ((planar c r pl shear normal rule).rateS s h *ᵥ x') i =
      (planar c r pl shear normal rule).rateS s h i ⬝ᵥ x' := rfl
  have e2 : ((planar c r pl shear normal rule).rateH s h *ᵥ y') i =
      ∑ a, (planar c r pl shear normal rule).rateH s h i a * y' a := rfl
  rw [e1, e2, Fintype.sum_sum_type]
  simp only [planar, of_apply]
  rw [show ∀ f : Fin p → Fin 6 → ℝ, of f i = f i from fun f => rfl]
  beta_reduce
  rw [add_dotProduct, smul_dotProduct, outer_dot, zip_dot _ _ _ l1 l2, zip_sum (y := fun a => y' (.inl a))]
  have split : ∀ (B : List ℝ) (l : List (Nat × Nat)) (f g : Nat × Nat → ℝ),
      (List.zipWith (· * ·) B (l.map fun q => f q + g q)).sum =
        (List.zipWith (· * ·) B (l.map f)).sum + (List.zipWith (· * ·) B (l.map g)).sum := by
    intro B l f g
    induction l generalizing B with
    | nil => simp
    | cons q l ih =>
      cases B with
      | nil => simp
      | cons b B =>
        simp only [List.map_cons, List.zipWith_cons_cons, List.sum_cons, ih B]
        ring
  rw [split]
  have e3 : ∀ v : ℝ, ∑ a, (if i = a then v else 0) * y' (.inr a) = v * y' (.inr i) := by
    intro v
    simp [ite_mul]
  rw [e3]
  simp only [Crys.shear, smul_eq_mul]
  have e4 : (y' ∘ Sum.inl : N → ℝ) = fun a => y' (.inl a) := rfl
  rw [e4]
  ring

/-! ## The damaged crystal -/

section

variable {N D : Type}

theorem symComm_add_left (a b : Fin 6 → ℝ) (O : Fin 3 → ℝ) : symComm (a + b) O = symComm a O + symComm b O := by
  apply usym_inj
  rw [LargeDef.usym_add, usym_symComm, usym_symComm, usym_symComm, LargeDef.usym_add]
  noncomm_ring

theorem partialS_mulVec (k : DKin N D) (w : Fin 3 → ℝ) (s : Fin 6 → ℝ) (h : N ⊕ D → ℝ) (v : Fin 6 → ℝ) :
    k.partialS w s h *ᵥ v = -(k.P s h *ᵥ (k.C *ᵥ (k.inel.dpS (k.sp s h) (h ∘ Sum.inl) *ᵥ v)) +
      symComm v (w + k.inel.wp (k.sp s h) (h ∘ Sum.inl)) +
      symComm (k.sp s h) (k.inel.wpS (k.sp s h) (h ∘ Sum.inl) *ᵥ v)) := by
  simp only [DKin.partialS, neg_mulVec, add_mulVec, symSymSkew_mulVec, symSkewSym_mulVec, one_mulVec, mulVec_mulVec,
    Matrix.mul_assoc]

theorem stressRateS_eq (k : DKin N D) (w : Fin 3 → ℝ) (s d : Fin 6 → ℝ) (h : N ⊕ D → ℝ)
    (h0 : k.dmg.projS s (h ∘ Sum.inr) = 0) : k.stressRateS w s d h = k.partialS w s h * (k.P s h)⁻¹ := by
  have z : ∀ v, dotK 0 v = 0 := by
    intro v
    ext i j
    simp [dotK]
  simp only [DKin.stressRateS, DKin.partialS, h0, z, zero_sub]

theorem dstressRateH_mulVec [Fintype N] [Fintype D] (k : DKin N D) (w : Fin 3 → ℝ) (s d : Fin 6 → ℝ) (h y : N ⊕ D → ℝ) :
    k.stressRateH w s d h *ᵥ y =
      -(k.P s h *ᵥ (k.C *ᵥ (k.inel.dpH (k.sp s h) (h ∘ Sum.inl) *ᵥ (y ∘ Sum.inl)))) -
      symComm (k.sp s h) (k.inel.wpH (k.sp s h) (h ∘ Sum.inl) *ᵥ (y ∘ Sum.inl)) +
      (∑ a, y (.inr a) • k.dmg.projH s (h ∘ Sum.inr) a) *ᵥ
        (k.C *ᵥ (d - k.inel.dp (k.sp s h) (h ∘ Sum.inl))) -
      k.partialS w s h *ᵥ ((k.P s h)⁻¹ *ᵥ ((∑ a, y (.inr a) • k.dmg.projH s (h ∘ Sum.inr) a) *ᵥ k.sp s h)) := by
  have sv : ∀ v : Fin 6 → ℝ, (∑ a, y (.inr a) • k.dmg.projH s (h ∘ Sum.inr) a) *ᵥ v =
      ∑ a, y (.inr a) • (k.dmg.projH s (h ∘ Sum.inr) a *ᵥ v) := by
    intro v
    rw [sum_mulVec]
    simp only [smul_mulVec]
  rw [mulVec_cols, Fintype.sum_sum_type, sv, sv, mulVec_sum, mulVec_sum, mulVec_cols (k.inel.dpH _ _),
    mulVec_cols (k.inel.wpH _ _), symComm_sum, mulVec_sum, mulVec_sum]
  simp only [mulVec_smul, symComm_smul_right]
  have e1 : ∀ a : N, (fun i => k.stressRateH w s d h i (.inl a)) =
      -(k.P s h *ᵥ (k.C *ᵥ fun j => k.inel.dpH (k.sp s h) (h ∘ Sum.inl) j a)) -
        symComm (k.sp s h) fun j => k.inel.wpH (k.sp s h) (h ∘ Sum.inl) j a := by
    intro a
    funext i
    simp only [DKin.stressRateH, of_apply, neg_mulVec, mulVec_mulVec]
  have e2 : ∀ a : D, (fun i => k.stressRateH w s d h i (.inr a)) =
      k.dmg.projH s (h ∘ Sum.inr) a *ᵥ (k.C *ᵥ (d - k.inel.dp (k.sp s h) (h ∘ Sum.inl))) -
        k.partialS w s h *ᵥ ((k.P s h)⁻¹ *ᵥ (k.dmg.projH s (h ∘ Sum.inr) a *ᵥ k.sp s h)) := fun a => rfl
  simp only [e1, e2, smul_sub, smul_neg, Finset.sum_sub_distrib, Finset.sum_neg_distrib, Function.comp]
  abel

/-- Along a path of stresses and histories the stress of the material moves with the projection. -/
theorem sp_moves [Fintype D] (k : DKin N D) {s : Fin 6 → ℝ} {h : N ⊕ D → ℝ} (hP : k.dmg.ProjRight s (h ∘ Sum.inr))
    (h0 : k.dmg.projS s (h ∘ Sum.inr) = 0) (hdet : (k.P s h).det ≠ 0) {x : ℝ → Fin 6 → ℝ} {x' : Fin 6 → ℝ}
    {y : ℝ → N ⊕ D → ℝ} {y' : N ⊕ D → ℝ} {t0 : ℝ} (hx : Moves x x' t0) (hy : Moves y y' t0) (ex : x t0 = s)
    (ey : y t0 = h) :
    MMoves (fun t => k.P (x t) (y t)) (∑ a, y' (.inr a) • k.dmg.projH s (h ∘ Sum.inr) a) t0 ∧
    Moves (fun t => k.sp (x t) (y t)) ((k.P s h)⁻¹ *ᵥ x' -
      (k.P s h)⁻¹ *ᵥ ((∑ a, y' (.inr a) • k.dmg.projH s (h ∘ Sum.inr) a) *ᵥ k.sp s h)) t0 := by
  have hA : MMoves (fun t => k.P (x t) (y t)) (∑ a, y' (.inr a) • k.dmg.projH s (h ∘ Sum.inr) a) t0 := by
    have := hP x x' (fun t => y t ∘ Sum.inr) (y' ∘ Sum.inr) t0 hx (fun a => hy (.inr a)) ex (by simp only [ey])
    have z : dotK 0 x' = 0 := by
      ext i j
      simp [dotK]
    rw [h0, z, zero_add] at this
    exact this
  refine ⟨hA, ?_⟩
  have hI := hA.inv (by rw [ex, ey]; exact hdet)
  refine moves_congr (hI.mulVec hx) ?_
  rw [ex, ey, neg_mulVec, ← mulVec_mulVec, ← mulVec_mulVec, ← DKin.sp]
  abel

/-- The stress rate of the damaged crystal along a path. -/
theorem dstressRate_deriv [Fintype N] [Fintype D] (k : DKin N D) {s : Fin 6 → ℝ} {h : N ⊕ D → ℝ}
    (hP : k.dmg.ProjRight s (h ∘ Sum.inr)) (h0 : k.dmg.projS s (h ∘ Sum.inr) = 0) (hdet : (k.P s h).det ≠ 0)
    (hr : k.inel.Right (k.sp s h) (h ∘ Sum.inl)) {x : ℝ → Fin 6 → ℝ} {x' : Fin 6 → ℝ} {y : ℝ → N ⊕ D → ℝ}
    {y' : N ⊕ D → ℝ} {d : ℝ → Fin 6 → ℝ} {d' : Fin 6 → ℝ} {w : ℝ → Fin 3 → ℝ} {w' : Fin 3 → ℝ} {t0 : ℝ}
    (hx : Moves x x' t0) (hy : Moves y y' t0) (hd : Moves d d' t0) (hw : Moves w w' t0) (ex : x t0 = s) (ey : y t0 = h) :
    Moves (fun t => k.stressRate (w t) (x t) (d t) (y t))
      (k.stressRateS (w t0) s (d t0) h *ᵥ x' + k.stressRateH (w t0) s (d t0) h *ᵥ y' + k.stressRateD s h *ᵥ d' +
        k.stressRateW s h *ᵥ w') t0 := by
  obtain ⟨hA, hsp⟩ := sp_moves k hP h0 hdet hx hy ex ey
  obtain ⟨h1, -, h3⟩ := hr _ _ (fun t => y t ∘ Sum.inl) (y' ∘ Sum.inl) t0 hsp (fun a => hy (.inl a)) (by simp only [ex, ey])
    (by simp only [ey])
  have hC := Damage.Moves.mulVec k.C (moves_sub hd h1)
  have := moves_sub (hA.mulVec hC) (symComm_deriv hsp (moves_add hw h3))
  refine moves_congr this ?_
  simp only [ex, ey]
  rw [stressRateS_eq k _ s _ h h0, dstressRateH_mulVec, ← mulVec_mulVec, DKin.stressRateD, DKin.stressRateW, smul_mulVec,
    specialSymSym_mulVec, one_mulVec, partialS_mulVec, partialS_mulVec, ← mulVec_mulVec]
  set A' := ∑ a, y' (.inr a) • k.dmg.projH s (h ∘ Sum.inr) a
  set Pi := (k.P s h)⁻¹
  set sp := k.sp s h
  have e : ∀ u v : Fin 6 → ℝ, ∀ O, symComm (u - v) O = symComm u O - symComm v O := by
    intro u v O
    have := symComm_add_left (u - v) v O
    rw [sub_add_cancel] at this
    rw [this, add_sub_cancel_right]
  simp only [symComm_add_right, mulVec_sub, mulVec_add, e, smul_smul]
  have e2 : ∀ v : Fin 6 → ℝ, ((-2 : ℝ) * (1 / 2)) • v = -v := by
    intro v
    norm_num
  have e3 : ∀ u v : Fin 3 → ℝ, symComm sp (u - v) = symComm sp u - symComm sp v := by
    intro u v
    have := symComm_add_right sp (u - v) v
    rw [sub_add_cancel] at this
    rw [this, add_sub_cancel_right]
  simp only [e2, e3]
  abel

/-- C108, stress rate and history rates: along every path of stresses, histories, strain rates and spins, the rates of the
damaged crystal change as the reported derivatives say. -/
theorem C108_history [Fintype N] [Fintype D] (k : DKin N D) {s : Fin 6 → ℝ} {h : N ⊕ D → ℝ}
    (hP : k.dmg.ProjRight s (h ∘ Sum.inr)) (h0 : k.dmg.projS s (h ∘ Sum.inr) = 0) (hdet : (k.P s h).det ≠ 0)
    (hr : k.inel.Right (k.sp s h) (h ∘ Sum.inl)) (hR : k.dmg.RateRight (k.sp s h) h) {x : ℝ → Fin 6 → ℝ} {x' : Fin 6 → ℝ}
    {y : ℝ → N ⊕ D → ℝ} {y' : N ⊕ D → ℝ} {t0 : ℝ} (hx : Moves x x' t0) (hy : Moves y y' t0) (ex : x t0 = s) (ey : y t0 = h) :
    Moves (fun t => k.rate (x t) (y t)) (k.rateS s h *ᵥ x' + k.rateH s h *ᵥ y') t0 := by
  obtain ⟨-, hsp⟩ := sp_moves k hP h0 hdet hx hy ex ey
  obtain ⟨-, h2, -⟩ := hr _ _ (fun t => y t ∘ Sum.inl) (y' ∘ Sum.inl) t0 hsp (fun a => hy (.inl a))
    (by simp only [ex, ey]) (by simp only [ey])
  have h3 := hR _ _ y y' t0 hsp hy (by simp only [ex, ey]) ey
  set A' := ∑ a, y' (.inr a) • k.dmg.projH s (h ∘ Sum.inr) a with hA'
  have hcol : ∀ a, ∑ b : D, k.rateP s h a ⬝ᵥ ((k.P s h)⁻¹ *ᵥ (k.dmg.projH s (h ∘ Sum.inr) b *ᵥ k.sp s h)) * y' (.inr b) =
      k.rateP s h a ⬝ᵥ ((k.P s h)⁻¹ *ᵥ (A' *ᵥ k.sp s h)) := by
    intro a
    rw [hA', sum_mulVec, mulVec_sum, dotProduct_sum]
    refine Finset.sum_congr rfl fun b _ => ?_
    rw [smul_mulVec, mulVec_smul, dotProduct_smul, smul_eq_mul, mul_comm]
  have hS : ∀ a, (k.rateS s h *ᵥ x') a = k.rateP s h a ⬝ᵥ ((k.P s h)⁻¹ *ᵥ x') := by
    intro a
    rw [DKin.rateS, ← mulVec_mulVec]
    rfl
  have hH : ∀ a, (k.rateH s h *ᵥ y') a = ∑ b, k.rateH s h a b * y' b := fun a => rfl
  intro a
  rw [Pi.add_apply, hS, hH, Fintype.sum_sum_type]
  cases a with
  | inl a =>
    refine (h2 a).congr_deriv ?_
    simp only [DKin.rateH, of_apply, zero_sub, neg_mul, Finset.sum_neg_distrib]
    rw [hcol, Pi.add_apply, mulVec_sub, Pi.sub_apply]
    have e1 : k.rateP s h (.inl a) = k.inel.rateS (k.sp s h) (h ∘ Sum.inl) a := rfl
    rw [e1]
    simp only [mulVec, dotProduct, Function.comp]
    ring
  | inr a =>
    refine (h3 a).congr_deriv ?_
    simp only [DKin.rateH, of_apply, sub_mul, Finset.sum_sub_distrib]
    rw [hcol, Pi.add_apply, mulVec_sub, Pi.sub_apply]
    have e1 : k.rateP s h (.inr a) = k.dmg.rateS (k.sp s h) h a := rfl
    have e2 : (k.dmg.rateH (k.sp s h) h *ᵥ y') a = ∑ b, k.dmg.rateH (k.sp s h) h a b * y' b := rfl
    rw [e1, e2, Fintype.sum_sum_type]
    simp only [mulVec, dotProduct]
    ring

/-- C108, Jacobian: the matrix handed to the solver for a substep of the damaged crystal is the derivative of its
residual, where the derivatives of its parts are right, the projection can be inverted and its reported derivative by
stress is zero. -/
theorem C108_jacobian [Fintype N] [Fintype D] [DecidableEq N] [DecidableEq D] (k : DKin N D) (st : Step (N ⊕ D))
    {s : Fin 6 → ℝ} {h : N ⊕ D → ℝ} (hP : k.dmg.ProjRight s (h ∘ Sum.inr)) (h0 : k.dmg.projS s (h ∘ Sum.inr) = 0)
    (hdet : (k.P s h).det ≠ 0) (hr : k.inel.Right (k.sp s h) (h ∘ Sum.inl)) (hR : k.dmg.RateRight (k.sp s h) h)
    (x : ℝ → Fin 6 → ℝ) (x' : Fin 6 → ℝ) (y : ℝ → N ⊕ D → ℝ) (y' : N ⊕ D → ℝ) (t0 : ℝ) (hx : Moves x x' t0)
    (hy : Moves y y' t0) (ex : x t0 = s) (ey : y t0 = h) :
    Moves (fun t => dresS k st (x t) (y t)) (dJ11 k st s h *ᵥ x' + dJ12 k st s h *ᵥ y') t0 ∧
    Moves (fun t => dresH k st (x t) (y t)) (dJ21 k st s h *ᵥ x' + dJ22 k st s h *ᵥ y') t0 := by
  constructor
  · have := moves_sub (moves_sub hx (moves_const st.Sn t0)) (moves_smul st.dt
      (dstressRate_deriv k hP h0 hdet hr hx hy (moves_const st.d t0) (moves_const st.espin t0) ex ey))
    refine moves_congr this ?_
    simp only [dJ11, dJ12, add_mulVec, neg_mulVec, smul_mulVec, one_mulVec, mulVec_zero, add_zero, sub_zero, smul_add]
    abel
  · have h2 := C108_history k hP h0 hdet hr hR hx hy ex ey
    intro a
    refine (((hy a).sub_const (st.hn a)).fun_sub ((h2 a).mul_const st.dt)).congr_deriv ?_
    simp only [dJ21, dJ22, add_mulVec, neg_mulVec, smul_mulVec, one_mulVec, Pi.add_apply, Pi.neg_apply,
      Pi.smul_apply, smul_eq_mul]
    ring

end

end Neml.CrystalDamage
