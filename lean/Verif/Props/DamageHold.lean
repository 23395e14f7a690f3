import Verif.Model.DamageStep
import Verif.Props.Damage
import Verif.Props.CreepRelax
import Mathlib.Analysis.MeanInequalities
import Mathlib.Analysis.Convex.Deriv

/-!
# C194: damage under a held load

A damaged model at a fixed strain whose base keeps its stress. Specification: the damage obeys `ω' = c (1 − ω)^(−φ)`,
so `(1 − ω)^(φ+1)` falls at the rate `(φ + 1) c` and reaches zero at the end of the life. The implicit step replaces
it by `ω₁ = ω₀ + c Δt (1 − ω₁)^(−φ)`.
-/

namespace Neml.DamageStep

open Matrix Neml.Mandel Neml.SolveStep Neml.SmallStrain Neml.Damage

/-! ## The scalar equation -/

/-- The new damage as a function of itself: it rises, and the faster it rises the more of it there is. -/
structure Accelerating (D D' : ℝ → ℝ) : Prop where
  deriv : ∀ w, w < 1 → HasDerivAt D (D' w) w
  nonneg : ∀ w, w < 1 → 0 ≤ D' w
  mono : ∀ v w, v ≤ w → w < 1 → D' v ≤ D' w
  chord : ∀ x y z, x ≤ y → y ≤ z → z < 1 → D' y * (z - x) ≤ (z - y) * D' x + (y - x) * D' z

/-- `r` is the smallest solution of `w = D w` from `w₀` on. -/
structure Least (D : ℝ → ℝ) (w0 r : ℝ) : Prop where
  le : w0 ≤ r
  lt_one : r < 1
  root : D r = r
  below : ∀ w, w0 ≤ w → w < r → w < D w

section scalar

variable {D D' : ℝ → ℝ} {w0 r v w : ℝ}

theorem Accelerating.slope (h : Accelerating D D') (hvw : v < w) (hw : w < 1) :
    ∃ c, v < c ∧ c < w ∧ D w = D v + D' c * (w - v) := by
  obtain ⟨c, hc, he⟩ := exists_hasDerivAt_eq_slope D D' hvw
    (fun x hx => (h.deriv x (hx.2.trans_lt hw)).continuousAt.continuousWithinAt)
    (fun x hx => h.deriv x (hx.2.trans hw))
  refine ⟨c, hc.1, hc.2, ?_⟩
  rw [he, div_mul_cancel₀ _ (sub_ne_zero.mpr hvw.ne')]
  ring

theorem Accelerating.tangent (h : Accelerating D D') (hvw : v ≤ w) (hw : w < 1) :
    D v + D' v * (w - v) ≤ D w := by
  rcases hvw.eq_or_lt with rfl | hlt
  · simp
  · obtain ⟨c, h1, h2, h3⟩ := h.slope hlt hw
    rw [h3]
    have := mul_le_mul_of_nonneg_right (h.mono v c h1.le (h2.trans hw)) (sub_nonneg.mpr hvw)
    linarith

theorem Accelerating.rises (h : Accelerating D D') (hvw : v ≤ w) (hw : w < 1) : D v ≤ D w := by
  have h1 := h.tangent hvw hw
  have h2 := mul_nonneg (h.nonneg v (hvw.trans_lt hw)) (sub_nonneg.mpr hvw)
  linarith

/-- Newton's iterates. -/
noncomputable def climb (D D' : ℝ → ℝ) (w0 : ℝ) : ℕ → ℝ
  | 0 => w0
  | k + 1 => climb D D' w0 k - (climb D D' w0 k - D (climb D D' w0 k)) / (1 - D' (climb D D' w0 k))

theorem Least.slope_lt (h : Accelerating D D') (hr : Least D w0 r) (h1 : w0 ≤ w) (h2 : w < r) : D' w < 1 := by
  have h3 := h.tangent h2.le hr.lt_one
  rw [hr.root] at h3
  have h4 := hr.below w h1 h2
  by_contra hc
  have := mul_le_mul_of_nonneg_right (not_lt.mp hc) (sub_nonneg.mpr h2.le)
  linarith

/-- One iteration: it stays below the solution, on the same side, and at least halves the residual. -/
theorem newton_halves (h : Accelerating D D') (hr : Least D w0 r) (h1 : w0 ≤ w) (h2 : w ≤ r) :
    let z := w - (w - D w) / (1 - D' w)
    w ≤ z ∧ z ≤ r ∧ D z - z ≤ (D w - w) / 2 := by
  intro z
  rcases h2.eq_or_lt with rfl | h2
  · have : z = w := by simp only [z, hr.root, sub_self, zero_div, sub_zero]
    rw [this, hr.root]; simp
  have hs : 0 < 1 - D' w := sub_pos.mpr (hr.slope_lt h h1 h2)
  have hb := hr.below w h1 h2
  have hz : (z - w) * (1 - D' w) = D w - w := by simp only [z]; field_simp; ring
  have hwz : w < z := by
    by_contra hc
    have := mul_nonpos_of_nonpos_of_nonneg (sub_nonpos.mpr (not_lt.mp hc)) hs.le
    linarith
  have hzr : z ≤ r := by
    have h3 := h.tangent h2.le hr.lt_one
    rw [hr.root] at h3
    have : (z - w) * (1 - D' w) ≤ (r - w) * (1 - D' w) := by linarith
    linarith [le_of_mul_le_mul_right this hs]
  refine ⟨hwz.le, hzr, ?_⟩
  rcases hzr.eq_or_lt with e | hlt
  · rw [e, hr.root]; linarith
  have hz1 := hzr.trans_lt hr.lt_one
  have hsz := hr.slope_lt h (h1.trans hwz.le) hlt
  have hd : ∀ y, y < 1 → HasDerivAt (fun y => D y - y - (1 - D' w) * (z - y) ^ 2 / (2 * (z - w)))
      (D' y - 1 + (1 - D' w) * (z - y) / (z - w)) y := by
    intro y hy
    have e1 := (h.deriv y hy).sub (hasDerivAt_id y)
    have e2 := ((((hasDerivAt_id y).const_sub z).fun_pow 2).const_mul (1 - D' w)).div_const (2 * (z - w))
    refine (e1.sub e2).congr_deriv ?_
    have : z - w ≠ 0 := (sub_pos.mpr hwz).ne'
    simp only [id]
    field_simp
    ring
  obtain ⟨c, hc, he⟩ := exists_hasDerivAt_eq_slope _ _ hwz
    (fun y hy => (hd y (hy.2.trans_lt hz1)).continuousAt.continuousWithinAt)
    (fun y hy => hd y (hy.2.trans hz1))
  have hzw := sub_pos.mpr hwz
  have hneg : D' c - 1 + (1 - D' w) * (z - c) / (z - w) ≤ 0 := by
    have h3 := h.chord w c z hc.1.le hc.2.le hz1
    have h4 : (c - w) * D' z ≤ (c - w) * 1 := mul_le_mul_of_nonneg_left hsz.le (sub_nonneg.mpr hc.1.le)
    have h5 : D' c - 1 + (1 - D' w) * (z - c) / (z - w) =
        (D' c * (z - w) - (z - w) + (1 - D' w) * (z - c)) / (z - w) := by field_simp
    rw [h5]
    refine div_nonpos_of_nonpos_of_nonneg ?_ hzw.le
    linarith
  rw [he, div_le_iff₀ hzw, zero_mul] at hneg
  have h6 : (1 - D' w) * (z - w) ^ 2 / (2 * (z - w)) = (D w - w) / 2 := by
    rw [← hz]; field_simp
  simp only [sub_self, ne_eq, OfNat.ofNat_ne_zero, not_false_eq_true, zero_pow, mul_zero, zero_div, sub_zero, h6] at hneg
  linarith

theorem climb_spec (h : Accelerating D D') (hr : Least D w0 r) (k : ℕ) :
    w0 ≤ climb D D' w0 k ∧ climb D D' w0 k ≤ r ∧ 0 ≤ D (climb D D' w0 k) - climb D D' w0 k ∧
      D (climb D D' w0 k) - climb D D' w0 k ≤ (D w0 - w0) / 2 ^ k ∧
      D (climb D D' w0 (k + 1)) - climb D D' w0 (k + 1) ≤ (D (climb D D' w0 k) - climb D D' w0 k) / 2 := by
  have hpos : ∀ w, w0 ≤ w → w ≤ r → 0 ≤ D w - w := fun w h1 h2 => by
    rcases h2.eq_or_lt with rfl | h2
    · rw [hr.root, sub_self]
    · linarith [hr.below w h1 h2]
  induction k with
  | zero =>
    refine ⟨le_rfl, hr.le, hpos _ le_rfl hr.le, by simp [climb], ?_⟩
    exact (newton_halves h hr le_rfl hr.le).2.2
  | succ k ih =>
    obtain ⟨i1, i2, i3, i4, i5⟩ := ih
    obtain ⟨j1, j2, j3⟩ := newton_halves h hr i1 i2
    have e : climb D D' w0 (k + 1) =
      climb D D' w0 k - (climb D D' w0 k - D (climb D D' w0 k)) / (1 - D' (climb D D' w0 k)) := rfl
    rw [← e] at j1 j2 j3
    refine ⟨i1.trans j1, j2, hpos _ (i1.trans j1) j2, ?_, ?_⟩
    · rw [pow_succ, ← div_div]
      exact j3.trans (div_le_div_of_nonneg_right i4 two_pos.le)
    · exact (newton_halves h hr (i1.trans j1) j2).2.2

/-- A smallest solution exists as soon as the damage does not exceed its argument somewhere. -/
theorem least_exists (h : Accelerating D D') (h0 : w0 ≤ D w0) (hv : w0 ≤ v) (hv1 : v < 1) (hD : D v ≤ v) :
    ∃ r, Least D w0 r ∧ r ≤ v := by
  have hc : ContinuousOn (fun w => D w - w) (Set.Icc w0 v) := fun x hx =>
    ((h.deriv x (hx.2.trans_lt hv1)).continuousAt.sub continuousAt_id).continuousWithinAt
  have hcl : IsCompact (Set.Icc w0 v ∩ (fun w => D w - w) ⁻¹' Set.Iic 0) :=
    isCompact_Icc.of_isClosed_subset (hc.preimage_isClosed_of_isClosed isClosed_Icc isClosed_Iic) Set.inter_subset_left
  obtain ⟨r, hr, hmin⟩ := hcl.exists_isLeast ⟨v, ⟨hv, le_rfl⟩, by simpa using hD⟩
  have hr0 : D r - r ≤ 0 := hr.2
  have hbel : ∀ w, w0 ≤ w → w < r → w < D w := fun w h1 h2 => by
    by_contra hcon
    have := hmin ⟨⟨h1, h2.le.trans hr.1.2⟩, show D w - w ≤ 0 by linarith⟩
    linarith
  refine ⟨r, ⟨hr.1.1, hr.1.2.trans_lt hv1, le_antisymm (by linarith) ?_, hbel⟩, hr.1.2⟩
  rcases hr.1.1.eq_or_lt with e | hlt
  · rw [← e]; exact h0
  · by_contra hcon
    have hgap : 0 < r - D r := by linarith
    set w := max w0 (r - (r - D r) / 2) with hw
    have hwr : w < r := max_lt hlt (by linarith)
    have h1 := hbel w (le_max_left _ _) hwr
    have h2 := h.rises hwr.le (hr.1.2.trans_lt hv1)
    have h3 : r - (r - D r) / 2 ≤ w := le_max_right _ _
    linarith

end scalar

/-! ## The solver -/

section solver

variable {H : Type} {base : Model ℝ (Fin 6) H} {dm : Rule (Fin 6)}
variable {lin : Matrix (Fin 7) (Fin 7) ℝ → (Fin 7 → ℝ) → Option (Fin 7 → ℝ)} {p : Newton.Params} {fuel : ℕ}
variable {e1 e0 s0 : Fin 6 → ℝ} {w0 : ℝ} {h0 : H} {u0 p0 : ℝ} {up : Update ℝ (Fin 6) H}

/-- Unknowns whose stress is the undamaged stress `σ` times `1 − w`. -/
def point (σ : Fin 6 → ℝ) (w : ℝ) : Fin 6 ⊕ Unit → ℝ := Sum.elim (fun i => (1 - w) * σ i) fun _ => w

theorem effective_point {σ : Fin 6 → ℝ} {w : ℝ} (hw : w ≠ 1) :
    effective w (fun i => (1 - w) * σ i) = σ := by
  have : 1 - w ≠ 0 := sub_ne_zero.mpr hw.symm
  ext i
  simp only [effective]
  field_simp

/-- The residual of damage.cxx:175-230 after the base update. -/
noncomputable def resid (dm : Rule (Fin 6)) (e1 e0 s0 : Fin 6 → ℝ) (w0 : ℝ) (σ : Fin 6 → ℝ) (x : Fin 6 ⊕ Unit → ℝ) :
    Fin 6 ⊕ Unit → ℝ :=
  Sum.elim (fun i => x (Sum.inl i) - (1 - x (Sum.inr ())) * σ i) fun _ => x (Sum.inr ()) -
    dm.damage (x (Sum.inr ())) w0 e1 e0 (effective (x (Sum.inr ())) fun i => x (Sum.inl i)) (effective w0 s0)

/-- Its Jacobian. -/
noncomputable def jac (dm : Rule (Fin 6)) (e1 e0 s0 : Fin 6 → ℝ) (w0 : ℝ) (σ : Fin 6 → ℝ) (x : Fin 6 ⊕ Unit → ℝ) :
    Matrix (Fin 6 ⊕ Unit) (Fin 6 ⊕ Unit) ℝ :=
  fromBlocks 1 (of fun i _ => σ i)
    (of fun _ j => -dm.ds (x (Sum.inr ())) w0 e1 e0 (effective (x (Sum.inr ())) fun i => x (Sum.inl i))
      (effective w0 s0) j / (1 - x (Sum.inr ())))
    (of fun _ _ => 1 - dm.dd (x (Sum.inr ())) w0 e1 e0 (effective (x (Sum.inr ())) fun i => x (Sum.inl i))
        (effective w0 s0) -
      dm.ds (x (Sum.inr ())) w0 e1 e0 (effective (x (Sum.inr ())) fun i => x (Sum.inl i)) (effective w0 s0) ⬝ᵥ
        (fun i => x (Sum.inl i)) / (1 - x (Sum.inr ())) ^ 2)

theorem damSolve_eq (hb : base e1 e0 (effective w0 s0) h0 u0 p0 = some up) :
    damSolve base dm lin p fuel e1 e0 s0 w0 h0 u0 p0 =
      (solveWith ppIndex (initX dm s0 w0) (resid dm e1 e0 s0 w0 up.s) (jac dm e1 e0 s0 w0 up.s) lin p fuel).map
        Prod.fst := by
  have hs : damSystem base dm e1 e0 s0 w0 h0 u0 p0 =
      system ppIndex (initX dm s0 w0) (resid dm e1 e0 s0 w0 up.s) (jac dm e1 e0 s0 w0 up.s) := by
    unfold damSystem system
    congr 1
    funext x
    simp only [damRJ, hb, Option.map_some]
    rfl
  unfold damSolve solveWith
  rw [hs]
  rcases Newton.newton (system ppIndex (initX dm s0 w0) (resid dm e1 e0 s0 w0 up.s) (jac dm e1 e0 s0 w0 up.s)) lin p
    fuel with _ | (_ | _) <;> rfl

theorem resid_point {σ : Fin 6 → ℝ} {w : ℝ} (hw : w ≠ 1) :
    resid dm e1 e0 s0 w0 σ (point σ w) = Sum.elim (0 : Fin 6 → ℝ) fun _ => w - dm.damage w w0 e1 e0 σ (effective w0 s0) := by
  ext (i | i)
  · simp [resid, point]
  · simp only [resid, point, Sum.elim_inr, Sum.elim_inl]
    rw [effective_point hw]

theorem jac_point_det {σ : Fin 6 → ℝ} {w : ℝ} (hw : w ≠ 1) :
    (jac dm e1 e0 s0 w0 σ (point σ w)).det = 1 - dm.dd w w0 e1 e0 σ (effective w0 s0) := by
  have h1 : 1 - w ≠ 0 := sub_ne_zero.mpr hw.symm
  simp only [jac, point, Sum.elim_inr, Sum.elim_inl]
  rw [effective_point hw, det_fromBlocks_one₁₁, det_unique]
  simp only [Matrix.sub_apply, of_apply, Matrix.mul_apply, dotProduct]
  have e : ∀ f g : Fin 6 → ℝ, (∑ i, f i * ((1 - w) * g i)) / (1 - w) ^ 2 = ∑ i, f i * g i / (1 - w) := by
    intro f g
    rw [Finset.sum_div]
    refine Finset.sum_congr rfl fun i _ => ?_
    field_simp
  rw [e]
  have e2 : ∀ f g : Fin 6 → ℝ, ∑ i, -f i / (1 - w) * g i = -∑ i, f i * g i / (1 - w) := by
    intro f g
    rw [← Finset.sum_neg_distrib]
    refine Finset.sum_congr rfl fun i _ => ?_
    ring
  rw [e2]
  ring

theorem jac_point_step {σ : Fin 6 → ℝ} {w v : ℝ} (hw : w ≠ 1) :
    jac dm e1 e0 s0 w0 σ (point σ w) *ᵥ (point σ w - point σ v) =
      Sum.elim (0 : Fin 6 → ℝ) fun _ => (1 - dm.dd w w0 e1 e0 σ (effective w0 s0)) * (w - v) := by
  have h1 : 1 - w ≠ 0 := sub_ne_zero.mpr hw.symm
  have hsplit : point σ w - point σ v = Sum.elim (fun i => (v - w) * σ i) fun _ => w - v := by
    ext (i | i)
    · simp only [point, Pi.sub_apply, Sum.elim_inl]; ring
    · simp [point]
  simp only [jac]
  rw [hsplit, fromBlocks_mulVec]
  simp only [point, Sum.elim_inr, Sum.elim_inl]
  rw [effective_point hw]
  ext (i | i)
  · simp only [Sum.elim_inl, one_mulVec, Pi.add_apply, Function.comp_apply, mulVec, dotProduct, of_apply,
      Finset.univ_unique, Finset.sum_const, Finset.card_singleton, one_smul, Sum.elim_inr, Pi.zero_apply]
    ring
  · simp only [Sum.elim_inr, Pi.add_apply, Function.comp_apply, mulVec, dotProduct, of_apply,
      Finset.univ_unique, Finset.sum_const, Finset.card_singleton, one_smul, Sum.elim_inl]
    have e : ∀ f g : Fin 6 → ℝ, (∑ i, f i * ((1 - w) * g i)) / (1 - w) ^ 2 = ∑ i, f i * g i / (1 - w) := by
      intro f g
      rw [Finset.sum_div]
      refine Finset.sum_congr rfl fun i _ => ?_
      field_simp
    rw [e]
    have e2 : ∀ f g : Fin 6 → ℝ, ∑ i, -f i / (1 - w) * ((v - w) * g i) = (w - v) * ∑ i, f i * g i / (1 - w) := by
      intro f g
      rw [Finset.mul_sum]
      refine Finset.sum_congr rfl fun i _ => ?_
      ring
    rw [e2]
    ring

theorem norm_point {x : ℝ} : √(∑ a, (Sum.elim (0 : Fin 6 → ℝ) fun _ : Unit => x) a *
    (Sum.elim (0 : Fin 6 → ℝ) fun _ : Unit => x) a) = |x| := by
  rw [Fintype.sum_sum_type]
  simp [Real.sqrt_mul_self_eq_abs]

/-- **C194** the solver of a step during a hold: if the implicit equation for the damage has a solution `r`, the
smallest from the old damage on, the solver returns a damage between the old one and `r`, at `r` up to the tolerances,
and the stress that goes with it. The residual is halved at least by each iteration, whatever the material. -/
theorem C194_solves (ha : 0 < p.atol) (hl : ExactSolve lin)
    (hb : base e1 e0 (effective w0 s0) h0 u0 p0 = some up) (hs0 : s0 = fun i => (1 - w0) * up.s i)
    (hi : dm.init = 0) {D' : ℝ → ℝ}
    (hacc : Accelerating (fun w => dm.damage w w0 e1 e0 up.s up.s) D')
    (hD' : ∀ w, dm.dd w w0 e1 e0 up.s up.s = D' w) {r : ℝ}
    (hr : Least (fun w => dm.damage w w0 e1 e0 up.s up.s) w0 r) {k : ℕ} (hk : (r - w0) / 2 ^ k < p.atol)
    (hm : (k : ℤ) < p.miter) (hf : k < fuel) :
    ∃ w, damSolve base dm lin p fuel e1 e0 s0 w0 h0 u0 p0 = some (point up.s w) ∧ w0 ≤ w ∧ w ≤ r ∧
      0 ≤ dm.damage w w0 e1 e0 up.s up.s - w ∧
      dm.damage w w0 e1 e0 up.s up.s - w < max p.atol (p.rtol * (r - w0)) := by
  have hw01 : w0 < 1 := hr.le.trans_lt hr.lt_one
  have hsn : effective w0 s0 = up.s := by rw [hs0]; exact effective_point hw01.ne
  have hsp := fun k => climb_spec hacc hr k
  have hsl : ∀ w, w0 ≤ w → w < r → D' w < 1 := fun w h1 h2 => hr.slope_lt hacc h1 h2
  have hD0 : dm.damage w0 w0 e1 e0 up.s up.s ≤ r := by
    have := hacc.rises hr.le hr.lt_one
    rwa [hr.root] at this
  set D := fun w => dm.damage w w0 e1 e0 up.s up.s with hDdef
  have hXs : ∀ k, climb D D' w0 (k + 1) =
    climb D D' w0 k - (climb D D' w0 k - D (climb D D' w0 k)) / (1 - D' (climb D D' w0 k)) := fun k => rfl
  have hX0 : climb D D' w0 0 = w0 := rfl
  generalize climb D D' w0 = X at hsp hXs hX0
  have hX1 : ∀ k, X k ≠ 1 := fun k => ((hsp k).2.1.trans_lt hr.lt_one).ne
  have hR : ∀ k, resid dm e1 e0 s0 w0 up.s (point up.s (X k)) = Sum.elim (0 : Fin 6 → ℝ) fun _ => X k - D (X k) := fun k => by
    rw [resid_point (hX1 k), hsn]
  have hN : ∀ k, √(∑ a, resid dm e1 e0 s0 w0 up.s (point up.s (X k)) a * resid dm e1 e0 s0 w0 up.s (point up.s (X k)) a) =
      D (X k) - X k := fun k => by
    rw [hR, norm_point, abs_sub_comm, abs_of_nonneg (hsp k).2.2.1]
  have hinit : initX dm s0 w0 = point up.s (X 0) := by
    rw [hX0, hs0]
    ext (i | i)
    · rfl
    · simp only [initX, point, Sum.elim_inr]
      split_ifs with h
      · rw [hi, h]
      · rfl
  classical
  obtain ⟨cv, hcv⟩ : ∃ cv : ℕ → Prop, cv = fun j => D (X j) - X j < p.atol ∨
      (D (X 0) - X 0 ≠ 0 ∧ (D (X j) - X j) / (D (X 0) - X 0) < p.rtol) := ⟨_, rfl⟩
  have hck : cv k := by
    rw [hcv]
    refine Or.inl (lt_of_le_of_lt ((hsp k).2.2.2.1.trans ?_) hk)
    exact div_le_div_of_nonneg_right (by linarith) (by positivity)
  have hex : ∃ j, cv j := ⟨k, hck⟩
  obtain ⟨M, hM1, hM2, hM3⟩ : ∃ M, cv M ∧ M ≤ k ∧ ∀ j < M, ¬ cv j :=
    ⟨Nat.find hex, Nat.find_spec hex, Nat.find_min' hex hck, fun j hj => Nat.find_min hex hj⟩
  have hpos : ∀ j < M, 0 < D (X j) - X j := fun j hj => by
    have h1 := hM3 j hj
    rw [hcv] at h1
    exact ha.trans_le (not_lt.mp fun h => h1 (Or.inl h))
  have hlt : ∀ j < M, X j < r := fun j hj => by
    rcases (hsp j).2.1.eq_or_lt with h | h
    · have := hpos j hj
      rw [h, hr.root, sub_self] at this
      exact absurd this (lt_irrefl _)
    · exact h
  have hj1 : ∀ j < M, 0 < 1 - D' (X j) := fun j hj => sub_pos.mpr (hsl _ (hsp j).1 (hlt j hj))
  obtain ⟨j, hj, hcj, hnw⟩ := solveWith_chain ppIndex (fun k => point up.s (X k)) (resid dm e1 e0 s0 w0 up.s)
    (jac dm e1 e0 s0 w0 up.s) hl p fuel M
    (fun j hj => by
      show (jac dm e1 e0 s0 w0 up.s (point up.s (X j))).det ≠ 0
      rw [jac_point_det (hX1 j), hsn, hD']
      exact (hj1 j hj).ne')
    (fun j hj => by
      show jac dm e1 e0 s0 w0 up.s (point up.s (X j)) *ᵥ (point up.s (X j) - point up.s (X (j + 1))) =
        resid dm e1 e0 s0 w0 up.s (point up.s (X j))
      rw [jac_point_step (hX1 j), hR, hsn, hD', hXs j]
      have := (hj1 j hj).ne'
      congr 1
      funext _
      field_simp
      ring)
    (fun j hj => by
      simp only [hN]
      have := (hsp j).2.2.2.2
      have := hpos j hj
      linarith)
    (by simp only [hN]; rw [hcv] at hM1; exact hM1) (by omega) (by omega)
  refine ⟨X j, ?_, (hsp j).1, (hsp j).2.1, (hsp j).2.2.1, ?_⟩
  · rw [damSolve_eq hb, hinit]

    rw [hnw]
    rfl
  · simp only [hN] at hcj
    rcases hcj with h | ⟨hne, h⟩
    · exact lt_max_of_lt_left h
    · refine lt_max_of_lt_right ?_
      have h2 : 0 < D (X 0) - X 0 := lt_of_le_of_ne (hsp 0).2.2.1 hne.symm
      rw [div_lt_iff₀ h2] at h
      have h3 : D (X 0) - X 0 ≤ r - w0 := by rw [hX0]; linarith
      have h4 : 0 ≤ p.rtol := by
        by_contra hc
        have := mul_neg_of_neg_of_pos (not_le.mp hc) h2
        linarith [(hsp j).2.2.1]
      exact h.trans_le (mul_le_mul_of_nonneg_left h3 h4)

end solver

/-! ## Kachanov's law -/

section law

theorem pow_chord {b : ℝ} (hb : b ≤ 0) {x y z : ℝ} (h1 : x ≤ y) (h2 : y ≤ z) (h3 : z < 1) :
    (1 - y) ^ b * (z - x) ≤ (z - y) * (1 - x) ^ b + (y - x) * (1 - z) ^ b := by
  have hd : ∀ w : ℝ, w < 1 → HasDerivAt (fun w : ℝ => (1 - w) ^ b) (-b * (1 - w) ^ (b - 1)) w := fun w hw => by
    have := ((hasDerivAt_id w).const_sub 1).rpow_const (p := b) (Or.inl (sub_pos.mpr hw).ne')
    refine this.congr_deriv ?_
    simp only [id]; ring
  have hc : ConvexOn ℝ (Set.Iio (1 : ℝ)) fun w => (1 - w) ^ b := by
    refine MonotoneOn.convexOn_of_deriv (convex_Iio 1)
      (fun w hw => (hd w hw).continuousAt.continuousWithinAt) ?_ ?_
    · rw [interior_Iio]
      exact fun w hw => (hd w hw).differentiableAt.differentiableWithinAt
    · rw [interior_Iio]
      intro v hv w hw hvw
      have hv' : v < 1 := hv
      have hw' : w < 1 := hw
      rw [(hd v hv).deriv, (hd w hw).deriv]
      exact mul_le_mul_of_nonneg_left
        (Real.rpow_le_rpow_of_nonpos (sub_pos.mpr hw') (by linarith) (by linarith)) (by linarith)
  rcases (h1.trans h2).eq_or_lt with e | hlt
  · obtain rfl : x = y := le_antisymm h1 (e ▸ h2)
    obtain rfl : x = z := e
    simp
  · have hzx := sub_pos.mpr hlt
    have := hc.2 (show x ∈ Set.Iio 1 from hlt.trans h3) (show z ∈ Set.Iio 1 from h3)
      (div_nonneg (sub_nonneg.mpr h2) hzx.le) (div_nonneg (sub_nonneg.mpr h1) hzx.le) (by field_simp; ring)
    have e : ((z - y) / (z - x)) • x + ((y - x) / (z - x)) • z = y := by
      simp only [smul_eq_mul]; field_simp; ring
    rw [e] at this
    have h4 := mul_le_mul_of_nonneg_right this hzx.le
    refine h4.trans (le_of_eq ?_)
    simp only [smul_eq_mul]
    field_simp

theorem accelerating_power {c dt a w0 : ℝ} (hc : 0 ≤ c) (hdt : 0 ≤ dt) (ha : a ≤ 0) :
    Accelerating (fun w => c * (1 - w) ^ a * dt + w0) (fun w => c * (-a) * (1 - w) ^ (a - 1) * dt) where
  deriv w hw := by
    have := ((((hasDerivAt_id w).const_sub 1).rpow_const (p := a) (Or.inl (sub_pos.mpr hw).ne')).const_mul c
      |>.mul_const dt).add_const w0
    refine this.congr_deriv ?_
    simp only [id]; ring
  nonneg w hw := by
    have := Real.rpow_pos_of_pos (sub_pos.mpr hw) (a - 1)
    have : 0 ≤ -a := by linarith
    positivity
  mono v w hvw hw := by
    have := Real.rpow_le_rpow_of_nonpos (sub_pos.mpr hw) (show 1 - w ≤ 1 - v by linarith) (show a - 1 ≤ 0 by linarith)
    have ha' : 0 ≤ -a := by linarith
    exact mul_le_mul_of_nonneg_right (mul_le_mul_of_nonneg_left this (by positivity)) hdt
  chord x y z h1 h2 h3 := by
    have := mul_le_mul_of_nonneg_left (pow_chord (b := a - 1) (by linarith) h1 h2 h3)
      (show 0 ≤ c * (-a) * dt by have : 0 ≤ -a := by linarith
                                 positivity)
    linarith

/-- **C194** the law: any damage that grows at the rate `c (1 − ω)^(−φ)` has `(1 − ω)^(φ+1)` falling at the constant
rate `(φ + 1) c`, so the life from `w₀` is `(1 − w₀)^(φ+1) / ((φ + 1) c)`. -/
theorem C194_law {c φ t0 t1 : ℝ} (h01 : t0 ≤ t1) (y : ℝ → ℝ) (hy1 : ∀ t ∈ Set.Icc t0 t1, y t < 1)
    (hy : ∀ t ∈ Set.Icc t0 t1, HasDerivAt y (c * (1 - y t) ^ (-φ)) t) :
    (1 - y t1) ^ (φ + 1) = (1 - y t0) ^ (φ + 1) - (φ + 1) * c * (t1 - t0) := by
  have hd : ∀ t ∈ Set.Icc t0 t1, HasDerivAt (fun t => (1 - y t) ^ (φ + 1) + (φ + 1) * c * t) 0 t := fun t ht => by
    have h1 := sub_pos.mpr (hy1 t ht)
    have e1 := ((hy t ht).const_sub 1).rpow_const (p := φ + 1) (Or.inl h1.ne')
    have e2 := (hasDerivAt_id t).const_mul ((φ + 1) * c)
    refine (e1.add e2).congr_deriv ?_
    have h2 : (1 - y t) ^ (-φ) * (1 - y t) ^ (φ + 1 - 1) = 1 := by
      rw [← Real.rpow_add h1]; simp
    linear_combination (-(c * (φ + 1))) * h2
  rcases h01.eq_or_lt with rfl | hlt
  · ring
  · obtain ⟨s, hs, he⟩ := exists_hasDerivAt_eq_slope (fun t => (1 - y t) ^ (φ + 1) + (φ + 1) * c * t) (fun _ => 0) hlt
      (fun t ht => (hd t ht).continuousAt.continuousWithinAt) (fun t ht => hd t ⟨ht.1.le, ht.2.le⟩)
    rw [eq_comm, div_eq_zero_iff] at he
    rcases he with he | he
    · linarith
    · linarith

/-- **C194** a step is never late: solved up to a residual `ε` it uses up the life that passes during it, up to `ε`. -/
theorem C194_never_late {k φ w0 w ε : ℝ} (hφ : 0 ≤ φ) (h0 : 0 ≤ w0) (hw : w0 ≤ w) (hw1 : w < 1) (hε : 0 ≤ ε)
    (he : w + ε = k * (1 - w) ^ (-φ) + w0) :
    (1 - w) ^ (φ + 1) ≤ (1 - w0) ^ (φ + 1) - (φ + 1) * (k - ε) := by
  have hu := sub_pos.mpr hw1
  have h1 : (1 - w) ^ φ * (1 - w) ^ (-φ) = 1 := by rw [← Real.rpow_add hu]; simp
  have h2 : (1 - w) ^ φ ≤ 1 := Real.rpow_le_one hu.le (by linarith) hφ
  have hb := one_add_mul_self_le_rpow_one_add (s := (w - w0) / (1 - w)) (p := φ + 1)
    (by have := div_nonneg (sub_nonneg.mpr hw) hu.le; linarith) (by linarith)
  have e1 : 1 + (w - w0) / (1 - w) = (1 - w0) / (1 - w) := by field_simp; ring
  rw [e1, Real.div_rpow (by linarith) hu.le, le_div_iff₀ (Real.rpow_pos_of_pos hu _)] at hb
  have e2 : (1 - w) ^ (φ + 1) = (1 - w) ^ φ * (1 - w) := by rw [Real.rpow_add_one hu.ne']
  have e3 : (1 + (φ + 1) * ((w - w0) / (1 - w))) * (1 - w) ^ (φ + 1) =
      (1 - w) ^ (φ + 1) + (φ + 1) * ((1 - w) ^ φ * (w - w0)) := by
    rw [e2]; field_simp
  rw [e3] at hb
  have e4 : (1 - w) ^ φ * (w - w0) = k - ε * (1 - w) ^ φ := by
    have : w - w0 = k * (1 - w) ^ (-φ) - ε := by linarith
    rw [this]
    linear_combination k * h1
  rw [e4] at hb
  have h3 := mul_le_mul_of_nonneg_left h2 hε
  have h4 := mul_le_mul_of_nonneg_left (show k - ε ≤ k - ε * (1 - w) ^ φ by linarith) (show 0 ≤ φ + 1 by linarith)
  linarith

/-- **C194** the implicit step has a solution exactly if it is not longer than the fraction `(φ/(φ+1))^φ` of the
remaining life; this fraction is less than one. -/
theorem C194_window {k φ w0 : ℝ} (hφ : 0 < φ) (hw : w0 < 1) (hk : 0 ≤ k) :
    (∃ w, w0 ≤ w ∧ w < 1 ∧ w = k * (1 - w) ^ (-φ) + w0) ↔
      k ≤ (φ / (φ + 1)) ^ φ * ((1 - w0) ^ (φ + 1) / (φ + 1)) := by
  have hu0 := sub_pos.mpr hw
  have hφ1 : 0 < φ + 1 := by linarith
  have hval : (φ / (φ + 1)) ^ φ * ((1 - w0) ^ (φ + 1) / (φ + 1)) =
      ((1 - w0) * φ / (φ + 1)) ^ φ * ((1 - w0) / (φ + 1)) := by
    rw [mul_div_assoc, Real.mul_rpow hu0.le (by positivity), Real.rpow_add_one hu0.ne']
    ring
  constructor
  · rintro ⟨w, h1, h2, h3⟩
    have hu := sub_pos.mpr h2
    have hkk : k = (1 - w) ^ φ * (w - w0) := by
      have : w - w0 = k * (1 - w) ^ (-φ) := by linarith
      rw [this]
      have h4 : (1 - w) ^ φ * (1 - w) ^ (-φ) = 1 := by rw [← Real.rpow_add hu]; simp
      linear_combination (-k) * h4
    have ham := Real.geom_mean_le_arith_mean2_weighted (w₁ := φ / (φ + 1)) (w₂ := 1 / (φ + 1)) (p₁ := (1 - w) / φ)
      (p₂ := w - w0) (by positivity) (by positivity) (by positivity) (by linarith) (by field_simp)
    have e1 : φ / (φ + 1) * ((1 - w) / φ) + 1 / (φ + 1) * (w - w0) = (1 - w0) / (φ + 1) := by
      field_simp; ring
    rw [e1] at ham
    have h5 := Real.rpow_le_rpow (by
      have := Real.rpow_nonneg (show 0 ≤ (1 - w) / φ by positivity) (φ / (φ + 1))
      have := Real.rpow_nonneg (show 0 ≤ w - w0 by linarith) (1 / (φ + 1))
      positivity) ham hφ1.le
    rw [Real.mul_rpow (Real.rpow_nonneg (by positivity) _) (Real.rpow_nonneg (by linarith) _),
      ← Real.rpow_mul (by positivity), ← Real.rpow_mul (by linarith), div_mul_cancel₀ _ hφ1.ne',
      div_mul_cancel₀ _ hφ1.ne', Real.rpow_one, Real.div_rpow hu.le hφ.le, Real.rpow_add_one (by positivity)] at h5
    rw [hval, hkk]
    have hφφ := Real.rpow_pos_of_pos hφ φ
    have e2 : (1 - w) ^ φ * (w - w0) = φ ^ φ * ((1 - w) ^ φ / φ ^ φ * (w - w0)) := by field_simp
    have e3 : ((1 - w0) * φ / (φ + 1)) ^ φ = φ ^ φ * ((1 - w0) / (φ + 1)) ^ φ := by
      rw [← Real.mul_rpow hφ.le (by positivity)]; congr 1; ring
    rw [e2, e3, mul_assoc]
    exact mul_le_mul_of_nonneg_left h5 hφφ.le
  · intro h
    rw [hval] at h
    set v := 1 - (1 - w0) * φ / (φ + 1) with hv
    have hv1 : 1 - v = (1 - w0) * φ / (φ + 1) := by rw [hv]; ring
    have hvw : v - w0 = (1 - w0) / (φ + 1) := by rw [hv]; field_simp; ring
    have hvlt : v < 1 := by
      have : 0 < (1 - w0) * φ / (φ + 1) := by positivity
      linarith
    have hvge : w0 ≤ v := by
      have : 0 ≤ (1 - w0) / (φ + 1) := by positivity
      linarith
    have hacc := accelerating_power (c := k) (dt := 1) (a := -φ) (w0 := w0) hk one_pos.le (by linarith)
    have hpv := Real.rpow_pos_of_pos (sub_pos.mpr hvlt) (-φ)
    have h0 := Real.rpow_pos_of_pos hu0 (-φ)
    obtain ⟨r, hr, -⟩ := least_exists (v := v) hacc (by show w0 ≤ k * (1 - w0) ^ (-φ) * 1 + w0; nlinarith) hvge hvlt (by
      show k * (1 - v) ^ (-φ) * 1 + w0 ≤ v
      rw [← hv1, ← hvw] at h
      have h4 : (1 - v) ^ φ * (1 - v) ^ (-φ) = 1 := by rw [← Real.rpow_add (sub_pos.mpr hvlt)]; simp
      have h6 := mul_le_mul_of_nonneg_right h hpv.le
      have h7 : (1 - v) ^ φ * (v - w0) * (1 - v) ^ (-φ) = v - w0 := by linear_combination (v - w0) * h4
      linarith)
    exact ⟨r, hr.le, hr.lt_one, by have := hr.root; simp only [mul_one] at this; exact this.symm⟩

theorem window_lt_one {φ : ℝ} (hφ : 0 < φ) : (φ / (φ + 1)) ^ φ < 1 :=
  Real.rpow_lt_one (by positivity) ((div_lt_one (by linarith)).mpr (by linarith)) hφ

end law

/-! ## The update -/

section update

variable {H : Type} {base : Model ℝ (Fin 6) H}
variable {lin : Matrix (Fin 7) (Fin 7) ℝ → (Fin 7 → ℝ) → Option (Fin 7 → ℝ)} {p : Newton.Params} {fuel : ℕ}
variable {inv : Matrix (Fin 6) (Fin 6) ℝ → Option (Matrix (Fin 6) (Fin 6) ℝ)} {op : Options (Fin 6)}
variable {e1 e0 s0 : Fin 6 → ℝ} {w0 : ℝ} {h0 : H} {u0 p0 : ℝ} {up : Update ℝ (Fin 6) H}

theorem tangent_some (dm : Rule (Fin 6)) (hv : ExactInv inv) {σ : Fin 6 → ℝ} {w : ℝ} (hw : w ≠ 1)
    (hk1 : 1 - 1 / (1 - w) * (dm.ds w w0 e1 e0 σ (effective w0 s0) ⬝ᵥ σ) - dm.dd w w0 e1 e0 σ (effective w0 s0) ≠ 0)
    (hww : dm.dd w w0 e1 e0 σ (effective w0 s0) ≠ 1) (A' : Matrix (Fin 6) (Fin 6) ℝ) :
    ∃ A, damTangent dm inv e1 e0 (fun i => (1 - w) * σ i) s0 w w0 A' = some A := by
  have h1 : 1 - w ≠ 0 := sub_ne_zero.mpr hw.symm
  simp only [damTangent]
  rw [effective_point hw]
  generalize hK : 1 - 1 / (1 - w) * (dm.ds w w0 e1 e0 σ (effective w0 s0) ⬝ᵥ σ) -
    dm.dd w w0 e1 e0 σ (effective w0 s0) = K at hk1 ⊢
  have hdet : (1 + vecMulVec σ fun j => dm.ds w w0 e1 e0 σ (effective w0 s0) j / (K * (1 - w))).det ≠ 0 := by
    rw [vecMulVec_eq Unit, det_one_add_replicateCol_mul_replicateRow]
    have e : ∀ f : Fin 6 → ℝ, (fun j => f j / (K * (1 - w))) ⬝ᵥ σ = f ⬝ᵥ σ / (K * (1 - w)) := by
      intro f
      simp only [dotProduct, Finset.sum_div]
      exact Finset.sum_congr rfl fun i _ => by ring
    rw [e]
    intro hc
    apply hww
    have e2 : K * (1 - w) + dm.ds w w0 e1 e0 σ (effective w0 s0) ⬝ᵥ σ = 0 := by
      have : K * (1 - w) ≠ 0 := mul_ne_zero hk1 h1
      field_simp at hc
      linarith
    have e3 : K * (1 - w) = (1 - w) - dm.ds w w0 e1 e0 σ (effective w0 s0) ⬝ᵥ σ -
        dm.dd w w0 e1 e0 σ (effective w0 s0) * (1 - w) := by
      rw [← hK]; field_simp
    have e4 : (1 - dm.dd w w0 e1 e0 σ (effective w0 s0)) * (1 - w) = 0 := by linarith
    rcases mul_eq_zero.mp e4 with h | h
    · linarith
    · exact absurd h h1
  rw [hv _ hdet]
  exact ⟨_, rfl⟩

theorem dev_dot (s : Fin 6 → ℝ) : devVec s ⬝ᵥ s = 2 / 3 * se s ^ 2 := by
  rw [se, Real.sq_sqrt (by positivity)]
  simp [devVec, dotProduct, Fin.sum_univ_succ]
  ring

theorem classical_ds {A xi phi dt : ℝ} (hA : 0 < A) (d d0 : ℝ) (e1 e0 s s' : Fin 6 → ℝ) :
    (classicalCreep A xi phi dt).ds d d0 e1 e0 s s' ⬝ᵥ s = xi * (se s / A) ^ xi * (1 - d) ^ (-phi) * dt := by
  simp only [classicalCreep, rateRule]
  have hse : 0 ≤ se s := Real.sqrt_nonneg _
  by_cases h : se s = 0
  · simp only [if_pos h, h, zero_div]
    by_cases hx : xi = 0
    · simp [hx, dotProduct]
    · simp [Real.zero_rpow hx, dotProduct]
  · simp only [if_neg h]
    have hp : 0 < se s := lt_of_le_of_ne hse (Ne.symm h)
    have e : ∀ c : ℝ, (fun i => devVec s i * c * dt) ⬝ᵥ s = c * dt * (devVec s ⬝ᵥ s) := by
      intro c
      simp only [dotProduct, Finset.mul_sum]
      exact Finset.sum_congr rfl fun i _ => by ring
    rw [e, dev_dot, Real.rpow_sub_one (by positivity)]
    field_simp

theorem classical_accelerating {A xi phi dt : ℝ} (hA : 0 < A) (hphi : 0 ≤ phi) (hdt : 0 ≤ dt) (w0 : ℝ)
    (e1 e0 s s' : Fin 6 → ℝ) :
    Accelerating (fun w => (classicalCreep A xi phi dt).damage w w0 e1 e0 s s')
      (fun w => (classicalCreep A xi phi dt).dd w w0 e1 e0 s s') := by
  have h := accelerating_power (c := (se s / A) ^ xi) (dt := dt) (a := -phi) (w0 := w0)
    (Real.rpow_nonneg (div_nonneg (Real.sqrt_nonneg _) hA.le) _) hdt (by linarith)
  have e : (fun w => (classicalCreep A xi phi dt).dd w w0 e1 e0 s s') =
      fun w => (se s / A) ^ xi * (- -phi) * (1 - w) ^ (-phi - 1) * dt := by
    funext w
    simp only [classicalCreep, rateRule, neg_neg]
    rw [show -(phi + 1) = -phi - 1 by ring]
  rw [e]
  exact h

/-- **C194** the modular rule has the property if `φ` is at least `ξ`, for any stress measure that is not negative. -/
theorem C194_modular (m : Measure) {A xi phi dt : ℝ} (hA : 0 < A) (hphi : xi ≤ phi) (hdt : 0 ≤ dt) (w0 : ℝ)
    (e1 e0 s s' : Fin 6 → ℝ) (hm : 0 ≤ m.eff s) :
    Accelerating (fun w => (modularCreep m A xi phi dt).damage w w0 e1 e0 s s')
      (fun w => (modularCreep m A xi phi dt).dd w w0 e1 e0 s s') := by
  have h := accelerating_power (c := (m.eff s / A) ^ xi) (dt := dt) (a := xi - phi) (w0 := w0)
    (Real.rpow_nonneg (div_nonneg hm hA.le) _) hdt (by linarith)
  have e : (fun w => (modularCreep m A xi phi dt).dd w w0 e1 e0 s s') =
      fun w => (m.eff s / A) ^ xi * (-(xi - phi)) * (1 - w) ^ (xi - phi - 1) * dt := by
    funext w
    simp only [modularCreep, rateRule, neg_sub]
  rw [e]
  exact h

theorem accelerating_const (w0 : ℝ) : Accelerating (fun _ => w0) fun _ => 0 where
  deriv w _ := hasDerivAt_const w w0
  nonneg _ _ := le_rfl
  mono _ _ _ _ := le_rfl
  chord x y z _ _ _ := by simp

theorem Accelerating.add {D1 D1' D2 D2' : ℝ → ℝ} (h1 : Accelerating D1 D1') (h2 : Accelerating D2 D2') (c : ℝ) :
    Accelerating (fun w => D1 w + (D2 w - c)) fun w => D1' w + D2' w where
  deriv w hw := (h1.deriv w hw).add ((h2.deriv w hw).sub_const c)
  nonneg w hw := add_nonneg (h1.nonneg w hw) (h2.nonneg w hw)
  mono v w a b := add_le_add (h1.mono v w a b) (h2.mono v w a b)
  chord x y z a b c := by linarith [h1.chord x y z a b c, h2.chord x y z a b c]

/-- **C194** a combination of rules with the property has it. -/
theorem C194_combined (ms : List (Rule (Fin 6))) (w0 : ℝ) (e1 e0 s s' : Fin 6 → ℝ)
    (h : ∀ m ∈ ms, Accelerating (fun w => m.damage w w0 e1 e0 s s') fun w => m.dd w w0 e1 e0 s s') :
    Accelerating (fun w => (combined ms).damage w w0 e1 e0 s s') fun w => (combined ms).dd w w0 e1 e0 s s' := by
  have key : ∀ (ms : List (Rule (Fin 6))) (D D' : ℝ → ℝ), Accelerating D D' →
      (∀ m ∈ ms, Accelerating (fun w => m.damage w w0 e1 e0 s s') fun w => m.dd w w0 e1 e0 s s') →
      Accelerating (fun w => ms.foldl (fun acc m => acc + (m.damage w w0 e1 e0 s s' - w0)) (D w))
        fun w => ms.foldl (fun acc m => acc + m.dd w w0 e1 e0 s s') (D' w) := by
    intro ms
    induction ms with
    | nil => intro D D' hD _; exact hD
    | cons m ms ih =>
      intro D D' hD hms
      simp only [List.foldl_cons]
      exact ih (fun w => D w + (m.damage w w0 e1 e0 s s' - w0)) (fun w => D' w + m.dd w w0 e1 e0 s s')
        (hD.add (hms m (List.mem_cons_self ..)) w0) fun m' h' => hms m' (List.mem_cons_of_mem _ h')
  exact key ms (fun _ => w0) (fun _ => 0) (accelerating_const w0) h

/-- **C194** an update during a hold with Kachanov's rule. The last condition keeps the step shorter than the fraction
`(φ + 1)/(ξ + φ)` of the life that is left after it; the code's tangent formula divides by the difference. -/
theorem C194_update (ha : 0 < p.atol) (hl : ExactSolve lin) (hv : ExactInv inv) (hop : op.ekill = false)
    {A xi phi dt : ℝ} (hA : 0 < A) (hxi : 0 ≤ xi) (hphi : 0 ≤ phi) (hdt : 0 ≤ dt)
    (hb : base e1 e0 (effective w0 s0) h0 u0 p0 = some up) (hs0 : s0 = fun i => (1 - w0) * up.s i) {r : ℝ}
    (hr : Least (fun w => (se up.s / A) ^ xi * (1 - w) ^ (-phi) * dt + w0) w0 r)
    (hst : (xi + phi) * ((se up.s / A) ^ xi * dt) < (1 - r) ^ (phi + 1)) {k : ℕ}
    (hk : (r - w0) / 2 ^ k < p.atol) (hm : (k : ℤ) < p.miter) (hf : k < fuel) :
    ∃ u, damStep op base (classicalCreep A xi phi dt) lin p fuel inv e1 e0 s0 (w0, h0) u0 p0 = some u ∧
      (u.s = fun i => (1 - u.h.1) * up.s i) ∧ u.h.2 = up.h ∧ u.u = up.u ∧ u.p = up.p ∧ w0 ≤ u.h.1 ∧ u.h.1 ≤ r ∧
      0 ≤ (se up.s / A) ^ xi * (1 - u.h.1) ^ (-phi) * dt + w0 - u.h.1 ∧
      (se up.s / A) ^ xi * (1 - u.h.1) ^ (-phi) * dt + w0 - u.h.1 < max p.atol (p.rtol * (r - w0)) := by
  have hacc := classical_accelerating (xi := xi) hA hphi hdt w0 e1 e0 up.s up.s
  obtain ⟨w, hw, h1, h2, h3, h4⟩ := C194_solves (fuel := fuel) (dm := classicalCreep A xi phi dt) ha hl hb hs0 rfl hacc
    (fun _ => rfl) hr hk hm hf
  have hw1 : w < 1 := h2.trans_lt hr.lt_one
  have hu := sub_pos.mpr hw1
  have hw01 : w0 < 1 := h1.trans_lt hw1
  have hsn : effective w0 s0 = up.s := by rw [hs0]; exact effective_point hw01.ne
  have hc : 0 ≤ (se up.s / A) ^ xi := Real.rpow_nonneg (div_nonneg (Real.sqrt_nonneg _) hA.le) _
  have hpw : (1 - w) ^ (-(phi + 1)) * (1 - w) ^ (phi + 1) = 1 := by rw [← Real.rpow_add hu]; simp
  have hle : (1 - r) ^ (phi + 1) ≤ (1 - w) ^ (phi + 1) :=
    Real.rpow_le_rpow (sub_pos.mpr hr.lt_one).le (by linarith) (by linarith)
  have hpp := Real.rpow_pos_of_pos hu (-(phi + 1))
  have hsmall : (xi + phi) * ((se up.s / A) ^ xi * dt) * (1 - w) ^ (-(phi + 1)) < 1 := by
    have := mul_lt_mul_of_pos_right (hst.trans_le hle) hpp
    linarith
  have hsmall2 : phi * ((se up.s / A) ^ xi * dt) * (1 - w) ^ (-(phi + 1)) < 1 := by
    have : 0 ≤ xi * ((se up.s / A) ^ xi * dt) * (1 - w) ^ (-(phi + 1)) := by positivity
    linarith
  have hdd : (classicalCreep A xi phi dt).dd w w0 e1 e0 up.s up.s =
      phi * ((se up.s / A) ^ xi * dt) * (1 - w) ^ (-(phi + 1)) := by
    simp only [classicalCreep, rateRule]; ring
  obtain ⟨B, hB⟩ := tangent_some (s0 := s0) (w0 := w0) (e1 := e1) (e0 := e0) (classicalCreep A xi phi dt) hv
    (σ := up.s) hw1.ne (by
      rw [hsn, classical_ds hA, hdd]
      have e : 1 / (1 - w) * (xi * (se up.s / A) ^ xi * (1 - w) ^ (-phi) * dt) =
          xi * ((se up.s / A) ^ xi * dt) * (1 - w) ^ (-(phi + 1)) := by
        rw [show -(phi + 1) = -phi - 1 by ring, Real.rpow_sub_one hu.ne']
        field_simp
      rw [e]
      intro hz
      linarith) (by rw [hsn, hdd]; exact hsmall2.ne) up.A
  refine ⟨⟨fun i => (1 - w) * up.s i, (w, up.h), B, up.u, up.p⟩, ?_, rfl, rfl, rfl, rfl, h1, h2, h3, h4⟩
  simp only [damStep, damUpdate, hop, Bool.false_eq_true, false_and, if_false]
  rw [hw]
  simp only [hb, show point up.s w (Sum.inr ()) = w from rfl, hB]

/-! ## Histories -/

/-- The exact solutions of the implicit steps at the times of a list, from the damage `w₀` at `t₀` to the damage at the
end; each step is shorter than `(φ + 1)/(ξ + φ)` of the life left after it. -/
inductive Wear (c xi phi : ℝ) : ℝ → ℝ → List ℝ → ℝ → Prop
  | nil (t0 w) : Wear c xi phi t0 w [] w
  | cons {t0 t1 w0 r w ts} : t0 ≤ t1 → w0 ≤ r → r < 1 → r = c * (1 - r) ^ (-phi) * (t1 - t0) + w0 →
      (xi + phi) * (c * (t1 - t0)) < (1 - r) ^ (phi + 1) → Wear c xi phi t1 r ts w → Wear c xi phi t0 w0 (t1 :: ts) w

/-- **C194** a history of holds. Every update gets an answer with the default tolerances or any others; the damage does
not fall, is not above the exact implicit steps, and uses up the life that has passed, up to the tolerance per step. In
particular no history survives the life of the law by more than that. -/
theorem C194_history (ha : 0 < p.atol) (hl : ExactSolve lin) (hv : ExactInv inv) (hop : op.ekill = false)
    {A xi phi : ℝ} (hA : 0 < A) (hxi : 0 ≤ xi) (hphi : 0 ≤ phi) {e σ : Fin 6 → ℝ}
    (hb : ∀ h u p, ∃ up, base e e σ h u p = some up ∧ up.s = σ) {k : ℕ} (hk : 1 / 2 ^ k < p.atol)
    (hr : 0 ≤ p.rtol) (hm : (k : ℤ) < p.miter) (hf : k < fuel) {t0 we w : ℝ} {ts : List ℝ}
    (hch : Wear ((se σ / A) ^ xi) xi phi t0 we ts w) (u : Update ℝ (Fin 6) (ℝ × H))
    (hu : u.s = fun i => (1 - u.h.1) * σ i) (h0 : 0 ≤ u.h.1) (h1 : u.h.1 ≤ we) (hw1 : u.h.1 < 1) :
    ∃ v, CreepSeries.holdPath
        (fun t1 t0 => damStep op base (classicalCreep A xi phi (t1 - t0)) lin p fuel inv) e t0 u ts = some v ∧
      (v.s = fun i => (1 - v.h.1) * σ i) ∧ u.h.1 ≤ v.h.1 ∧ v.h.1 ≤ w ∧ v.h.1 < 1 ∧
      (1 - v.h.1) ^ (phi + 1) ≤ (1 - u.h.1) ^ (phi + 1) -
        (phi + 1) * ((se σ / A) ^ xi * (CreepSeries.endTime t0 ts - t0) - ts.length * max p.atol p.rtol) := by
  have hc : 0 ≤ (se σ / A) ^ xi := Real.rpow_nonneg (div_nonneg (Real.sqrt_nonneg _) hA.le) _
  induction hch generalizing u with
  | nil t0 w => exact ⟨u, rfl, hu, le_rfl, h1, hw1, by simp [CreepSeries.endTime]⟩
  | @cons t0 t1 w0 r w ts g1 g2 g3 g4 g5 g6 ih =>
    have hdt := sub_nonneg.mpr g1
    obtain ⟨up, hup, hups⟩ := hb u.h.2 u.u u.p
    have hacc := accelerating_power (c := (se σ / A) ^ xi) (dt := t1 - t0) (a := -phi) (w0 := u.h.1) hc hdt (by linarith)
    have hpos := Real.rpow_pos_of_pos (sub_pos.mpr hw1) (-phi)
    obtain ⟨r', hr', hrr⟩ := least_exists (v := r) hacc
      (by show u.h.1 ≤ (se σ / A) ^ xi * (1 - u.h.1) ^ (-phi) * (t1 - t0) + u.h.1
          have : 0 ≤ (se σ / A) ^ xi * (1 - u.h.1) ^ (-phi) * (t1 - t0) := by positivity
          linarith) (h1.trans g2) g3
      (by show (se σ / A) ^ xi * (1 - r) ^ (-phi) * (t1 - t0) + u.h.1 ≤ r
          linarith)
    have hst : (xi + phi) * ((se up.s / A) ^ xi * (t1 - t0)) < (1 - r') ^ (phi + 1) := by
      rw [hups]
      exact g5.trans_le (Real.rpow_le_rpow (sub_pos.mpr g3).le (by linarith) (by linarith))
    have hgap : r' - u.h.1 ≤ 1 := by linarith [hr'.lt_one]
    obtain ⟨v, hv1, hv2, hv3, -, -, hv4, hv5, hv6, hv7⟩ := C194_update (op := op) (inv := inv) (fuel := fuel) (s0 := u.s)
      (h0 := u.h.2) (u0 := u.u) (p0 := u.p) (up := up) (e1 := e) (e0 := e) (base := base) ha hl hv hop hA hxi hphi hdt
      (by rw [hu, effective_point hw1.ne]; exact hup) (by rw [hups]; exact hu) (by rw [hups]; exact hr') hst
      (lt_of_le_of_lt (div_le_div_of_nonneg_right hgap (by positivity)) hk) hm hf
    rw [hups] at hv2 hv6 hv7
    have hv8 : v.h.1 < 1 := hv5.trans_lt hr'.lt_one
    obtain ⟨z, hz1, hz2, hz3, hz4, hz5, hz6⟩ := ih v hv2 (h0.trans hv4) (hv5.trans hrr) hv8
    have htol : max p.atol (p.rtol * (r' - u.h.1)) ≤ max p.atol p.rtol :=
      max_le_max le_rfl (by nlinarith [hr'.le])
    have hlate := C194_never_late (k := (se σ / A) ^ xi * (t1 - t0)) hphi h0 hv4 hv8 hv6 (by ring)
    refine ⟨z, ?_, hz2, hv4.trans hz3, hz4, hz5, ?_⟩
    · have e1 : (u.h.1, u.h.2) = u.h := rfl
      rw [e1] at hv1
      simp only [CreepSeries.holdPath, hv1]
      exact hz1
    · simp only [CreepSeries.endTime, List.length_cons]
      push_cast
      have h9 := mul_le_mul_of_nonneg_left (hv7.le.trans htol) (show 0 ≤ phi + 1 by linarith)
      linarith

/-! ## Past the end of the life -/

/-- **C194** fails for a step longer than the remaining life. With `φ = 2` the implicit equation always has a second
solution above one, because the power of a negative number is then defined. A hold of 9/8 of the life of the undamaged
material makes the solver land on it in one iteration: the update succeeds, with damage 3/2 and a stress that points
against the strain. -/
theorem C194_past_failure_disagreement (ha : 0 < p.atol) (ha2 : p.atol ≤ 3 / 8) (hrt : p.rtol ≤ 1) (hl : ExactSolve lin)
    (hv : ExactInv inv) (hop : op.ekill = false) (hm : 1 < p.miter) (hf : 1 < fuel) {A xi : ℝ} (hA : 0 < A)
    (hxi : 0 ≤ xi) {e σ : Fin 6 → ℝ} (hσ : se σ = A) (hb : base e e σ h0 u0 p0 = some up) (hs : up.s = σ) :
    (∃ u, damStep op base (classicalCreep A xi 2 (3 / 8)) lin p fuel inv e e σ (0, h0) u0 p0 = some u ∧
      u.h.1 = 3 / 2 ∧ u.s = fun i => -(1 / 2) * σ i) ∧
    ¬ ∃ y : ℝ → ℝ, y 0 = 0 ∧ (∀ t ∈ Set.Icc (0 : ℝ) (3 / 8), y t < 1) ∧
      ∀ t ∈ Set.Icc (0 : ℝ) (3 / 8), HasDerivAt y (1 * (1 - y t) ^ (-(2 : ℝ))) t := by
  constructor
  · have hc : (se σ / A) ^ xi = 1 := by rw [hσ, div_self hA.ne', Real.one_rpow]
    have hp2 : ((1 : ℝ) - 3 / 2) ^ (-(2 : ℝ)) = 4 := by
      rw [show (-(2 : ℝ)) = ((-2 : ℤ) : ℝ) by norm_num, Real.rpow_intCast]; norm_num
    have hp3 : ((1 : ℝ) - 3 / 2) ^ (-((2 : ℝ) + 1)) = -8 := by
      rw [show (-((2 : ℝ) + 1)) = ((-3 : ℤ) : ℝ) by norm_num, Real.rpow_intCast]; norm_num
    have hsn : effective 0 σ = σ := by ext i; simp [effective]
    have hD0 : (classicalCreep A xi 2 (3 / 8)).damage 0 0 e e σ σ = 3 / 8 := by
      simp [classicalCreep, rateRule, hc]
    have hD1 : (classicalCreep A xi 2 (3 / 8)).damage (3 / 2) 0 e e σ σ = 3 / 2 := by
      simp only [classicalCreep, rateRule, hc, hp2]; norm_num
    have hd0 : (classicalCreep A xi 2 (3 / 8)).dd 0 0 e e σ σ = 3 / 4 := by
      simp [classicalCreep, rateRule, hc]; norm_num
    have hd1 : (classicalCreep A xi 2 (3 / 8)).dd (3 / 2) 0 e e σ σ = -6 := by
      simp only [classicalCreep, rateRule, hc, hp3]; norm_num
    obtain ⟨X, hX⟩ : ∃ X : ℕ → ℝ, X = fun k => if k = 0 then 0 else 3 / 2 := ⟨_, rfl⟩
    have hX0 : X 0 = 0 := by rw [hX]; rfl
    have hX1 : X 1 = 3 / 2 := by rw [hX]; rfl
    have hN0 : √(∑ a, resid (classicalCreep A xi 2 (3 / 8)) e e σ 0 σ (point σ (X 0)) a *
        resid (classicalCreep A xi 2 (3 / 8)) e e σ 0 σ (point σ (X 0)) a) = 3 / 8 := by
      rw [hX0, resid_point (by norm_num), norm_point, hsn, hD0]; norm_num
    have hN1 : √(∑ a, resid (classicalCreep A xi 2 (3 / 8)) e e σ 0 σ (point σ (X 1)) a *
        resid (classicalCreep A xi 2 (3 / 8)) e e σ 0 σ (point σ (X 1)) a) = 0 := by
      rw [hX1, resid_point (by norm_num), norm_point, hsn, hD1]; norm_num
    have hinit : initX (classicalCreep A xi 2 (3 / 8)) σ 0 = point σ (X 0) := by
      rw [hX0]
      ext (i | i)
      · simp [initX, point]
      · simp [initX, point, classicalCreep, rateRule]
    obtain ⟨j, hj, hcj, hnw⟩ := solveWith_chain ppIndex (fun k => point σ (X k))
      (resid (classicalCreep A xi 2 (3 / 8)) e e σ 0 σ) (jac (classicalCreep A xi 2 (3 / 8)) e e σ 0 σ) hl p fuel 1
      (fun j hj => by
        obtain rfl : j = 0 := by omega
        show (jac (classicalCreep A xi 2 (3 / 8)) e e σ 0 σ (point σ (X 0))).det ≠ 0
        rw [hX0, jac_point_det (by norm_num), hsn, hd0]; norm_num)
      (fun j hj => by
        obtain rfl : j = 0 := by omega
        show jac (classicalCreep A xi 2 (3 / 8)) e e σ 0 σ (point σ (X 0)) *ᵥ (point σ (X 0) - point σ (X 1)) =
          resid (classicalCreep A xi 2 (3 / 8)) e e σ 0 σ (point σ (X 0))
        rw [hX0, hX1, jac_point_step (by norm_num), resid_point (by norm_num), hsn, hd0, hD0]
        congr 1
        funext _
        norm_num)
      (fun j hj => by
        obtain rfl : j = 0 := by omega
        show √(∑ a, resid (classicalCreep A xi 2 (3 / 8)) e e σ 0 σ (point σ (X 1)) a *
          resid (classicalCreep A xi 2 (3 / 8)) e e σ 0 σ (point σ (X 1)) a) <
          √(∑ a, resid (classicalCreep A xi 2 (3 / 8)) e e σ 0 σ (point σ (X 0)) a *
          resid (classicalCreep A xi 2 (3 / 8)) e e σ 0 σ (point σ (X 0)) a)
        rw [hN0, hN1]; norm_num)
      (Or.inl (by rw [hN1]; exact ha)) (by omega) hf
    have hj1 : j = 1 := by
      by_contra hne
      obtain rfl : j = 0 := by omega
      simp only [hN0] at hcj
      rcases hcj with h | ⟨-, h⟩
      · linarith
      · rw [div_self (by norm_num)] at h; linarith
    subst hj1
    have hsol : damSolve base (classicalCreep A xi 2 (3 / 8)) lin p fuel e e σ 0 h0 u0 p0 = some (point σ (3 / 2)) := by
      rw [damSolve_eq (up := up) (by rw [hsn]; exact hb), hs, hinit]
      rw [hnw, hX1]
      rfl
    obtain ⟨B, hB⟩ := tangent_some (s0 := σ) (w0 := 0) (e1 := e) (e0 := e) (classicalCreep A xi 2 (3 / 8)) hv
      (σ := σ) (w := 3 / 2) (by norm_num) (by
        rw [hsn, classical_ds hA, hd1, hc, hp2]
        intro hz
        linarith) (by rw [hsn, hd1]; norm_num) up.A
    refine ⟨⟨fun i => (1 - 3 / 2) * σ i, (3 / 2, up.h), B, up.u, up.p⟩, ?_, rfl, ?_⟩
    · simp only [damStep, damUpdate, hop, Bool.false_eq_true, false_and, if_false, hsn]
      rw [hsol]
      simp only [hb, hs, show point σ (3 / 2) (Sum.inr ()) = 3 / 2 from rfl, hB]
    · funext i
      show (1 - 3 / 2) * σ i = -(1 / 2) * σ i
      ring
  · rintro ⟨y, hy0, hy1, hy⟩
    have h := C194_law (by norm_num) y hy1 hy
    rw [hy0] at h
    have := Real.rpow_nonneg (sub_nonneg.mpr (hy1 (3 / 8) ⟨by norm_num, le_rfl⟩).le) (2 + 1)
    norm_num at h
    norm_num at this
    linarith

end update

/-! ## Examples -/

/-- Tension of size one. -/
noncomputable def pull : Fin 6 → ℝ := ![1, 0, 0, 0, 0, 0]

theorem se_pull : se pull = 1 := by
  simp [se, pull]

/-- Elastic with unit stiffness. -/
noncomputable def unitBase : Model ℝ (Fin 6) Unit := fun e1 _ _ _ _ _ => some ⟨e1, (), 1, 0, 0⟩

/-- Two holds to the times 0.09 and 0.17 with `ξ = φ = 1`, default tolerances: the exact steps reach the damages 1/10
and 1/5. -/
theorem two_holds : Wear ((se pull / 1) ^ (1 : ℝ)) 1 1 0 0 [9 / 100, 17 / 100] (1 / 5) := by
  rw [se_pull]
  refine .cons (r := 1 / 10) (by norm_num) (by norm_num) (by norm_num) ?_ ?_
    (.cons (r := 1 / 5) (by norm_num) (by norm_num) (by norm_num) ?_ ?_ (.nil _ _))
  · rw [Real.rpow_neg_one]; norm_num
  · rw [show (1 : ℝ) + 1 = ((2 : ℕ) : ℝ) by norm_num, Real.rpow_natCast]; norm_num
  · rw [Real.rpow_neg_one]; norm_num
  · rw [show (1 : ℝ) + 1 = ((2 : ℕ) : ℝ) by norm_num, Real.rpow_natCast]; norm_num

example : ∃ v, CreepSeries.holdPath (fun t1 t0 => damStep ⟨false, 1 / 2, 100000, 1⟩ unitBase
      (classicalCreep 1 1 1 (t1 - t0)) exactLin ⟨1 / 1000000, 1 / 100000000, 50, false⟩ 51 exactInv) pull 0
      ⟨pull, (0, ()), 1, 0, 0⟩ [9 / 100, 17 / 100] = some v ∧ v.h.1 ≤ 1 / 5 ∧
      (1 - v.h.1) ^ ((1 : ℝ) + 1) ≤ 1 - 2 * (17 / 100 - 2 / 1000000) := by
  obtain ⟨v, h1, -, -, h2, -, h3⟩ := C194_history (op := ⟨false, 1 / 2, 100000, 1⟩) (base := unitBase)
    (lin := exactLin) (inv := exactInv) (p := ⟨1 / 1000000, 1 / 100000000, 50, false⟩) (fuel := 51) (e := pull)
    (σ := pull) (k := 27) (by norm_num) exactLin_exact exactInv_exact rfl one_pos zero_le_one zero_le_one
    (fun h u p => ⟨_, rfl, rfl⟩) (by norm_num) (by norm_num) (by norm_num) (by norm_num) two_holds
    ⟨pull, (0, ()), 1, 0, 0⟩ (by funext i; simp) le_rfl le_rfl one_pos
  refine ⟨v, h1, h2, h3.trans (le_of_eq ?_)⟩
  rw [se_pull]
  simp [CreepSeries.endTime]
  norm_num

/-- A step of 4/27 from no damage with `φ = 2` is the longest that can be solved. -/
example : ∃ w, 0 ≤ w ∧ w < 1 ∧ w = (4 / 27 : ℝ) * (1 - w) ^ (-(2 : ℝ)) + 0 :=
  (C194_window two_pos one_pos (by norm_num)).mpr (by norm_num)

example : ∃ u, damStep ⟨false, 1 / 2, 100000, 1⟩ unitBase (classicalCreep 1 5 2 (3 / 8)) exactLin
    ⟨1 / 1000000, 1 / 100000000, 50, false⟩ 51 exactInv pull pull pull (0, ()) 0 0 = some u ∧ u.h.1 = 3 / 2 ∧
    u.s = fun i => -(1 / 2) * pull i :=
  (C194_past_failure_disagreement (op := ⟨false, 1 / 2, 100000, 1⟩) (base := unitBase) (lin := exactLin)
    (inv := exactInv) (p := ⟨1 / 1000000, 1 / 100000000, 50, false⟩) (fuel := 51) (e := pull) (σ := pull) (xi := 5)
    (by norm_num) (by norm_num) (by norm_num) exactLin_exact exactInv_exact rfl (by norm_num) (by norm_num) one_pos
    (by norm_num) se_pull rfl rfl).1

end Neml.DamageStep
