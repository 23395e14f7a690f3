import Verif.Props.AxisymSolve
import Verif.Props.AxisymStep
import Mathlib.LinearAlgebra.Matrix.ToLinearEquiv
import Mathlib.Tactic.LinearCombination

/-!
# C139: elastic walls

A wall of one isotropic elastic material, with one point in each element (the standard of the code).
-/

namespace Neml.Axisym

open Matrix Neml.PySolve Neml.Uniaxial Neml.Driver

variable {m : ℕ} {H : Type}

/-- The part of an isotropic elasticity tensor that a wall sees. -/
structure Iso (C : Matrix (Fin 6) (Fin 6) ℝ) (lam mu : ℝ) : Prop where
  d0 : C 0 0 = lam + 2 * mu
  d1 : C 1 1 = lam + 2 * mu
  d2 : C 2 2 = lam + 2 * mu
  o01 : C 0 1 = lam
  o02 : C 0 2 = lam
  o10 : C 1 0 = lam
  o12 : C 1 2 = lam
  o20 : C 2 0 = lam
  o21 : C 2 1 = lam
  mu_pos : 0 < mu
  bulk_pos : 0 < 3 * lam + 2 * mu

/-- A wall with one point in the middle of each element; no element reaches to more than three times its inner radius. -/
structure Fine (w : Wall m 1) : Prop extends Sound w where
  middle : w.xi 0 = 0
  thin : ∀ e : Fin m, w.node e.succ ≤ 3 * w.node e.castSucc

theorem Fine.wt {w : Wall m 1} (h : Fine w) : w.wt 0 = 2 := by
  have := h.weight
  rwa [Fin.sum_univ_one] at this

/-- The forces at the two ends of an element, with radii `a` and `a + l`, and displacements `x * a` and `y * (a + l)`. -/
theorem element_algebra {a l lam mu x y F0 F1 : ℝ} (ha : 0 < a) (hl : 0 < l) (sr st : ℝ)
    (hr : sr = (lam + 2 * mu) * ((y * (a + l) - x * a) / l) + lam * ((x * a + y * (a + l)) / (2 * a + l)))
    (ht : st = lam * ((y * (a + l) - x * a) / l) + (lam + 2 * mu) * ((x * a + y * (a + l)) / (2 * a + l)))
    (h0 : F0 = sr - (st - sr) * (l / (2 * a + l))) (h1 : F1 = sr + (st - sr) * (l / (2 * a + l))) :
    ((lam + 2 * mu) * (a + l) * (2 * a + l) ^ 2 + lam * (a + l) * l * (2 * a + l) + 4 * mu * a * (a + l) * l) * (y - x) =
        (F0 - (2 * lam + 2 * mu) * x) * (l * (2 * a + l) ^ 2) ∧
      (F1 - F0) * (2 * a + l) ^ 2 = -(8 * mu * a * (a + l) * (y - x)) := by
  have hs : 2 * a + l ≠ 0 := by positivity
  subst h0 h1 hr ht
  constructor
  · field_simp
    ring
  · field_simp
    ring

/-- What happens across an element: the sign of `F - (2 * lam + 2 * mu) * x` is kept, and the force changes against it. -/
theorem element_step {a l lam mu x y F0 F1 : ℝ} (ha : 0 < a) (hl : 0 < l) (hla : l ≤ 2 * a) (hmu : 0 < mu)
    (hb : 0 < 3 * lam + 2 * mu) (sr st : ℝ)
    (hr : sr = (lam + 2 * mu) * ((y * (a + l) - x * a) / l) + lam * ((x * a + y * (a + l)) / (2 * a + l)))
    (ht : st = lam * ((y * (a + l) - x * a) / l) + (lam + 2 * mu) * ((x * a + y * (a + l)) / (2 * a + l)))
    (h0 : F0 = sr - (st - sr) * (l / (2 * a + l))) (h1 : F1 = sr + (st - sr) * (l / (2 * a + l))) :
    ∃ p q r : ℝ, 0 ≤ p ∧ 0 < q ∧ 0 < r ∧ F1 - (2 * lam + 2 * mu) * y = p * (F0 - (2 * lam + 2 * mu) * x) ∧
      y - x = q * (F0 - (2 * lam + 2 * mu) * x) ∧ F1 = F0 - r * (F0 - (2 * lam + 2 * mu) * x) := by
  obtain ⟨e1, e2⟩ := element_algebra ha hl sr st hr ht h0 h1
  set K := (lam + 2 * mu) * (a + l) * (2 * a + l) ^ 2 + lam * (a + l) * l * (2 * a + l) + 4 * mu * a * (a + l) * l with hK
  set G := F0 - (2 * lam + 2 * mu) * x with hG
  have hs : 0 < 2 * a + l := by positivity
  have hl3 : -(2 / 3 * mu) < lam := by linarith
  have hKpos : 0 < K := by
    have : 0 < (lam + 2 * mu) * (2 * a + l) + lam * l := by nlinarith [mul_pos hmu hl, mul_pos hmu ha]
    have h2 : K = (a + l) * (2 * a + l) * ((lam + 2 * mu) * (2 * a + l) + lam * l) + 4 * mu * a * (a + l) * l := by
      rw [hK]; ring
    rw [h2]
    positivity
  have hK' : 0 ≤ 2 * a ^ 2 * (2 * a + l) * lam + 2 * a * (4 * a ^ 2 + 2 * a * l - l ^ 2) * mu := by
    have h1 : 0 ≤ 2 * a ^ 2 * (2 * a + l) * (lam + 2 / 3 * mu) :=
      mul_nonneg (by positivity) (by linarith)
    have h2 : 0 ≤ 2 * a * mu * (8 / 3 * a ^ 2 + 4 / 3 * a * l - l ^ 2) := by
      refine mul_nonneg (by positivity) ?_
      nlinarith [mul_nonneg (sub_nonneg.2 hla) hl.le, mul_nonneg (sub_nonneg.2 hla) ha.le]
    nlinarith
  refine ⟨(2 * a ^ 2 * (2 * a + l) * lam + 2 * a * (4 * a ^ 2 + 2 * a * l - l ^ 2) * mu) / K,
    l * (2 * a + l) ^ 2 / K, 8 * mu * a * (a + l) * l / K, div_nonneg hK' hKpos.le, by positivity, by positivity, ?_, ?_, ?_⟩
  · have d : y - x = l * (2 * a + l) ^ 2 / K * G := by
      rw [div_mul_eq_mul_div, eq_div_iff hKpos.ne']; linarith
    have f : F1 = F0 - 8 * mu * a * (a + l) / (2 * a + l) ^ 2 * (y - x) := by
      field_simp; linarith
    rw [f, show (2 * lam + 2 * mu) * y = (2 * lam + 2 * mu) * x + (2 * lam + 2 * mu) * (y - x) by ring, d,
      show F0 = G + (2 * lam + 2 * mu) * x by rw [hG]; ring]
    have hKne := hKpos.ne'
    field_simp
    rw [hK]
    ring
  · rw [div_mul_eq_mul_div, eq_div_iff hKpos.ne']; linarith
  · have d : y - x = l * (2 * a + l) ^ 2 / K * G := by
      rw [div_mul_eq_mul_div, eq_div_iff hKpos.ne']; linarith
    have f : F1 = F0 - 8 * mu * a * (a + l) / (2 * a + l) ^ 2 * (y - x) := by
      field_simp; linarith
    rw [f, d]
    have hKne := hKpos.ne'
    field_simp

/-- The forces of the elements at the nodes: the sums over the elements have at most two terms. -/
theorem assemble_one (f : Field m 1 (Fin 2 → ℝ)) (k : Fin (m + 1)) :
    assemble f k = (Fin.lastCases 0 (fun e => f e 0 0) k : ℝ) + (Fin.cases 0 (fun e => f e 0 1) k : ℝ) := by
  simp only [assemble, Fin.sum_univ_one, Finset.sum_add_distrib]
  congr 1
  · refine Fin.lastCases ?_ (fun e => ?_) k
    · rw [Fin.lastCases_last]
      exact Finset.sum_eq_zero fun e _ => if_neg (Fin.castSucc_lt_last e).ne'
    · rw [Fin.lastCases_castSucc]
      simp [Fin.castSucc_inj]
  · refine Fin.cases ?_ (fun e => ?_) k
    · rw [Fin.cases_zero]
      exact Finset.sum_eq_zero fun e _ => if_neg (Fin.succ_ne_zero e).symm
    · rw [Fin.cases_succ]
      simp [Fin.succ_inj]

section

variable {w : Wall m 1} (h : Fine w) {C : Matrix (Fin 6) (Fin 6) ℝ} {lam mu : ℝ} (hC : Iso C lam mu)
include h hC

/-- Plane strain displacements without residual vanish. -/
theorem plane_zero (u : Fin (m + 1) → ℝ) (hR : ∀ k, w.int1 (fun e i => C *ᵥ w.strain u 0 e i) k = 0) : u = 0 := by
  set x : Fin (m + 1) → ℝ := fun k => u k / w.node k with hx
  have hu : ∀ k, u k = x k * w.node k := fun k => (div_mul_cancel₀ _ (h.node_pos k).ne').symm
  set F : Fin (m + 1) → ℝ := fun k => Fin.cases 0 (fun e => w.local1 (C *ᵥ w.strain u 0 e 0) e 0 1) k with hF
  have hF0 : F 0 = 0 := rfl
  have hFs : ∀ e : Fin m, F e.succ = w.local1 (C *ᵥ w.strain u 0 e 0) e 0 1 := fun e => rfl
  have hFc : ∀ e : Fin m, F e.castSucc = -w.local1 (C *ᵥ w.strain u 0 e 0) e 0 0 := by
    intro e
    have := hR e.castSucc
    rw [Wall.int1, assemble_one, Fin.lastCases_castSucc] at this
    have h2 : (Fin.cases 0 (fun e => w.local1 (C *ᵥ w.strain u 0 e 0) e 0 1) e.castSucc : ℝ) = F e.castSucc := rfl
    rw [h2] at this
    linarith
  have hFl : F (Fin.last m) = 0 := by
    have := hR (Fin.last m)
    rw [Wall.int1, assemble_one, Fin.lastCases_last, zero_add] at this
    exact this
  -- across an element
  have step : ∀ e : Fin m, ∃ p q r : ℝ, 0 ≤ p ∧ 0 < q ∧ 0 < r ∧
      F e.succ - (2 * lam + 2 * mu) * x e.succ = p * (F e.castSucc - (2 * lam + 2 * mu) * x e.castSucc) ∧
      x e.succ - x e.castSucc = q * (F e.castSucc - (2 * lam + 2 * mu) * x e.castSucc) ∧
      F e.succ = F e.castSucc - r * (F e.castSucc - (2 * lam + 2 * mu) * x e.castSucc) := by
    intro e
    have hl := h.len_pos e
    have ha := h.node_pos e.castSucc
    have hn : w.node e.succ = w.node e.castSucc + w.len e := by unfold Wall.len; ring
    have hth := h.thin e
    have hrad : w.rad e 0 = (2 * w.node e.castSucc + w.len e) / 2 := by
      rw [rad_eq, value, h.middle, hn]; ring
    have hst : w.strain u 0 e 0 = ![(x e.succ * (w.node e.castSucc + w.len e) - x e.castSucc * w.node e.castSucc) / w.len e,
        (x e.castSucc * w.node e.castSucc + x e.succ * (w.node e.castSucc + w.len e)) / (2 * w.node e.castSucc + w.len e),
        0, 0, 0, 0] := by
      rw [strain_eq, ← rad_eq, hrad]
      have h1 : slope w u e 0 = (u e.succ - u e.castSucc) / w.len e := rfl
      rw [h1, value, h.middle, hu e.succ, hu e.castSucc, ← hn]
      congr 1
      congr 1
      have : 2 * w.node e.castSucc + w.len e ≠ 0 := by positivity
      field_simp
      ring
    have hs0 : (C *ᵥ w.strain u 0 e 0) 0 = (lam + 2 * mu) *
        ((x e.succ * (w.node e.castSucc + w.len e) - x e.castSucc * w.node e.castSucc) / w.len e) + lam *
        ((x e.castSucc * w.node e.castSucc + x e.succ * (w.node e.castSucc + w.len e)) /
          (2 * w.node e.castSucc + w.len e)) := by
      rw [hst, sum6, hC.d0, hC.o01]; ring
    have hs1 : (C *ᵥ w.strain u 0 e 0) 1 = lam *
        ((x e.succ * (w.node e.castSucc + w.len e) - x e.castSucc * w.node e.castSucc) / w.len e) + (lam + 2 * mu) *
        ((x e.castSucc * w.node e.castSucc + x e.succ * (w.node e.castSucc + w.len e)) /
          (2 * w.node e.castSucc + w.len e)) := by
      rw [hst, sum6, hC.o10, hC.d1]; ring
    have hl0 : ∀ s : Fin 6 → ℝ, -w.local1 s e 0 0 = s 0 - (s 1 - s 0) * (w.len e / (2 * w.node e.castSucc + w.len e)) := by
      intro s
      simp only [Wall.local1, h.wt, B, Wall.N, h.middle, hrad, cons_val_zero]
      have : 2 * w.node e.castSucc + w.len e ≠ 0 := by positivity
      field_simp
      ring
    have hl1 : ∀ s : Fin 6 → ℝ, w.local1 s e 0 1 = s 0 + (s 1 - s 0) * (w.len e / (2 * w.node e.castSucc + w.len e)) := by
      intro s
      simp only [Wall.local1, h.wt, B, Wall.N, h.middle, hrad, cons_val_one, cons_val_zero]
      have : 2 * w.node e.castSucc + w.len e ≠ 0 := by positivity
      field_simp
      ring
    exact element_step ha hl (by linarith) hC.mu_pos hC.bulk_pos _ _ hs0 hs1 ((hFc e).trans (hl0 _)) ((hFs e).trans (hl1 _))
  have hk : 0 < 2 * lam + 2 * mu := by linarith [hC.mu_pos, hC.bulk_pos]
  -- the force grows with the displacement of the inner side
  have grow : ∀ k : Fin (m + 1), (F k - (2 * lam + 2 * mu) * x k) * x 0 ≤ 0 ∧ 0 ≤ F k * x 0 ∧
      (k ≠ 0 → x 0 ≠ 0 → 0 < F k * x 0) := by
    intro k
    induction k using Fin.induction with
    | zero =>
      rw [hF0]
      refine ⟨?_, by rw [zero_mul], fun h => absurd rfl h⟩
      nlinarith [mul_nonneg hk.le (mul_self_nonneg (x 0))]
    | succ e ih =>
      obtain ⟨p, q, r, hp, hq, hr, e1, e2, e3⟩ := step e
      obtain ⟨i1, i2, i3⟩ := ih
      have g : F e.succ * x 0 = F e.castSucc * x 0 + r * -((F e.castSucc - (2 * lam + 2 * mu) * x e.castSucc) * x 0) := by
        rw [e3]; ring
      have hn := mul_nonneg hr.le (neg_nonneg.2 i1)
      refine ⟨?_, by rw [g]; exact add_nonneg i2 hn, fun _ hx0 => ?_⟩
      · rw [e1, mul_assoc]
        exact mul_nonpos_of_nonneg_of_nonpos hp i1
      · rw [g]
        by_cases h0 : e.castSucc = 0
        · rw [h0, hF0, zero_mul, zero_add]
          refine mul_pos hr ?_
          have := mul_pos hk (mul_self_pos.2 hx0)
          nlinarith
        · exact add_pos_of_pos_of_nonneg (i3 h0 hx0) hn
  have hlast : Fin.last m ≠ 0 := by
    intro e
    have := congrArg Fin.val e
    have := h.some
    simp at *
    omega
  have hx0 : x 0 = 0 := by
    by_contra hne
    have := (grow (Fin.last m)).2.2 hlast hne
    rw [hFl, zero_mul] at this
    exact lt_irrefl _ this
  have all : ∀ k : Fin (m + 1), F k = 0 ∧ x k = 0 := by
    intro k
    induction k using Fin.induction with
    | zero => exact ⟨hF0, hx0⟩
    | succ e ih =>
      obtain ⟨p, q, r, hp, hq, hr, e1, e2, e3⟩ := step e
      rw [ih.1, ih.2] at e2 e3
      exact ⟨by linarith, by linarith⟩
  funext k
  rw [hu k, (all k).2, zero_mul, Pi.zero_apply]

/-- Displacements and an axial strain without residual vanish. -/
theorem full_zero (u : Fin (m + 1) → ℝ) (z : ℝ) (hR : ∀ k, w.int1 (fun e i => C *ᵥ w.strain u z e i) k = 0)
    (hR2 : w.int2 (fun e i => C *ᵥ w.strain u z e i) = 0) : u = 0 ∧ z = 0 := by
  have hlm : 0 < lam + mu := by linarith [hC.mu_pos, hC.bulk_pos]
  set ν := lam / (2 * (lam + mu)) with hν
  set v : Fin (m + 1) → ℝ := u + (ν * z) • w.node with hv
  have hval : ∀ e i, value w v e i / value w w.node e i = value w u e i / value w w.node e i + ν * z := by
    intro e i
    have hr := (h.rad_pos e i).ne'
    rw [rad_eq] at hr
    have : value w v e i = value w u e i + ν * z * value w w.node e i := by
      simp only [value, hv, Pi.add_apply, Pi.smul_apply, smul_eq_mul]; ring
    rw [this]
    field_simp
  have hsl : ∀ e i, slope w v e i = slope w u e i + ν * z := by
    intro e i
    have hl := (h.len_pos e).ne'
    have h1 := slope_node w h.toSound e i
    simp only [slope, hv, Pi.add_apply, Pi.smul_apply, smul_eq_mul] at h1 ⊢
    linear_combination (ν * z) * h1
  have hν2 : ν * (2 * (lam + mu)) = lam := by rw [hν]; field_simp
  have hstress : ∀ e i, (C *ᵥ w.strain u z e i) 0 = (C *ᵥ w.strain v 0 e i) 0 ∧
      (C *ᵥ w.strain u z e i) 1 = (C *ᵥ w.strain v 0 e i) 1 := by
    intro e i
    rw [strain_eq, strain_eq, hval, hsl]
    simp only [sum6, hC.d0, hC.d1, hC.o01, hC.o02, hC.o10, hC.o12]
    constructor
    · linear_combination (-z) * hν2
    · linear_combination (-z) * hν2
  have hint : ∀ k, w.int1 (fun e i => C *ᵥ w.strain v 0 e i) k = 0 := by
    intro k
    refine Eq.trans ?_ (hR k)
    unfold Wall.int1
    congr 1
    funext e i a
    unfold Wall.local1
    beta_reduce
    rw [(hstress e i).1, (hstress e i).2]
  have hv0 := plane_zero h hC v hint
  have hu : u = (-(ν * z)) • w.node := by
    rw [hv] at hv0
    rw [neg_smul]
    exact eq_neg_of_add_eq_zero_left hv0
  have hz : ∀ e i, (C *ᵥ w.strain u z e i) 2 = (lam + 2 * mu - 2 * lam * ν) * z := by
    intro e i
    have h1 := hval e i
    have h2 := hsl e i
    rw [hv0] at h1 h2
    have z1 : value w (0 : Fin (m + 1) → ℝ) e i = 0 := by simp [value]
    have z2 : slope w (0 : Fin (m + 1) → ℝ) e i = 0 := by simp [slope]
    rw [z1, zero_div] at h1
    rw [z2] at h2
    rw [strain_eq, sum6, hC.o20, hC.o21, hC.d2]
    linear_combination (-lam) * h1 - lam * h2
  rw [int2_eq] at hR2
  have : integral w (fun e i => (C *ᵥ w.strain u z e i) 2) = (lam + 2 * mu - 2 * lam * ν) * z * w.thick := by
    simp only [hz]
    exact integral_const w h.toSound _
  rw [this, mul_div_assoc, div_self h.thick_pos.ne', mul_one] at hR2
  have hE : lam + 2 * mu - 2 * lam * ν = mu * (3 * lam + 2 * mu) / (lam + mu) := by
    rw [hν]; field_simp; ring
  have hE0 : lam + 2 * mu - 2 * lam * ν ≠ 0 := by
    rw [hE]
    exact (div_pos (mul_pos hC.mu_pos hC.bulk_pos) hlm).ne'
  have hz0 : z = 0 := (mul_eq_zero.1 hR2).resolve_left hE0
  refine ⟨?_, hz0⟩
  rw [hu, hz0, mul_zero, neg_zero, zero_smul]

/-- **C139.** The equations of an elastic wall are regular, with and without the axial one. -/
theorem C139_regular : (tri (w.jac fun _ _ => C).du (w.jac fun _ _ => C).d (w.jac fun _ _ => C).dl).det ≠ 0 ∧
    (w.jac fun _ _ => C).J22 ≠ 0 ∧ (w.jac fun _ _ => C).full.det ≠ 0 := by
  refine ⟨?_, ?_, ?_⟩
  · intro hd
    obtain ⟨v, hv, h0⟩ := exists_mulVec_eq_zero_iff.2 hd
    refine hv (plane_zero h hC v fun k => ?_)
    rw [int1_tangent, h0, mul_zero, add_zero]
    rfl
  · have : (w.jac fun _ _ => C).J22 = w.int2 (fun (e : Fin m) (i : Fin 1) => C *ᵥ w.strain 0 1 e i) := by
      rw [int2_tangent, dotProduct_zero, zero_add, mul_one]
    rw [this, int2_eq]
    have e : ∀ e i, (C *ᵥ w.strain 0 1 e i) 2 = lam + 2 * mu := by
      intro e i
      rw [strain_eq, sum6, hC.d2]
      simp [slope, value]
    simp only [e]
    rw [integral_const w h.toSound, mul_div_assoc, div_self h.thick_pos.ne', mul_one]
    linarith [hC.mu_pos, hC.bulk_pos]
  · intro hd
    obtain ⟨v, hv, h0⟩ := exists_mulVec_eq_zero_iff.2 hd
    have ev : v = Sum.elim (fun k => v (Sum.inl k)) (fun _ => v (Sum.inr ())) := by
      funext j; cases j <;> rfl
    rw [ev, full_mulVec] at h0
    have h1 := fun k => congrFun h0 (Sum.inl k)
    have h2 := congrFun h0 (Sum.inr ())
    simp only [Sum.elim_inl, Sum.elim_inr, Pi.zero_apply, Pi.add_apply, Pi.smul_apply, smul_eq_mul] at h1 h2
    have := full_zero h hC (fun k => v (Sum.inl k)) (v (Sum.inr ())) (fun k => by
      rw [int1_tangent, ← h1 k]; ring) (by rw [int2_tangent, h2])
    apply hv
    rw [ev, this.1, this.2]
    funext j; cases j <;> rfl

end

/-! ## Steps of elastic walls -/

theorem int1_sub {g : ℕ} (w : Wall m g) (s s' : Field m g (Fin 6 → ℝ)) (k : Fin (m + 1)) :
    w.int1 (fun e i => s e i - s' e i) k = w.int1 s k - w.int1 s' k := by
  simp only [Wall.int1, assemble, ← Finset.sum_sub_distrib]
  refine Finset.sum_congr rfl fun e _ => Finset.sum_congr rfl fun i _ => ?_
  simp only [Wall.local1, Pi.sub_apply]
  split_ifs <;> ring

theorem int2_sub {g : ℕ} (w : Wall m g) (s s' : Field m g (Fin 6 → ℝ)) :
    w.int2 (fun e i => s e i - s' e i) = w.int2 s - w.int2 s' := by
  simp only [Wall.int2, ← Finset.sum_sub_distrib]
  refine Finset.sum_congr rfl fun e _ => Finset.sum_congr rfl fun i _ => ?_
  simp only [Pi.sub_apply]
  ring

theorem strain_sub {g : ℕ} (w : Wall m g) (u v : Fin (m + 1) → ℝ) (z a : ℝ) (e : Fin m) (i : Fin g) :
    w.strain (u - v) (z - a) e i = w.strain u z e i - w.strain v a e i := by
  have := strain_line w u v z a (-1) e i
  rwa [neg_one_smul, neg_one_smul, ← sub_eq_add_neg, ← sub_eq_add_neg, neg_one_mul, ← sub_eq_add_neg] at this

/-- At the time `t` all points of the wall answer elastically. -/
def Answers (b : Problem m 1 H) (k : Log m 1 H) (t : ℝ) (C : Matrix (Fin 6) (Fin 6) ℝ) : Prop :=
  ∀ u z e i, ∃ h a p, (b.mat e).update (b.call k u z (fun j => b.T (b.wall.node j) t) t e i) =
    some ⟨C *ᵥ (b.wall.strain u z e i - b.thermal k (fun j => b.T (b.wall.node j) t) e i), h, C, a, p⟩

/-- The residual of an elastic wall. -/
theorem Answers.rj {b : Problem m 1 H} {k : Log m 1 H} {t : ℝ} {C : Matrix (Fin 6) (Fin 6) ℝ} (h : Answers b k t C)
    (u : Fin (m + 1) → ℝ) (z pl pr : ℝ) : ∃ E, b.rj k u z (fun j => b.T (b.wall.node j) t) pl pr t = some E ∧
      E.R1 = (fun j => b.wall.int1 (fun e i => C *ᵥ (b.wall.strain u z e i -
        b.thermal k (fun j => b.T (b.wall.node j) t) e i)) j - ext1 pl pr j) ∧
      E.R2 = b.wall.int2 (fun e i => C *ᵥ (b.wall.strain u z e i -
        b.thermal k (fun j => b.T (b.wall.node j) t) e i)) - b.wall.ext2 pl pr ∧
      E.J = b.wall.jac fun _ _ => C := by
  choose hh a p hc using h u z
  rw [Problem.rj]
  have : (fun e i => (b.mat e).update (b.call k u z (fun j => b.T (b.wall.node j) t) t e i)) = fun e i => some
      (⟨C *ᵥ (b.wall.strain u z e i - b.thermal k (fun j => b.T (b.wall.node j) t) e i), hh e i, C, a e i, p e i⟩ :
        Out3 H) := by
    funext e i; exact hc e i
  rw [this, calls_some]
  exact ⟨_, rfl, rfl, rfl, rfl⟩

section

variable {b : Problem m 1 H} (hw : Fine b.wall) {C : Matrix (Fin 6) (Fin 6) ℝ} {lam mu : ℝ} (hC : Iso C lam mu)
include hw hC

/-- One correction of the solver removes the residual. -/
theorem corrected {k : Log m 1 H} {t : ℝ} (h : Answers b k t C) (u : Fin (m + 1) → ℝ) (z pl pr : ℝ) (E : Eval m 1 H)
    (hE : b.rj k u z (fun j => b.T (b.wall.node j) t) pl pr t = some E) : ∃ u' z' E', b.next u z E = .ok (u', z') ∧
      b.rj k u' z' (fun j => b.T (b.wall.node j) t) pl pr t = some E' ∧ b.size E' = 0 := by
  obtain ⟨E1, h1, r1, r2, rJ⟩ := h.rj u z pl pr
  rw [hE] at h1
  injection h1 with h1
  subst h1
  have reg := C139_regular hw hC
  have lin1 : ∀ (v : Fin (m + 1) → ℝ) (a : ℝ) j, b.wall.int1 (fun e i => C *ᵥ (b.wall.strain (u - v) (z - a) e i -
      b.thermal k (fun j => b.T (b.wall.node j) t) e i)) j - ext1 pl pr j =
      E.R1 j - ((tri E.J.du E.J.d E.J.dl *ᵥ v) j + E.J.J12 j * a) := by
    intro v a j
    rw [r1, rJ, ← int1_tangent]
    have : (fun e i => C *ᵥ (b.wall.strain (u - v) (z - a) e i - b.thermal k (fun j => b.T (b.wall.node j) t) e i)) =
        fun e i => C *ᵥ (b.wall.strain u z e i - b.thermal k (fun j => b.T (b.wall.node j) t) e i) -
          C *ᵥ b.wall.strain v a e i := by
      funext e i
      rw [strain_sub, ← mulVec_sub]
      congr 1
      abel
    rw [this, int1_sub]
    ring
  have lin2 : ∀ (v : Fin (m + 1) → ℝ) (a : ℝ), b.wall.int2 (fun e i => C *ᵥ (b.wall.strain (u - v) (z - a) e i -
      b.thermal k (fun j => b.T (b.wall.node j) t) e i)) - b.wall.ext2 pl pr =
      E.R2 - (E.J.J21 ⬝ᵥ v + E.J.J22 * a) := by
    intro v a
    rw [r2, rJ, ← int2_tangent]
    have : (fun e i => C *ᵥ (b.wall.strain (u - v) (z - a) e i - b.thermal k (fun j => b.T (b.wall.node j) t) e i)) =
        fun e i => C *ᵥ (b.wall.strain u z e i - b.thermal k (fun j => b.T (b.wall.node j) t) e i) -
          C *ᵥ b.wall.strain v a e i := by
      funext e i
      rw [strain_sub, ← mulVec_sub]
      congr 1
      abel
    rw [this, int2_sub]
    ring
  by_cases hc : b.constrained = true
  · obtain ⟨x, hx, hz⟩ := (C137_constrained E.J.du E.J.d E.J.dl E.R1).1 (by rw [rJ]; exact reg.1)
    obtain ⟨E', h', q1, q2, _⟩ := h.rj (u - x) z pl pr
    refine ⟨u - x, z, E', by rw [Problem.next, if_pos hc, hx], h', ?_⟩
    rw [Problem.size, if_pos hc, norm2, Real.sqrt_eq_zero']
    refine (Finset.sum_eq_zero fun j _ => ?_).le
    have := lin1 x 0 j
    rw [sub_zero] at this
    rw [q1]
    beta_reduce
    rw [this, (hz x).2 rfl, mul_zero, add_zero, sub_self]
    norm_num
  · obtain ⟨⟨x1, x2⟩, hx⟩ := (C137_defined b.raises E.J E.R1 E.R2).2 (by rw [rJ]; exact reg)
    have hs := C137_solves b.raises E.J E.R1 x1 E.R2 x2 hx
    rw [full_mulVec] at hs
    have s1 := fun j => congrFun hs (Sum.inl j)
    have s2 := congrFun hs (Sum.inr ())
    simp only [Sum.elim_inl, Sum.elim_inr, Pi.add_apply, Pi.smul_apply, smul_eq_mul] at s1 s2
    obtain ⟨E', h', q1, q2, _⟩ := h.rj (u - x1) (z - x2) pl pr
    refine ⟨u - x1, z - x2, E', by rw [Problem.next, if_neg hc, hx], h', ?_⟩
    rw [Problem.size, if_neg hc, Real.sqrt_eq_zero']
    have z2 : E'.R2 = 0 := by rw [q2, lin2, s2, sub_self]
    have z1 : ∀ j, E'.R1 j = 0 := by
      intro j
      rw [q1]
      beta_reduce
      rw [lin1, mul_comm (E.J.J12 j), s1, sub_self]
    simp [z1, z2]

/-- **C139.** An elastic wall takes every step, with any tolerances, if two iterations are allowed. -/
theorem C139_takes (o : Opts) (ho : 2 ≤ o.ilimit) (ha : 0 ≤ o.atol) (k : Log m 1 H) (t : ℝ) (h : Answers b k t C) :
    ∃ r, b.takeStep k o t = .ok r := by
  obtain ⟨n, hn⟩ : ∃ n, o.ilimit = n + 2 := ⟨o.ilimit - 2, by omega⟩
  unfold Problem.takeStep
  simp only
  obtain ⟨E, hE, _⟩ := h.rj (guess (fun x => o.predict • x) k.displacements)
    (if b.constrained then 0 else guess (fun x => o.predict * x) k.axialstrain) (b.p t) (b.pext t)
  rw [hE]
  simp only
  rw [hn, Problem.iterate]
  by_cases c : o.atol < b.size E ∧ o.rtol < b.size E / b.size E
  · rw [if_pos c]
    obtain ⟨u', z', E', h1, h2, h3⟩ := corrected hw hC h _ _ _ _ E hE
    rw [h1]
    simp only
    rw [h2]
    simp only
    rw [Problem.iterate, if_neg (fun c => by rw [h3] at c; exact absurd c.1 (not_lt.2 ha))]
    exact ⟨_, rfl⟩
  · rw [if_neg c]
    exact ⟨_, rfl⟩

/-- **C139.** So every call of `step` returns, and records a state that belongs to the time asked for. -/
theorem C139_steps (o : Opts) (ho : 2 ≤ o.ilimit) (ha : 0 ≤ o.atol) (hd : 0 < o.div) (fuel : ℕ) (k : Log m 1 H) (n : ℕ)
    (h0 : Aligned k n) (t : ℝ) (h : Answers b k t C) :
    ∃ r, b.step o (fuel + 2) k t = .ok (k.push t r) ∧ Belongs b k t r := by
  obtain ⟨r, hr⟩ := C139_takes hw hC o ho ha k t h
  exact ⟨r, C138_direct_partial b o hd fuel k n h0 t r hr⟩

/-- **C139.** With tolerances of zero the displacements and the axial strain recorded are the only ones in equilibrium. -/
theorem C139_only (o : Opts) (ho : o.atol = 0 ∧ o.rtol = 0) (k : Log m 1 H) (t : ℝ) (h : Answers b k t C) (r : Row m 1 H)
    (hr : b.takeStep k o t = .ok r) (v : Fin (m + 1) → ℝ) (a : ℝ) (hc : b.constrained = true → a = 0) (E : Eval m 1 H)
    (hE : b.rj k v a (fun j => b.T (b.wall.node j) t) (b.p t) (b.pext t) t = some E) (h1 : E.R1 = 0)
    (h2 : b.constrained = false → E.R2 = 0) : r.u = v ∧ r.ez = a := by
  have hb := C138_belongs b k o t r hr
  have hm : misfit b r.stresses r.pl r.pr = 0 := by
    refine le_antisymm ?_ (misfit_nonneg _ _ _ _)
    have := C138_accepted b k o (by rw [ho.1]) t r hr
    rw [ho.1, ho.2, zero_mul, or_self] at this
    exact this
  have hst : ∀ e i, r.stresses e i = C *ᵥ (b.wall.strain r.u r.ez e i -
      b.thermal k (fun j => b.T (b.wall.node j) t) e i) := by
    intro e i
    obtain ⟨out, ho1, ho2, _⟩ := hb.material e i
    obtain ⟨hh, aa, pp, hx⟩ := h r.u r.ez e i
    have e1 : b.call k r.u r.ez (fun j => b.T (b.wall.node j) t) t e i = ⟨r.mstrains e i, k.mstrains.last e i,
        value b.wall r.T e i, value b.wall k.temperatures.last e i, t, k.times.last, k.stresses.last e i,
        k.histories.last e i, 0, 0⟩ := by
      rw [Problem.call, N_dot, N_dot, hb.mech, hb.strain, hb.thermal, ← strain_eq, hb.T, Problem.thermal, N_dot, N_dot]
    rw [e1, ho1] at hx
    injection hx with hx
    rw [ho2, hx]
  obtain ⟨E1, hE1, r1, r2, _⟩ := h.rj v a (b.p t) (b.pext t)
  rw [hE] at hE1
  injection hE1 with hE1
  subst hE1
  have diff : ∀ e i, C *ᵥ b.wall.strain (r.u - v) (r.ez - a) e i = r.stresses e i - C *ᵥ (b.wall.strain v a e i -
      b.thermal k (fun j => b.T (b.wall.node j) t) e i) := by
    intro e i
    rw [hst, strain_sub, ← mulVec_sub]
    congr 1
    abel
  have n1 : ∀ j, b.wall.int1 r.stresses j - ext1 r.pl r.pr j = 0 := by
    have h0 := (norm_le_misfit b r.stresses r.pl r.pr).trans hm.le
    have h0 := le_antisymm h0 (Real.sqrt_nonneg _)
    rw [Real.sqrt_eq_zero (Finset.sum_nonneg fun _ _ => sq_nonneg _),
      Finset.sum_eq_zero_iff_of_nonneg (fun _ _ => sq_nonneg _)] at h0
    exact fun j => pow_eq_zero_iff (two_ne_zero) |>.1 (h0 j (Finset.mem_univ j))
  have z1 : ∀ j, b.wall.int1 (fun e i => C *ᵥ b.wall.strain (r.u - v) (r.ez - a) e i) j = 0 := by
    intro j
    have e : (fun e i => C *ᵥ b.wall.strain (r.u - v) (r.ez - a) e i) = fun e i => r.stresses e i -
        C *ᵥ (b.wall.strain v a e i - b.thermal k (fun j => b.T (b.wall.node j) t) e i) := by
      funext e i; exact diff e i
    rw [e, int1_sub]
    have q1 := congrFun (r1.symm.trans h1) j
    have q2 := n1 j
    rw [hb.pl, hb.pr] at q2
    simp only [Pi.zero_apply] at q1
    linarith
  by_cases hcon : b.constrained = true
  · have ez : r.ez = a := (hb.fixed hcon).trans (hc hcon).symm
    rw [ez, sub_self] at z1
    exact ⟨sub_eq_zero.1 (plane_zero hw hC _ z1), ez⟩
  · have z2 : b.wall.int2 (fun e i => C *ᵥ b.wall.strain (r.u - v) (r.ez - a) e i) = 0 := by
      have e : (fun e i => C *ᵥ b.wall.strain (r.u - v) (r.ez - a) e i) = fun e i => r.stresses e i -
          C *ᵥ (b.wall.strain v a e i - b.thermal k (fun j => b.T (b.wall.node j) t) e i) := by
        funext e i; exact diff e i
      rw [e, int2_sub]
      have q1 := r2.symm.trans (h2 (by simpa using hcon))
      have q2 : b.wall.int2 r.stresses - b.wall.ext2 r.pl r.pr = 0 := by
        have h0 := hm
        rw [misfit, if_neg hcon, Real.sqrt_eq_zero (add_nonneg (Finset.sum_nonneg fun _ _ => sq_nonneg _) (sq_nonneg _))]
          at h0
        have := Finset.sum_nonneg (s := Finset.univ) fun (j : Fin (m + 1)) _ =>
          sq_nonneg (b.wall.int1 r.stresses j - ext1 r.pl r.pr j)
        have h3 : (b.wall.int2 r.stresses - b.wall.ext2 r.pl r.pr) ^ 2 = 0 :=
          le_antisymm (by linarith) (sq_nonneg _)
        exact pow_eq_zero_iff (two_ne_zero) |>.1 h3
      rw [hb.pl, hb.pr] at q2
      linarith
    have := full_zero hw hC _ _ z1 z2
    exact ⟨sub_eq_zero.1 this.1, sub_eq_zero.1 this.2⟩

end

/-! ## Equal pressures and uniform temperatures -/

/-- Linear elasticity, for all inputs. -/
def Elastic (M : Model3 H) (C : Matrix (Fin 6) (Fin 6) ℝ) : Prop :=
  ∀ q, ∃ h a p, M.update q = some ⟨C *ᵥ q.e1, h, C, a, p⟩

theorem Elastic.answers {b : Problem m 1 H} {C : Matrix (Fin 6) (Fin 6) ℝ} (h : ∀ e, Elastic (b.mat e) C) (k : Log m 1 H)
    (t : ℝ) : Answers b k t C := fun _ _ e _ => h e _

/-- **C139.** A wall of one elastic material that is free to expand, with the same pressure on both sides and a temperature that
is the same at all radii, has the stress `-p` in all directions at each point, in every row of every history. -/
theorem C139_uniform (b : Problem m 1 H) (hw : Fine b.wall) {C : Matrix (Fin 6) (Fin 6) ℝ} {lam mu : ℝ}
    (hC : Iso C lam mu) (hM : ∀ e, Elastic (b.mat e) C) (o : Opts) (hd : 0 < o.div) (ho : o.atol = 0 ∧ o.rtol = 0)
    (hf : b.constrained = false) (hp : b.pext = b.p) (T : ℝ → ℝ) (hT : ∀ r t, b.T r t = T t) (α : ℝ → ℝ)
    (hα : ∀ e, (b.mat e).alpha = α) (k : Log m 1 H) (h : Reach b o k) :
    Made b (fun r => ∀ e i, r.stresses e i 0 = -r.pl ∧ r.stresses e i 1 = -r.pl ∧ r.stresses e i 2 = -r.pl) k := by
  have hb3 : 3 * lam + 2 * mu ≠ 0 := hC.bulk_pos.ne'
  refine (h.made_inv hd (fun r => (∃ c, r.T = fun _ => c) ∧ ∃ θ : ℝ, ∀ e i, r.tstrains e i = θ • isoDir) _ ?_ ?_).2
  · refine ⟨⟨T 0, ?_⟩, 0, fun e i => ?_⟩
    · funext j; exact hT _ _
    · rw [zero_smul]; rfl
  · rintro k τ r ⟨⟨c, hc⟩, θ, hθ⟩ hr
    have hb := C138_belongs b k o τ r hr
    have hTr : r.T = fun _ => T τ := by rw [hb.T]; funext j; exact hT _ _
    have hth : ∀ e i, b.thermal k (fun j => b.T (b.wall.node j) τ) e i = (θ + α (T τ) * (T τ - c)) • isoDir := by
      intro e i
      have e1 : (fun j => b.T (b.wall.node j) τ) = fun _ => T τ := by funext j; exact hT _ _
      have e2 : k.temperatures.last = fun _ => c := hc
      have e3 : k.tstrains.last e i = θ • isoDir := hθ e i
      rw [Problem.thermal, N_dot, N_dot, e1, e2, value_const, value_const, e3, hα, add_smul]
    set s := θ + α (T τ) * (T τ - c) with hs
    set d := s - b.p τ / (3 * lam + 2 * mu) with hdd
    have hstrain : ∀ e i, b.wall.strain (d • b.wall.node) d e i = ![d, d, d, 0, 0, 0] := by
      intro e i
      have hr := (hw.rad_pos e i).ne'
      rw [rad_eq] at hr
      have hv : value b.wall (d • b.wall.node) e i = d * value b.wall b.wall.node e i := by
        simp only [value, Pi.smul_apply, smul_eq_mul]; ring
      have hsl : slope b.wall (d • b.wall.node) e i = d := by
        have := slope_node b.wall hw.toSound e i
        simp only [slope, Pi.smul_apply, smul_eq_mul] at this ⊢
        rw [← mul_sub, mul_div_assoc, this, mul_one]
      rw [strain_eq, hv, hsl, mul_div_assoc, div_self hr, mul_one]
    have hmech : ∀ e i, b.wall.strain (d • b.wall.node) d e i -
        b.thermal k (fun j => b.T (b.wall.node j) τ) e i = ![d - s, d - s, d - s, 0, 0, 0] := by
      intro e i
      rw [hstrain, hth]
      funext j
      fin_cases j <;> simp [isoDir]
    have hstress : ∀ e i, (∀ j : Fin 6, j = 0 ∨ j = 1 ∨ j = 2 → (C *ᵥ (b.wall.strain (d • b.wall.node) d e i -
        b.thermal k (fun j => b.T (b.wall.node j) τ) e i)) j = -b.p τ) := by
      intro e i j hj
      rw [hmech, sum6]
      have hds : (3 * lam + 2 * mu) * (d - s) = -b.p τ := by rw [hdd]; field_simp; ring
      rcases hj with rfl | rfl | rfl
      · rw [hC.d0, hC.o01, hC.o02, ← hds]; ring
      · rw [hC.o10, hC.d1, hC.o12, ← hds]; ring
      · rw [hC.o20, hC.o21, hC.d2, ← hds]; ring
    have ha := Elastic.answers hM k τ
    obtain ⟨E, hE, r1, r2, _⟩ := ha.rj (d • b.wall.node) d (b.p τ) (b.pext τ)
    have hpatch := C136_patch b.wall hw.toSound (fun e i => C *ᵥ (b.wall.strain (d • b.wall.node) d e i -
        b.thermal k (fun j => b.T (b.wall.node j) τ) e i)) (b.p τ)
        (fun e i => ⟨hstress e i 0 (by simp), hstress e i 1 (by simp), hstress e i 2 (by simp)⟩)
    have hsol := C139_only hw hC o ho k τ ha r hr (d • b.wall.node) d (fun h => by rw [hf] at h; cases h) E hE
      (by rw [r1, hp]; exact funext hpatch.1) (fun _ => by rw [r2, hp]; exact hpatch.2)
    refine ⟨⟨⟨T τ, hTr⟩, s, fun e i => ?_⟩, fun e i => ?_⟩
    · rw [hb.thermal, ← hth e i, Problem.thermal, N_dot, N_dot, hb.T]
    · obtain ⟨out, ho1, ho2, _⟩ := hb.material e i
      obtain ⟨hh, aa, pp, hx⟩ := hM e ⟨r.mstrains e i, k.mstrains.last e i,
        value b.wall r.T e i, value b.wall k.temperatures.last e i, τ, k.times.last, k.stresses.last e i,
        k.histories.last e i, 0, 0⟩
      rw [ho1] at hx
      injection hx with hx
      have hm : r.mstrains e i = b.wall.strain (d • b.wall.node) d e i -
          b.thermal k (fun j => b.T (b.wall.node j) τ) e i := by
        rw [hb.mech, hb.strain, hb.thermal, ← strain_eq, hsol.1, hsol.2, hb.T, Problem.thermal, N_dot, N_dot]
      rw [ho2, hx, hb.pl]
      show (C *ᵥ r.mstrains e i) 0 = _ ∧ (C *ᵥ r.mstrains e i) 1 = _ ∧ (C *ᵥ r.mstrains e i) 2 = _
      rw [hm]
      exact ⟨hstress e i 0 (by simp), hstress e i 1 (by simp), hstress e i 2 (by simp)⟩

/-! ## Concrete walls -/

/-- Elastic constants. -/
def C0 : Matrix (Fin 6) (Fin 6) ℝ := of fun i j => if i = j then 3 else if i.val < 3 ∧ j.val < 3 then 1 else 0

theorem C0_iso : Iso C0 1 1 := by
  constructor <;> norm_num [C0] <;> decide

theorem wall2_fine : Fine wall2 := by
  refine ⟨wall2_sound, rfl, ?_⟩
  intro e
  fin_cases e
  · norm_num [wall2]
  · show (3 : ℝ) ≤ 3 * 2
    norm_num

/-- An elastic material that has no data at the temperature 2. -/
noncomputable def gap : Model3 Unit := by
  classical
  exact ⟨fun q => if q.T1 = 2 then none else some ⟨C0 *ᵥ q.e1, (), C0, 0, 0⟩, fun _ => 1, ()⟩

/-- A wall of this material that is heated and put under pressure in proportion to the time. -/
noncomputable def gapWall : Problem 2 1 Unit :=
  ⟨wall2, fun _ => gap, fun _ _ _ _ => 0, fun _ t => t, fun t => t, fun _ => 0, false, .runtime⟩

/-- The options of the code, with small numbers. -/
noncomputable def opts0 : Opts := ⟨1 / 1000000, 1 / 100000000, 10, 2, 4, 1⟩

theorem gap_answers (k : Log 2 1 Unit) (t : ℝ) (ht : t ≠ 2) : Answers gapWall k t C0 := by
  intro u z e i
  refine ⟨(), 0, 0, ?_⟩
  have hT : gapWall.wall.N i ⬝ᵥ ends (fun j => gapWall.T (gapWall.wall.node j) t) e = t := by
    rw [N_dot]
    exact value_const _ t e i
  show gap.update _ = _
  unfold gap
  simp only
  rw [if_neg]
  · rfl
  · show ¬ gapWall.wall.N i ⬝ᵥ ends (fun j => gapWall.T (gapWall.wall.node j) t) e = 2
    rw [hT]
    exact ht

theorem gap_raises (k : Log 2 1 Unit) (o : Opts) : gapWall.takeStep k o 2 = .error .runtime := by
  have : ∀ u z pl pr, gapWall.rj k u z (fun j => gapWall.T (gapWall.wall.node j) 2) pl pr 2 = none := by
    intro u z pl pr
    have hT : gapWall.wall.N 0 ⬝ᵥ ends (fun j => gapWall.T (gapWall.wall.node j) 2) 0 = 2 := by
      rw [N_dot]
      exact value_const _ 2 0 0
    rw [Problem.rj, calls, dif_neg, Option.map_none]
    intro h
    have := h 0 0
    have e : (gapWall.mat 0).update (gapWall.call k u z (fun j => gapWall.T (gapWall.wall.node j) 2) 2 0 0) = none := by
      show gap.update _ = _
      unfold gap
      simp only
      exact if_pos hT
    rw [e] at this
    cases this
  unfold Problem.takeStep
  simp only
  rw [this]
  rfl

/-- **C139, disagreement.** The substeps of C138 on a concrete wall, with the options of the code: the pressure is the time; a step
to the time 2 is recorded with the pressure and the temperatures of the time 4. -/
theorem C139_substeps_disagreement : ∃ k', gapWall.step opts0 21 gapWall.start 2 = .ok k' ∧ k'.times.last = 2 ∧
    k'.pressures.last = 4 ∧ k'.temperatures.last = fun _ => 4 := by
  have hw : Fine gapWall.wall := wall2_fine
  have h1 := gap_raises gapWall.start opts0
  have ho : 2 ≤ opts0.ilimit := by simp [opts0]
  have ha : 0 ≤ opts0.atol := by norm_num [opts0]
  have e0 : gapWall.start.times.last = 0 := rfl
  obtain ⟨r1, h2⟩ := C139_takes hw C0_iso opts0 ho ha gapWall.start 1 (gap_answers _ 1 (by norm_num))
  obtain ⟨r2, h3⟩ := C139_takes hw C0_iso opts0 ho ha (gapWall.start.push 2 r1) 4 (gap_answers _ 4 (by norm_num))
  obtain ⟨k', a, b, c, d, _⟩ := C138_substeps_disagreement gapWall opts0 rfl (by simp [opts0]) 17 gapWall.start 1
    (start_aligned _) 2 r1 r2 h1 (by rw [e0]; norm_num; exact h2) (by rw [e0]; norm_num; exact h3)
  refine ⟨k', a, b, c.trans ?_, d.trans ?_⟩
  · show (2 : ℝ) + (2 - 0) = 4
    norm_num
  · funext j
    show (2 : ℝ) + (2 - 0) = 4
    norm_num

/-- Beside C138 and C139: a step that is taken, with a row that belongs to its time, and with a second one after it. -/
example : ∃ r r', gapWall.step opts0 21 gapWall.start 1 = .ok (gapWall.start.push 1 r) ∧ Belongs gapWall gapWall.start 1 r ∧
    gapWall.step opts0 21 (gapWall.start.push 1 r) 3 = .ok ((gapWall.start.push 1 r).push 3 r') := by
  have hw : Fine gapWall.wall := wall2_fine
  have ho : 2 ≤ opts0.ilimit := by simp [opts0]
  have ha : 0 ≤ opts0.atol := by norm_num [opts0]
  obtain ⟨r, h1, h2⟩ := C139_steps hw C0_iso opts0 ho ha (by simp [opts0]) 19 gapWall.start 1 (start_aligned _) 1
    (gap_answers _ 1 (by norm_num))
  obtain ⟨r', h3, _⟩ := C139_steps hw C0_iso opts0 ho ha (by simp [opts0]) 19 (gapWall.start.push 1 r) 2
    ((start_aligned _).push _ _) 3 (gap_answers _ 3 (by norm_num))
  exact ⟨r, r', h1, h2, h3⟩

/-- An elastic material. -/
noncomputable def plain : Model3 Unit := ⟨fun q => some ⟨C0 *ᵥ q.e1, (), C0, 0, 0⟩, fun _ => 1, ()⟩

/-- Beside C136: the tangents of an elastic wall are the derivatives of its stresses. -/
example (k : Log 2 1 Unit) (T : Fin 3 → ℝ) (t : ℝ) (u : Fin 3 → ℝ) (ez : ℝ) :
    let b : Problem 2 1 Unit := ⟨wall2, fun _ => plain, fun _ _ _ _ => 0, fun _ t => t, fun t => t, fun _ => 0, false, .runtime⟩
    let resp : Field 2 1 ((Fin 6 → ℝ) → Out3 Unit) := fun _ _ x => ⟨C0 *ᵥ x, (), C0, 0, 0⟩
    Responds b k T t resp ∧ ∀ e i δ, HasDerivAt
      (fun x : ℝ => (resp e i ((b.wall.strain u ez e i - b.thermal k T e i) + x • δ)).s)
      ((resp e i (b.wall.strain u ez e i - b.thermal k T e i)).A *ᵥ δ) 0 := by
  intro b resp
  refine ⟨fun _ _ _ _ => rfl, fun e i δ => ?_⟩
  have : (fun x : ℝ => (resp e i ((b.wall.strain u ez e i - b.thermal k T e i) + x • δ)).s) =
      fun x : ℝ => C0 *ᵥ (b.wall.strain u ez e i - b.thermal k T e i) + x • (C0 *ᵥ δ) := by
    funext x
    show C0 *ᵥ _ = _
    rw [mulVec_add, mulVec_smul]
  rw [this]
  have h := ((hasDerivAt_id (0 : ℝ)).smul_const (C0 *ᵥ δ)).const_add
    (C0 *ᵥ (b.wall.strain u ez e i - b.thermal k T e i))
  simpa using h

/-- Beside C139: a history with equal pressures. -/
example : let b : Problem 2 1 Unit :=
      ⟨wall2, fun _ => plain, fun _ _ _ _ => 0, fun _ t => t, fun t => t, fun t => t, false, .runtime⟩
    ∃ r, Reach b { opts0 with atol := 0, rtol := 0 } (b.start.push 5 r) ∧ r.pl = 5 ∧ r.stresses 0 0 0 = -5 := by
  intro b
  have hM : ∀ e, Elastic (b.mat e) C0 := fun e q => ⟨(), 0, 0, rfl⟩
  have hw : Fine b.wall := wall2_fine
  obtain ⟨r, h1, h2⟩ := C139_steps hw C0_iso { opts0 with atol := 0, rtol := 0 } (by simp [opts0]) le_rfl (by simp [opts0]) 19
    b.start 1 (start_aligned _) 5 (Elastic.answers hM b.start 5)
  have hr : Reach b { opts0 with atol := 0, rtol := 0 } (b.start.push 5 r) := .step .start h1
  have hu := C139_uniform b hw C0_iso hM { opts0 with atol := 0, rtol := 0 } (by simp [opts0]) ⟨rfl, rfl⟩ rfl rfl (fun t => t)
    (fun _ _ => rfl) (fun _ => 1) (fun _ => rfl) _ hr
  refine ⟨r, hr, h2.pl, ?_⟩
  have := (hu.row (by simp [size, Log.push, Series.push]) 0 0).1
  have hp : r.pl = 5 := h2.pl
  rw [← hp]
  exact this

end Neml.Axisym
