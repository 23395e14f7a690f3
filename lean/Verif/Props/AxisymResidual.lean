import Verif.Model.Axisym
import Mathlib.Analysis.Calculus.Deriv.Add
import Mathlib.Analysis.Calculus.Deriv.Mul
import Mathlib.Analysis.Calculus.Deriv.Prod
import Mathlib.Algebra.BigOperators.Ring.Finset

/-!
# C136: the residual of the axisymmetric problem
-/

namespace Neml.Axisym

open Matrix Neml.PySolve Neml.Uniaxial Neml.Driver

variable {m g : ℕ} {H : Type}

/-- A sensible wall: elements of some length at positive radii, points inside the elements, weights that add up to the
length of [-1, 1]. -/
structure Sound (w : Wall m g) : Prop where
  some : 0 < m
  pos : 0 < w.node 0
  lt : ∀ e : Fin m, w.node e.castSucc < w.node e.succ
  inside : ∀ i, -1 ≤ w.xi i ∧ w.xi i ≤ 1
  weight : ∑ i, w.wt i = 2

/-- A quantity integrated through the wall with the rule. -/
noncomputable def integral (w : Wall m g) (f : Field m g ℝ) : ℝ := ∑ e, ∑ i, w.wt i * (w.len e / 2) * f e i

/-- The value at a point of a function that is linear in the elements. -/
noncomputable def value (w : Wall m g) (v : Fin (m + 1) → ℝ) : Field m g ℝ := fun e i =>
  v e.castSucc + (v e.succ - v e.castSucc) * ((1 + w.xi i) / 2)

/-- Its slope. -/
noncomputable def slope (w : Wall m g) (v : Fin (m + 1) → ℝ) : Field m g ℝ := fun e _ =>
  (v e.succ - v e.castSucc) / (w.node e.succ - w.node e.castSucc)

theorem N_dot (w : Wall m g) (v : Fin (m + 1) → ℝ) (e : Fin m) (i : Fin g) : w.N i ⬝ᵥ ends v e = value w v e i := by
  simp only [Wall.N, ends, value, dotProduct, Fin.sum_univ_two, cons_val_zero, cons_val_one]
  ring

theorem rad_eq (w : Wall m g) (e : Fin m) (i : Fin g) : w.rad e i = value w w.node e i := N_dot w w.node e i

theorem B_dot (v : Fin (m + 1) → ℝ) (e : Fin m) : B ⬝ᵥ ends v e = (v e.succ - v e.castSucc) / 2 := by
  simp only [B, ends, dotProduct, Fin.sum_univ_two, cons_val_zero, cons_val_one]
  ring

theorem strain_eq (w : Wall m g) (v : Fin (m + 1) → ℝ) (a : ℝ) (e : Fin m) (i : Fin g) :
    w.strain v a e i = ![slope w v e i, value w v e i / value w w.node e i, a, 0, 0, 0] := by
  rw [Wall.strain, N_dot, B_dot, rad_eq, div_mul_cancel₀ _ (two_ne_zero), slope, Wall.len]

namespace Sound

variable {w : Wall m g} (h : Sound w)
include h

theorem len_pos (e : Fin m) : 0 < w.len e := sub_pos.2 (h.lt e)

theorem mono : ∀ k : Fin (m + 1), w.node 0 ≤ w.node k := by
  intro k
  induction k using Fin.induction with
  | zero => exact le_rfl
  | succ e ih => exact ih.trans (h.lt e).le

theorem node_pos (k : Fin (m + 1)) : 0 < w.node k := h.pos.trans_le (h.mono k)

theorem rad_pos (e : Fin m) (i : Fin g) : 0 < w.rad e i := by
  have hi := h.inside i
  have h0 := h.node_pos e.castSucc
  have h1 := h.lt e
  rw [rad_eq, value]
  have : 0 ≤ (w.node e.succ - w.node e.castSucc) * ((1 + w.xi i) / 2) :=
    mul_nonneg (by linarith) (by linarith [hi.1])
  linarith

theorem inner_lt_outer : w.inner < w.outer := by
  have hm := h.some
  obtain ⟨n, rfl⟩ : ∃ n, m = n + 1 := ⟨m - 1, by omega⟩
  refine (h.mono (Fin.last n).castSucc).trans_lt ?_
  have := h.lt (Fin.last n)
  rwa [Fin.succ_last] at this

theorem thick_pos : 0 < w.thick := sub_pos.2 h.inner_lt_outer

end Sound

theorem assemble_sum (f : Field m g (Fin 2 → ℝ)) (v : Fin (m + 1) → ℝ) :
    ∑ k, assemble f k * v k = ∑ e, ∑ i, (f e i 0 * v e.castSucc + f e i 1 * v e.succ) := by
  simp only [assemble, Finset.sum_mul]
  rw [Finset.sum_comm]
  refine Finset.sum_congr rfl fun e _ => ?_
  rw [Finset.sum_comm]
  refine Finset.sum_congr rfl fun i _ => ?_
  simp only [add_mul, ite_mul, zero_mul, Finset.sum_add_distrib, Finset.sum_ite_eq', Finset.mem_univ, if_true]

theorem ext_sum (hm : 0 < m) (pl pr : ℝ) (v : Fin (m + 1) → ℝ) :
    ∑ k, ext1 pl pr k * v k = pl * v 0 - pr * v (Fin.last m) := by
  have hne : (0 : Fin (m + 1)) ≠ Fin.last m := by
    intro e
    have := congrArg Fin.val e
    simp at this
    omega
  have : ∀ k, ext1 pl pr k * v k = (if k = 0 then pl * v k else 0) + if k = Fin.last m then -pr * v k else 0 := by
    intro k
    unfold ext1
    by_cases h1 : k = Fin.last m
    · rw [if_pos h1, if_neg (fun e => hne (e.symm.trans h1)), if_pos h1, zero_add]
    · rw [if_neg h1, if_neg h1, add_zero]
      by_cases h0 : k = 0
      · rw [if_pos h0, if_pos h0]
      · rw [if_neg h0, if_neg h0, zero_mul]
  simp only [this, Finset.sum_add_distrib, Finset.sum_ite_eq', Finset.mem_univ, if_true]
  ring

theorem local_sum (w : Wall m g) (s : Fin 6 → ℝ) (e : Fin m) (i : Fin g) (hl : w.len e ≠ 0) (v : Fin (m + 1) → ℝ) :
    w.local1 s e i 0 * v e.castSucc + w.local1 s e i 1 * v e.succ = w.wt i * (w.len e / 2) *
      (s 0 * slope w v e i + (s 1 - s 0) * (value w v e i / value w w.node e i)) := by
  have hs : slope w v e i = (v e.succ - v e.castSucc) / w.len e := rfl
  rw [hs, ← rad_eq]
  simp only [Wall.local1, B, Wall.N, value, cons_val_zero, cons_val_one]
  field_simp
  ring

/-- **C136.** The residual is the principle of virtual work: tested with any displacement `v` that is linear in the elements,
it is the work of the stresses in the wall less the work of the pressures at the two sides. -/
theorem C136_virtual_work (w : Wall m g) (h : Sound w) (s : Field m g (Fin 6 → ℝ)) (pl pr : ℝ) (v : Fin (m + 1) → ℝ) :
    ∑ k, (w.int1 s k - ext1 pl pr k) * v k =
      integral w (fun e i => s e i 0 * slope w v e i + (s e i 1 - s e i 0) * (value w v e i / value w w.node e i)) -
        (pl * v 0 - pr * v (Fin.last m)) := by
  have e : ∀ k, (w.int1 s k - ext1 pl pr k) * v k = w.int1 s k * v k - ext1 pl pr k * v k := fun k => sub_mul _ _ _
  simp only [e, Finset.sum_sub_distrib]
  rw [ext_sum h.some, Wall.int1, assemble_sum, integral]
  congr 1
  exact Finset.sum_congr rfl fun e _ => Finset.sum_congr rfl fun i _ => local_sum w _ e i (h.len_pos e).ne' v

theorem slope_node (w : Wall m g) (h : Sound w) (e : Fin m) (i : Fin g) : slope w w.node e i = 1 :=
  div_self (h.len_pos e).ne'

/-- **C136.** Hoop equilibrium holds exactly on every mesh: without residual the hoop stress integrated through the wall
balances the pressures on half of the vessel. -/
theorem C136_hoop (w : Wall m g) (h : Sound w) (s : Field m g (Fin 6 → ℝ)) (pl pr : ℝ)
    (hR : ∀ k, w.int1 s k - ext1 pl pr k = 0) :
    integral w (fun e i => s e i 1) = pl * w.inner - pr * w.outer := by
  have := C136_virtual_work w h s pl pr w.node
  simp only [hR, zero_mul, Finset.sum_const_zero] at this
  rw [eq_comm, sub_eq_zero] at this
  rw [← Wall.inner, ← Wall.outer] at this
  rw [← this]
  unfold integral
  refine Finset.sum_congr rfl fun e _ => Finset.sum_congr rfl fun i _ => ?_
  beta_reduce
  rw [slope_node w h, ← rad_eq, div_self (h.rad_pos e i).ne']
  ring

theorem len_sum (w : Wall m g) : ∑ e, w.len e = w.thick := by
  unfold Wall.len Wall.thick Wall.outer Wall.inner
  rw [Finset.sum_sub_distrib]
  have := (Fin.sum_univ_succ w.node).symm.trans (Fin.sum_univ_castSucc w.node)
  linarith

theorem integral_const (w : Wall m g) (h : Sound w) (c : ℝ) : integral w (fun _ _ => c) = c * w.thick := by
  unfold integral
  have : ∀ e, ∑ i, w.wt i * (w.len e / 2) * c = w.len e * c := by
    intro e
    rw [← Finset.sum_mul, ← Finset.sum_mul, h.weight]
    ring
  simp only [this]
  rw [← Finset.sum_mul, len_sum, mul_comm]

theorem int2_eq (w : Wall m g) (s : Field m g (Fin 6 → ℝ)) : w.int2 s = integral w (fun e i => s e i 2) / w.thick := by
  unfold Wall.int2 integral
  simp only [div_eq_mul_inv, Finset.sum_mul]
  refine Finset.sum_congr rfl fun e _ => Finset.sum_congr rfl fun i _ => ?_
  ring

theorem area_eq (w : Wall m g) : w.outer ^ 2 - w.inner ^ 2 = w.thick * (w.outer + w.inner) := by
  unfold Wall.thick; ring

theorem Sound.area_pos {w : Wall m g} (h : Sound w) : 0 < w.outer ^ 2 - w.inner ^ 2 := by
  rw [area_eq]
  have h1 := h.node_pos 0
  have h2 := h.node_pos (Fin.last m)
  exact mul_pos h.thick_pos (add_pos h2 h1)

theorem eq_zero_of_tested {n : ℕ} (r : Fin n → ℝ) (h : ∀ v : Fin n → ℝ, ∑ k, r k * v k = 0) (k : Fin n) : r k = 0 := by
  have := h (Pi.single k 1)
  simpa [Pi.single_apply] using this

theorem slope_sum (w : Wall m g) (h : Sound w) (v : Fin (m + 1) → ℝ) (c : ℝ) :
    integral w (fun e i => c * slope w v e i) = c * (v (Fin.last m) - v 0) := by
  unfold integral
  have : ∀ e, ∑ i, w.wt i * (w.len e / 2) * (c * slope w v e i) = c * (v e.succ - v e.castSucc) := by
    intro e
    have hs : ∀ i, slope w v e i = (v e.succ - v e.castSucc) / w.len e := fun _ => rfl
    simp only [hs]
    rw [← Finset.sum_mul, ← Finset.sum_mul, h.weight]
    have := (h.len_pos e).ne'
    field_simp
  simp only [this]
  rw [← Finset.mul_sum, Finset.sum_sub_distrib]
  have := (Fin.sum_univ_succ v).symm.trans (Fin.sum_univ_castSucc v)
  congr 1
  linarith

/-- **C136.** Under the same pressure on both sides a hydrostatic stress is an exact solution, on every mesh. -/
theorem C136_patch (w : Wall m g) (h : Sound w) (s : Field m g (Fin 6 → ℝ)) (p : ℝ)
    (hs : ∀ e i, s e i 0 = -p ∧ s e i 1 = -p ∧ s e i 2 = -p) :
    (∀ k, w.int1 s k - ext1 p p k = 0) ∧ w.int2 s - w.ext2 p p = 0 := by
  constructor
  · refine eq_zero_of_tested _ fun v => ?_
    rw [C136_virtual_work w h s p p v]
    have e : (fun e i => s e i 0 * slope w v e i + (s e i 1 - s e i 0) * (value w v e i / value w w.node e i)) =
        fun e i => -p * slope w v e i := by
      funext e i
      rw [(hs e i).1, (hs e i).2.1]
      ring
    rw [e, slope_sum w h]
    ring
  · have e : (fun e i => s e i 2) = fun (_ : Fin m) (_ : Fin g) => -p := by
      funext e i; exact (hs e i).2.2
    rw [int2_eq, e, integral_const w h, mul_div_assoc, div_self h.thick_pos.ne', Wall.ext2]
    have := h.area_pos.ne'
    field_simp
    ring

/-- **C136.** What the axial residual balances: the axial stress averaged over the thickness is the axial load per area. -/
theorem C136_axial (w : Wall m g) (h : Sound w) (s : Field m g (Fin 6 → ℝ)) (pl pr : ℝ) :
    w.int2 s - w.ext2 pl pr = 0 ↔ integral w (fun e i => s e i 2) / w.thick =
      (pl * w.inner ^ 2 - pr * w.outer ^ 2) / (w.outer ^ 2 - w.inner ^ 2) := by
  rw [int2_eq, sub_eq_zero, Wall.ext2, sub_div]

/-- **C136.** Without axial residual the axial force, up to the factor `2 * π`, differs from that of the pressures on closed
ends by the moment of the axial stress about the middle of the wall: it is balanced only if the axial stress has no such
moment. Missing to a full equilibrium: the weight with the radius in the code. -/
theorem C136_axial_partial (w : Wall m g) (h : Sound w) (s : Field m g (Fin 6 → ℝ)) (pl pr : ℝ)
    (hR : w.int2 s - w.ext2 pl pr = 0) :
    integral w (fun e i => s e i 2 * value w w.node e i) - (pl * w.inner ^ 2 - pr * w.outer ^ 2) / 2 =
      integral w (fun e i => s e i 2 * (value w w.node e i - (w.inner + w.outer) / 2)) := by
  have h1 := (C136_axial w h s pl pr).1 hR
  have ht := h.thick_pos.ne'
  have h0 : w.outer + w.inner ≠ 0 := (add_pos (h.node_pos (Fin.last m)) (h.node_pos 0)).ne'
  rw [area_eq, div_eq_div_iff ht (mul_ne_zero ht h0)] at h1
  have h2 : integral w (fun e i => s e i 2) * (w.outer + w.inner) = pl * w.inner ^ 2 - pr * w.outer ^ 2 := by
    have : (integral w (fun e i => s e i 2) * (w.outer + w.inner)) * w.thick =
        (pl * w.inner ^ 2 - pr * w.outer ^ 2) * w.thick := by linarith
    exact mul_right_cancel₀ ht this
  have h3 : integral w (fun e i => s e i 2 * (value w w.node e i - (w.inner + w.outer) / 2)) =
      integral w (fun e i => s e i 2 * value w w.node e i) -
        integral w (fun e i => s e i 2) * ((w.inner + w.outer) / 2) := by
    unfold integral
    simp only [Finset.sum_mul]
    simp only [← Finset.sum_sub_distrib]
    refine Finset.sum_congr rfl fun e _ => Finset.sum_congr rfl fun i _ => ?_
    ring
  rw [h3, ← h2]
  ring

/-- A wall from 1 to 3 of two elements with one point each. -/
noncomputable def wall2 : Wall 2 1 := ⟨![1, 2, 3], fun _ => 0, fun _ => 2⟩

theorem wall2_sound : Sound wall2 := by
  refine ⟨by norm_num, by simp [wall2], ?_, fun i => by simp [wall2], by simp [wall2]⟩
  intro e
  fin_cases e
  · norm_num [wall2]
  · show (2 : ℝ) < 3
    norm_num

/-- **C136, disagreement.** Axial stresses that have no residual, without any pressure, with a net axial force: the axial
balance weights all radii alike. -/
theorem C136_axial_disagreement : ∃ s : Field 2 1 (Fin 6 → ℝ), (∀ k, wall2.int1 s k - ext1 0 0 k = 0) ∧
    wall2.int2 s - wall2.ext2 0 0 = 0 ∧ integral wall2 (fun e i => s e i 2 * value wall2 wall2.node e i) ≠ 0 := by
  refine ⟨fun e _ => ![0, 0, if e = 0 then 1 else -1, 0, 0, 0], ?_, ?_, ?_⟩
  · refine eq_zero_of_tested _ fun v => ?_
    rw [C136_virtual_work _ wall2_sound]
    simp [integral]
  · rw [int2_eq]
    simp [integral, Fin.sum_univ_two, wall2, Wall.len, Wall.ext2]
    norm_num
  · simp [integral, Fin.sum_univ_two, wall2, Wall.len, value]
    norm_num

/-! ## The Jacobian -/

theorem strain_line (w : Wall m g) (u v : Fin (m + 1) → ℝ) (z a x : ℝ) (e : Fin m) (i : Fin g) :
    w.strain (u + x • v) (z + x * a) e i = w.strain u z e i + x • w.strain v a e i := by
  rw [strain_eq, strain_eq, strain_eq]
  funext j
  fin_cases j <;> simp [slope, value] <;> ring

theorem tri_mulVec (du : Fin m → ℝ) (d : Fin (m + 1) → ℝ) (dl : Fin m → ℝ) (v : Fin (m + 1) → ℝ) (k : Fin (m + 1)) :
    (tri du d dl *ᵥ v) k = d k * v k +
      ∑ e : Fin m, ((if k = e.castSucc then du e * v e.succ else 0) + if k = e.succ then dl e * v e.castSucc else 0) := by
  simp only [mulVec, dotProduct, tri, of_apply, add_mul, Finset.sum_add_distrib, Finset.sum_mul, ite_mul, zero_mul,
    Finset.sum_ite_eq, Finset.mem_univ, if_true]
  congr 1
  congr 1
  · rw [Finset.sum_comm]
    refine Finset.sum_congr rfl fun e _ => ?_
    by_cases hk : k = e.castSucc
    · simp [hk]
    · simp [hk]
  · rw [Finset.sum_comm]
    refine Finset.sum_congr rfl fun e _ => ?_
    by_cases hk : k = e.succ
    · simp [hk]
    · simp [hk]

/-- The three diagonals, applied: the assembled local products. -/
theorem jac_mulVec (w : Wall m g) (A : Field m g (Matrix (Fin 6) (Fin 6) ℝ)) (v : Fin (m + 1) → ℝ) (k : Fin (m + 1)) :
    (tri (w.jac A).du (w.jac A).d (w.jac A).dl *ᵥ v) k =
      assemble (fun e i a => ∑ b : Fin 2, w.local11 (A e i) e i a b * ends v e b) k := by
  rw [tri_mulVec]
  simp only [Wall.jac, assemble, Finset.sum_mul]
  rw [← Finset.sum_add_distrib]
  refine Finset.sum_congr rfl fun e _ => ?_
  have hne : e.castSucc ≠ e.succ := (Fin.castSucc_lt_succ).ne
  by_cases h0 : k = e.castSucc
  · have h1 : k ≠ e.succ := fun h => hne (h0.symm.trans h)
    simp only [if_pos h0, if_neg h1, add_zero]
    rw [← Finset.sum_add_distrib]
    refine Finset.sum_congr rfl fun i _ => ?_
    rw [Fin.sum_univ_two, h0]
    rfl
  · by_cases h1 : k = e.succ
    · simp only [if_neg h0, if_pos h1, zero_add]
      rw [← Finset.sum_add_distrib]
      refine Finset.sum_congr rfl fun i _ => ?_
      rw [Fin.sum_univ_two, h1, add_comm]
      rfl
    · simp [if_neg h0, if_neg h1]

theorem sum6 (A : Matrix (Fin 6) (Fin 6) ℝ) (j : Fin 6) (a b c : ℝ) :
    (A *ᵥ ![a, b, c, 0, 0, 0]) j = A j 0 * a + A j 1 * b + A j 2 * c := by
  simp [mulVec, dotProduct, Fin.sum_univ_six]

theorem local_tangent (w : Wall m g) (A : Matrix (Fin 6) (Fin 6) ℝ) (v : Fin (m + 1) → ℝ) (z : ℝ) (e : Fin m) (i : Fin g)
    (a : Fin 2) : w.local1 (A *ᵥ w.strain v z e i) e i a =
      ∑ b : Fin 2, w.local11 A e i a b * ends v e b + w.local12 A e i a * z := by
  rw [Wall.local1, Wall.strain]
  simp only [sum6]
  simp only [Wall.local11, Wall.local12, Wall.DE, Fin.sum_univ_two, dotProduct]
  have c0 : (Fin.castLE (by omega) (0 : Fin 2) : Fin 6) = 0 := rfl
  have c1 : (Fin.castLE (by omega) (1 : Fin 2) : Fin 6) = 1 := rfl
  simp only [c0, c1, if_true, if_neg (one_ne_zero (α := Fin 2))]
  ring

theorem assemble_add (f f' : Field m g (Fin 2 → ℝ)) (k : Fin (m + 1)) :
    assemble (fun e i a => f e i a + f' e i a) k = assemble f k + assemble f' k := by
  simp only [assemble, ← Finset.sum_add_distrib]
  refine Finset.sum_congr rfl fun e _ => Finset.sum_congr rfl fun i _ => ?_
  split_ifs <;> ring

theorem assemble_mul (f : Field m g (Fin 2 → ℝ)) (z : ℝ) (k : Fin (m + 1)) :
    assemble (fun e i a => f e i a * z) k = assemble f k * z := by
  simp only [assemble, Finset.sum_mul]
  refine Finset.sum_congr rfl fun e _ => Finset.sum_congr rfl fun i _ => ?_
  split_ifs <;> ring

/-- The internal forces of the stress rates `A` times strain are the Jacobian times the displacement. -/
theorem int1_tangent (w : Wall m g) (A : Field m g (Matrix (Fin 6) (Fin 6) ℝ)) (v : Fin (m + 1) → ℝ) (z : ℝ)
    (k : Fin (m + 1)) : w.int1 (fun e i => A e i *ᵥ w.strain v z e i) k =
      (tri (w.jac A).du (w.jac A).d (w.jac A).dl *ᵥ v) k + (w.jac A).J12 k * z := by
  rw [jac_mulVec, Wall.jac]
  simp only [Wall.int1]
  rw [← assemble_mul, ← assemble_add]
  congr 1
  funext e i a
  exact local_tangent w _ v z e i a

theorem int2_tangent (w : Wall m g) (A : Field m g (Matrix (Fin 6) (Fin 6) ℝ)) (v : Fin (m + 1) → ℝ) (z : ℝ) :
    w.int2 (fun e i => A e i *ᵥ w.strain v z e i) = (w.jac A).J21 ⬝ᵥ v + (w.jac A).J22 * z := by
  simp only [Wall.jac, dotProduct]
  rw [assemble_sum, Finset.sum_mul, ← Finset.sum_add_distrib]
  simp only [Wall.int2]
  refine Finset.sum_congr rfl fun e _ => ?_
  rw [Finset.sum_mul, ← Finset.sum_add_distrib]
  refine Finset.sum_congr rfl fun i _ => ?_
  rw [Wall.strain]
  simp only [sum6]
  simp only [Wall.local21, Wall.DE, Fin.sum_univ_two, dotProduct, ends, cons_val_zero, cons_val_one]
  have c0 : (Fin.castLE (by omega) (0 : Fin 2) : Fin 6) = 0 := rfl
  have c1 : (Fin.castLE (by omega) (1 : Fin 2) : Fin 6) = 1 := rfl
  simp only [c0, c1, if_true, if_neg (one_ne_zero (α := Fin 2))]
  ring

theorem calls_some (f : Field m g (Out3 H)) : calls (fun e i => some (f e i)) = some f := by
  unfold calls
  rw [dif_pos (fun e i => by simp)]
  rfl

/-- The materials do not raise: at each point the response is a function of the new strain. -/
def Responds (b : Problem m g H) (k : Log m g H) (T : Fin (m + 1) → ℝ) (t : ℝ)
    (resp : Field m g ((Fin 6 → ℝ) → Out3 H)) : Prop :=
  ∀ u ez e i, (b.mat e).update (b.call k u ez T t e i) = some (resp e i (b.wall.strain u ez e i - b.thermal k T e i))

theorem rj_responds (b : Problem m g H) (k : Log m g H) (T : Fin (m + 1) → ℝ) (pl pr t : ℝ)
    (resp : Field m g ((Fin 6 → ℝ) → Out3 H)) (h : Responds b k T t resp) (u : Fin (m + 1) → ℝ) (ez : ℝ) :
    ∃ E, b.rj k u ez T pl pr t = some E ∧
      E.R1 = (fun j => b.wall.int1 (fun e i => (resp e i (b.wall.strain u ez e i - b.thermal k T e i)).s) j -
        ext1 pl pr j) ∧
      E.R2 = b.wall.int2 (fun e i => (resp e i (b.wall.strain u ez e i - b.thermal k T e i)).s) - b.wall.ext2 pl pr ∧
      E.J = b.wall.jac (fun e i => (resp e i (b.wall.strain u ez e i - b.thermal k T e i)).A) := by
  rw [Problem.rj]
  have : (fun e i => (b.mat e).update (b.call k u ez T t e i)) =
      fun e i => some (resp e i (b.wall.strain u ez e i - b.thermal k T e i)) := by
    funext e i; exact h u ez e i
  rw [this, calls_some]
  exact ⟨_, rfl, rfl, rfl, rfl⟩

theorem int1_deriv (w : Wall m g) (S : ℝ → Field m g (Fin 6 → ℝ)) (S' : Field m g (Fin 6 → ℝ)) (x : ℝ)
    (h : ∀ e i, HasDerivAt (fun y => S y e i) (S' e i) x) (k : Fin (m + 1)) :
    HasDerivAt (fun y => w.int1 (S y) k) (w.int1 S' k) x := by
  have hl : ∀ e i a, HasDerivAt (fun y => w.local1 (S y e i) e i a) (w.local1 (S' e i) e i a) x := by
    intro e i a
    have h0 := hasDerivAt_pi.1 (h e i) 0
    have h1 := hasDerivAt_pi.1 (h e i) 1
    have := (((h0.mul_const (B a) |>.mul_const 2 |>.div_const (w.len e)).add
      ((h1.sub h0).mul_const (w.N i a) |>.div_const (w.rad e i))).const_mul (w.wt i)).mul_const (w.len e) |>.div_const 2
    exact this
  unfold Wall.int1 assemble
  refine HasDerivAt.fun_sum fun e _ => HasDerivAt.fun_sum fun i _ => HasDerivAt.add ?_ ?_
  · split_ifs
    · exact hl e i 0
    · exact hasDerivAt_const x 0
  · split_ifs
    · exact hl e i 1
    · exact hasDerivAt_const x 0

theorem int2_deriv (w : Wall m g) (S : ℝ → Field m g (Fin 6 → ℝ)) (S' : Field m g (Fin 6 → ℝ)) (x : ℝ)
    (h : ∀ e i, HasDerivAt (fun y => S y e i) (S' e i) x) : HasDerivAt (fun y => w.int2 (S y)) (w.int2 S') x := by
  unfold Wall.int2
  refine HasDerivAt.fun_sum fun e _ => HasDerivAt.fun_sum fun i _ => ?_
  exact (((hasDerivAt_pi.1 (h e i) 2).const_mul (w.wt i)).mul_const (w.len e)).div_const 2 |>.div_const w.thick

/-- **C136.** The Jacobian returned is the derivative of the residual in all directions of displacements and axial strain,
if the tangents of the materials are the derivatives of their stresses. -/
theorem C136_jacobian (b : Problem m g H) (k : Log m g H) (T : Fin (m + 1) → ℝ) (pl pr t : ℝ)
    (resp : Field m g ((Fin 6 → ℝ) → Out3 H)) (h : Responds b k T t resp)
    (u v : Fin (m + 1) → ℝ) (ez z : ℝ)
    (hA : ∀ e i δ, HasDerivAt (fun x : ℝ => (resp e i ((b.wall.strain u ez e i - b.thermal k T e i) + x • δ)).s)
      ((resp e i (b.wall.strain u ez e i - b.thermal k T e i)).A *ᵥ δ) 0) :
    ∃ E : ℝ → Eval m g H, (∀ x, b.rj k (u + x • v) (ez + x * z) T pl pr t = some (E x)) ∧
      (∀ j, HasDerivAt (fun x => (E x).R1 j)
        ((tri (E 0).J.du (E 0).J.d (E 0).J.dl *ᵥ v) j + (E 0).J.J12 j * z) 0) ∧
      HasDerivAt (fun x => (E x).R2) ((E 0).J.J21 ⬝ᵥ v + (E 0).J.J22 * z) 0 := by
  choose E h1 h2 h3 h4 using fun x : ℝ => rj_responds b k T pl pr t resp h (u + x • v) (ez + x * z)
  refine ⟨E, h1, ?_⟩
  have hd : ∀ e i, HasDerivAt (fun x : ℝ => (resp e i (b.wall.strain (u + x • v) (ez + x * z) e i - b.thermal k T e i)).s)
      ((resp e i (b.wall.strain u ez e i - b.thermal k T e i)).A *ᵥ b.wall.strain v z e i) 0 := by
    intro e i
    have := hA e i (b.wall.strain v z e i)
    refine this.congr_of_eventuallyEq (Filter.Eventually.of_forall fun x => ?_)
    show (resp e i _).s = (resp e i _).s
    rw [strain_line, sub_add_eq_add_sub]
  have hJ := h4 0
  simp only [zero_smul, add_zero, zero_mul] at hJ
  refine ⟨fun j => ?_, ?_⟩
  · simp only [h2]
    rw [hJ, ← int1_tangent]
    exact (int1_deriv b.wall _ _ 0 hd j).sub_const _
  · simp only [h3]
    rw [hJ, ← int2_tangent]
    exact (int2_deriv b.wall _ _ 0 hd).sub_const _

/-! ## Free expansion -/

theorem value_const (w : Wall m g) (c : ℝ) (e : Fin m) (i : Fin g) : value w (fun _ => c) e i = c := by
  simp [value]

/-- **C136.** A stress free wall of materials of one expansion coefficient that is heated uniformly expands freely: with the
displacement of this expansion there is no mechanical strain, and without pressures there is no residual. -/
theorem C136_free (b : Problem m g H) (h : Sound b.wall) (k : Log m g H) (T0 T1 θ t : ℝ) (α : ℝ → ℝ)
    (hα : ∀ e, (b.mat e).alpha = α) (hT : k.temperatures.last = fun _ => T0)
    (hθ : k.tstrains.last = fun _ _ => θ • isoDir)
    (hs : ∀ e i, ∃ o, (b.mat e).update ⟨0, k.mstrains.last e i, T1, T0, t, k.times.last, k.stresses.last e i,
      k.histories.last e i, 0, 0⟩ = some o ∧ o.s = 0) :
    ∃ E, b.rj k ((θ + α T1 * (T1 - T0)) • b.wall.node) (θ + α T1 * (T1 - T0)) (fun _ => T1) 0 0 t = some E ∧
      E.mstrains = 0 ∧ E.stresses = 0 ∧ E.R1 = 0 ∧ E.R2 = 0 := by
  choose o h1 h2 using hs
  have hth : ∀ e i, b.thermal k (fun _ => T1) e i = (θ + α T1 * (T1 - T0)) • isoDir := by
    intro e i
    rw [Problem.thermal, N_dot, N_dot, hT, value_const, value_const, hθ, hα, add_smul]
  have hm : ∀ e i, b.wall.strain ((θ + α T1 * (T1 - T0)) • b.wall.node) (θ + α T1 * (T1 - T0)) e i -
      b.thermal k (fun _ => T1) e i = 0 := by
    intro e i
    have hr := (h.rad_pos e i).ne'
    rw [rad_eq] at hr
    have hv : value b.wall ((θ + α T1 * (T1 - T0)) • b.wall.node) e i =
        (θ + α T1 * (T1 - T0)) * value b.wall b.wall.node e i := by
      simp only [value, Pi.smul_apply, smul_eq_mul]; ring
    have hsl : slope b.wall ((θ + α T1 * (T1 - T0)) • b.wall.node) e i = θ + α T1 * (T1 - T0) := by
      have := slope_node b.wall h e i
      simp only [slope, Pi.smul_apply, smul_eq_mul] at this ⊢
      rw [← mul_sub, mul_div_assoc, this, mul_one]
    rw [hth, strain_eq, hv, hsl, mul_div_assoc, div_self hr, mul_one, sub_eq_zero]
    funext j
    fin_cases j <;> simp [isoDir]
  have hc : (fun e i => (b.mat e).update (b.call k ((θ + α T1 * (T1 - T0)) • b.wall.node) (θ + α T1 * (T1 - T0))
      (fun _ => T1) t e i)) = fun e i => some (o e i) := by
    funext e i
    rw [Problem.call, hm, N_dot, N_dot, hT, value_const, value_const]
    exact h1 e i
  have hp := C136_patch b.wall h (fun e i => (o e i).s) 0 (fun e i => by simp [h2])
  rw [Problem.rj, hc, calls_some]
  exact ⟨_, rfl, by funext e i; exact hm e i, by funext e i; exact h2 e i, funext hp.1, hp.2⟩

end Neml.Axisym
