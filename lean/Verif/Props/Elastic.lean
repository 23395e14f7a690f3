import Verif.Model.Elastic
import Verif.Props.Mandel
import Mathlib.LinearAlgebra.Matrix.ToLinearEquiv
import Mathlib.Tactic.Linarith
import Mathlib.Tactic.FieldSimp
import Mathlib.Tactic.Positivity
import Mathlib.Tactic.NormNum
import Mathlib.Tactic.LinearCombination

/-!
# C35 to C37 and C80: linear elasticity

Specifications: the textbook expressions of each modulus in shear and bulk modulus, a two-sided
inverse and a positive quadratic form, and commutation with the rotation of tensors.
-/

namespace Neml.Elastic

open Matrix Neml.Mandel

/-! ## C35 -/

/-- Textbook value of a named modulus of the solid with shear modulus `G` and bulk modulus `K`. -/
noncomputable def modulus (G K : ℝ) : String → ℝ
  | "shear" => G
  | "bulk" => K
  | "youngs" => 9 * K * G / (3 * K + G)
  | "poissons" => (3 * K - 2 * G) / (2 * (3 * K + G))
  | _ => 0

/-- C35: every ordered pair of distinct supported constants recovers the shear and bulk modulus. -/
theorem C35_recovers (G K : ℝ) (hG : 0 < G) (hK : 0 < K) (t1 t2 : String)
    (h1 : t1 ∈ ["bulk", "shear", "youngs", "poissons"])
    (h2 : t2 ∈ ["bulk", "shear", "youngs", "poissons"]) (hne : t1 ≠ t2) :
    isoModuli t1 t2 (modulus G K t1) (modulus G K t2) = some (G, K) := by
  have hs : (3 * K + G) ≠ 0 := by positivity
  have e1 : 1 + (3 * K - 2 * G) / (2 * (3 * K + G)) = 9 * K / (2 * (3 * K + G)) := by
    field_simp; ring
  have e2 : 1 - 2 * ((3 * K - 2 * G) / (2 * (3 * K + G))) = 3 * G / (3 * K + G) := by
    field_simp; ring
  have e3 : 3 * G - 9 * K * G / (3 * K + G) = 3 * G * G / (3 * K + G) := by field_simp; ring
  have e4 : 9 * K - 9 * K * G / (3 * K + G) = 27 * K * K / (3 * K + G) := by field_simp; ring
  simp only [List.mem_cons, List.not_mem_nil, or_false] at h1 h2
  rcases h1 with rfl | rfl | rfl | rfl <;> rcases h2 with rfl | rfl | rfl | rfl <;>
    first
    | exact absurd rfl hne
    | (simp [isoModuli, isoAccepts, validTypes, getGK, modulus, e1, e2, e3, e4]; done)
    | (simp [isoModuli, isoAccepts, validTypes, getGK, modulus, e1, e2, e3, e4]
       field_simp
       norm_num; done)
    | (simp [isoModuli, isoAccepts, validTypes, getGK, modulus, e1, e2, e3, e4]
       constructor <;> field_simp <;> norm_num; done)

/-- C35: equal names and unknown names are refused when the model is built. -/
theorem C35_refuses (t1 t2 : String) (m1 m2 : ℝ)
    (h : t1 = t2 ∨ t1 ∉ ["bulk", "shear", "youngs", "poissons"] ∨
      t2 ∉ ["bulk", "shear", "youngs", "poissons"]) : isoModuli t1 t2 m1 m2 = none := by
  have : isoAccepts t1 t2 = false := by
    unfold isoAccepts
    by_cases h1 : t1 = t2
    · rw [if_pos h1]
    rw [if_neg h1]
    rcases h with h | h | h
    · exact absurd h h1
    · rw [if_pos (by simpa [validTypes] using h)]
    · by_cases h2 : ¬ validTypes.contains t1
      · rw [if_pos h2]
      · rw [if_neg h2, if_pos (by simpa [validTypes] using h)]
  rw [isoModuli, this]
  rfl

/-- C35: every pair the constructor accepts has a formula. -/
theorem C35_total (t1 t2 : String) (h : isoAccepts t1 t2 = true) (m1 m2 : ℝ) :
    ∃ GK, isoModuli t1 t2 m1 m2 = some GK := by
  have hne : t1 ≠ t2 := by
    rintro rfl
    simp [isoAccepts] at h
  have h1 : t1 ∈ validTypes := by
    by_contra hc
    simp [isoAccepts, hne, List.contains_iff_mem, hc] at h
  have h2 : t2 ∈ validTypes := by
    by_contra hc
    simp [isoAccepts, hne, List.contains_iff_mem, hc] at h
  rw [isoModuli, h, if_pos rfl]
  simp only [validTypes, List.mem_cons, List.not_mem_nil, or_false] at h1 h2
  rcases h1 with rfl | rfl | rfl | rfl <;> rcases h2 with rfl | rfl | rfl | rfl <;>
    first
    | exact absurd rfl hne
    | (simp [getGK])

/-- C35: the reported Young's modulus and Poisson's ratio are the textbook ones, and give the model
back. -/
theorem C35_reported (G K : ℝ) (hG : 0 < G) (hK : 0 < K) :
    isoModuli "youngs" "poissons" (youngs G K) (poissons G K) = some (G, K) ∧
      0 < youngs G K ∧ -1 < poissons G K ∧ poissons G K < 1 / 2 := by
  refine ⟨C35_recovers G K hG hK "youngs" "poissons" (by simp) (by simp) (by simp), ?_, ?_, ?_⟩
  · unfold youngs; positivity
  · unfold poissons
    rw [lt_div_iff₀ (by positivity)]
    linarith
  · unfold poissons
    rw [div_lt_div_iff₀ (by positivity) (by positivity)]
    linarith

example : isoModuli "youngs" "shear" (modulus 3 5 "youngs") (modulus 3 5 "shear") = some (3, 5) :=
  C35_recovers 3 5 (by norm_num) (by norm_num) _ _ (by simp) (by simp) (by simp)

/-! ## C36 -/

/-- C36: the isotropic compliance is the two-sided inverse of the stiffness. -/
theorem C36_iso_inverse (G K : ℝ) (hG : 0 < G) (hK : 0 < K) :
    isoS G K * isoC G K = 1 ∧ isoC G K * isoS G K = 1 := by
  have h : isoS G K * isoC G K = 1 := by
    have e1 : 2 * G * G + 3 * G * (K - 2 / 3 * G) = 3 * G * K := by ring
    have e2 : 4 * G * G + 6 * G * (K - 2 / 3 * G) = 6 * G * K := by ring
    ext i j
    fin_cases i <;> fin_cases j <;>
      simp [isoS, isoC, Matrix.mul_apply, Fin.sum_univ_succ, e1, e2] <;> field_simp <;> ring
  exact ⟨h, mul_eq_one_comm.mp h⟩

/-- C36: compliance of stress of strain is the strain. -/
theorem C36_iso_roundtrip (G K : ℝ) (hG : 0 < G) (hK : 0 < K) (e : Fin 6 → ℝ) :
    isoS G K *ᵥ (isoC G K *ᵥ e) = e := by
  rw [mulVec_mulVec, (C36_iso_inverse G K hG hK).1, one_mulVec]

theorem squares {a b c : ℝ} (h : a ^ 2 + b ^ 2 + c ^ 2 = 0) : a = 0 ∧ b = 0 ∧ c = 0 := by
  refine ⟨?_, ?_, ?_⟩ <;> refine pow_eq_zero_iff two_ne_zero |>.mp ?_ <;>
    linarith [sq_nonneg a, sq_nonneg b, sq_nonneg c]

theorem cubic_energy (C1 C2 C3 : ℝ) (e : Fin 6 → ℝ) : e ⬝ᵥ (cubicC C1 C2 C3 *ᵥ e) =
    (C1 - C2) / 3 * ((e 0 - e 1) ^ 2 + (e 1 - e 2) ^ 2 + (e 2 - e 0) ^ 2) +
      (C1 + 2 * C2) / 3 * (e 0 + e 1 + e 2) ^ 2 + C3 * (e 3 ^ 2 + e 4 ^ 2 + e 5 ^ 2) := by
  simp [cubicC, mulVec, dotProduct, Fin.sum_univ_succ]
  ring

/-- C36: the stored energy of a cubic solid is positive for every non-zero strain exactly when the
three stability conditions hold. -/
theorem C36_cubic_positive (C1 C2 C3 : ℝ) :
    (∀ e : Fin 6 → ℝ, e ≠ 0 → 0 < e ⬝ᵥ (cubicC C1 C2 C3 *ᵥ e)) ↔
      0 < C1 - C2 ∧ 0 < C1 + 2 * C2 ∧ 0 < C3 := by
  constructor
  · intro h
    refine ⟨?_, ?_, ?_⟩
    · have := h ![1, -1, 0, 0, 0, 0] (fun h => by simpa using congrFun h 0)
      rw [cubic_energy] at this
      simp at this
      nlinarith
    · have := h ![1, 1, 1, 0, 0, 0] (fun h => by simpa using congrFun h 0)
      rw [cubic_energy] at this
      simp at this
      nlinarith
    · have := h ![0, 0, 0, 1, 0, 0] (fun h => by simpa using congrFun h 3)
      rw [cubic_energy] at this
      simp at this
      nlinarith
  · rintro ⟨h1, h2, h3⟩ e he
    rw [cubic_energy]
    by_contra hc
    have a1 := mul_nonneg h1.le (add_nonneg (add_nonneg (sq_nonneg (e 0 - e 1)) (sq_nonneg (e 1 - e 2)))
      (sq_nonneg (e 2 - e 0)))
    have a2 := mul_nonneg h2.le (sq_nonneg (e 0 + e 1 + e 2))
    have a3 := mul_nonneg h3.le (add_nonneg (add_nonneg (sq_nonneg (e 3)) (sq_nonneg (e 4)))
      (sq_nonneg (e 5)))
    have z1 : (C1 - C2) * ((e 0 - e 1) ^ 2 + (e 1 - e 2) ^ 2 + (e 2 - e 0) ^ 2) = 0 := by linarith
    have z2 : (C1 + 2 * C2) * (e 0 + e 1 + e 2) ^ 2 = 0 := by linarith
    have z3 : C3 * (e 3 ^ 2 + e 4 ^ 2 + e 5 ^ 2) = 0 := by linarith
    have y1 := (mul_eq_zero.mp z1).resolve_left h1.ne'
    have y2 := (mul_eq_zero.mp z2).resolve_left h2.ne'
    have y3 := (mul_eq_zero.mp z3).resolve_left h3.ne'
    have s := pow_eq_zero_iff (two_ne_zero) |>.mp y2
    obtain ⟨d1, d2, -⟩ := squares y1
    obtain ⟨c3, c4, c5⟩ := squares y3
    refine he (funext fun i => ?_)
    fin_cases i
    · show e 0 = 0; linarith
    · show e 1 = 0; linarith
    · show e 2 = 0; linarith
    · exact c3
    · exact c4
    · exact c5

theorem iso_is_cubic (G K : ℝ) :
    isoC G K = cubicC (2 * G + (K - 2 / 3 * G)) (K - 2 / 3 * G) (2 * G) := rfl

/-- C36: the stored energy of an isotropic solid is positive for every non-zero strain exactly when
both moduli are. -/
theorem C36_iso_positive (G K : ℝ) :
    (∀ e : Fin 6 → ℝ, e ≠ 0 → 0 < e ⬝ᵥ (isoC G K *ᵥ e)) ↔ 0 < G ∧ 0 < K := by
  rw [iso_is_cubic, C36_cubic_positive]
  constructor
  · rintro ⟨h1, h2, h3⟩
    constructor <;> linarith
  · rintro ⟨h1, h2⟩
    refine ⟨?_, ?_, ?_⟩ <;> linarith

/-- C36: a matrix with positive energy is regular, so the compliance the code computes by inverting
the stiffness undoes it. `inv` is `invert_mat`: it finds the inverse of every regular matrix. -/
theorem C36_inverse (C : Matrix (Fin 6) (Fin 6) ℝ)
    (hC : ∀ e : Fin 6 → ℝ, e ≠ 0 → 0 < e ⬝ᵥ (C *ᵥ e))
    (inv : Matrix (Fin 6) (Fin 6) ℝ → Option (Matrix (Fin 6) (Fin 6) ℝ))
    (hinv : ∀ M, IsUnit M.det → ∃ N, inv M = some N ∧ M * N = 1) :
    ∃ S, inverseS inv C = some S ∧ ∀ e, S *ᵥ (C *ᵥ e) = e := by
  have hdet : C.det ≠ 0 := by
    intro h
    obtain ⟨v, hv, hv0⟩ := Matrix.exists_mulVec_eq_zero_iff.mpr h
    have := hC v hv
    rw [hv0, dotProduct_zero] at this
    exact lt_irrefl _ this
  obtain ⟨S, h1, h2⟩ := hinv C (isUnit_iff_ne_zero.mpr hdet)
  refine ⟨S, h1, fun e => ?_⟩
  rw [mulVec_mulVec, mul_eq_one_comm.mp h2, one_mulVec]

/-- C36, cubic solids: the compliance computed by the code undoes the stiffness. -/
theorem C36_cubic_roundtrip (C1 C2 C3 : ℝ) (h1 : 0 < C1 - C2) (h2 : 0 < C1 + 2 * C2) (h3 : 0 < C3)
    (inv : Matrix (Fin 6) (Fin 6) ℝ → Option (Matrix (Fin 6) (Fin 6) ℝ))
    (hinv : ∀ M, IsUnit M.det → ∃ N, inv M = some N ∧ M * N = 1) :
    ∃ S, inverseS inv (cubicC C1 C2 C3) = some S ∧ ∀ e, S *ᵥ (cubicC C1 C2 C3 *ᵥ e) = e :=
  C36_inverse _ ((C36_cubic_positive C1 C2 C3).mpr ⟨h1, h2, h3⟩) inv hinv

/-- C36: the cubic solid given by Young's modulus, Poisson's ratio and shear modulus is stable for
positive moduli and a ratio between minus one and one half, and with the isotropic shear modulus it
is the isotropic solid. -/
theorem C36_cubic_moduli (E nu mu : ℝ) (hE : 0 < E) (hn : -1 < nu) (hn' : nu < 1 / 2)
    (hm : 0 < mu) : ∃ C1 C2 C3, cubicComponents "moduli" E nu mu = some (C1, C2, C3) ∧
      0 < C1 - C2 ∧ 0 < C1 + 2 * C2 ∧ 0 < C3 ∧
      (mu = E / (2 * (1 + nu)) →
        cubicC C1 C2 C3 = isoC (E / (2 * (1 + nu))) (E / (3 * (1 - 2 * nu)))) := by
  have p1 : 0 < 1 + nu := by linarith
  have p2 : 0 < 1 - 2 * nu := by linarith
  refine ⟨_, _, _, rfl, ?_, ?_, by linarith, fun h => ?_⟩
  · have : E / ((1 + nu) * (1 - 2 * nu)) * (1 - nu) - E / ((1 + nu) * (1 - 2 * nu)) * nu =
      E / (1 + nu) := by
      have q1 := p1.ne'
      have q3 : 1 - nu * 2 ≠ 0 := by
        rw [mul_comm]; exact p2.ne'
      field_simp
      ring
    rw [this]; positivity
  · have : E / ((1 + nu) * (1 - 2 * nu)) * (1 - nu) + 2 * (E / ((1 + nu) * (1 - 2 * nu)) * nu) =
      E / (1 - 2 * nu) := by field_simp; ring
    rw [this]; positivity
  · have q1 := p1.ne'
    have q2 := p2.ne'
    have q3 : 1 - nu * 2 ≠ 0 := by
      rw [mul_comm]; exact p2.ne'
    rw [iso_is_cubic]
    congr 1
    · field_simp; ring
    · field_simp; ring
    · rw [h]

example : isoS 3 5 *ᵥ (isoC 3 5 *ᵥ ![1, 2, 3, 4, 5, 6]) = ![1, 2, 3, 4, 5, 6] :=
  C36_iso_roundtrip 3 5 (by norm_num) (by norm_num) _

example : 0 < (![1, -2, 0, 4, 0, 0] : Fin 6 → ℝ) ⬝ᵥ (cubicC 3 1 2 *ᵥ ![1, -2, 0, 4, 0, 0]) :=
  (C36_cubic_positive 3 1 2).mpr (by norm_num) _ fun h => by simpa using congrFun h 0

/-- The true matrix inverse is such an `inv`. -/
example : ∃ S, inverseS (fun M => some M⁻¹) (cubicC 3 1 2) = some S ∧
    ∀ e, S *ᵥ (cubicC 3 1 2 *ᵥ e) = e :=
  C36_cubic_roundtrip 3 1 2 (by norm_num) (by norm_num) (by norm_num) _
    fun M h => ⟨M⁻¹, rfl, mul_nonsing_inv M h⟩

/-! ## C37 -/

/-- Rotation of a symmetric tensor in Mandel form: `Q E Qᵀ`. -/
noncomputable def rot (Q : Matrix (Fin 3) (Fin 3) ℝ) (e : Fin 6 → ℝ) : Fin 6 → ℝ :=
  sym (Q * usym e * Qᵀ)

theorem usym_add (a b : Fin 6 → ℝ) : usym (a + b) = usym a + usym b := by
  ext i j
  fin_cases i <;> fin_cases j <;> simp [usym] <;> ring

theorem usym_smul (c : ℝ) (a : Fin 6 → ℝ) : usym (c • a) = c • usym a := by
  ext i j
  fin_cases i <;> fin_cases j <;> simp [usym] <;> ring

theorem sym_add (A B : Matrix (Fin 3) (Fin 3) ℝ) : sym (A + B) = sym A + sym B := by
  ext i
  fin_cases i <;> simp [sym] <;> ring

theorem sym_smul (c : ℝ) (A : Matrix (Fin 3) (Fin 3) ℝ) : sym (c • A) = c • sym A := by
  ext i
  fin_cases i <;> simp [sym] <;> ring

theorem rot_add (Q : Matrix (Fin 3) (Fin 3) ℝ) (a b : Fin 6 → ℝ) :
    rot Q (a + b) = rot Q a + rot Q b := by
  rw [rot, usym_add, Matrix.mul_add, Matrix.add_mul, sym_add]; rfl

theorem rot_smul (Q : Matrix (Fin 3) (Fin 3) ℝ) (c : ℝ) (a : Fin 6 → ℝ) :
    rot Q (c • a) = c • rot Q a := by
  rw [rot, usym_smul, Matrix.mul_smul, Matrix.smul_mul, sym_smul]; rfl

/-- The identity tensor. -/
def delta : Fin 6 → ℝ := ![1, 1, 1, 0, 0, 0]

theorem usym_delta : usym delta = 1 := by
  ext i j
  fin_cases i <;> fin_cases j <;> simp [usym, delta]

theorem sym_one : sym 1 = delta := by
  ext i
  fin_cases i <;> simp [sym, delta]

theorem rot_delta (Q : Matrix (Fin 3) (Fin 3) ℝ) (hQ : Q * Qᵀ = 1) : rot Q delta = delta := by
  rw [rot, usym_delta, Matrix.mul_one, hQ, sym_one]

theorem sum_eq_trace (e : Fin 6 → ℝ) : e 0 + e 1 + e 2 = trace (usym e) := by
  simp [trace, usym, Fin.sum_univ_succ]
  ring

theorem rot_trace (Q : Matrix (Fin 3) (Fin 3) ℝ) (hQ : Q * Qᵀ = 1) (e : Fin 6 → ℝ) :
    rot Q e 0 + rot Q e 1 + rot Q e 2 = e 0 + e 1 + e 2 := by
  have h1 : rot Q e 0 + rot Q e 1 + rot Q e 2 = trace (Q * usym e * Qᵀ) := by
    simp [rot, sym, trace, Fin.sum_univ_succ]
    ring
  rw [h1, trace_mul_cycle, mul_eq_one_comm.mp hQ, Matrix.one_mul, sum_eq_trace]

theorem isoC_apply (G K : ℝ) (e : Fin 6 → ℝ) :
    isoC G K *ᵥ e = (2 * G) • e + ((K - 2 / 3 * G) * (e 0 + e 1 + e 2)) • delta := by
  ext i
  fin_cases i <;> simp [isoC, delta, mulVec, dotProduct, Fin.sum_univ_succ] <;> ring

/-- C37: the isotropic stiffness commutes with every rotation (and reflection). -/
theorem C37_isotropic (G K : ℝ) (Q : Matrix (Fin 3) (Fin 3) ℝ) (hQ : Q * Qᵀ = 1) (e : Fin 6 → ℝ) :
    isoC G K *ᵥ rot Q e = rot Q (isoC G K *ᵥ e) := by
  rw [isoC_apply, isoC_apply, rot_add, rot_smul, rot_smul, rot_trace Q hQ, rot_delta Q hQ]

/-- Rotation about the third axis with cosine `c` and sine `s`. -/
def axis3 (c s : ℝ) : Matrix (Fin 3) (Fin 3) ℝ := !![c, -s, 0; s, c, 0; 0, 0, 1]

set_option maxHeartbeats 1000000 in
-- six components of 3 by 3 products
/-- C37, the right transversely isotropic matrix: it commutes with every rotation about the third
axis exactly when the last entry is `C11 - C12`. -/
theorem C37_hexagonal (C11 C33 C12 C13 C44 C66 : ℝ) :
    (∀ c s, c ^ 2 + s ^ 2 = 1 → ∀ e, hexC C11 C33 C12 C13 C44 C66 *ᵥ rot (axis3 c s) e =
      rot (axis3 c s) (hexC C11 C33 C12 C13 C44 C66 *ᵥ e)) ↔ C66 = C11 - C12 := by
  have hr := r2_sq
  constructor
  · intro h
    have h1 := congrFun (h (3 / 5) (4 / 5) (by norm_num) ![1, 0, 0, 0, 0, 0]) 0
    simp [hexC, rot, axis3, sym, usym, mulVec, dotProduct, Fin.sum_univ_succ, Matrix.mul_apply,
      div_r2] at h1
    have h2 := congrFun (h (3 / 5) (4 / 5) (by norm_num) ![1, 0, 0, 0, 0, 0]) 5
    simp [hexC, rot, axis3, sym, usym, mulVec, dotProduct, Fin.sum_univ_succ, Matrix.mul_apply,
      div_r2] at h2
    have h3 : (√2 : ℝ) ≠ 0 := by positivity
    have : C66 * (3 / 5 * (4 / 5)) = C11 * (3 / 5 * (4 / 5)) - C12 * (3 / 5 * (4 / 5)) := by
      apply mul_left_cancel₀ h3
      linarith
    linarith
  · rintro rfl c s hcs e
    ext i
    fin_cases i <;>
      simp [hexC, rot, axis3, sym, usym, mulVec, dotProduct, Fin.sum_univ_succ, Matrix.mul_apply,
        div_r2] <;> grind

/-- Disagreement for C37: the code's transversely isotropic stiffness has half that entry. It commutes
with the rotations about its axis only in the degenerate case `C11 = C12`. -/
theorem C37_transverse_disagrees (C11 C33 C12 C13 C44 : ℝ) :
    (∀ c s, c ^ 2 + s ^ 2 = 1 → ∀ e, transC C11 C33 C12 C13 C44 *ᵥ rot (axis3 c s) e =
      rot (axis3 c s) (transC C11 C33 C12 C13 C44 *ᵥ e)) ↔ C11 = C12 := by
  unfold transC
  rw [C37_hexagonal]
  constructor <;> intro h <;> linarith

set_option maxHeartbeats 1000000 in
-- six components of 3 by 3 products
/-- C37, what does hold for the code's matrix: it commutes with quarter turns about its axis. -/
theorem C37_transverse_partial (C11 C33 C12 C13 C44 : ℝ) (e : Fin 6 → ℝ) :
    transC C11 C33 C12 C13 C44 *ᵥ rot (axis3 0 1) e =
      rot (axis3 0 1) (transC C11 C33 C12 C13 C44 *ᵥ e) := by
  have hr := r2_sq
  ext i
  fin_cases i <;>
    simp [transC, hexC, rot, axis3, sym, usym, mulVec, dotProduct, Fin.sum_univ_succ, Matrix.mul_apply,
      div_r2] <;> grind

example : isoC 3 5 *ᵥ rot (axis3 (3 / 5) (4 / 5)) ![1, 2, 3, 4, 5, 6] =
    rot (axis3 (3 / 5) (4 / 5)) (isoC 3 5 *ᵥ ![1, 2, 3, 4, 5, 6]) :=
  C37_isotropic 3 5 _ (by
    ext i j
    fin_cases i <;> fin_cases j <;> simp [axis3, Matrix.mul_apply, Fin.sum_univ_succ] <;> norm_num) _

/-! ## C80: cubic symmetry -/

theorem rot_mul (P Q : Matrix (Fin 3) (Fin 3) ℝ) (e : Fin 6 → ℝ) :
    rot (P * Q) e = rot P (rot Q e) := by
  have hsym : (Q * usym e * Qᵀ)ᵀ = Q * usym e * Qᵀ := by
    have hu : (usym e)ᵀ = usym e := by
      ext i j
      fin_cases i <;> fin_cases j <;> simp [usym]
    rw [transpose_mul, transpose_mul, transpose_transpose, hu, Matrix.mul_assoc]
  rw [rot, rot, rot, C47_usym_sym _ hsym, transpose_mul]
  simp only [Matrix.mul_assoc]

/-- The rotations of the cube: generated by the quarter turns about the first and third axis. -/
inductive CubeRotation : Matrix (Fin 3) (Fin 3) ℝ → Prop
  | one : CubeRotation 1
  | axis1 {Q} : CubeRotation Q → CubeRotation (!![1, 0, 0; 0, 0, -1; 0, 1, 0] * Q)
  | axis3 {Q} : CubeRotation Q → CubeRotation (!![0, -1, 0; 1, 0, 0; 0, 0, 1] * Q)

set_option maxHeartbeats 1000000 in
-- six components of 3 by 3 products
/-- C80: the cubic stiffness commutes with every rotation of the cube. -/
theorem C80_cubic (C1 C2 C3 : ℝ) (Q : Matrix (Fin 3) (Fin 3) ℝ) (hQ : CubeRotation Q)
    (e : Fin 6 → ℝ) : cubicC C1 C2 C3 *ᵥ rot Q e = rot Q (cubicC C1 C2 C3 *ᵥ e) := by
  have hr := r2_sq
  induction hQ with
  | one =>
    have : ∀ v : Fin 6 → ℝ, rot 1 v = v := fun v => by
      rw [rot, transpose_one, Matrix.mul_one, Matrix.one_mul, C47_sym_usym]
    rw [this, this]
  | axis1 _ ih =>
    rw [rot_mul, rot_mul, ← ih]
    generalize rot _ e = v
    ext i
    fin_cases i <;>
      simp [cubicC, rot, sym, usym, mulVec, dotProduct, Fin.sum_univ_succ, Matrix.mul_apply,
        div_r2] <;> grind
  | axis3 _ ih =>
    rw [rot_mul, rot_mul, ← ih]
    generalize rot _ e = v
    ext i
    fin_cases i <;>
      simp [cubicC, rot, sym, usym, mulVec, dotProduct, Fin.sum_univ_succ, Matrix.mul_apply,
        div_r2] <;> grind

/-- C80: a half turn about the third axis is a rotation of the cube. -/
example (Q : Matrix (Fin 3) (Fin 3) ℝ) (hQ : Q = !![0, -1, 0; 1, 0, 0; 0, 0, 1]) :
    cubicC 5 2 3 *ᵥ rot (Q * (Q * 1)) ![1, 2, 3, 4, 5, 6] =
      rot (Q * (Q * 1)) (cubicC 5 2 3 *ᵥ ![1, 2, 3, 4, 5, 6]) := by
  subst hQ
  exact C80_cubic 5 2 3 _ (.axis3 (.axis3 .one)) _

end Neml.Elastic
