import Verif.Props.HuCocksDeriv
import Verif.Props.SlipRates

/-!
# C146, C147 and C148: dislocation spacing, combined hardening, Arrhenius slip

Specifications: `Hard.TauRight`, `Hard.RateRight`, `Rule.Right` of C99.
-/

namespace Neml.HuCocks

open Filter Topology Matrix
open Neml.Damage (Moves)
open Neml.Slip

variable {N : Type} [DecidableEq N] [Fintype N]

theorem foldl_sub {α A : Type} [AddCommGroup A] (l : List α) (x : α → A) (r : A) :
    l.foldl (fun r p => r - x p) r = r - (l.map x).sum := by
  induction l generalizing r with
  | nil => simp
  | cons p l ih => simp only [List.foldl_cons, ih, List.map_cons, List.sum_cons]; abel

theorem foldl_add {α A : Type} [AddCommGroup A] (l : List α) (x : α → A) (r : A) :
    l.foldl (fun r p => r + x p) r = r + (l.map x).sum := by
  induction l generalizing r with
  | nil => simp
  | cons p l ih => simp only [List.foldl_cons, ih, List.map_cons, List.sum_cons]; abel

/-- The slip on all systems as seen by one of them. -/
noncomputable def seen (c : Crys) (J1 J2 : ℝ) (R : Nat → Nat → ℝ) (i : Nat) : ℝ :=
  (c.systems.map fun p => inter J1 J2 i (c.flat p.1 p.2) * |R p.1 p.2|).sum

variable {c : Crys} {vars : Nat → N} {J1 J2 K L0 a G b : ℝ}

theorem spacing_rate (hv : Distinct c.ntotal vars) (R : Nat → Nat → ℝ) (h : N → ℝ) {i : Nat} (hi : i < c.ntotal) :
    (spacing c vars J1 J2 K L0 a G b).rate R h (vars i) = K / h (vars i) ^ 3 - h (vars i) ^ 3 * seen c J1 J2 R i := by
  refine (fillFlat_apply hv _ hi).trans ?_
  rw [foldl_sub, seen, ← List.sum_map_mul_left]
  simp only [mul_assoc]
  ring

/-! ## C146 -/

/-- C146: the strengths of the spacing model have the reported derivatives. -/
theorem C146_strength {g i : Nat} (hi : c.flat g i < c.ntotal) (h : N → ℝ) (h0 : h (vars (c.flat g i)) ≠ 0) :
    (spacing c vars J1 J2 K L0 a G b).TauRight g i h := by
  refine ⟨fun y y' t0 hy ey => ?_, fun x hx => update_other (ne_own hx hi)⟩
  simp only [spacing]
  rw [update_dot]
  have h1 : y t0 (vars (c.flat g i)) ≠ 0 := by rw [ey]; exact h0
  refine ((hasDerivAt_const t0 (a * G * b)).fun_div (hy _) h1).congr_deriv ?_
  rw [ey]
  field_simp
  ring

/-- A hardening model whose matrix by history covers variables of other models. -/
def Hard.Covers (H : Hard N) (R : Nat → Nat → ℝ) (dH : Nat → Nat → N → ℝ) (h : N → ℝ) : Prop :=
  ∀ a b, H.own a = true → H.own b = false → H.rateX R dH h a b = H.rateH R dH h a b

theorem spacing_covers (hv : Distinct c.ntotal vars) (R : Nat → Nat → ℝ) (dH : Nat → Nat → N → ℝ) (h : N → ℝ) :
    Hard.Covers (spacing c vars J1 J2 K L0 a G b) R dH h := by
  intro x y hx hy
  obtain ⟨i, hi, rfl⟩ := own_iff.mp hx
  have e1 := congrFun (fillFlat_apply hv (fun i a => c.systems.foldl (fun r p =>
      r - h (vars i) ^ 3 * inter J1 J2 i (c.flat p.1 p.2) * sgn (R p.1 p.2) * dH p.1 p.2 a) 0) hi) y
  have hne : y ≠ vars i := ne_own hy hi
  refine e1.trans (Eq.symm ?_)
  refine (congrFun (fillFlat_apply hv _ hi) y).trans ?_
  simp only [hne, if_false, sub_zero]

/-- C146: the rates of the spacings have the reported derivatives by stress and by every variable, of this or another
model. -/
theorem C146_rate (hv : Distinct c.ntotal vars) (R : Nat → Nat → ℝ) (dS : Nat → Nat → Fin 6 → ℝ)
    (dH : Nat → Nat → N → ℝ) (h : N → ℝ) (hs : Still c R dS dH) (h0 : ∀ i < c.ntotal, h (vars i) ≠ 0) :
    (spacing c vars J1 J2 K L0 a G b).RateRight c R dS dH h := by
  intro Rt x' y y' t0 hy ey hR hd o hown
  have hcov := spacing_covers (J1 := J1) (J2 := J2) (K := K) (L0 := L0) (a := a) (G := G) (b := b) hv R dH h o
  obtain ⟨i, hi, rfl⟩ := own_iff.mp hown
  have e1 : (fun t => (spacing c vars J1 J2 K L0 a G b).rate (Rt t) (y t) (vars i)) = fun t =>
      K / y t (vars i) ^ 3 - y t (vars i) ^ 3 * seen c J1 J2 (Rt t) i := by
    funext t
    exact spacing_rate hv _ _ hi
  have e2 : (spacing c vars J1 J2 K L0 a G b).rateS R dS h (vars i) =
      -(h (vars i) ^ 3) • (c.systems.map fun p => (inter J1 J2 i (c.flat p.1 p.2) * sgn (R p.1 p.2)) • dS p.1 p.2).sum := by
    refine (fillFlat_apply hv _ hi).trans ?_
    rw [foldl_sub, zero_sub, neg_smul, List.smul_sum]
    simp only [List.map_map, Function.comp_def, smul_smul, mul_assoc]
  have e3 : (fun x => if (spacing c vars J1 J2 K L0 a G b).own x then
      (spacing c vars J1 J2 K L0 a G b).rateH R dH h (vars i) x
      else (spacing c vars J1 J2 K L0 a G b).rateX R dH h (vars i) x) =
      (Function.update 0 (vars i) (-(3 * h (vars i) ^ 2 * seen c J1 J2 R i) - 3 * K / h (vars i) ^ 4) : N → ℝ) +
      -(h (vars i) ^ 3) • (c.systems.map fun p => (inter J1 J2 i (c.flat p.1 p.2) * sgn (R p.1 p.2)) • dH p.1 p.2).sum := by
    have e4 : (fun x => if (spacing c vars J1 J2 K L0 a G b).own x then
      (spacing c vars J1 J2 K L0 a G b).rateH R dH h (vars i) x
      else (spacing c vars J1 J2 K L0 a G b).rateX R dH h (vars i) x) =
      (spacing c vars J1 J2 K L0 a G b).rateH R dH h (vars i) := by
      funext x
      by_cases hx : (spacing c vars J1 J2 K L0 a G b).own x = true
      · rw [if_pos hx]
      · rw [if_neg hx, hcov x hown (by simpa using hx)]
    rw [e4]
    funext x
    refine (congrFun (fillFlat_apply hv _ hi) x).trans ?_
    simp only [sub_sub]
    rw [foldl_sub, zero_sub, List.sum_map_add, Pi.add_apply, Pi.smul_apply, smul_eq_mul]
    have e5 : ∀ l : List (Nat × Nat),
        (l.map fun p => (inter J1 J2 i (c.flat p.1 p.2) * sgn (R p.1 p.2)) • dH p.1 p.2).sum x =
        (l.map fun p => inter J1 J2 i (c.flat p.1 p.2) * sgn (R p.1 p.2) * dH p.1 p.2 x).sum := by
      intro l
      induction l with
      | nil => rfl
      | cons p l ih => simp only [List.map_cons, List.sum_cons, Pi.add_apply, ih]; rfl
    rw [e5, neg_mul, ← List.sum_map_mul_left]
    simp only [mul_assoc]
    by_cases hx : x = vars i
    · subst hx
      simp only [if_true, Function.update_self, seen]
      rw [List.sum_map_mul_left, List.sum_map_mul_left]
      ring
    · simp only [hx, if_false, List.map_const', List.sum_replicate, smul_zero, zero_add, neg_zero, sub_zero]
      rw [update_other hx, zero_add]
  have hseen : HasDerivAt (fun t => seen c J1 J2 (Rt t) i) ((c.systems.map fun p =>
      inter J1 J2 i (c.flat p.1 p.2) * (sgn (R p.1 p.2) * (dS p.1 p.2 ⬝ᵥ x' + dH p.1 p.2 ⬝ᵥ y'))).sum) t0 :=
    list_deriv c.systems _ _ t0 fun p hp => (abs_slip hs hR hp (hd p hp)).const_mul _
  have hz : y t0 (vars i) ≠ 0 := by rw [ey]; exact h0 i hi
  have hmain := ((hasDerivAt_const t0 K).fun_div ((hy (vars i)).fun_pow 3) (pow_ne_zero 3 hz)).fun_sub
    (((hy (vars i)).fun_pow 3).fun_mul hseen)
  rw [e1, e2, e3, add_dotProduct, update_dot, smul_dotProduct, smul_dotProduct, list_dot, list_dot]
  refine hmain.congr_deriv ?_
  have e6 : (c.systems.map fun p =>
      inter J1 J2 i (c.flat p.1 p.2) * (sgn (R p.1 p.2) * (dS p.1 p.2 ⬝ᵥ x' + dH p.1 p.2 ⬝ᵥ y'))).sum =
      (c.systems.map fun p => ((inter J1 J2 i (c.flat p.1 p.2) * sgn (R p.1 p.2)) • dS p.1 p.2) ⬝ᵥ x').sum +
      (c.systems.map fun p => ((inter J1 J2 i (c.flat p.1 p.2) * sgn (R p.1 p.2)) • dH p.1 p.2) ⬝ᵥ y').sum := by
    rw [← List.sum_map_add]
    congr 1
    refine List.map_congr_left fun p _ => ?_
    rw [smul_dotProduct, smul_dotProduct, smul_eq_mul, smul_eq_mul]
    ring
  rw [e6, hR, ey]
  have := h0 i hi
  simp only [smul_eq_mul]
  push_cast
  field_simp
  ring

theorem seen_nonneg (h1 : 0 ≤ J1) (h2 : 0 ≤ J2) (R : Nat → Nat → ℝ) (i : Nat) : 0 ≤ seen c J1 J2 R i := by
  refine List.sum_nonneg fun x hx => ?_
  obtain ⟨p, _, rfl⟩ := List.mem_map.mp hx
  refine mul_nonneg ?_ (abs_nonneg _)
  rw [inter]
  split_ifs <;> assumption

/-- C146: a backward Euler step moves a spacing towards the one at which storage and recovery balance, and never past
it. -/
theorem C146_step (hv : Distinct c.ntotal vars) {i : Nat} (hi : i < c.ntotal) (R : Nat → Nat → ℝ) (h0 h1 : N → ℝ)
    {dt Ls : ℝ} (hdt : 0 ≤ dt) (hJ1 : 0 ≤ J1) (hJ2 : 0 ≤ J2) (hK : 0 ≤ K) (hL : 0 < Ls)
    (hbal : Ls ^ 6 * seen c J1 J2 R i = K) (hp : 0 < h1 (vars i))
    (hstep : h1 (vars i) = h0 (vars i) + dt * (spacing c vars J1 J2 K L0 a G b).rate R h1 (vars i)) :
    (h0 (vars i) ≤ Ls → h0 (vars i) ≤ h1 (vars i) ∧ h1 (vars i) ≤ Ls) ∧
    (Ls ≤ h0 (vars i) → Ls ≤ h1 (vars i) ∧ h1 (vars i) ≤ h0 (vars i)) := by
  rw [spacing_rate hv _ _ hi] at hstep
  set A := seen c J1 J2 R i with hA
  set x := h1 (vars i) with hx
  set x0 := h0 (vars i)
  have hAn : 0 ≤ A := seen_nonneg hJ1 hJ2 R i
  have hx3 : 0 < x ^ 3 := by positivity
  have e : K / x ^ 3 - x ^ 3 * A = A * (Ls ^ 6 - x ^ 6) / x ^ 3 := by
    rw [← hbal]
    field_simp
  rw [e] at hstep
  have hle : x ≤ Ls → 0 ≤ dt * (A * (Ls ^ 6 - x ^ 6) / x ^ 3) := fun h => by
    have : x ^ 6 ≤ Ls ^ 6 := pow_le_pow_left₀ hp.le h 6
    have : 0 ≤ Ls ^ 6 - x ^ 6 := by linarith
    positivity
  have hge : Ls ≤ x → dt * (A * (Ls ^ 6 - x ^ 6) / x ^ 3) ≤ 0 := fun h => by
    have : Ls ^ 6 ≤ x ^ 6 := pow_le_pow_left₀ hL.le h 6
    refine mul_nonpos_of_nonneg_of_nonpos hdt (div_nonpos_of_nonpos_of_nonneg ?_ hx3.le)
    exact mul_nonpos_of_nonneg_of_nonpos hAn (by linarith)
  refine ⟨fun h => ?_, fun h => ?_⟩
  · rcases le_total x Ls with hc | hc
    · exact ⟨by linarith [hle hc], hc⟩
    · have := hge hc
      have hxe : x = Ls := le_antisymm (by linarith) hc
      exact ⟨by linarith, hxe.le⟩
  · rcases le_total x Ls with hc | hc
    · have := hle hc
      have hxe : x = Ls := le_antisymm hc (by linarith)
      exact ⟨hxe.ge, by linarith⟩
    · exact ⟨hc, by linarith [hge hc]⟩

/-- C146: a system hardens exactly while its spacing falls; strengths are positive. -/
theorem C146_taylor {g i : Nat} {h h' : N → ℝ} (hG : 0 < a * G * b) (hp : 0 < h (vars (c.flat g i)))
    (hp' : 0 < h' (vars (c.flat g i))) :
    0 < (spacing c vars J1 J2 K L0 a G b).tau g i h ∧
    ((spacing c vars J1 J2 K L0 a G b).tau g i h < (spacing c vars J1 J2 K L0 a G b).tau g i h' ↔
      h' (vars (c.flat g i)) < h (vars (c.flat g i))) := by
  simp only [spacing]
  exact ⟨div_pos hG hp, div_lt_div_iff_of_pos_left hG hp hp'⟩

/-! ## C148 -/

theorem rpow_pred {x A : ℝ} (hx : 0 < x) : x ^ (A - 1) = x ^ (A - 2) * x := by
  rw [← Real.rpow_add_one hx.ne']
  ring_nf

theorem sgn_neg' {x : ℝ} (h : x < 0) : sgn x = -1 := if_pos h

theorem sgn_pos' {x : ℝ} (h : 0 < x) : sgn x = 1 := if_neg (not_lt.mpr h.le)

theorem sgn_mul_abs (x : ℝ) : sgn x * |x| = x := by
  rcases lt_trichotomy x 0 with h | h | h
  · rw [abs_of_neg h, sgn_neg' h]; ring
  · rw [h, abs_zero, mul_zero]
  · rw [abs_of_pos h, sgn_pos' h]; ring

/-- C148: below the strength the Arrhenius rule reports the derivatives of its rate. -/
theorem C148_right (hard : Hard N) {g0 A B F tau : ℝ} (h0 : 0 ≤ g0) (hA : 0 < A) (hB : 0 ≤ B) (hF : 0 ≤ F)
    (S : Fin 1 → ℝ) (ht : tau ≠ 0) (hS : |tau| < S 0) : (arrhenius hard g0 A B F).Right tau S := by
  intro u u' v v' t0 hu hv eu ev
  have hS0 : 0 < S 0 := (abs_nonneg _).trans_lt hS
  have hv0 : v t0 0 ≠ 0 := by rw [ev]; exact hS0.ne'
  have hu0 : u t0 / v t0 0 ≠ 0 := by rw [eu, ev]; exact div_ne_zero ht hS0.ne'
  have hq := abs_deriv (hu.fun_div (hv 0) hv0) fun h => absurd h hu0
  have hqe : |u t0 / v t0 0| = |tau| / S 0 := by rw [eu, ev, abs_div, abs_of_pos hS0]
  set x := |tau| / S 0 with hx
  have hx0 : 0 < x := div_pos (abs_pos.mpr ht) hS0
  have hx1 : x < 1 := (div_lt_one hS0).mpr hS
  have hxA : 0 < 1 - x ^ A := by linarith [Real.rpow_lt_one hx0.le hx1 hA]
  have h1 := hq.rpow_const (p := A) (Or.inl (by rw [hqe]; exact hx0.ne'))
  have h2 := (h1.const_sub 1).rpow_const (p := B) (Or.inl (by rw [hqe]; exact hxA.ne'))
  have h3 := (((h2.const_mul (-F)).exp).const_mul g0).mul_const (sgn tau)
  have hev : (fun t => (arrhenius hard g0 A B F).sslip (u t) (v t)) =ᶠ[𝓝 t0] fun t =>
      g0 * Real.exp (-F * (1 - |u t / v t 0| ^ A) ^ B) * sgn tau := by
    rcases lt_or_gt_of_ne ht with hl | hl
    · have : ∀ᶠ t in 𝓝 t0, u t < 0 := hu.continuousAt.eventually_lt continuousAt_const (by simpa only [eu] using hl)
      filter_upwards [this] with t h
      simp only [arrhenius, if_neg h.ne, sgn_neg' h, sgn_neg' hl]
    · have : ∀ᶠ t in 𝓝 t0, 0 < u t := continuousAt_const.eventually_lt hu.continuousAt (by simpa only [eu] using hl)
      filter_upwards [this] with t h
      simp only [arrhenius, if_neg h.ne', sgn_pos' h, sgn_pos' hl]
  refine (h3.congr_of_eventuallyEq hev).congr_deriv ?_
  have hsq : sgn tau * sgn tau = 1 := by
    rcases lt_or_gt_of_ne ht with hl | hl
    · rw [sgn_neg' hl]; ring
    · rw [sgn_pos' hl]; ring
  have hsg : sgn (u t0 / v t0 0) = sgn tau := by
    rw [eu, ev]
    rcases lt_or_gt_of_ne ht with hl | hl
    · rw [sgn_neg' (div_neg_of_neg_of_pos hl hS0), sgn_neg' hl]
    · rw [sgn_pos' (div_pos hl hS0), sgn_pos' hl]
  have hat : |tau| = x * S 0 := by rw [hx]; field_simp
  have htau : tau = sgn tau * (x * S 0) := by rw [← hat, sgn_mul_abs]
  have e1 : |tau / S 0| = x := by rw [hx, abs_div, abs_of_pos hS0]
  simp only [arrhenius, if_neg ht, dotProduct, Fin.sum_univ_one, e1]
  rw [hqe, hsg, eu, ev, rpow_pred hx0]
  have hX2 : 0 ≤ x ^ (A - 2) := Real.rpow_nonneg hx0.le _
  have hXB : 0 ≤ (1 - x ^ A) ^ (B - 1) := Real.rpow_nonneg hxA.le _
  generalize x ^ (A - 2) = X at hX2
  generalize (1 - x ^ A) ^ (B - 1) = Y at hXB
  have hE := (Real.exp_pos (-F * (1 - x ^ A) ^ B)).le
  generalize Real.exp (-F * (1 - x ^ A) ^ B) = E at hE
  have e2 : |-g0 * A * B * F * tau * X * Y * E / S 0 ^ 2| = g0 * A * B * F * (x * S 0) * X * Y * E / S 0 ^ 2 := by
    rw [abs_div, abs_of_pos (by positivity : 0 < S 0 ^ 2)]
    congr 1
    rw [show -g0 * A * B * F * tau * X * Y * E = -(g0 * A * B * F * X * Y * E) * tau by ring, abs_mul, abs_neg,
      abs_of_nonneg (by positivity), hat]
    ring
  rw [e2]
  generalize sgn tau = e at *
  rw [htau]
  have := hS0.ne'
  rcases mul_self_eq_one_iff.mp hsq with he | he <;> rw [he] <;> field_simp <;> ring

/-- C148: the rule is odd, follows the sign of the stress, and up to the strength its rate grows with the stress from
`g0 exp (-F)` to `g0`. -/
theorem C148_range (hard : Hard N) {g0 A B F : ℝ} (h0 : 0 ≤ g0) (hA : 0 < A) (hB : 0 < B) (hF : 0 ≤ F) (S : Fin 1 → ℝ)
    (hS : 0 < S 0) :
    (∀ tau, (arrhenius hard g0 A B F).sslip (-tau) S = -(arrhenius hard g0 A B F).sslip tau S) ∧
    (∀ tau, 0 ≤ tau * (arrhenius hard g0 A B F).sslip tau S) ∧
    (∀ t1 t2, 0 < t1 → t1 ≤ t2 → t2 ≤ S 0 →
      g0 * Real.exp (-F) ≤ (arrhenius hard g0 A B F).sslip t1 S ∧
      (arrhenius hard g0 A B F).sslip t1 S ≤ (arrhenius hard g0 A B F).sslip t2 S ∧
      (arrhenius hard g0 A B F).sslip t2 S ≤ g0) ∧
    (arrhenius hard g0 A B F).sslip (S 0) S = g0 := by
  refine ⟨fun tau => ?_, fun tau => ?_, fun t1 t2 h1 h2 h3 => ?_, ?_⟩
  · rcases lt_trichotomy tau 0 with h | h | h
    · simp only [arrhenius, if_neg h.ne, if_neg (neg_ne_zero.mpr h.ne), sgn_neg' h, sgn_pos' (neg_pos.mpr h), neg_div,
        abs_neg]
      ring
    · simp [arrhenius, h]
    · simp only [arrhenius, if_neg h.ne', if_neg (neg_ne_zero.mpr h.ne'), sgn_pos' h, sgn_neg' (neg_neg_iff_pos.mpr h),
        neg_div, abs_neg]
      ring
  · have hE := (Real.exp_pos (-F * (1 - |tau / S 0| ^ A) ^ B)).le
    rcases lt_trichotomy tau 0 with h | h | h
    · simp only [arrhenius, if_neg h.ne, sgn_neg' h]
      have : 0 ≤ -tau := by linarith
      have := mul_nonneg this (mul_nonneg h0 hE)
      linarith
    · simp [arrhenius, h]
    · simp only [arrhenius, if_neg h.ne', sgn_pos' h]
      positivity
  · have k2 := h1.trans_le h2
    simp only [arrhenius, if_neg h1.ne', if_neg k2.ne', sgn_pos' h1, sgn_pos' k2, mul_one,
      abs_of_pos (div_pos h1 hS), abs_of_pos (div_pos k2 hS)]
    have a1 : 0 ≤ t1 / S 0 := (div_pos h1 hS).le
    have a2 : t1 / S 0 ≤ t2 / S 0 := div_le_div_of_nonneg_right h2 hS.le
    have a3 : t2 / S 0 ≤ 1 := (div_le_one hS).mpr h3
    have b1 : 0 ≤ (t1 / S 0) ^ A := Real.rpow_nonneg a1 _
    have b2 : (t1 / S 0) ^ A ≤ (t2 / S 0) ^ A := Real.rpow_le_rpow a1 a2 hA.le
    have b3 : (t2 / S 0) ^ A ≤ 1 := Real.rpow_le_one (a1.trans a2) a3 hA.le
    have c1 : (1 - (t1 / S 0) ^ A) ^ B ≤ 1 := Real.rpow_le_one (by linarith) (by linarith) hB.le
    have c2 : (1 - (t2 / S 0) ^ A) ^ B ≤ (1 - (t1 / S 0) ^ A) ^ B := Real.rpow_le_rpow (by linarith) (by linarith) hB.le
    have c3 : 0 ≤ (1 - (t2 / S 0) ^ A) ^ B := Real.rpow_nonneg (by linarith) _
    refine ⟨mul_le_mul_of_nonneg_left (Real.exp_le_exp.mpr ?_) h0,
      mul_le_mul_of_nonneg_left (Real.exp_le_exp.mpr ?_) h0, ?_⟩
    · nlinarith
    · nlinarith
    · refine mul_le_of_le_one_right h0 (Real.exp_le_one_iff.mpr ?_)
      nlinarith
  · simp [arrhenius, hS.ne', sgn_pos' hS, Real.zero_rpow hB.ne']

/-- C148, the code disagrees: at zero stress the rule reports zero rate and zero derivative, while every other stress
below the strength gives a rate of at least `g0 exp (-F)`. No derivative is right there. -/
theorem C148_jump_disagreement (hard : Hard N) {g0 A B F : ℝ} (h0 : 0 < g0) (hA : 0 < A) (hB : 0 < B) (hF : 0 ≤ F)
    (S : Fin 1 → ℝ) (hS : 0 < S 0) : ¬ (arrhenius hard g0 A B F).Right 0 S := by
  intro hr
  have h := (hr id 1 (fun _ => S) 0 0 (hasDerivAt_id 0) (fun _ => hasDerivAt_const _ _) rfl rfl).continuousAt
  have hz : (arrhenius hard g0 A B F).sslip 0 S = 0 := by simp [arrhenius]
  have hpos : 0 < g0 * Real.exp (-F) := mul_pos h0 (Real.exp_pos _)
  have hlt : ∀ᶠ t in 𝓝 (0 : ℝ), (arrhenius hard g0 A B F).sslip t S < g0 * Real.exp (-F) :=
    h.eventually_lt continuousAt_const (by simpa only [id, hz] using hpos)
  have hs : ∀ᶠ t in 𝓝 (0 : ℝ), t < S 0 := gt_mem_nhds hS
  obtain ⟨t, ⟨ht1, ht2⟩, ht3⟩ := (((hlt.and hs).filter_mono nhdsWithin_le_nhds).and
    (self_mem_nhdsWithin : Set.Ioi (0 : ℝ) ∈ 𝓝[>] 0)).exists
  exact absurd ht1 (not_lt.mpr ((C148_range hard h0.le hA hB hF S hS).2.2.1 t t ht3 le_rfl ht2.le).1)

/-- C148: with the stress fixed, heating speeds slip up. -/
theorem C148_heat (hard : Hard N) {g0 A B a0 G0 b k T1 T2 tau : ℝ} (h0 : 0 ≤ g0) (hA : 0 < A) (h1 : 0 ≤ a0 * G0)
    (h2 : 0 ≤ b) (hk : 0 < k) (hT : 0 < T1) (hT2 : T1 ≤ T2) (S : Fin 1 → ℝ) (hS : 0 < S 0) (ht : 0 < tau)
    (hl : tau ≤ S 0) :
    (arrhenius hard g0 A B (activation a0 G0 b k T1)).sslip tau S ≤
      (arrhenius hard g0 A B (activation a0 G0 b k T2)).sslip tau S := by
  simp only [arrhenius, if_neg ht.ne', sgn_pos' ht, mul_one, abs_of_pos (div_pos ht hS)]
  have b3 : (tau / S 0) ^ A ≤ 1 := Real.rpow_le_one (div_pos ht hS).le ((div_le_one hS).mpr hl) hA.le
  have c3 : 0 ≤ (1 - (tau / S 0) ^ A) ^ B := Real.rpow_nonneg (by linarith) _
  refine mul_le_mul_of_nonneg_left (Real.exp_le_exp.mpr ?_) h0
  refine mul_le_mul_of_nonneg_right (neg_le_neg ?_) c3
  rw [activation, activation]
  exact div_le_div_of_nonneg_left (mul_nonneg h1 (by positivity)) (mul_pos hk hT) (mul_le_mul_of_nonneg_left hT2 hk.le)

/-! ## Cases -/

theorem one_name : Distinct single.ntotal fun _ => (0 : Fin 2) := by
  rw [single_total]
  intro i hi j hj _
  omega

example : (spacing single (fun _ => (0 : Fin 2)) 1 1 1 1 1 1 1).RateRight single (fun _ _ => 2) (fun _ _ _ => 1)
    (fun _ _ _ => 3) (fun _ => 1) :=
  C146_rate one_name _ _ _ _ (fun p hp h => absurd h (by norm_num)) (by norm_num)

example : (spacing single (fun _ => (0 : Fin 2)) 1 1 1 1 1 1 1).TauRight 0 0 (fun _ => 1) :=
  C146_strength (by rw [single_total]; norm_num [Slip.single, Crys.flat]) _ one_ne_zero

theorem single_seen : seen single 1 1 (fun _ _ => 1) 0 = 1 := by
  simp [seen, Crys.systems, Slip.single, Crys.flat, inter]

example : (1 : ℝ) ≤ 2 ∧ (2 : ℝ) ≤ 3 :=
  (C146_step (J1 := 1) (J2 := 1) (K := 1) (L0 := 1) (a := 1) (G := 1) (b := 1) (i := 0) (dt := 8 / 63) (Ls := 1) one_name
    (by rw [single_total]; norm_num) (fun _ _ => 1) (fun _ => 3) (fun _ => 2) (by norm_num) (by norm_num) (by norm_num)
    (by norm_num) (by norm_num) (by rw [single_seen]; norm_num) (by norm_num) (by
      have := spacing_rate (J1 := 1) (J2 := 1) (K := 1) (L0 := 1) (a := 1) (G := 1) (b := 1) one_name (fun _ _ => 1)
        (fun _ => (2 : ℝ)) (i := 0) (by rw [single_total]; norm_num)
      beta_reduce at this ⊢
      rw [this, single_seen]
      norm_num)).2 (by norm_num)

example : (arrhenius (spacing single (fun _ => (0 : Fin 2)) 1 1 1 1 1 1 1) 1 (3 / 4) (4 / 3) 2).Right (-1) (fun _ => 2) :=
  C148_right _ (by norm_num) (by norm_num) (by norm_num) (by norm_num) _ (by norm_num) (by norm_num)

example : ¬ (arrhenius (spacing single (fun _ => (0 : Fin 2)) 1 1 1 1 1 1 1) 1 (3 / 4) (4 / 3) 2).Right 0 (fun _ => 2) :=
  C148_jump_disagreement _ (by norm_num) (by norm_num) (by norm_num) (by norm_num) _ (by norm_num)

end Neml.HuCocks
