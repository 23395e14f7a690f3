import Verif.Model.Poly
import Mathlib.Algebra.Polynomial.Derivative
import Mathlib.Algebra.Polynomial.Roots
import Mathlib.Tactic.Ring
import Mathlib.Tactic.LinearCombination

/-!
# C49 (integer reduction) and C50 (polynomial helpers)
-/

namespace Neml.Math

open Polynomial

variable {K : Type} [Field K]

/-! ## C50 -/

/-- The polynomial with the given coefficients, highest power first. -/
noncomputable def coeffPoly : List K → K[X]
  | [] => 0
  | a :: l => C a * X ^ l.length + coeffPoly l

/-- Lowest power first (helper). -/
noncomputable def lowPoly : List K → K[X]
  | [] => 0
  | a :: l => C a + X * lowPoly l

theorem foldl_horner (l : List K) (a x : K) :
    l.foldl (fun res c => res * x + c) a = a * x ^ l.length + (coeffPoly l).eval x := by
  induction l generalizing a with
  | nil => simp [coeffPoly]
  | cons b l ih =>
    rw [List.foldl_cons, ih]
    simp [coeffPoly, pow_succ]
    ring

/-- C50. `polyval` evaluates the polynomial, for every non-empty coefficient list. -/
theorem C50_polyval (l : List K) (hl : l ≠ []) (x : K) :
    polyval l x = some ((coeffPoly l).eval x) := by
  cases l with
  | nil => exact absurd rfl hl
  | cons a l => simp [polyval, foldl_horner, coeffPoly]

theorem lowPoly_append (a b : List K) :
    lowPoly (a ++ b) = lowPoly a + X ^ a.length * lowPoly b := by
  induction a with
  | nil => simp [lowPoly]
  | cons c a ih => simp [lowPoly, ih, pow_succ]; ring

theorem coeffPoly_reverse (l : List K) : coeffPoly l.reverse = lowPoly l := by
  have key : ∀ l : List K, coeffPoly l = lowPoly l.reverse := by
    intro l
    induction l with
    | nil => rfl
    | cons a l ih => simp [coeffPoly, lowPoly_append, lowPoly, ih]; ring
  rw [key, List.reverse_reverse]

theorem lowPoly_zipWith_sub : ∀ (a b : List K), a.length = b.length →
    lowPoly (List.zipWith (fun x y => x - y) a b) = lowPoly a - lowPoly b := by
  intro a
  induction a with
  | nil => intro b hb; simp [lowPoly, List.length_eq_zero_iff.1 hb.symm]
  | cons c a ih =>
    intro b hb
    cases b with
    | nil => simp at hb
    | cons d b =>
      simp only [List.length_cons, Nat.add_right_cancel_iff] at hb
      simp [lowPoly, ih b hb]; ring

theorem lowPoly_map_mul (l : List K) (r : K) :
    lowPoly (l.map (fun a => a * r)) = lowPoly l * C r := by
  induction l with
  | nil => simp [lowPoly]
  | cons a l ih => simp [lowPoly, ih]; ring

theorem lowPoly_rootStep (l : List K) (r : K) :
    lowPoly (rootStep l r) = lowPoly l * (X - C r) := by
  unfold rootStep
  rw [lowPoly_zipWith_sub _ _ (by simp), lowPoly_append, lowPoly_map_mul]
  simp [lowPoly]; ring

theorem lowPoly_foldl (roots : List K) (l : List K) :
    lowPoly (roots.foldl rootStep l) = lowPoly l * (roots.map (fun r => X - C r)).prod := by
  induction roots generalizing l with
  | nil => simp
  | cons r roots ih => rw [List.foldl_cons, ih, lowPoly_rootStep]; simp; ring

/-- C50. `poly_from_roots` gives the coefficients of the product of the `X - r`. -/
theorem C50_poly_from_roots (roots : List K) :
    coeffPoly (polyFromRoots roots) = (roots.map (fun r => X - C r)).prod := by
  unfold polyFromRoots
  rw [coeffPoly_reverse, lowPoly_foldl]
  simp [lowPoly]

theorem length_foldl_rootStep (roots l : List K) :
    (roots.foldl rootStep l).length = l.length + roots.length := by
  induction roots generalizing l with
  | nil => simp
  | cons r roots ih =>
    rw [List.foldl_cons, ih]
    simp [rootStep]; omega

/-- C50. The list has one entry more than the roots, starts with 1 (monic), and
evaluates to zero exactly at the roots. -/
theorem C50_roots_exactly (roots : List K) (x : K) :
    (polyFromRoots roots).length = roots.length + 1 ∧
    (polyval (polyFromRoots roots) x = some 0 ↔ x ∈ roots) ∧
    (coeffPoly (polyFromRoots roots)).Monic := by
  have hlen : (polyFromRoots roots).length = roots.length + 1 := by
    simp [polyFromRoots, length_foldl_rootStep]; omega
  refine ⟨hlen, ?_, ?_⟩
  · rw [C50_polyval _ (by intro h; rw [h] at hlen; simp at hlen), C50_poly_from_roots]
    simp only [Option.some.injEq]
    induction roots with
    | nil => simp
    | cons r roots ih =>
      simp only [List.map_cons, List.prod_cons, eval_mul, mul_eq_zero, List.mem_cons]
      rw [ih (by simp [polyFromRoots, length_foldl_rootStep]; omega)]
      simp [sub_eq_zero]
  · rw [C50_poly_from_roots]
    induction roots with
    | nil => simp
    | cons r roots ih =>
      simp only [List.map_cons, List.prod_cons]
      exact (monic_X_sub_C r).mul (ih (by simp [polyFromRoots, length_foldl_rootStep]; omega))

theorem coeffPoly_diffPass : ∀ l : List K, coeffPoly (diffPass l) = derivative (coeffPoly l)
  | [] => by simp [diffPass, coeffPoly]
  | [a] => by simp [diffPass, coeffPoly]
  | a :: b :: l => by
    rw [diffPass, coeffPoly, coeffPoly_diffPass (b :: l)]
    have hlen : (diffPass (b :: l)).length = l.length := by
      have : ∀ l : List K, (diffPass l).length = l.length - 1 := by
        intro l
        induction l with
        | nil => rfl
        | cons c l ih =>
          cases l with
          | nil => rfl
          | cons d l => simp [diffPass, ih]
      rw [this]; simp
    conv_rhs => rw [coeffPoly]
    rw [hlen]
    simp [derivative_X_pow]
    ring

theorem coeffPoly_diffLoop (n : Nat) (l : List K) :
    coeffPoly (diffLoop n l) = derivative^[n] (coeffPoly l) := by
  induction n generalizing l with
  | zero => rfl
  | succ n ih =>
    rw [diffLoop]
    split_ifs with h
    · obtain ⟨a, rfl⟩ := List.length_eq_one_iff.1 h
      have h0 : coeffPoly [a] = C a := by simp [coeffPoly]
      rw [h0, Function.iterate_succ_apply, derivative_C, iterate_derivative_zero]
      simp [coeffPoly]
    · rw [ih, coeffPoly_diffPass, Function.iterate_succ_apply]

/-- C50. `differentiate_poly(p, n)` gives the coefficients of the `n`-th derivative,
for every non-empty coefficient list. -/
theorem C50_differentiate (l : List K) (hl : l ≠ []) (n : Nat) :
    ∃ r, differentiatePoly l n = some r ∧ coeffPoly r = derivative^[n] (coeffPoly l) := by
  refine ⟨diffLoop n l, by simp [differentiatePoly, hl], coeffPoly_diffLoop n l⟩

/-- The result list is never empty, so it can be evaluated again. -/
theorem C50_differentiate_nonempty (l r : List K) (hl : l ≠ []) (n : Nat)
    (h : differentiatePoly l n = some r) : r ≠ [] := by
  simp only [differentiatePoly, hl, false_and, if_false, Option.some.injEq] at h
  subst h
  induction n generalizing l with
  | zero => exact hl
  | succ n ih =>
    rw [diffLoop]
    split_ifs with h1
    · simp
    · apply ih
      intro he
      apply h1
      cases l with
      | nil => exact absurd rfl hl
      | cons a l =>
        cases l with
        | nil => rfl
        | cons b l => simp [diffPass] at he

/-- Concrete cases for C50: `x^2 - 3x + 2` from its roots, its value at 5, and its
derivative `2x - 3`. -/
example : polyFromRoots [(1 : ℚ), 2] = [1, -3, 2] ∧ polyval [(1 : ℚ), -3, 2] 5 = some 12 ∧
    differentiatePoly [(1 : ℚ), -3, 2] 1 = some [2, -3] := by
  refine ⟨?_, ?_, ?_⟩
  · norm_num [polyFromRoots, rootStep]
  · norm_num [polyval]
  · rw [differentiatePoly, if_neg (by simp)]
    norm_num [diffLoop, diffPass]

/-! ## C49 -/

theorem natAbs_gcd (a b : Int) : (gcd a b).natAbs = Int.gcd a b := by
  induction h : a.natAbs using Nat.strong_induction_on generalizing a b with
  | _ n ih =>
    rw [gcd]
    split_ifs with h0
    · subst h0; simp
    · have hlt : (b.tmod a).natAbs < n := by
        rw [← h, Int.natAbs_tmod]; exact Nat.mod_lt _ (by omega)
      rw [ih _ hlt _ _ rfl]
      simp only [Int.gcd_def, Int.natAbs_tmod]
      exact (Nat.gcd_rec _ _).symm

/-- The greatest common divisor of a list of integers. -/
def listGcd (l : List Int) : Nat := l.foldr (fun x g => Int.gcd x g) 0

theorem listGcd_dvd {l : List Int} {x : Int} (hx : x ∈ l) : ((listGcd l : Nat) : Int) ∣ x := by
  induction l with
  | nil => simp at hx
  | cons a l ih =>
    simp only [listGcd, List.foldr_cons]
    rcases List.mem_cons.1 hx with rfl | hx
    · exact Int.gcd_dvd_left _ _
    · exact dvd_trans (Int.gcd_dvd_right _ _) (ih hx)

theorem dvd_listGcd {l : List Int} {d : Int} (h : ∀ x ∈ l, d ∣ x) : d ∣ (listGcd l : Nat) := by
  induction l with
  | nil => simp [listGcd]
  | cons a l ih =>
    simp only [listGcd, List.foldr_cons]
    exact Int.dvd_coe_gcd (h a (by simp)) (ih (fun x hx => h x (by simp [hx])))

theorem natAbs_foldl_gcd (l : List Int) (c : Int) :
    (l.foldl (fun c x => gcd c x) c).natAbs = Int.gcd c (listGcd l) := by
  induction l generalizing c with
  | nil => simp [listGcd]
  | cons a l ih =>
    rw [List.foldl_cons, ih]
    have h1 : Int.gcd (gcd c a) (listGcd l) = Nat.gcd (Int.gcd c a) (listGcd l) := by
      rw [Int.gcd_def, natAbs_gcd]; simp
    rw [h1]
    simp only [listGcd, List.foldr_cons]
    simp only [Int.gcd_def, Int.natAbs_natCast]
    rw [Nat.gcd_assoc]

theorem natAbs_commonGcd {l : List Int} {f : Int} (h : commonGcd l = some f) :
    f.natAbs = listGcd l := by
  cases l with
  | nil => simp [commonGcd] at h
  | cons a l =>
    simp only [commonGcd, Option.some.injEq] at h
    subst h
    rw [natAbs_foldl_gcd]; rfl

/-- C49. `reduce_gcd` fails exactly on the all-zero (or empty) vector, where the
C++ code divides by zero; on every other integer vector the result times a positive
integer `g` is the input (same direction), `g` is the greatest common divisor of
the input, and the result has no common divisor but one. -/
theorem C49_reduce_gcd (l : List Int) :
    (reduceGcd l = none ↔ ∀ x ∈ l, x = 0) ∧
    ∀ r, reduceGcd l = some r →
      ∃ g : Int, 0 < g ∧ l = r.map (fun x => g * x) ∧
        (∀ d : Int, (∀ x ∈ l, d ∣ x) ↔ d ∣ g) ∧
        (∀ d : Int, (∀ x ∈ r, d ∣ x) → d ∣ 1) := by
  have hzero : listGcd l = 0 ↔ ∀ x ∈ l, x = 0 := by
    constructor
    · intro h x hx
      have := listGcd_dvd hx
      rw [h] at this
      simpa using this
    · intro h
      have : ((0 : Int)) ∣ (listGcd l : Nat) := dvd_listGcd (fun x hx => by rw [h x hx])
      simpa using this
  cases hc : commonGcd l with
  | none =>
    have hl : l = [] := by cases l with
      | nil => rfl
      | cons a l => simp [commonGcd] at hc
    subst hl
    simp [reduceGcd, commonGcd]
  | some f =>
    have hf := natAbs_commonGcd hc
    constructor
    · simp only [reduceGcd, hc]
      rw [← hzero, ← hf]
      constructor
      · intro h; split_ifs at h with h0; simp [h0]
      · intro h; rw [if_pos (by omega)]
    · intro r hr
      simp only [reduceGcd, hc] at hr
      split_ifs at hr with h0
      simp only [Option.some.injEq] at hr
      subst hr
      have hpos : 0 < listGcd l := by omega
      rw [hf]
      have hmul : ∀ x ∈ l, (listGcd l : Int) * x.tdiv (listGcd l : Int) = x :=
        fun x hx => Int.mul_tdiv_cancel' (listGcd_dvd hx)
      refine ⟨(listGcd l : Int), by omega, ?_, ?_, ?_⟩
      · rw [List.map_map]
        conv_lhs => rw [← List.map_id l]
        apply List.map_congr_left
        intro x hx
        simp [hmul x hx]
      · intro d
        exact ⟨fun h => dvd_listGcd h, fun h x hx => dvd_trans h (listGcd_dvd hx)⟩
      · intro d hd
        have h1 : (listGcd l : Int) * d ∣ (listGcd l : Int) := by
          apply dvd_listGcd
          intro x hx
          have := hd (x.tdiv (listGcd l : Int)) (List.mem_map_of_mem hx)
          rw [← hmul x hx]
          exact mul_dvd_mul_left _ this
        have h2 : (listGcd l : Int) * d ∣ (listGcd l : Int) * 1 := by simpa using h1
        exact (mul_dvd_mul_iff_left (by omega)).1 h2

/-- Concrete cases for C49. -/
example : reduceGcd [4, -6, 0, 10] = some [2, -3, 0, 5] ∧ reduceGcd [-2, -4] = some [-1, -2] ∧
    reduceGcd [0, 0, 0] = none := by
  have h1 : commonGcd [4, -6, 0, 10] = some (-2) := by
    simp only [commonGcd, List.foldl]
    have a : gcd 4 (-6) = -2 := by repeat (rw [gcd]; simp)
    have b : gcd (-2) 0 = -2 := by repeat (rw [gcd]; simp)
    have c : gcd (-2) 10 = -2 := by repeat (rw [gcd]; simp)
    rw [a, b, c]
  have h2 : commonGcd [-2, -4] = some (-2) := by
    simp only [commonGcd, List.foldl]
    have a : gcd (-2) (-4) = -2 := by repeat (rw [gcd]; simp)
    rw [a]
  refine ⟨?_, ?_, ?_⟩
  · simp [reduceGcd, h1]
  · simp [reduceGcd, h2]
  · exact (C49_reduce_gcd _).1.2 (by simp)

end Neml.Math
