import Verif.Props.SlipTangent

/-!
# C99: derivatives of the hardening rates and of a whole slip rule
-/

namespace Neml.Slip

open Matrix Filter Topology
open Neml.Damage (Moves)

variable {N : Type} [DecidableEq N] [Fintype N]

/-- A system that does not slip has slip rates with zero derivatives. -/
def Still (c : Crys) (R : Nat → Nat → ℝ) (dS : Nat → Nat → Fin 6 → ℝ) (dH : Nat → Nat → N → ℝ) : Prop :=
  ∀ p ∈ c.systems, R p.1 p.2 = 0 → dS p.1 p.2 = 0 ∧ dH p.1 p.2 = 0

/-- The slip rates do not depend on variables of other strengths. -/
def Alone (H : Hard N) (c : Crys) (dH : Nat → Nat → N → ℝ) : Prop :=
  ∀ p ∈ c.systems, ∀ b, H.own b = false → dH p.1 p.2 b = 0

theorem chain_eq {v : N} {K L : ℝ} {u : Fin 6 → ℝ} {w : N → ℝ} {x' : Fin 6 → ℝ} {y' : N → ℝ} :
    (K • u) ⬝ᵥ x' + (fun b : N => (Function.update 0 v L : N → ℝ) b + K * w b) ⬝ᵥ y' =
      L * y' v + K * (u ⬝ᵥ x' + w ⬝ᵥ y') := by
  have : (fun b : N => (Function.update 0 v L : N → ℝ) b + K * w b) = (Function.update 0 v L : N → ℝ) + K • w := rfl
  rw [this, add_dotProduct, update_dot, smul_dotProduct, smul_dotProduct, smul_eq_mul, smul_eq_mul]
  ring

theorem abs_slip {c : Crys} {R : Nat → Nat → ℝ} {dS : Nat → Nat → Fin 6 → ℝ} {dH : Nat → Nat → N → ℝ}
    (hs : Still c R dS dH) {Rt : ℝ → Nat → Nat → ℝ} {x' : Fin 6 → ℝ} {y' : N → ℝ} {t0 : ℝ} (hR : Rt t0 = R)
    {p : Nat × Nat} (hp : p ∈ c.systems)
    (hd : HasDerivAt (fun t => Rt t p.1 p.2) (dS p.1 p.2 ⬝ᵥ x' + dH p.1 p.2 ⬝ᵥ y') t0) :
    HasDerivAt (fun t => |Rt t p.1 p.2|) (sgn (R p.1 p.2) * (dS p.1 p.2 ⬝ᵥ x' + dH p.1 p.2 ⬝ᵥ y')) t0 := by
  have := abs_deriv hd fun h0 => by
    rw [hR] at h0
    rw [(hs p hp h0).1, (hs p hp h0).2]
    simp
  rw [hR] at this
  exact this

/-- C99: the fixed strengths. -/
theorem C99_fixed (c : Crys) (str : Nat → ℝ) (R : Nat → Nat → ℝ) (dS : Nat → Nat → Fin 6 → ℝ)
    (dH : Nat → Nat → N → ℝ) (h : N → ℝ) : (fixedStrength c str).RateRight c R dS dH h :=
  fun _ _ _ _ _ _ _ _ _ _ ha => absurd ha (by simp [fixedStrength])

/-- C99: Voce hardening for each system, when the slip rates depend on no other variables (missing: rules with
several strengths, see `C99_voce_per_missing`). -/
theorem C99_voce_per_partial {c : Crys} {vars : Nat → N} (hv : Distinct c.ntotal vars) (ini k sat m : Nat → ℝ)
    (R : Nat → Nat → ℝ) (dS : Nat → Nat → Fin 6 → ℝ) (dH : Nat → Nat → N → ℝ) (h : N → ℝ)
    (ha : Alone (vocePer c vars ini k sat m) c dH)
    (hb : ∀ q < c.ntotal, 1 - (h (vars q) - ini q) / (sat q - ini q) ≠ 0 ∨ 1 ≤ m q) :
    (vocePer c vars ini k sat m).RateRight c R dS dH h := by
  intro Rt x' y y' t0 hy ey hR hd a hown
  obtain ⟨p, hp, rfl⟩ := own_system hown
  set q := c.flat p.1 p.2 with hq
  have hql : q < c.ntotal := flat_lt hp
  have e1 : (fun t => (vocePer c vars ini k sat m).rate (Rt t) (y t) (vars q)) = fun t =>
      k q * (1 - (y t (vars q) - ini q) / (sat q - ini q)) ^ m q * Rt t p.1 p.2 := by
    funext t
    simp only [vocePer]
    exact fill_apply hv _ hp
  have e2 : (vocePer c vars ini k sat m).rateS R dS h (vars q) =
      (k q * (1 - (h (vars q) - ini q) / (sat q - ini q)) ^ m q) • dS p.1 p.2 := by
    simp only [vocePer]
    exact fill_apply hv _ hp
  have e3 : (vocePer c vars ini k sat m).rateH R dH h (vars q) = fun a => if ownOf c.ntotal vars a then
      (Function.update 0 (vars q)
        (-k q * m q / (sat q - ini q) * (1 - (h (vars q) - ini q) / (sat q - ini q)) ^ (m q - 1) * R p.1 p.2) : N → ℝ) a
        + k q * (1 - (h (vars q) - ini q) / (sat q - ini q)) ^ m q * dH p.1 p.2 a else 0 := by
    simp only [vocePer]
    exact fill_apply hv _ hp
  have e4 : (fun b => if (vocePer c vars ini k sat m).own b then (vocePer c vars ini k sat m).rateH R dH h (vars q) b
      else (vocePer c vars ini k sat m).rateX R dH h (vars q) b) = fun b =>
      (Function.update 0 (vars q)
        (-k q * m q / (sat q - ini q) * (1 - (h (vars q) - ini q) / (sat q - ini q)) ^ (m q - 1) * R p.1 p.2) : N → ℝ) b
        + k q * (1 - (h (vars q) - ini q) / (sat q - ini q)) ^ m q * dH p.1 p.2 b := by
    funext b
    simp only [e3]
    by_cases hob : ownOf c.ntotal vars b = true
    · have : (vocePer c vars ini k sat m).own b = true := hob
      rw [if_pos this, if_pos hob]
    · have hob' : ownOf c.ntotal vars b = false := by simpa using hob
      have : ¬ (vocePer c vars ini k sat m).own b = true := hob
      rw [if_neg this, ha p hp b hob', update_other (ne_own hob' hql)]
      simp [vocePer]
  rw [e1, e2, e4, chain_eq]
  have hbase : HasDerivAt (fun t => 1 - (y t (vars q) - ini q) / (sat q - ini q)) (-(y' (vars q) / (sat q - ini q))) t0 :=
    (((hy (vars q)).sub_const _).div_const _).const_sub 1
  have hpow := hbase.rpow_const (p := m q) (by rw [ey]; exact hb q hql)
  have hd' := hd p hp
  refine ((hpow.const_mul (k q)).mul hd').congr_deriv ?_
  rw [ey, hR]
  ring

/-- C99: the model of saturating, possibly negative, strengths, when the slip rates depend on no other variables
(missing: rules with several strengths, see `C99_fa_missing`). -/
theorem C99_fa_partial {c : Crys} {vars : Nat → N} (hv : Distinct c.ntotal vars) (k sat : Nat → ℝ)
    (R : Nat → Nat → ℝ) (dS : Nat → Nat → Fin 6 → ℝ) (dH : Nat → Nat → N → ℝ) (h : N → ℝ)
    (ha : Alone (faSlip c vars k sat) c dH) (hs : Still c R dS dH) :
    (faSlip c vars k sat).RateRight c R dS dH h := by
  intro Rt x' y y' t0 hy ey hR hd a hown
  obtain ⟨p, hp, rfl⟩ := own_system hown
  set q := c.flat p.1 p.2 with hq
  have hql : q < c.ntotal := flat_lt hp
  have e1 : (fun t => (faSlip c vars k sat).rate (Rt t) (y t) (vars q)) = fun t =>
      k q * (Rt t p.1 p.2 - y t (vars q) / sat q * |Rt t p.1 p.2|) := by
    funext t
    simp only [faSlip]
    exact fill_apply hv _ hp
  have e2 : (faSlip c vars k sat).rateS R dS h (vars q) =
      (k q * (1 - h (vars q) / sat q * sgn (R p.1 p.2))) • dS p.1 p.2 := by
    simp only [faSlip]
    exact fill_apply hv _ hp
  have e3 : (faSlip c vars k sat).rateH R dH h (vars q) = fun a => if ownOf c.ntotal vars a then
      (Function.update 0 (vars q) (-k q / sat q * |R p.1 p.2|) : N → ℝ) a
        + k q * (1 - h (vars q) / sat q * sgn (R p.1 p.2)) * dH p.1 p.2 a else 0 := by
    simp only [faSlip]
    exact fill_apply hv _ hp
  have e4 : (fun b => if (faSlip c vars k sat).own b then (faSlip c vars k sat).rateH R dH h (vars q) b
      else (faSlip c vars k sat).rateX R dH h (vars q) b) = fun b =>
      (Function.update 0 (vars q) (-k q / sat q * |R p.1 p.2|) : N → ℝ) b
        + k q * (1 - h (vars q) / sat q * sgn (R p.1 p.2)) * dH p.1 p.2 b := by
    funext b
    simp only [e3]
    by_cases hob : ownOf c.ntotal vars b = true
    · have : (faSlip c vars k sat).own b = true := hob
      rw [if_pos this, if_pos hob]
    · have hob' : ownOf c.ntotal vars b = false := by simpa using hob
      have : ¬ (faSlip c vars k sat).own b = true := hob
      rw [if_neg this, ha p hp b hob', update_other (ne_own hob' hql)]
      simp [faSlip]
  rw [e1, e2, e4, chain_eq]
  have h2 := abs_slip hs hR hp (hd p hp)
  refine (((hd p hp).sub (((hy (vars q)).div_const (sat q)).mul h2)).const_mul (k q)).congr_deriv ?_
  rw [ey, hR]
  ring

/-- C99: the linear interaction model. -/
theorem C99_general {c : Crys} {vars : Nat → N} (hv : Distinct c.ntotal vars) (M : Nat → Nat → ℝ) (tau0 : Nat → ℝ)
    (absval : Bool) (R : Nat → Nat → ℝ) (dS : Nat → Nat → Fin 6 → ℝ) (dH : Nat → Nat → N → ℝ) (h : N → ℝ)
    (hs : absval = true → Still c R dS dH) : (generalLinear c vars M tau0 absval).RateRight c R dS dH h := by
  intro Rt x' y y' t0 hy ey hR hd a hown
  obtain ⟨q, hql, rfl⟩ := own_iff.mp hown
  have hid : Distinct c.ntotal (id : Nat → Nat) := fun i _ j _ h => h
  have e1 : (fun t => (generalLinear c vars M tau0 absval).rate (Rt t) (y t) (vars q)) = fun t =>
      (c.systems.map fun p => M q (c.flat p.1 p.2) * (if absval then |Rt t p.1 p.2| else Rt t p.1 p.2)).sum := by
    funext t
    refine (fillFlat_apply hv _ hql).trans ?_
    rw [sum_flat]
    congr 1
    refine List.map_congr_left fun p hp => ?_
    have : fill c id (Rt t) (c.flat p.1 p.2) = Rt t p.1 p.2 := fill_apply hid _ hp
    simp only [this]
  have e2 : (generalLinear c vars M tau0 absval).rateS R dS h (vars q) =
      (c.systems.map fun p => M q (c.flat p.1 p.2) • (if absval then sgn (R p.1 p.2) • dS p.1 p.2 else dS p.1 p.2)).sum := by
    refine (fillFlat_apply hv _ hql).trans ?_
    rw [sum_flat]
    congr 1
    refine List.map_congr_left fun p hp => ?_
    have : fill c id (fun g i => if absval then sgn (R g i) • dS g i else dS g i) (c.flat p.1 p.2) =
      if absval then sgn (R p.1 p.2) • dS p.1 p.2 else dS p.1 p.2 := fill_apply hid _ hp
    simp only [this]
  have e4 : (fun b => if (generalLinear c vars M tau0 absval).own b then
      (generalLinear c vars M tau0 absval).rateH R dH h (vars q) b
      else (generalLinear c vars M tau0 absval).rateX R dH h (vars q) b) =
      (c.systems.map fun p => (M q (c.flat p.1 p.2) * (if absval then sgn (R p.1 p.2) else 1)) • dH p.1 p.2).sum := by
    funext b
    have e5 : (generalLinear c vars M tau0 absval).rateH R dH h (vars q) b = if ownOf c.ntotal vars b then
        (c.systems.map fun p => M q (c.flat p.1 p.2) * (if absval then sgn (R p.1 p.2) else 1) * dH p.1 p.2 b).sum
        else 0 := congrFun (fillFlat_apply hv _ hql) b
    have e6 : (generalLinear c vars M tau0 absval).rateX R dH h (vars q) b =
        (c.systems.map fun p => M q (c.flat p.1 p.2) * (if absval then sgn (R p.1 p.2) else 1) * dH p.1 p.2 b).sum :=
      congrFun (fillFlat_apply hv _ hql) b
    have e7 : ∀ l : List (Nat × Nat),
        (l.map fun p => (M q (c.flat p.1 p.2) * (if absval then sgn (R p.1 p.2) else 1)) • dH p.1 p.2).sum b =
        (l.map fun p => M q (c.flat p.1 p.2) * (if absval then sgn (R p.1 p.2) else 1) * dH p.1 p.2 b).sum := by
      intro l
      induction l with
      | nil => rfl
      | cons p l ih =>
        rw [List.map_cons, List.sum_cons, List.map_cons, List.sum_cons, Pi.add_apply, ih]
        rfl
    rw [e5, e6, e7]
    by_cases hob : ownOf c.ntotal vars b = true
    · have : (generalLinear c vars M tau0 absval).own b = true := hob
      rw [if_pos this, if_pos hob]
    · have : ¬ (generalLinear c vars M tau0 absval).own b = true := hob
      rw [if_neg this]
  rw [e1, e2, e4, list_dot, list_dot, ← List.sum_map_add]
  refine list_deriv c.systems _ _ t0 fun p hp => ?_
  cases absval with
  | true =>
    simp only [if_true]
    refine ((abs_slip (hs rfl) hR hp (hd p hp)).const_mul _).congr_deriv ?_
    simp only [smul_dotProduct, smul_eq_mul]
    ring
  | false =>
    simp only [Bool.false_eq_true, if_false]
    refine ((hd p hp).const_mul _).congr_deriv ?_
    simp only [smul_dotProduct, smul_eq_mul]
    ring

/-- C99: accumulated slip of the simple linear model. -/
theorem C99_simple {c : Crys} {vars : Nat → N} (hv : Distinct c.ntotal vars) (G : Nat → Nat → ℝ) (tau0 : Nat → ℝ)
    (R : Nat → Nat → ℝ) (dS : Nat → Nat → Fin 6 → ℝ) (dH : Nat → Nat → N → ℝ) (h : N → ℝ)
    (hs : Still c R dS dH) : (simpleLinear c vars G tau0).RateRight c R dS dH h := by
  intro Rt x' y y' t0 hy ey hR hd a hown
  obtain ⟨p, hp, rfl⟩ := own_system hown
  have ev : ∀ {A : Type} [Zero A] (val : Nat → Nat → A), fillCount c vars val (vars (c.flat p.1 p.2)) = val p.1 p.2 :=
    fun val => by rw [fillCount_eq]; exact fill_apply hv _ hp
  have e1 : (fun t => (simpleLinear c vars G tau0).rate (Rt t) (y t) (vars (c.flat p.1 p.2))) =
      fun t => |Rt t p.1 p.2| := by
    funext t
    simp only [simpleLinear]
    exact ev _
  have e2 : (simpleLinear c vars G tau0).rateS R dS h (vars (c.flat p.1 p.2)) = sgn (R p.1 p.2) • dS p.1 p.2 := by
    simp only [simpleLinear]
    exact ev _
  have e4 : (fun b => if (simpleLinear c vars G tau0).own b then
      (simpleLinear c vars G tau0).rateH R dH h (vars (c.flat p.1 p.2)) b
      else (simpleLinear c vars G tau0).rateX R dH h (vars (c.flat p.1 p.2)) b) = sgn (R p.1 p.2) • dH p.1 p.2 := by
    funext b
    have e5 : (simpleLinear c vars G tau0).rateH R dH h (vars (c.flat p.1 p.2)) b =
      if ownOf c.ntotal vars b then dH p.1 p.2 b * sgn (R p.1 p.2) else 0 := by
      simp only [simpleLinear]
      exact congrFun (ev _) b
    have e6 : (simpleLinear c vars G tau0).rateX R dH h (vars (c.flat p.1 p.2)) b = sgn (R p.1 p.2) * dH p.1 p.2 b := by
      simp only [simpleLinear]
      exact congrFun (ev _) b
    rw [e5, e6]
    by_cases hob : ownOf c.ntotal vars b = true
    · have : (simpleLinear c vars G tau0).own b = true := hob
      rw [if_pos this, if_pos hob, mul_comm]
      rfl
    · have : ¬ (simpleLinear c vars G tau0).own b = true := hob
      rw [if_neg this]
      rfl
  rw [e1, e2, e4]
  refine (abs_slip hs hR hp (hd p hp)).congr_deriv ?_
  simp only [smul_dotProduct, smul_eq_mul]
  ring

theorem sumSlip_deriv {c : Crys} {R : Nat → Nat → ℝ} {dS : Nat → Nat → Fin 6 → ℝ} {dH : Nat → Nat → N → ℝ}
    (hs : Still c R dS dH) {Rt : ℝ → Nat → Nat → ℝ} {x' : Fin 6 → ℝ} {y' : N → ℝ} {t0 : ℝ} (hR : Rt t0 = R)
    (hd : ∀ p ∈ c.systems, HasDerivAt (fun t => Rt t p.1 p.2) (dS p.1 p.2 ⬝ᵥ x' + dH p.1 p.2 ⬝ᵥ y') t0) :
    HasDerivAt (fun t => sumSlip c (Rt t)) (dSumSlip c R dS ⬝ᵥ x' + dSumSlip c R dH ⬝ᵥ y') t0 := by
  refine (list_deriv c.systems (fun p t => |Rt t p.1 p.2|) _ t0 fun p hp => abs_slip hs hR hp (hd p hp)).congr_deriv ?_
  rw [dSumSlip, dSumSlip, list_dot, list_dot, ← List.sum_map_add]
  congr 1
  refine List.map_congr_left fun p _ => ?_
  simp only [smul_dotProduct, smul_eq_mul]
  ring

/-- C99: one strength for all systems, driven by the total slip. -/
theorem C99_plastic (c : Crys) (var : N) (ini static : ℝ) (f df : ℝ → ℝ) (R : Nat → Nat → ℝ)
    (dS : Nat → Nat → Fin 6 → ℝ) (dH : Nat → Nat → N → ℝ) (h : N → ℝ) (hs : Still c R dS dH)
    (hf : HasDerivAt f (df (h var)) (h var)) : (plastic c var ini static f df).RateRight c R dS dH h := by
  intro Rt x' y y' t0 hy ey hR hd a hown
  have ha : a = var := by simpa [plastic] using hown
  subst ha
  have e1 : (fun t => (plastic c a ini static f df).rate (Rt t) (y t) a) = fun t => f (y t a) * sumSlip c (Rt t) := by
    funext t
    simp [plastic]
  have e2 : (plastic c a ini static f df).rateS R dS h a = f (h a) • dSumSlip c R dS := by simp [plastic]
  have e4 : (fun b => if (plastic c a ini static f df).own b then (plastic c a ini static f df).rateH R dH h a b
      else (plastic c a ini static f df).rateX R dH h a b) =
      fun b => (Function.update 0 a (df (h a) * sumSlip c R) : N → ℝ) b + f (h a) * dSumSlip c R dH b := by
    funext b
    by_cases hb : b = a
    · subst hb
      simp [plastic, add_comm]
    · simp [plastic, hb]
  rw [e1, e2, e4, chain_eq]
  have hf' : HasDerivAt (fun t => f (y t a)) (df (h a) * y' a) t0 := by
    have hfa : HasDerivAt f (df (h a)) (y t0 a) := by rw [ey]; exact hf
    exact HasDerivAt.comp t0 hfa (hy a)
  refine (hf'.mul (sumSlip_deriv hs hR hd)).congr_deriv ?_
  rw [ey, hR]
  ring

/-- C99: sums of such strengths. -/
theorem C99_sum (c : Crys) {vars : Nat → N} {n : Nat} (hv : Distinct n vars) (ms : Nat → Member) (R : Nat → Nat → ℝ)
    (dS : Nat → Nat → Fin 6 → ℝ) (dH : Nat → Nat → N → ℝ) (h : N → ℝ) (hs : Still c R dS dH)
    (hf : ∀ i < n, HasDerivAt (ms i).f ((ms i).df (h (vars i))) (h (vars i))) :
    (sumHard c vars n ms).RateRight c R dS dH h := by
  intro Rt x' y y' t0 hy ey hR hd a hown
  obtain ⟨q, hql, rfl⟩ := own_iff.mp hown
  have e1 : (fun t => (sumHard c vars n ms).rate (Rt t) (y t) (vars q)) =
      fun t => (ms q).f (y t (vars q)) * sumSlip c (Rt t) := funext fun t => fillFlat_apply hv _ hql
  have e2 : (sumHard c vars n ms).rateS R dS h (vars q) = (ms q).f (h (vars q)) • dSumSlip c R dS :=
    fillFlat_apply hv _ hql
  have e4 : (fun b => if (sumHard c vars n ms).own b then (sumHard c vars n ms).rateH R dH h (vars q) b
      else (sumHard c vars n ms).rateX R dH h (vars q) b) =
      fun b => (Function.update 0 (vars q) ((ms q).df (h (vars q)) * sumSlip c R) : N → ℝ) b +
        (ms q).f (h (vars q)) * dSumSlip c R dH b := by
    funext b
    have e5 : (sumHard c vars n ms).rateH R dH h (vars q) b = if ownOf n vars b then
      (ms q).f (h (vars q)) * dSumSlip c R dH b +
        (if b = vars q then (ms q).df (h (vars q)) * sumSlip c R else 0) else 0 :=
      congrFun (fillFlat_apply hv _ hql) b
    have e6 : (sumHard c vars n ms).rateX R dH h (vars q) b = (ms q).f (h (vars q)) * dSumSlip c R dH b :=
      congrFun (fillFlat_apply hv _ hql) b
    rw [e5, e6]
    by_cases hob : ownOf n vars b = true
    · have : (sumHard c vars n ms).own b = true := hob
      rw [if_pos this, if_pos hob, add_comm]
      congr 1
      by_cases hb : b = vars q
      · subst hb; simp
      · rw [if_neg hb, update_other hb]
    · have : ¬ (sumHard c vars n ms).own b = true := hob
      rw [if_neg this, update_other (ne_own (by simpa using hob) hql), zero_add]
  rw [e1, e2, e4, chain_eq]
  have hf' : HasDerivAt (fun t => (ms q).f (y t (vars q))) ((ms q).df (h (vars q)) * y' (vars q)) t0 := by
    have hfa : HasDerivAt (ms q).f ((ms q).df (h (vars q))) (y t0 (vars q)) := by rw [ey]; exact hf q hql
    exact HasDerivAt.comp t0 hfa (hy (vars q))
  refine (hf'.mul (sumSlip_deriv hs hR hd)).congr_deriv ?_
  rw [ey, hR]
  ring

/-- C99: the dislocation density model, when the slip rates depend on no other variables (missing: rules with several
strengths, see `C99_lanl_unsigned`). -/
theorem C99_lanl_partial {c : Crys} {vars : Nat → N} (hv : Distinct c.ntotal vars) (ns : Nat)
    (tau0 mu k1 k2 : Nat → ℝ) (C : Nat → Nat → ℝ) (X ini : ℝ)
    (R : Nat → Nat → ℝ) (dS : Nat → Nat → Fin 6 → ℝ) (dH : Nat → Nat → N → ℝ) (h : N → ℝ)
    (ha : Alone (lanlTi c vars ns tau0 mu k1 k2 C X ini) c dH) (hs : Still c R dS dH) :
    (lanlTi c vars ns tau0 mu k1 k2 C X ini).RateRight c R dS dH h := by
  intro Rt x' y y' t0 hy ey hR hd a hown
  obtain ⟨p, hp, rfl⟩ := own_system hown
  set q := c.flat p.1 p.2 with hq
  have hql : q < c.ntotal := flat_lt hp
  set H := lanlTi c vars ns tau0 mu k1 k2 C X ini with hH
  have e1 : (fun t => H.rate (Rt t) (y t) (vars q)) = fun t =>
      if c.twin p.1 then |Rt t p.1 p.2| else 0.5 * (k1 q - k2 q * y t (vars q)) * |Rt t p.1 p.2| := by
    funext t
    simp only [hH, lanlTi]
    exact fill_apply hv _ hp
  have e2 : H.rateS R dS h (vars q) = if c.twin p.1 then sgn (R p.1 p.2) • dS p.1 p.2
      else (0.5 * (k1 q - k2 q * h (vars q)) * sgn (R p.1 p.2)) • dS p.1 p.2 := by
    simp only [hH, lanlTi]
    exact fill_apply hv _ hp
  have e3 : H.rateH R dH h (vars q) = fun a => if ownOf c.ntotal vars a then
      if c.twin p.1 then dH p.1 p.2 a * sgn (R p.1 p.2)
      else (Function.update 0 (vars q) (-0.5 * k2 q * |R p.1 p.2|) : N → ℝ) a
        + 0.5 * (k1 q - k2 q * h (vars q)) * dH p.1 p.2 a * sgn (R p.1 p.2) else 0 := by
    simp only [hH, lanlTi]
    exact fill_apply hv _ hp
  have e6 : H.rateX R dH h (vars q) = fun a =>
      if c.twin p.1 then dH p.1 p.2 a * sgn (R p.1 p.2) else 0.5 * (k1 q - k2 q * h (vars q)) * dH p.1 p.2 a := by
    simp only [hH, lanlTi]
    exact fill_apply hv _ hp
  have h2 := abs_slip hs hR hp (hd p hp)
  by_cases tw : c.twin p.1 = true
  · have e4 : (fun b => if H.own b then H.rateH R dH h (vars q) b else H.rateX R dH h (vars q) b) =
        sgn (R p.1 p.2) • dH p.1 p.2 := by
      funext b
      simp only [e3, e6]
      simp only [tw, if_true]
      by_cases hob : ownOf c.ntotal vars b = true
      · have : H.own b = true := hob
        rw [if_pos this, if_pos hob, mul_comm]
        rfl
      · have : ¬ H.own b = true := hob
        rw [if_neg this, mul_comm]
        rfl
    rw [e1, e2, e4]
    simp only [tw, if_true]
    refine h2.congr_deriv ?_
    simp only [smul_dotProduct, smul_eq_mul]
    ring
  · have e4 : (fun b => if H.own b then H.rateH R dH h (vars q) b else H.rateX R dH h (vars q) b) =
        fun b => (Function.update 0 (vars q) (-0.5 * k2 q * |R p.1 p.2|) : N → ℝ) b +
          0.5 * (k1 q - k2 q * h (vars q)) * sgn (R p.1 p.2) * dH p.1 p.2 b := by
      funext b
      simp only [e3, e6]
      simp only [tw, Bool.false_eq_true, if_false]
      by_cases hob : ownOf c.ntotal vars b = true
      · have : H.own b = true := hob
        rw [if_pos this, if_pos hob]
        ring
      · have hob' : ownOf c.ntotal vars b = false := by simpa using hob
        have : ¬ H.own b = true := hob
        rw [if_neg this, ha p hp b hob', update_other (ne_own hob' hql)]
        simp
    rw [e1, e2, e4]
    simp only [tw, Bool.false_eq_true, if_false]
    rw [chain_eq]
    refine (((((hy (vars q)).const_mul (k2 q)).const_sub (k1 q)).const_mul 0.5).mul h2).congr_deriv ?_
    rw [ey, hR]
    ring

/-! ## Derivatives by variables of other strengths -/

/-- A path along which only one variable moves. -/
theorem one_variable (h : N → ℝ) (b : N) : Moves (fun t => h + t • (Pi.single b 1 : N → ℝ)) (Pi.single b 1) 0 := by
  intro a
  simp only [Pi.add_apply, Pi.smul_apply, smul_eq_mul]
  simpa using ((hasDerivAt_id (0 : ℝ)).mul_const ((Pi.single b 1 : N → ℝ) a)).const_add (h a)

/-- What right derivatives say about a variable of another strength. -/
theorem other_variable {H : Hard N} {c : Crys} {R : Nat → Nat → ℝ} {dS : Nat → Nat → Fin 6 → ℝ}
    {dH : Nat → Nat → N → ℝ} {h : N → ℝ} (hr : H.RateRight c R dS dH h) {b a : N} (hb : H.own b = false)
    (ha : H.own a = true) :
    HasDerivAt (fun t => H.rate (fun g i => R g i + t * dH g i b) (h + t • (Pi.single b 1 : N → ℝ)) a)
      (H.rateX R dH h a b) 0 := by
  have := hr (fun t g i => R g i + t * dH g i b) 0 _ _ 0 (one_variable h b) (by simp) (by simp) (fun p _ => by
    simpa using ((hasDerivAt_id (0 : ℝ)).mul_const (dH p.1 p.2 b)).const_add (R p.1 p.2)) a ha
  refine this.congr_deriv ?_
  simp [hb]

theorem single_other {h : N → ℝ} {a b : N} (hab : a ≠ b) (t : ℝ) : (h + t • (Pi.single b 1 : N → ℝ)) a = h a := by
  simp [hab]

/-- C99 fails for Voce hardening of each system: if the derivatives are right although the slip rate depends on the
variables of another strength, the system does not harden. -/
theorem C99_voce_per_missing {c : Crys} {vars : Nat → N} (hv : Distinct c.ntotal vars) (ini k sat m : Nat → ℝ)
    {R : Nat → Nat → ℝ} {dS : Nat → Nat → Fin 6 → ℝ} {dH : Nat → Nat → N → ℝ} {h : N → ℝ} {p : Nat × Nat}
    (hp : p ∈ c.systems) {b : N} (hb : ownOf c.ntotal vars b = false) (hd : dH p.1 p.2 b ≠ 0)
    (hr : (vocePer c vars ini k sat m).RateRight c R dS dH h) :
    k (c.flat p.1 p.2) * (1 - (h (vars (c.flat p.1 p.2)) - ini (c.flat p.1 p.2)) /
      (sat (c.flat p.1 p.2) - ini (c.flat p.1 p.2))) ^ m (c.flat p.1 p.2) = 0 := by
  have h1 := other_variable hr (a := vars (c.flat p.1 p.2)) hb (own_vars hp)
  have e1 : (fun t => (vocePer c vars ini k sat m).rate (fun g i => R g i + t * dH g i b)
      (h + t • (Pi.single b 1 : N → ℝ)) (vars (c.flat p.1 p.2))) = fun t =>
      k (c.flat p.1 p.2) * (1 - (h (vars (c.flat p.1 p.2)) - ini (c.flat p.1 p.2)) /
      (sat (c.flat p.1 p.2) - ini (c.flat p.1 p.2))) ^ m (c.flat p.1 p.2) * (R p.1 p.2 + t * dH p.1 p.2 b) := by
    funext t
    simp only [vocePer]
    rw [fill_apply hv _ hp, single_other (ne_own hb (flat_lt hp)).symm]
  rw [e1] at h1
  have h2 := (((hasDerivAt_id (0 : ℝ)).mul_const (dH p.1 p.2 b)).const_add (R p.1 p.2)).const_mul
    (k (c.flat p.1 p.2) * (1 - (h (vars (c.flat p.1 p.2)) - ini (c.flat p.1 p.2)) /
      (sat (c.flat p.1 p.2) - ini (c.flat p.1 p.2))) ^ m (c.flat p.1 p.2))
  have h3 := h2.unique h1
  have h4 : (vocePer c vars ini k sat m).rateX R dH h (vars (c.flat p.1 p.2)) b = 0 := rfl
  rw [h4, one_mul] at h3
  exact (mul_eq_zero.mp h3).resolve_right hd

/-- C99 fails for the saturating model in the same way. -/
theorem C99_fa_missing {c : Crys} {vars : Nat → N} (hv : Distinct c.ntotal vars) (k sat : Nat → ℝ)
    {R : Nat → Nat → ℝ} {dS : Nat → Nat → Fin 6 → ℝ} {dH : Nat → Nat → N → ℝ} {h : N → ℝ} {p : Nat × Nat}
    (hp : p ∈ c.systems) {b : N} (hb : ownOf c.ntotal vars b = false) (hd : dH p.1 p.2 b ≠ 0) (hR : R p.1 p.2 ≠ 0)
    (hr : (faSlip c vars k sat).RateRight c R dS dH h) :
    k (c.flat p.1 p.2) * (1 - h (vars (c.flat p.1 p.2)) / sat (c.flat p.1 p.2) * sgn (R p.1 p.2)) = 0 := by
  have h1 := other_variable hr (a := vars (c.flat p.1 p.2)) hb (own_vars hp)
  have e1 : (fun t => (faSlip c vars k sat).rate (fun g i => R g i + t * dH g i b)
      (h + t • (Pi.single b 1 : N → ℝ)) (vars (c.flat p.1 p.2))) = fun t =>
      k (c.flat p.1 p.2) * ((R p.1 p.2 + t * dH p.1 p.2 b) - h (vars (c.flat p.1 p.2)) / sat (c.flat p.1 p.2) *
        |R p.1 p.2 + t * dH p.1 p.2 b|) := by
    funext t
    simp only [faSlip]
    rw [fill_apply hv _ hp, single_other (ne_own hb (flat_lt hp)).symm]
  rw [e1] at h1
  have hl := ((hasDerivAt_id (0 : ℝ)).mul_const (dH p.1 p.2 b)).const_add (R p.1 p.2)
  have h2 := (hl.sub ((abs_deriv hl (fun h0 => absurd (by simpa using h0) hR)).const_mul
    (h (vars (c.flat p.1 p.2)) / sat (c.flat p.1 p.2)))).const_mul (k (c.flat p.1 p.2))
  have h3 := h2.unique h1
  have h4 : (faSlip c vars k sat).rateX R dH h (vars (c.flat p.1 p.2)) b = 0 := rfl
  simp only [h4, id, zero_mul, add_zero, one_mul] at h3
  exact (mul_eq_zero.mp (show k (c.flat p.1 p.2) * (1 - h (vars (c.flat p.1 p.2)) / sat (c.flat p.1 p.2) *
    sgn (R p.1 p.2)) * dH p.1 p.2 b = 0 by rw [← h3]; ring)).resolve_right hd

/-- C99 fails for the dislocation density model: the sign of the slip rate is forgotten, so the derivative by a
variable of another strength has the wrong sign where slip is reversed. -/
theorem C99_lanl_unsigned {c : Crys} {vars : Nat → N} (hv : Distinct c.ntotal vars) (ns : Nat)
    (tau0 mu k1 k2 : Nat → ℝ) (C : Nat → Nat → ℝ) (X ini : ℝ)
    {R : Nat → Nat → ℝ} {dS : Nat → Nat → Fin 6 → ℝ} {dH : Nat → Nat → N → ℝ} {h : N → ℝ} {p : Nat × Nat}
    (hp : p ∈ c.systems) (tw : c.twin p.1 = false) {b : N} (hb : ownOf c.ntotal vars b = false)
    (hd : dH p.1 p.2 b ≠ 0) (hR : R p.1 p.2 < 0)
    (hr : (lanlTi c vars ns tau0 mu k1 k2 C X ini).RateRight c R dS dH h) :
    k1 (c.flat p.1 p.2) = k2 (c.flat p.1 p.2) * h (vars (c.flat p.1 p.2)) := by
  have h1 := other_variable hr (a := vars (c.flat p.1 p.2)) hb (own_vars hp)
  have e1 : (fun t => (lanlTi c vars ns tau0 mu k1 k2 C X ini).rate (fun g i => R g i + t * dH g i b)
      (h + t • (Pi.single b 1 : N → ℝ)) (vars (c.flat p.1 p.2))) = fun t =>
      0.5 * (k1 (c.flat p.1 p.2) - k2 (c.flat p.1 p.2) * h (vars (c.flat p.1 p.2))) *
        |R p.1 p.2 + t * dH p.1 p.2 b| := by
    funext t
    simp only [lanlTi]
    rw [fill_apply hv _ hp, single_other (ne_own hb (flat_lt hp)).symm]
    simp [tw]
  rw [e1] at h1
  have hl := ((hasDerivAt_id (0 : ℝ)).mul_const (dH p.1 p.2 b)).const_add (R p.1 p.2)
  have h2 := (abs_deriv hl (fun h0 => absurd (by simpa using h0) hR.ne)).const_mul
    (0.5 * (k1 (c.flat p.1 p.2) - k2 (c.flat p.1 p.2) * h (vars (c.flat p.1 p.2))))
  have h3 := h2.unique h1
  have h4 : (lanlTi c vars ns tau0 mu k1 k2 C X ini).rateX R dH h (vars (c.flat p.1 p.2)) b =
      0.5 * (k1 (c.flat p.1 p.2) - k2 (c.flat p.1 p.2) * h (vars (c.flat p.1 p.2))) * dH p.1 p.2 b := by
    simp only [lanlTi]
    rw [fill_apply hv _ hp]
    simp [tw]
  have h5 : sgn (R p.1 p.2) = -1 := by rw [sgn, if_pos hR]
  simp only [h4, id, zero_mul, add_zero, one_mul, h5] at h3
  have h6 : (k1 (c.flat p.1 p.2) - k2 (c.flat p.1 p.2) * h (vars (c.flat p.1 p.2))) * dH p.1 p.2 b = 0 := by
    linarith
  linarith [(mul_eq_zero.mp h6).resolve_right hd]

/-! ## Strengths of twins in the dislocation density model -/

theorem fill_flat (c : Crys) (vars : Nat → N) (val : Nat → Nat → ℝ) :
    fill c vars val = fillFlat c.ntotal vars (fill c id val) := by
  rw [fillFlat, ← systems_flat, List.foldl_map, fill]
  refine List.foldl_ext _ _ _ fun r p hp => ?_
  have : fill c id val (c.flat p.1 p.2) = val p.1 p.2 := fill_apply (fun i _ j _ h => h) val hp
  rw [this]

theorem fill_dot {c : Crys} {vars : Nat → N} (hv : Distinct c.ntotal vars) (val : Nat → Nat → ℝ) (v : N → ℝ) :
    fill c vars val ⬝ᵥ v = (c.systems.map fun p => val p.1 p.2 * v (vars (c.flat p.1 p.2))).sum := by
  rw [fill_flat, fillFlat_dot hv, sum_flat]
  congr 1
  refine List.map_congr_left fun p hp => ?_
  have : fill c id val (c.flat p.1 p.2) = val p.1 p.2 := fill_apply (fun i _ j _ h => h) val hp
  rw [this]

/-- The square that stops at zero has a derivative everywhere. -/
theorem half_square {f : ℝ → ℝ} {f' t0 : ℝ} (K : ℝ) (hf : HasDerivAt f f' t0) :
    HasDerivAt (fun t => if 0 < f t then K * f t * f t else 0) (if 0 < f t0 then 2 * K * f t0 * f' else 0) t0 := by
  have hsq : HasDerivAt (fun t => K * f t * f t) (2 * K * f t0 * f') t0 :=
    ((hf.const_mul K).mul hf).congr_deriv (by ring)
  rcases lt_trichotomy (f t0) 0 with hl | hz | hl
  · rw [if_neg hl.not_gt]
    refine (hasDerivAt_const t0 (0 : ℝ)).congr_of_eventuallyEq ?_
    filter_upwards [hf.continuousAt.eventually_lt continuousAt_const hl] with t ht
    rw [if_neg ht.not_gt]
  · rw [if_neg (by rw [hz]; exact lt_irrefl _)]
    rw [hz] at hsq
    simp only [mul_zero, zero_mul] at hsq
    refine squeeze (Eventually.of_forall fun t => ?_) ?_ hsq
    · split_ifs
      · exact le_rfl
      · rw [abs_zero]; exact abs_nonneg _
    · simp [hz]
  · rw [if_pos hl]
    refine hsq.congr_of_eventuallyEq ?_
    filter_upwards [continuousAt_const.eventually_lt hf.continuousAt hl] with t ht
    rw [if_pos ht]

/-- C99, strengths: the dislocation density model, slips and twins. -/
theorem C99_lanl_strength {c : Crys} {vars : Nat → N} (hv : Distinct c.ntotal vars) (ns : Nat)
    (tau0 mu k1 k2 : Nat → ℝ) (C : Nat → Nat → ℝ) (X ini : ℝ) {g i : Nat} (hi : c.flat g i < c.ntotal) (h : N → ℝ) :
    (lanlTi c vars ns tau0 mu k1 k2 C X ini).TauRight g i h := by
  by_cases tw : c.twin g = true
  · refine ⟨fun y y' t0 hy ey => ?_, fun a ha => ?_⟩
    · simp only [lanlTi, tw, if_true]
      rw [fill_dot hv]
      have hd := ((list_deriv c.systems (fun p t => if c.twin p.1 then 0
        else if 0 < y t (vars (c.flat p.1 p.2)) then
          C (c.flat g i - ns) (c.flat p.1 p.2) * c.burgers p.1 p.2 * y t (vars (c.flat p.1 p.2)) *
            y t (vars (c.flat p.1 p.2))
        else 0) (fun p => if c.twin p.1 then 0
        else if 0 < y t0 (vars (c.flat p.1 p.2)) then
          2 * (C (c.flat g i - ns) (c.flat p.1 p.2) * c.burgers p.1 p.2) * y t0 (vars (c.flat p.1 p.2)) *
            y' (vars (c.flat p.1 p.2))
        else 0) t0 fun p _ => by
          by_cases tp : c.twin p.1 = true
          · simp only [tp, if_true]
            exact hasDerivAt_const t0 0
          · simp only [tp, Bool.false_eq_true, if_false]
            exact half_square _ (hy _)).mul_const (c.burgers g i)).mul_const (mu (c.flat g i))
      refine (hd.add_const _).congr_deriv ?_
      rw [mul_assoc, ← List.sum_map_mul_right, ey]
      congr 1
      refine List.map_congr_left fun p _ => ?_
      split_ifs <;> ring
    · simp only [lanlTi, tw, if_true]
      rw [fill_flat]
      exact fillFlat_other ha
  · refine ⟨fun y y' t0 hy ey => ?_, fun a ha => ?_⟩
    · simp only [lanlTi, tw, Bool.false_eq_true, if_false]
      rw [update_dot]
      exact ((hy _).const_mul _).add_const _
    · simp only [lanlTi, tw, Bool.false_eq_true, if_false]
      exact update_other (ne_own ha hi)

/-! ## A whole slip rule -/

/-- C99: the history rates of a slip rule have the reported derivatives by stress and by every variable, where those
of its parts do. -/
theorem C99_rates {m : Nat} (r : Rule N m) (hp : r.Partition) (c : Crys) (s : Fin 6 → ℝ) (h : N → ℝ)
    (hs : ∀ p ∈ c.systems, r.SlipRight c s h p.1 p.2)
    (hk : ∀ k, (r.hard k).RateRight c (r.slip c s h) (r.slipS c s h) (r.slipH c s h) h)
    (x : ℝ → Fin 6 → ℝ) (x' : Fin 6 → ℝ) (y : ℝ → N → ℝ) (y' : N → ℝ) (t0 : ℝ) (hx : Moves x x' t0)
    (hy : Moves y y' t0) (ex : x t0 = s) (ey : y t0 = h) (a : N) :
    HasDerivAt (fun t => r.rate c (x t) (y t) a) (r.rateS c s h a ⬝ᵥ x' + r.rateH c s h a ⬝ᵥ y') t0 := by
  obtain ⟨k, ho, hown, _⟩ := owner_own hp a
  have h1 := hk k (fun t => r.slip c (x t) (y t)) x' y y' t0 hy ey (by simp only [ex, ey])
    (fun p hpm => hs p hpm x x' y y' t0 hx hy ex ey) a hown
  have e1 : (fun t => r.rate c (x t) (y t) a) = fun t => (r.hard k).rate (r.slip c (x t) (y t)) (y t) a := by
    funext t
    rw [Rule.rate, ho]
    rfl
  have e2 : r.rateS c s h a = (r.hard k).rateS (r.slip c s h) (r.slipS c s h) h a := by
    rw [Rule.rateS, ho]
    rfl
  have e3 : r.rateH c s h a = fun b => if (r.hard k).own b then
      (r.hard k).rateH (r.slip c s h) (r.slipH c s h) h a b
      else (r.hard k).rateX (r.slip c s h) (r.slipH c s h) h a b := by
    funext b
    obtain ⟨l, hl, hlo, hother⟩ := owner_own hp b
    rw [Rule.rateH, ho, hl]
    by_cases hkl : k = l
    · subst hkl
      simp [hlo]
    · simp [hkl, hother k hkl]
  rw [e1, e2, e3]
  exact h1

/-- C99 for the usual model: power law slip with one Voce strength. All four derivatives are right at every stress and
every history with positive strength. -/
theorem C99_power_voce {c : Crys} (var : N) (hN : ∀ a : N, a = var) {g0 n tau0 nye sat b : ℝ} (hn : 1 < n)
    (s : Fin 6 → ℝ) (h : N → ℝ) (hS : 0 < h var + (tau0 + nye))
    (x : ℝ → Fin 6 → ℝ) (x' : Fin 6 → ℝ) (y : ℝ → N → ℝ) (y' : N → ℝ) (t0 : ℝ) (hx : Moves x x' t0)
    (hy : Moves y y' t0) (ex : x t0 = s) (ey : y t0 = h) :
    let r := powerLaw (voce c var tau0 nye sat b) g0 n
    (∀ g i, HasDerivAt (fun t => r.slip c (x t) (y t) g i) (r.slipS c s h g i ⬝ᵥ x' + r.slipH c s h g i ⬝ᵥ y') t0) ∧
    ∀ a, HasDerivAt (fun t => r.rate c (x t) (y t) a) (r.rateS c s h a ⬝ᵥ x' + r.rateH c s h a ⬝ᵥ y') t0 := by
  intro r
  have hp : r.Partition := fun a => ⟨0, by simp [r, powerLaw, voce, plastic, hN a], fun k _ => Subsingleton.elim _ _⟩
  have hstr : ∀ g, 0 < r.strengths g h 0 := fun g => hS
  have hflat : ∀ g i, r.Flat (c.shear g i s) (r.strengths g h) := fun g i => power_flat _ hn _ (hstr g)
  have htau : ∀ (g : Nat) (k : Fin 1), (r.hard k).TauRight g k h := by
    intro g k
    refine ⟨fun y y' t0 hy _ => var_tau var h (tau0 + nye) y y' t0 hy, fun a ha => ?_⟩
    exact absurd (hN a) (by simpa [r, powerLaw, voce, plastic] using ha)
  have hslip : ∀ g i, r.SlipRight c s h g i := fun g i => by
    refine C99_slip r hp c s h g i (C99_power _ hn.le _ (hstr g)) (htau g) fun _ h0 => ?_
    have hz : r.sslip 0 (r.strengths g h) = 0 := by simp [r, powerLaw]
    have := power_flat (voce c var tau0 nye sat b) (g0 := g0) hn 0 (hstr g) hz
    exact ⟨hz, this⟩
  refine ⟨fun g i => hslip g i x x' y y' t0 hx hy ex ey, ?_⟩
  refine C99_rates r hp c s h (fun p _ => hslip p.1 p.2) (fun k => ?_) x x' y y' t0 hx hy ex ey
  refine C99_plastic c var 0 (tau0 + nye) (fun x => b * (sat - x)) (fun _ => -b) _ _ _ h (fun p _ h0 => slip_flat r c s h p.1 p.2 (hflat p.1 p.2) h0) ?_
  simpa using ((hasDerivAt_id (h var)).const_sub sat).const_mul b

/-- One slip system. -/
def single : Crys := ⟨1, fun _ => 1, fun _ => false, fun _ _ => 1, fun _ _ _ => 1, fun _ _ _ => 0⟩

theorem single_total : single.ntotal = 1 := by simp [single, Crys.ntotal]

theorem single_mem : (0, 0) ∈ single.systems := mem_systems.mpr ⟨by norm_num [single], by norm_num [single]⟩

example : ∀ a, HasDerivAt (fun t : ℝ => (powerLaw (voce single () 1 0 2 3) 1 2).rate single (fun _ => t) (fun _ => t) a)
    ((powerLaw (voce single () 1 0 2 3) 1 2).rateS single (fun _ => 1) (fun _ => 1) a ⬝ᵥ (fun _ => 1) +
      (powerLaw (voce single () 1 0 2 3) 1 2).rateH single (fun _ => 1) (fun _ => 1) a ⬝ᵥ fun _ => 1) 1 :=
  (C99_power_voce () (fun _ => rfl) (by norm_num) _ _ (by norm_num) _ _ _ _ 1 (fun _ => hasDerivAt_id 1)
    (fun _ => hasDerivAt_id 1) rfl rfl).2

example : ¬ (vocePer single (fun _ => (0 : Fin 2)) (fun _ => 1) (fun _ => 1) (fun _ => 2) (fun _ => 1)).RateRight single
    (fun _ _ => 1) 0 (fun _ _ _ => 1) (fun _ => 1) := by
  intro h
  have hd : Distinct single.ntotal fun _ => (0 : Fin 2) := by
    rw [single_total]
    intro i hi j hj _
    omega
  have := C99_voce_per_missing hd _ _ _ _ single_mem (b := 1) (by simp [ownOf]) one_ne_zero h
  norm_num at this

example : ¬ (lanlTi single (fun _ => (0 : Fin 2)) 1 (fun _ => 1) (fun _ => 1) (fun _ => 1) (fun _ => 2) (fun _ _ => 1)
    1 1).RateRight single (fun _ _ => -1) 0 (fun _ _ _ => 1) (fun _ => 1) := by
  intro h
  have hd : Distinct single.ntotal fun _ => (0 : Fin 2) := by
    rw [single_total]
    intro i hi j hj _
    omega
  have := C99_lanl_unsigned hd _ _ _ _ _ _ _ _ single_mem rfl (b := 1) (by simp [ownOf]) one_ne_zero (by norm_num) h
  norm_num at this

end Neml.Slip
