import Verif.Props.SlipDeriv

/-!
# C99: derivatives of the slip rates and of the hardening rates
-/

namespace Neml.Slip

open Matrix Filter Topology
open Neml.Damage (Moves)

variable {N : Type} [DecidableEq N] [Fintype N]

/-- The reported derivative of the strength is right at a history, and is zero for variables of other models. -/
def Hard.TauRight (H : Hard N) (g i : Nat) (h : N → ℝ) : Prop :=
  (∀ (y : ℝ → N → ℝ) (y' : N → ℝ) (t0 : ℝ), Moves y y' t0 → y t0 = h →
    HasDerivAt (fun t => H.tau g i (y t)) (H.dtau g i h ⬝ᵥ y') t0) ∧
  ∀ a, H.own a = false → H.dtau g i h a = 0

/-- The reported derivatives of the slip rate of a system are right at a point. -/
def Rule.SlipRight {m : Nat} (r : Rule N m) (c : Crys) (s : Fin 6 → ℝ) (h : N → ℝ) (g i : Nat) : Prop :=
  ∀ (x : ℝ → Fin 6 → ℝ) (x' : Fin 6 → ℝ) (y : ℝ → N → ℝ) (y' : N → ℝ) (t0 : ℝ), Moves x x' t0 → Moves y y' t0 →
    x t0 = s → y t0 = h →
    HasDerivAt (fun t => r.slip c (x t) (y t) g i) (r.slipS c s h g i ⬝ᵥ x' + r.slipH c s h g i ⬝ᵥ y') t0

/-- The reported derivatives of the hardening rates are right, for slip rates `R` with derivatives `dS` by stress
and `dH` by history. -/
def Hard.RateRight (H : Hard N) (c : Crys) (R : Nat → Nat → ℝ) (dS : Nat → Nat → Fin 6 → ℝ)
    (dH : Nat → Nat → N → ℝ) (h : N → ℝ) : Prop :=
  ∀ (Rt : ℝ → Nat → Nat → ℝ) (x' : Fin 6 → ℝ) (y : ℝ → N → ℝ) (y' : N → ℝ) (t0 : ℝ), Moves y y' t0 → y t0 = h →
    Rt t0 = R →
    (∀ p ∈ c.systems, HasDerivAt (fun t => Rt t p.1 p.2) (dS p.1 p.2 ⬝ᵥ x' + dH p.1 p.2 ⬝ᵥ y') t0) →
    ∀ a, H.own a = true → HasDerivAt (fun t => H.rate (Rt t) (y t) a)
      (H.rateS R dS h a ⬝ᵥ x' +
        (fun b => if H.own b then H.rateH R dH h a b else H.rateX R dH h a b) ⬝ᵥ y') t0

/-- The variables of the strengths of a rule have different names, and there are no others. -/
def Rule.Partition {m : Nat} (r : Rule N m) : Prop := ∀ a, ∃! k, (r.hard k).own a = true

theorem owner_eq {m : Nat} {r : Rule N m} (hp : r.Partition) {a : N} {k : Fin m} (h : (r.hard k).own a = true) :
    r.owner a = some k := by
  rw [Rule.owner]
  obtain ⟨k0, hk0, hu⟩ := hp a
  cases hf : (List.finRange m).find? fun k => (r.hard k).own a with
  | none =>
    rw [List.find?_eq_none] at hf
    exact absurd h (by simpa using hf k (List.mem_finRange k))
  | some l =>
    have := List.find?_some hf
    rw [hu l this, hu k h]

theorem owner_own {m : Nat} {r : Rule N m} (hp : r.Partition) (a : N) :
    ∃ k, r.owner a = some k ∧ (r.hard k).own a = true ∧ ∀ l, l ≠ k → (r.hard l).own a = false := by
  obtain ⟨k, hk, hu⟩ := hp a
  exact ⟨k, owner_eq hp hk, hk, fun l hl => by
    by_contra h
    exact hl (hu l (by simpa using h))⟩

/-! ## Slip rates -/

/-- C99, slip rates: the derivatives by stress and history are right where those of the scalar rule and of the
strengths are. -/
theorem C99_slip {m : Nat} (r : Rule N m) (hp : r.Partition) (c : Crys) (s : Fin 6 → ℝ) (h : N → ℝ) (g i : Nat)
    (hr : r.Right (c.shear g i s) (r.strengths g h)) (ht : ∀ k, (r.hard k).TauRight g k h)
    (htw : c.twin g = true → c.shear g i s = 0 → r.sslip 0 (r.strengths g h) = 0 ∧ r.dTau 0 (r.strengths g h) = 0 ∧
      r.dStr 0 (r.strengths g h) = 0) : r.SlipRight c s h g i := by
  intro x x' y y' t0 hx hy ex ey
  have hu : HasDerivAt (fun t => c.shear g i (x t)) (c.shear g i x') t0 := dot_deriv (c.M g i) hx
  have hv : Moves (fun t => r.strengths g (y t)) (fun k => (r.hard k).dtau g k h ⬝ᵥ y') t0 :=
    fun k => (ht k).1 y y' t0 hy ey
  have hF := hr _ _ _ _ t0 hu hv (by rw [ex]) (by rw [ey])
  have hH : ∀ D : Fin m → ℝ, (fun a => ((r.owner a).map fun k => D k * (r.hard k).dtau g k h a).getD 0) ⬝ᵥ y' =
      D ⬝ᵥ fun k => (r.hard k).dtau g k h ⬝ᵥ y' := by
    intro D
    simp only [dotProduct, Finset.mul_sum]
    rw [Finset.sum_comm]
    refine Finset.sum_congr rfl fun a _ => ?_
    obtain ⟨k, h1, h2, h3⟩ := owner_own hp a
    rw [h1, Finset.sum_eq_single k]
    · simp [mul_assoc]
    · intro l _ hl
      rw [(ht l).2 a (h3 l hl)]
      simp
    · simp
  have hval : r.dTau (c.shear g i s) (r.strengths g h) * c.shear g i x' +
      (r.dStr (c.shear g i s) (r.strengths g h) ⬝ᵥ fun k => (r.hard k).dtau g k h ⬝ᵥ y') =
      (r.dTau (c.shear g i s) (r.strengths g h) • c.M g i) ⬝ᵥ x' +
        (fun a => ((r.owner a).map fun k =>
          r.dStr (c.shear g i s) (r.strengths g h) k * (r.hard k).dtau g k h a).getD 0) ⬝ᵥ y' := by
    rw [hH, smul_dotProduct]
    rfl
  by_cases tw : c.twin g = true
  · rcases lt_trichotomy (c.shear g i s) 0 with hl | hz | hl
    · have hev : ∀ᶠ t in 𝓝 t0, c.shear g i (x t) < 0 :=
        hu.continuousAt.eventually_lt continuousAt_const (by simpa only [ex] using hl)
      have hc : (fun t => r.slip c (x t) (y t) g i) =ᶠ[𝓝 t0] fun _ => (0 : ℝ) := by
        filter_upwards [hev] with t ht
        rw [Rule.slip, if_pos ⟨tw, ht⟩]
      refine ((hasDerivAt_const t0 (0 : ℝ)).congr_of_eventuallyEq hc).congr_deriv ?_
      rw [Rule.slipS, Rule.slipH, if_pos ⟨tw, hl⟩, if_pos ⟨tw, hl⟩]
      simp
    · obtain ⟨z1, z2, z3⟩ := htw tw hz
      have hnl : ¬ (c.twin g = true ∧ c.shear g i s < 0) := fun hh => by rw [hz] at hh; exact lt_irrefl _ hh.2
      have : r.slipS c s h g i ⬝ᵥ x' + r.slipH c s h g i ⬝ᵥ y' = 0 := by
        rw [Rule.slipS, Rule.slipH, if_neg hnl, if_neg hnl, ← hval, hz, z2, z3]
        simp
      rw [this]
      rw [hz, z2, z3] at hF
      simp only [zero_mul, zero_dotProduct, add_zero] at hF
      refine squeeze (Eventually.of_forall fun t => ?_) ?_ hF
      · rw [Rule.slip]
        split_ifs
        · rw [abs_zero]; exact abs_nonneg _
        · exact le_rfl
      · simp only [ex, ey, hz, z1]
    · have hev : ∀ᶠ t in 𝓝 t0, 0 < c.shear g i (x t) :=
        continuousAt_const.eventually_lt hu.continuousAt (by simpa only [ex] using hl)
      have hc : (fun t => r.slip c (x t) (y t) g i) =ᶠ[𝓝 t0]
          fun t => r.sslip (c.shear g i (x t)) (r.strengths g (y t)) := by
        filter_upwards [hev] with t ht
        rw [Rule.slip, if_neg fun hh => lt_asymm ht hh.2]
      refine (hF.congr_of_eventuallyEq hc).congr_deriv ?_
      rw [hval, Rule.slipS, Rule.slipH, if_neg fun hh => lt_asymm hl hh.2, if_neg fun hh => lt_asymm hl hh.2]
  · have hc : (fun t => r.slip c (x t) (y t) g i) = fun t => r.sslip (c.shear g i (x t)) (r.strengths g (y t)) := by
      funext t
      rw [Rule.slip, if_neg fun hh => tw hh.1]
    rw [hc]
    refine hF.congr_deriv ?_
    rw [hval, Rule.slipS, Rule.slipH, if_neg fun hh => tw hh.1, if_neg fun hh => tw hh.1]

/-- Where the scalar rule is flat so is the slip rate. -/
theorem slip_flat {m : Nat} (r : Rule N m) (c : Crys) (s : Fin 6 → ℝ) (h : N → ℝ) (g i : Nat)
    (hf : r.Flat (c.shear g i s) (r.strengths g h)) (h0 : r.slip c s h g i = 0) :
    r.slipS c s h g i = 0 ∧ r.slipH c s h g i = 0 := by
  rw [Rule.slipS, Rule.slipH]
  rw [Rule.slip] at h0
  split_ifs at h0 ⊢ with hc
  · exact ⟨rfl, rfl⟩
  · obtain ⟨z1, z2⟩ := hf h0
    refine ⟨by rw [z1, zero_smul], ?_⟩
    funext a
    rw [z2]
    cases r.owner a <;> simp

/-! ## Hardening -/

theorem var_tau (v : N) (h : N → ℝ) (c : ℝ) (y : ℝ → N → ℝ) (y' : N → ℝ) (t0 : ℝ) (hy : Moves y y' t0) :
    HasDerivAt (fun t => y t v + c) ((Function.update 0 v 1 : N → ℝ) ⬝ᵥ y') t0 := by
  rw [update_dot, one_mul]
  exact (hy v).add_const c

theorem update_other {v a : N} {x : ℝ} (h : a ≠ v) : (Function.update 0 v x : N → ℝ) a = 0 := by
  rw [Function.update_of_ne h]; rfl

theorem ne_own {n : Nat} {vars : Nat → N} {a : N} (h : ownOf n vars a = false) {k : Nat} (hk : k < n) : a ≠ vars k := by
  rintro rfl
  rw [own_iff.mpr ⟨k, hk, rfl⟩] at h
  exact absurd h (by simp)

theorem fillFlat_other {A : Type} [Zero A] {n : Nat} {vars : Nat → N} {val : Nat → A} {a : N}
    (h : ownOf n vars a = false) : fillFlat n vars val a = 0 := by
  have : ∀ (l : List Nat) (r : N → A), (∀ i ∈ l, i < n) → r a = 0 →
      l.foldl (fun r i => Function.update r (vars i) (val i)) r a = 0 := by
    intro l
    induction l with
    | nil => intro r _ h; exact h
    | cons i l ih =>
      intro r hl hr
      refine ih _ (fun j hj => hl j (List.mem_cons_of_mem _ hj)) ?_
      show Function.update r (vars i) (val i) a = 0
      rw [Function.update_of_ne (ne_own h (hl i List.mem_cons_self)), hr]
  exact this _ _ (fun i hi => List.mem_range.mp hi) rfl

theorem fillFlat_dot {n : Nat} {vars : Nat → N} (hv : Distinct n vars) (val : Nat → ℝ) (v : N → ℝ) :
    fillFlat n vars val ⬝ᵥ v = ((List.range n).map fun j => val j * v (vars j)).sum := by
  have e : ((List.range n).map fun j => (Function.update 0 (vars j) (val j) : N → ℝ)).sum = fillFlat n vars val := by
    funext a
    have hl : ∀ l : List Nat, (l.map fun j => (Function.update 0 (vars j) (val j) : N → ℝ)).sum a =
        (l.map fun j => (Function.update 0 (vars j) (val j) : N → ℝ) a).sum := by
      intro l
      induction l with
      | nil => rfl
      | cons j l ih => simp [ih]
    rw [hl]
    by_cases ha : ownOf n vars a = true
    · obtain ⟨k, hk, rfl⟩ := own_iff.mp ha
      rw [fillFlat_apply hv _ hk]
      have : ((List.range n).map fun j => (Function.update 0 (vars j) (val j) : N → ℝ) (vars k)) =
          (List.range n).map fun j => if j = k then val k else 0 := by
        refine List.map_congr_left fun j hj => ?_
        by_cases hjk : j = k
        · subst hjk; simp
        · rw [if_neg hjk]
          exact update_other fun he => hjk (hv _ hk _ (List.mem_range.mp hj) he).symm
      rw [this, List.sum_map_ite_eq, List.count_eq_one_of_mem List.nodup_range (List.mem_range.mpr hk)]
      simp
    · rw [Bool.not_eq_true] at ha
      rw [fillFlat_other ha]
      apply List.sum_eq_zero
      intro x hx
      obtain ⟨j, hj, rfl⟩ := List.mem_map.mp hx
      exact update_other (ne_own ha (List.mem_range.mp hj))
  rw [← e, list_dot]
  simp only [update_dot]

/-- C99, strengths: the derivatives of the strengths are right for every model and system. -/
theorem C99_strengths {c : Crys} {vars : Nat → N} (hv : Distinct c.ntotal vars) {g i : Nat}
    (hi : c.flat g i < c.ntotal) (h : N → ℝ) :
    (∀ str : Nat → ℝ, (fixedStrength c str).TauRight g i h) ∧
    (∀ ini k sat m : Nat → ℝ, (vocePer c vars ini k sat m).TauRight g i h) ∧
    (∀ k sat : Nat → ℝ, (faSlip c vars k sat).TauRight g i h) ∧
    (∀ M tau0 absval, (generalLinear c vars M tau0 absval).TauRight g i h) ∧
    (∀ G tau0, (simpleLinear c vars G tau0).TauRight g i h) ∧
    (∀ (var : N) ini static f df, (plastic c var ini static f df).TauRight g i h) ∧
    (∀ n ms, Distinct n vars → (sumHard c vars n ms).TauRight g i h) := by
  refine ⟨fun str => ⟨fun y y' t0 _ _ => ?_, fun a _ => rfl⟩, fun ini k sat m => ⟨fun y y' t0 hy _ => ?_, fun a ha => ?_⟩,
    fun k sat => ⟨fun y y' t0 hy _ => ?_, fun a ha => ?_⟩, fun M tau0 absval => ⟨fun y y' t0 hy _ => ?_, fun a ha => ?_⟩,
    fun G tau0 => ⟨fun y y' t0 hy _ => ?_, fun a ha => ?_⟩,
    fun var ini static f df => ⟨fun y y' t0 hy _ => ?_, fun a ha => ?_⟩,
    fun n ms hn => ⟨fun y y' t0 hy _ => ?_, fun a ha => ?_⟩⟩
  · simpa [fixedStrength] using hasDerivAt_const t0 (str (c.flat g i))
  · simpa [vocePer] using var_tau (vars (c.flat g i)) h 0 y y' t0 hy
  · exact update_other (ne_own ha hi)
  · simpa [faSlip] using var_tau (vars (c.flat g i)) h 0 y y' t0 hy
  · exact update_other (ne_own ha hi)
  · exact var_tau (vars (c.flat g i)) h _ y y' t0 hy
  · exact update_other (ne_own ha hi)
  · have hd := (list_deriv (List.range c.ntotal) (fun j t => G i j * y t (vars j)) (fun j => G i j * y' (vars j)) t0
      fun j _ => (hy (vars j)).const_mul _).add_const (tau0 (c.flat g i))
    refine hd.congr_deriv ?_
    exact (fillFlat_dot hv (fun j => G i j) y').symm
  · exact fillFlat_other ha
  · exact var_tau var h static y y' t0 hy
  · exact update_other (by simpa [plastic] using ha)
  · have hd := list_deriv (List.range n) (fun j t => y t (vars j) + (ms j).static) (fun j => y' (vars j)) t0
      fun j _ => (hy (vars j)).add_const _
    refine hd.congr_deriv ?_
    have := fillFlat_dot hn (fun _ => 1) y'
    simpa [sumHard] using this.symm
  · exact fillFlat_other ha

end Neml.Slip
