import Verif.Model.Crystal
import Verif.Props.Rotation
import Mathlib.Algebra.Order.Field.Basic
import Mathlib.Algebra.Order.Field.Power
import Mathlib.Tactic.Module

/-!
# C56, C57, C58: crystal updates
-/

namespace Neml.Crystal

open Neml.Rotation Matrix

section Loop

variable {K S H F R A : Type} [Field K] [LinearOrder K] [IsStrictOrderedRing K] [AddCommGroup S] [Module K S]

/-! ## Specification -/

/-- `Accepted ph a predictor l s h`: accepted substeps whose fractions add up to `l` have led to stress
`s` and history `h`; each starts from the history the one before ended with. -/
inductive Accepted (ph : Phys K S H F R A) (a : Args K S H R) (predictor : Bool) : K → S → H → Prop
  | start : Accepted ph a predictor 0 a.Sn a.Hn
  | next {l s h} (f : K) (s' : S) (h' : H) : Accepted ph a predictor l s h → 0 < f →
      ph.solve (trialAt ph a predictor f s h) = some (s', h') → Accepted ph a predictor (l + f) s' h'

variable {ph : Phys K S H F R A} {o : Opts} {a : Args K S H R} {predictor : Bool}

theorem ipow2_nonneg {n : Int} (h : 0 ≤ n) : ipow2 n = 2 ^ n.toNat := by
  rw [ipow2, if_neg (by omega)]

theorem ipow2_pos {n : Int} (h : 0 ≤ n) : 0 < ipow2 n := by rw [ipow2_nonneg h]; positivity

/-- Loop invariant. -/
structure Inv (ph : Phys K S H F R A) (o : Opts) (a : Args K S H R) (predictor : Bool) (st : St S H R A) :
    Prop where
  lo : o.forceDivide ≤ st.subdiv
  hi : st.subdiv ≤ o.maxDivide
  size : st.cur * 2 ^ st.subdiv.toNat = ipow2 o.maxDivide
  left : ∃ q, st.progress + st.cur * q = ipow2 o.maxDivide
  acc : Accepted ph a predictor ((st.progress : K) / (ipow2 o.maxDivide : K)) st.S st.H
  fin : st.progress = ipow2 o.maxDivide → ∃ l s h, Accepted ph a predictor l s h ∧
    l + fraction st.subdiv = 1 ∧
    ph.solve (trialAt ph a predictor (fraction st.subdiv) s h) = some (st.S, st.H) ∧
    st.out = some (ph.tangents st.S st.H (trialAt ph a predictor (fraction st.subdiv) s h),
      if o.updateRotation then ph.rotate st.S st.H (trialAt ph a predictor (fraction st.subdiv) s h) else a.Qn)

/-- The settings for which the loop is meant. -/
structure Sensible (o : Opts) : Prop where
  f0 : 0 ≤ o.forceDivide
  fm : o.forceDivide ≤ o.maxDivide

theorem fraction_eq {n : Int} (h : 0 ≤ n) : (fraction n : K) = 1 / 2 ^ n.toNat := by
  rw [fraction]
  congr 1
  conv_lhs => rw [← Int.toNat_of_nonneg h]
  rw [zpow_natCast]

theorem inv_init (hs : Sensible o) : Inv ph o a predictor (initSt o a) where
  lo := le_refl _
  hi := hs.fm
  size := by
    have h0 := hs.f0
    have h1 := hs.fm
    rw [initSt, ipow2_nonneg (by omega), ipow2_nonneg (by omega), ← pow_add]
    congr 1
    simp only
    omega
  left := by
    have h0 := hs.f0
    have h1 := hs.fm
    refine ⟨2 ^ o.forceDivide.toNat, ?_⟩
    rw [initSt, ipow2_nonneg (by omega), ipow2_nonneg (by omega), Nat.zero_add, ← pow_add]
    congr 1
    omega
  acc := by simpa [initSt] using Accepted.start
  fin h := by
    have h0 := hs.f0
    have h1 := hs.fm
    have := ipow2_pos (n := o.maxDivide) (by omega)
    simp only [initSt] at h
    omega

theorem half_size {cm nd N : Nat} (h : cm * 2 ^ nd = 2 ^ N) (hn : nd < N) :
    cm / 2 * 2 ^ (nd + 1) = 2 ^ N ∧ cm = 2 * (cm / 2) := by
  have hcm : cm = 2 ^ (N - nd) := by
    have : 2 ^ (N - nd) * 2 ^ nd = 2 ^ N := by rw [← pow_add]; congr 1; omega
    exact Nat.eq_of_mul_eq_mul_right (by positivity) (h.trans this.symm)
  have h2 : cm = 2 * 2 ^ (N - nd - 1) := by
    rw [hcm, ← pow_succ']; congr 1; omega
  have h3 : cm / 2 = 2 ^ (N - nd - 1) := by omega
  refine ⟨?_, by omega⟩
  rw [h3, ← pow_add]; congr 1; omega

theorem inv_body (hs : Sensible o) {st st' : St S H R A} (hi : Inv ph o a predictor st)
    (hlt : st.progress < ipow2 o.maxDivide) (h : body ph o a predictor st = some st') :
    Inv ph o a predictor st' ∧ st.subdiv + st.progress < st'.subdiv + st'.progress := by
  have h0 := hs.f0
  have h1 := hs.fm
  have hlo := hi.lo
  have hhi := hi.hi
  have htf := ipow2_nonneg (n := o.maxDivide) (by omega)
  have htfpos : (0 : K) < (ipow2 o.maxDivide : K) := by rw [htf]; push_cast; positivity
  have hcur : 0 < st.cur := by
    rcases Nat.eq_zero_or_pos st.cur with h2 | h2
    · have := hi.size; rw [h2, zero_mul, htf] at this
      have : 0 < 2 ^ o.maxDivide.toNat := by positivity
      omega
    · exact h2
  have hfrac : (fraction st.subdiv : K) = (st.cur : K) / (ipow2 o.maxDivide : K) := by
    rw [fraction_eq (by omega), div_eq_div_iff (by positivity) htfpos.ne', ← hi.size]
    push_cast; ring
  have hfpos : (0 : K) < fraction st.subdiv := by
    rw [hfrac]; exact div_pos (by exact_mod_cast hcur) htfpos
  simp only [body] at h
  split at h
  · split_ifs at h with hmd
    simp only [Option.some.injEq] at h
    subst h
    have hsz := hi.size
    rw [htf] at hsz
    obtain ⟨e1, e2⟩ := half_size hsz (by omega)
    refine ⟨⟨by simp only; omega, by simp only; omega, ?_, ?_, hi.acc, ?_⟩, by simp only; omega⟩
    · simp only
      rw [htf, show (st.subdiv + 1).toNat = st.subdiv.toNat + 1 by omega]
      exact e1
    · obtain ⟨q, hq⟩ := hi.left
      refine ⟨2 * q, ?_⟩
      simp only
      rw [← hq]
      conv_rhs => rw [e2]
      ring
    · intro h4; simp only at h4; omega
  · rename_i s' h' hsolve
    simp only [Option.some.injEq] at h
    obtain ⟨q, hq⟩ := hi.left
    have hq1 : 1 ≤ q := by
      rcases Nat.eq_zero_or_pos q with h2 | h2
      · rw [h2, mul_zero] at hq; omega
      · exact h2
    have hsum : (st.progress : K) / (ipow2 o.maxDivide : K) + fraction st.subdiv =
        ((st.progress + st.cur : Nat) : K) / (ipow2 o.maxDivide : K) := by
      rw [hfrac, ← add_div]; push_cast; rfl
    subst h
    refine ⟨⟨hlo, hhi, hi.size, ⟨q - 1, ?_⟩, ?_, ?_⟩, ?_⟩
    · simp only
      obtain ⟨r, rfl⟩ : ∃ r, q = r + 1 := ⟨q - 1, by omega⟩
      rw [← hq, Nat.add_sub_cancel]
      ring
    · simp only
      rw [← hsum]
      exact Accepted.next _ _ _ hi.acc hfpos hsolve
    · intro hp
      simp only at hp
      refine ⟨_, st.S, st.H, hi.acc, ?_, hsolve, ?_⟩
      · simp only
        rw [hsum, hp, div_self htfpos.ne']
      · simp only
        rw [if_pos hp]
    · simp only; push_cast; omega

theorem loop_inv (hs : Sensible o) (fuel : Nat) (st st' : St S H R A) (hi : Inv ph o a predictor st)
    (h : loop ph o a predictor fuel st = some (some st')) :
    Inv ph o a predictor st' ∧ ¬ st'.progress < ipow2 o.maxDivide := by
  induction fuel generalizing st with
  | zero =>
    rw [loop] at h
    split_ifs at h with hc
    simp only [Option.some.injEq] at h
    subst h
    exact ⟨hi, hc⟩
  | succ fuel ih =>
    rw [loop] at h
    by_cases hc : st.progress < ipow2 o.maxDivide
    · rw [if_pos hc] at h
      cases hb : body ph o a predictor st with
      | none => rw [hb] at h; simp at h
      | some st2 =>
        rw [hb] at h
        exact ih st2 (inv_body hs hi hc hb).1 h
    · rw [if_neg hc] at h
      simp only [Option.some.injEq] at h
      subst h
      exact ⟨hi, hc⟩

theorem loop_stops (hs : Sensible o) (fuel : Nat) (st : St S H R A) (hi : Inv ph o a predictor st)
    (hf : o.maxDivide + ipow2 o.maxDivide - (st.subdiv + st.progress) ≤ fuel) :
    loop ph o a predictor fuel st ≠ none := by
  induction fuel generalizing st with
  | zero =>
    rw [loop]
    have h1 := hi.hi
    obtain ⟨q, hq⟩ := hi.left
    have : ¬ st.progress < ipow2 o.maxDivide := by
      intro h
      omega
    rw [if_neg this]; simp
  | succ fuel ih =>
    rw [loop]
    by_cases hc : st.progress < ipow2 o.maxDivide
    · rw [if_pos hc]
      cases hb : body ph o a predictor st with
      | none => simp
      | some st2 =>
        obtain ⟨h1, h2⟩ := inv_body hs hi hc hb
        exact ih st2 h1 (by omega)
    · rw [if_neg hc]; simp

/-! ## C56 -/

/-- The loop stops, whatever fails, after at most `max_divide + 2^max_divide` passes. -/
theorem C56_stops (hs : Sensible o) (fuel : Nat) (hf : o.maxDivide + 2 ^ o.maxDivide.toNat ≤ fuel) :
    attempt ph o a predictor fuel ≠ none := by
  have h0 := hs.f0
  have h1 := hs.fm
  apply loop_stops hs fuel _ (inv_init hs)
  rw [ipow2_nonneg (by omega)]
  simp only [initSt]
  push_cast
  omega

/-- When the update returns, the accepted substeps cover the whole step, the history is handed from one to
the next, and the returned stress, history, tangent and rotation are those of the last one, of some size
`1/2^k`. Missing for the full claim: that the stress is handed on too. It is not, see `C56_elastic`. -/
theorem C56_partial (hs : Sensible o) (fuel : Nat) (st : St S H R A)
    (h : attempt ph o a predictor fuel = some (some st)) :
    ∃ (k : Nat) (l : K) (s : S) (h0 : H), (k : Int) = st.subdiv ∧ Accepted ph a predictor l s h0 ∧
      l + 1 / 2 ^ k = 1 ∧ Accepted ph a predictor 1 st.S st.H ∧
      ph.solve (trialAt ph a predictor (1 / 2 ^ k) s h0) = some (st.S, st.H) ∧
      st.out = some (ph.tangents st.S st.H (trialAt ph a predictor (1 / 2 ^ k) s h0),
        if o.updateRotation then ph.rotate st.S st.H (trialAt ph a predictor (1 / 2 ^ k) s h0) else a.Qn) := by
  obtain ⟨hi, hc⟩ := loop_inv hs fuel _ st (inv_init hs) h
  obtain ⟨q, hq⟩ := hi.left
  have h0 := hs.f0
  have hlo := hi.lo
  obtain ⟨l, s, h1, ha, hl, hsol, hout⟩ := hi.fin (by omega)
  have hf : (fraction st.subdiv : K) = 1 / 2 ^ st.subdiv.toNat := fraction_eq (by omega)
  rw [hf] at hl hsol hout
  refine ⟨st.subdiv.toNat, l, s, h1, by omega, ha, hl, ?_, hsol, hout⟩
  rw [← hl]
  exact Accepted.next _ _ _ ha (by positivity) hsol

/-- When the first solve succeeds and no division is forced, the step is taken in one piece: the result
is the solution of the substep equations over the whole time increment at the final temperature. -/
theorem C56_one_piece (hm : 0 ≤ o.maxDivide) (hf : o.forceDivide = 0) (fuel : Nat) (hfuel : 1 ≤ fuel) {s : S}
    {h : H} (hsol : ph.solve (trialAt ph a predictor 1 a.Sn a.Hn) = some (s, h)) :
    ∃ st, attempt ph o a predictor fuel = some (some st) ∧ st.S = s ∧ st.H = h ∧
      (trialAt ph a predictor 1 a.Sn a.Hn).dt = a.dt ∧ (trialAt ph a predictor 1 a.Sn a.Hn).T = a.T1 := by
  obtain ⟨n, rfl⟩ : ∃ n, fuel = n + 1 := ⟨fuel - 1, by omega⟩
  have hp := ipow2_pos hm
  have hfr : (fraction 0 : K) = 1 := by simp [fraction]
  have hb : body ph o a predictor (initSt o a) = some
      { progress := ipow2 o.maxDivide, cur := ipow2 o.maxDivide, subdiv := 0, S := s, H := h
        out := some (ph.tangents s h (trialAt ph a predictor 1 a.Sn a.Hn),
          if o.updateRotation then ph.rotate s h (trialAt ph a predictor 1 a.Sn a.Hn) else a.Qn) } := by
    simp only [body, initSt, hf, hfr, hsol, sub_zero, Nat.zero_add, if_true]
  refine ⟨{ progress := ipow2 o.maxDivide, cur := ipow2 o.maxDivide, subdiv := 0, S := s, H := h
            out := some (ph.tangents s h (trialAt ph a predictor 1 a.Sn a.Hn),
              if o.updateRotation then ph.rotate s h (trialAt ph a predictor 1 a.Sn a.Hn) else a.Qn) },
    ?_, rfl, rfl, ?_, ?_⟩
  · rw [attempt, loop, if_pos (by simpa [initSt] using hp), hb]
    cases n <;> simp [loop]
  · simp [trialAt]
  · simp [trialAt]

/-- A crystal whose substep equations are linear elastic with the constant stress rate `r`: a solve that
succeeds adds the rate times the time of the substep to the stress it is told the step started with. -/
def LinearElastic (ph : Phys K S H F R A) (r : S) : Prop :=
  ∀ tr s h, ph.solve tr = some (s, h) → s = tr.Sn + tr.dt • r

/-- The claim fails with substeps: for a linear elastic crystal the returned stress has moved only by the
last substep, the fraction `1/2^k` of the step, so it is right only if the step was taken in one piece. -/
theorem C56_elastic {r : S} (he : LinearElastic ph r) (hs : Sensible o) (fuel : Nat) (st : St S H R A)
    (h : attempt ph o a predictor fuel = some (some st)) :
    ∃ k : Nat, (k : Int) = st.subdiv ∧ st.S = a.Sn + (a.dt / 2 ^ k) • r ∧
      (a.dt • r ≠ 0 → (st.S = a.Sn + a.dt • r ↔ k = 0)) := by
  obtain ⟨k, l, s, h0, hk, -, -, -, hsol, -⟩ := C56_partial hs fuel st h
  have hS := he _ _ _ hsol
  have hS' : st.S = a.Sn + (a.dt / 2 ^ k) • r := by
    rw [hS]; simp only [trialAt]; congr 2; ring
  refine ⟨k, hk, hS', fun hne => ⟨fun heq => ?_, fun h0 => ?_⟩⟩
  · rw [hS'] at heq
    have h1 : (a.dt / 2 ^ k) • r = a.dt • r := add_left_cancel heq
    by_contra hk0
    have h2 : (1 - 1 / 2 ^ k : K) • (a.dt • r) = 0 := by
      rw [smul_smul, show (1 - 1 / 2 ^ k : K) * a.dt = a.dt - a.dt / 2 ^ k by ring, sub_smul, h1, sub_self]
    rcases smul_eq_zero.mp h2 with h3 | h3
    · have h4 : (1 : K) < 2 ^ k := one_lt_pow₀ (by norm_num) hk0
      have h5 : (1 : K) / 2 ^ k < 1 := by rw [div_lt_one (by positivity)]; exact h4
      linarith
    · exact hne h3
  · rw [hS', h0]; simp

/-- A forced division always shows it: with `force_divide = k` and no failures the stress increment is
`1/2^k` of the right one. -/
theorem C56_forced {r : S} (he : LinearElastic ph r) (hok : ∀ tr, ph.solve tr ≠ none) (hs : Sensible o)
    (fuel : Nat) (hf : o.maxDivide + 2 ^ o.maxDivide.toNat ≤ fuel) :
    ∃ st, attempt ph o a predictor fuel = some (some st) ∧
      st.S = a.Sn + (a.dt / 2 ^ o.forceDivide.toNat) • r := by
  have hbody : ∀ st : St S H R A, ∃ st', body ph o a predictor st = some st' ∧ st'.subdiv = st.subdiv := by
    intro st
    simp only [body]
    cases hsol : ph.solve (trialAt ph a predictor (fraction st.subdiv) st.S st.H) with
    | none => exact absurd hsol (hok _)
    | some p => obtain ⟨s, h⟩ := p; exact ⟨_, rfl, rfl⟩
  have hloop : ∀ (fuel : Nat) (st : St S H R A), loop ph o a predictor fuel st ≠ none →
      ∃ st', loop ph o a predictor fuel st = some (some st') ∧ st'.subdiv = st.subdiv := by
    intro fuel
    induction fuel with
    | zero =>
      intro st hne
      rw [loop] at hne ⊢
      split_ifs at hne ⊢ with hc
      · exact absurd rfl hne
      · exact ⟨st, rfl, rfl⟩
    | succ n ih =>
      intro st hne
      rw [loop] at hne ⊢
      split_ifs at hne ⊢ with hc
      · obtain ⟨st', hb, hsd⟩ := hbody st
        rw [hb] at hne ⊢
        obtain ⟨st2, h1, h2⟩ := ih st' hne
        exact ⟨st2, h1, h2.trans hsd⟩
      · exact ⟨st, rfl, rfl⟩
  obtain ⟨st, h1, h2⟩ := hloop fuel _ (C56_stops (ph := ph) (a := a) (predictor := predictor) hs fuel hf)
  refine ⟨st, h1, ?_⟩
  obtain ⟨k, hk, hS, -⟩ := C56_elastic he hs fuel st h1
  have : k = o.forceDivide.toNat := by
    rw [h2] at hk
    simp only [initSt] at hk
    omega
  rw [hS, this]

/-- Forcing more divisions than allowed never returns if every solve succeeds. -/
theorem C56_force_above_max (hm : 0 ≤ o.maxDivide) (hf : o.maxDivide < o.forceDivide)
    (hok : ∀ tr, ph.solve tr ≠ none) (fuel : Nat) : attempt ph o a predictor fuel = none := by
  have hp := ipow2_pos hm
  have key : ∀ (fuel : Nat) (st : St S H R A), st.cur = 0 → st.progress = 0 →
      loop ph o a predictor fuel st = none := by
    intro fuel
    induction fuel with
    | zero => intro st _ h0; rw [loop, if_pos (by omega)]
    | succ n ih =>
      intro st hc h0
      rw [loop, if_pos (by omega)]
      simp only [body]
      cases hsol : ph.solve (trialAt ph a predictor (fraction st.subdiv) st.S st.H) with
      | none => exact absurd hsol (hok _)
      | some p =>
        obtain ⟨s, h⟩ := p
        exact ih _ hc (by simp only; omega)
  exact key fuel _ (by rw [initSt, ipow2, if_pos (by omega)]) rfl

/-- A negative limit returns at once with the old stress and history, no tangent and no orientation. -/
theorem C56_negative_max (hm : o.maxDivide < 0) (fuel : Nat) :
    ∃ st, attempt ph o a predictor fuel = some (some st) ∧ st.S = a.Sn ∧ st.H = a.Hn ∧ st.out = none := by
  refine ⟨initSt o a, ?_, rfl, rfl, rfl⟩
  have h0 : ipow2 o.maxDivide = 0 := by rw [ipow2, if_pos hm]
  unfold attempt
  cases fuel <;> rw [loop, if_neg (by simp [initSt, h0])]

/-- The update gives up only after a solve has failed on a substep of size `1/2^k` with
`max_divide - 1 ≤ k`. So a substep of size `1/2^max_divide` is not reached by dividing. -/
theorem C56_gives_up (hs : Sensible o) (fuel : Nat) (h : attempt ph o a predictor fuel = some none) :
    ∃ (k : Nat) (l : K) (s : S) (h0 : H), o.maxDivide - 1 ≤ k ∧ k ≤ o.maxDivide ∧ Accepted ph a predictor l s h0 ∧
      l < 1 ∧ ph.solve (trialAt ph a predictor (1 / 2 ^ k) s h0) = none := by
  have h0 := hs.f0
  have h1 := hs.fm
  have key : ∀ (fuel : Nat) (st : St S H R A), Inv ph o a predictor st → loop ph o a predictor fuel st = some none →
      ∃ (k : Nat) (l : K) (s : S) (h0 : H), o.maxDivide - 1 ≤ k ∧ k ≤ o.maxDivide ∧
        Accepted ph a predictor l s h0 ∧ l < 1 ∧ ph.solve (trialAt ph a predictor (1 / 2 ^ k) s h0) = none := by
    intro fuel
    induction fuel with
    | zero => intro st _ h; rw [loop] at h; split_ifs at h; simp at h
    | succ n ih =>
      intro st hi h
      rw [loop] at h
      split_ifs at h with hc
      · cases hb : body ph o a predictor st with
        | some st2 => rw [hb] at h; exact ih st2 (inv_body hs hi hc hb).1 h
        | none =>
          have hhi := hi.hi
          have hlo := hi.lo
          simp only [body] at hb
          split at hb
          · rename_i hsol
            split_ifs at hb with hmd
            refine ⟨st.subdiv.toNat, _, st.S, st.H, by omega, by omega, hi.acc, ?_, ?_⟩
            · have hp := ipow2_pos (n := o.maxDivide) (by omega)
              rw [div_lt_one (by exact_mod_cast hp)]
              exact_mod_cast hc
            · rw [← fraction_eq (by omega)]
              exact hsol
          · simp at hb
      · simp at h
  exact key fuel _ (inv_init hs) h

/-- What the caller gets from the choice of first guess. The elastic guess is used alone when it is asked
for, or asked for on first steps and this is one; otherwise the plain attempt counts if it succeeds, and if
it fails the elastic one counts, provided falling back is allowed. -/
theorem C56_predictor (po : PredictorOpts) (tn : K) (fuel : Nat) (r : Option (St S H R A)) :
    update ph o po a tn fuel = some r ↔
      ((po.elasticPredictor = true ∨ (tn = 0 ∧ po.firstStep = true)) ∧ attempt ph o a true fuel = some r) ∨
      (po.elasticPredictor = false ∧ ¬ (tn = 0 ∧ po.firstStep = true) ∧
        ((∃ st, r = some st ∧ attempt ph o a false fuel = some (some st)) ∨
          (attempt ph o a false fuel = some none ∧ po.fallback = true ∧ attempt ph o a true fuel = some r) ∨
          (attempt ph o a false fuel = some none ∧ po.fallback = false ∧ r = none))) := by
  rw [update]
  by_cases h1 : tn = 0 ∧ po.firstStep = true
  · rw [if_pos h1]; tauto
  · rw [if_neg h1]
    cases h2 : po.elasticPredictor with
    | true => simp
    | false =>
      cases h : attempt ph o a false fuel with
      | none => simp [h1]
      | some x =>
        cases x with
        | none => cases po.fallback <;> cases r <;> simp [h1]
        | some st => cases r <;> simp [h1]

/-! Concrete cases: a bar with one stress component whose solver succeeds on every substep, or only on
substeps of at most half a unit of time. -/

/-- Stress rate 2, no history, and failure on substeps longer than `lim`. -/
def toy (lim : ℚ) : Phys ℚ ℚ Unit Unit Unit Unit where
  decouple _ _ _ := ()
  predict s _ _ _ := s
  solve tr := if tr.dt ≤ lim then some (tr.Sn + tr.dt * 2, ()) else none
  tangents _ _ _ := ()
  rotate _ _ _ := ()

/-- One unit of time from a stress of 5. -/
def toyArgs : Args ℚ ℚ Unit Unit := ⟨5, (), (), 300, 300, 1⟩

theorem toy_elastic (lim : ℚ) : LinearElastic (toy lim) 2 := by
  intro tr s h hs
  simp only [toy] at hs
  split_ifs at hs
  simp only [Option.some.injEq, Prod.mk.injEq] at hs
  rw [← hs.1, smul_eq_mul]

example : Sensible ⟨3, 1, true⟩ := ⟨by norm_num, by norm_num⟩

/-- The right answer is 7; two forced halves give 6, and so does the division after a failure. -/
example : (attempt (toy 1) ⟨3, 1, true⟩ toyArgs false 11).map (·.map (·.S)) = some (some 6) ∧
    (attempt (toy (1 / 2)) ⟨3, 0, true⟩ toyArgs false 11).map (·.map (·.S)) = some (some 6) ∧
    (attempt (toy 1) ⟨3, 0, true⟩ toyArgs false 11).map (·.map (·.S)) = some (some 7) ∧
    (attempt (toy 0) ⟨3, 0, true⟩ toyArgs false 11).map (·.map (·.S)) = some none := by decide +kernel

end Loop

/-! ## C57 -/

variable {H : Type}

/-- An update never carries the reference orientation or the Nye tensor over: whatever they were, the new
storage holds zeros, which is not an orientation at all. -/
theorem C57_static_lost (old : Stored H) (q : Quat) (h : H) :
    (finish old q h).rotation0 = zeroQuat ∧ ¬ Unit4 (finish old q h).rotation0 ∧ (finish old q h).nye = 0 := by
  refine ⟨rfl, ?_, rfl⟩
  norm_num [finish, zeroQuat, Unit4]

/-- What a caller can do between two looks at the stored variables. -/
inductive Op (H : Type)
  | update (q : Quat) (h : H)
  | setActive (q : Quat)
  | setPassive (q : Quat)
  | setNye (nye : Matrix (Fin 3) (Fin 3) ℝ)

/-- The effect of one call. -/
noncomputable def Op.run (st : Stored H) : Op H → Stored H
  | .update q h => finish st q h
  | .setActive q => Crystal.setActive st q
  | .setPassive q => Crystal.setPassive st q
  | .setNye n => updateNye st n

/-- Over any history of calls the reference orientation survives only until the next update: it is zero
from an update on until the caller sets an orientation again. The same goes for the Nye tensor. -/
theorem C57_history (st : Stored H) (before after : List (Op H)) (q : Quat) (h : H)
    (hafter : ∀ o ∈ after, (∃ q h, o = .update q h) ∨ ∃ n, o = .setNye n) :
    ((before ++ .update q h :: after).foldl Op.run st).rotation0 = zeroQuat := by
  rw [List.foldl_append, List.foldl_cons]
  generalize hs : Op.run (before.foldl Op.run st) (.update q h) = s0
  have h0 : s0.rotation0 = zeroQuat := by rw [← hs]; rfl
  clear hs
  induction after generalizing s0 with
  | nil => exact h0
  | cons o l ih =>
    rw [List.foldl_cons]
    apply ih (fun o ho => hafter o (List.mem_cons_of_mem _ ho))
    rcases hafter o List.mem_cons_self with ⟨q, h, rfl⟩ | ⟨n, rfl⟩
    · rfl
    · exact h0

/-- So the claim holds for an update exactly when both were already zero. -/
theorem C57_iff (old : Stored H) (q : Quat) (h : H) :
    ((finish old q h).rotation0 = old.rotation0 ∧ (finish old q h).nye = old.nye) ↔
      (old.rotation0 = zeroQuat ∧ old.nye = 0) := by
  constructor
  · rintro ⟨h1, h2⟩; exact ⟨h1.symm, h2.symm⟩
  · rintro ⟨h1, h2⟩; exact ⟨h1.symm, h2.symm⟩

/-- The half turn about the third axis. -/
def halfTurn : Matrix (Fin 3) (Fin 3) ℝ := Matrix.diagonal ![-1, -1, 1]

/-- The elastic deformation reported after an update does not depend on the reference orientation: the
rotation of the crystal is taken as if it had started half a turn about the third axis away from the
sample axes. -/
theorem C57_Fe_ignores_reference (old : Stored H) (q : Quat) (hq : Unit4 q) (h : H)
    (e : Matrix (Fin 3) (Fin 3) ℝ) :
    elasticF (finish old q h) e = ((1 + e) * (toMatrix q * halfTurn))⁻¹ := by
  have h0 : normalize (finish old q h).rotation0 = ⟨0, 0, 0, 1⟩ := by
    simp [finish, zeroQuat, Rotation.normalize, qnorm]
  have hu : Unit4 (⟨0, 0, 0, 1⟩ : Quat) := by norm_num [Unit4]
  have h1 : toMatrix (Rotation.conj ⟨0, 0, 0, 1⟩) = halfTurn := by
    ext i j
    fin_cases i <;> fin_cases j <;> norm_num [toMatrix, Rotation.conj, halfTurn]
  rw [elasticF, h0, show (finish old q h).rotation = q from rfl, normalize_of_unit hq, toMatrix_mul hq hu.conj, h1]

/-- An unrotated, unstrained crystal shows it: the elastic deformation should be the identity. -/
theorem C57_Fe_wrong (h : H) :
    elasticF (finish (initStored one h) one h) 0 = halfTurn ∧ elasticF (initStored one h) 0 = 1 ∧
      (halfTurn : Matrix (Fin 3) (Fin 3) ℝ) ≠ 1 := by
  have hu : Unit4 one := by norm_num [Unit4, Rotation.one]
  refine ⟨?_, ?_, ?_⟩
  · rw [C57_Fe_ignores_reference _ _ hu, toMatrix_one, add_zero, Matrix.one_mul, Matrix.one_mul]
    apply Matrix.inv_eq_right_inv
    ext i j
    fin_cases i <;> fin_cases j <;> simp [halfTurn]
  · simp only [elasticF, initStored, normalize_of_unit hu, qmul_conj hu, toMatrix_one, add_zero, Matrix.one_mul,
      inv_one]
  · intro hc
    have := congrFun (congrFun hc 0) 0
    norm_num [halfTurn] at this

/-- Before the first update it uses the rotation from the reference orientation, as it should. -/
theorem C57_Fe_initial_partial (q0 q : Quat) (h0 : Unit4 q0) (hq : Unit4 q) (h : H)
    (e : Matrix (Fin 3) (Fin 3) ℝ) :
    elasticF ⟨q, q0, 0, h⟩ e = ((1 + e) * (toMatrix q * (toMatrix q0)ᵀ))⁻¹ ∧
      elasticF (initStored q0 h) e = (1 + e)⁻¹ := by
  constructor
  · rw [elasticF, normalize_of_unit h0, normalize_of_unit hq, toMatrix_mul hq h0.conj, toMatrix_conj]
  · rw [elasticF]
    simp only [initStored]
    rw [normalize_of_unit h0, qmul_conj h0, toMatrix_one, Matrix.mul_one]

/-- A fresh crystal has the orientation it was given, as its current and as its reference one, an undistorted lattice (no Nye
tensor) and the initial values of its state. -/
theorem C57_fresh (q0 : Quat) (h0 : Unit4 q0) (h : H) :
    getActive (initStored q0 h) = q0 ∧ getPassive (initStored q0 h) = Rotation.conj q0 ∧
      (initStored q0 h).rotation0 = q0 ∧ (initStored q0 h).nye = 0 ∧ (initStored q0 h).state = h := by
  have e : getActive (initStored q0 h) = q0 := normalize_of_unit h0
  exact ⟨e, by rw [getPassive, e], rfl, rfl, rfl⟩

/-- Setting an orientation and reading it back, active or passive, returns it; setting it also makes it
the reference. -/
theorem C57_set_get (st : Stored H) (q : Quat) (hq : Unit4 q) :
    getActive (setActive st q) = q ∧ (setActive st q).rotation0 = q ∧ getPassive (setPassive st q) = q ∧
      getActive (setPassive st q) = Rotation.conj q ∧ getPassive (setActive st q) = Rotation.conj q ∧
      (setActive st q).state = st.state ∧ (setActive st q).nye = st.nye := by
  have hc : Rotation.conj (Rotation.conj q) = q := by ext <;> simp [Rotation.conj]
  refine ⟨normalize_of_unit hq, rfl, ?_, normalize_of_unit hq.conj, ?_, rfl, rfl⟩
  · rw [getPassive, show getActive (setPassive st q) = Rotation.conj q from normalize_of_unit hq.conj, hc]
  · rw [getPassive, show getActive (setActive st q) = q from normalize_of_unit hq]

/-! ## C58 -/

/-- The trapezoidal rule for the stress power over a step. -/
noncomputable def trapezoid (D1 D0 S1 S0 : Fin 6 → ℝ) : ℝ := ((S1 + S0) ⬝ᵥ (D1 - D0)) / 2

/-- The energy increment misses the work of the old stress, so it is the trapezoidal rule exactly when
the old stress does no work on the increment. -/
theorem C58_energy (D1 D0 S1 S0 : Fin 6 → ℝ) :
    energyInc D1 D0 S1 S0 = trapezoid D1 D0 S1 S0 - S0 ⬝ᵥ (D1 - D0) ∧
      (energyInc D1 D0 S1 S0 = trapezoid D1 D0 S1 S0 ↔ S0 ⬝ᵥ (D1 - D0) = 0) := by
  have h : energyInc D1 D0 S1 S0 = trapezoid D1 D0 S1 S0 - S0 ⬝ᵥ (D1 - D0) := by
    rw [energyInc, trapezoid, sub_dotProduct, add_dotProduct]; ring
  exact ⟨h, by rw [h]; constructor <;> intro h <;> linarith⟩

/-- The claim for steps that start without stress. -/
theorem C58_partial (D1 D0 S1 e1 e0 : Fin 6 → ℝ) :
    energyInc D1 D0 S1 0 = trapezoid D1 D0 S1 0 ∧
      workInc D1 D0 S1 0 e1 e0 = trapezoid D1 D0 S1 0 - trapezoid e1 e0 S1 0 := by
  constructor
  · simp [energyInc, trapezoid]
  · simp [workInc, energyInc, trapezoid]

/-- A crystal held at constant stress while it deforms does work; the model reports none. -/
theorem C58_constant_stress (D1 D0 S e : Fin 6 → ℝ) : energyInc D1 D0 S S = 0 ∧ workInc D1 D0 S S e e = 0 ∧
    trapezoid D1 D0 S S = S ⬝ᵥ (D1 - D0) := by
  refine ⟨by simp [energyInc], by simp [workInc, energyInc], ?_⟩
  rw [trapezoid, add_dotProduct]; ring

end Neml.Crystal
