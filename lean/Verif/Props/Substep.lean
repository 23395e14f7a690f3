import Verif.Model.Substep
import Mathlib.Algebra.Order.Field.Basic
import Mathlib.Tactic.Linarith
import Mathlib.Tactic.FieldSimp
import Mathlib.Tactic.Ring
import Mathlib.Tactic.SplitIfs
import Mathlib.Tactic.NormNum
import Mathlib.Algebra.Order.Ring.Rat
import Mathlib.Tactic.Positivity
import Mathlib.Tactic.Module

/-!
# C19, C20, C22: adaptive substepping
-/

namespace Neml.Substep

variable {K V S H P Q : Type} [Field K] [LinearOrder K] [IsStrictOrderedRing K]
  [AddCommGroup V] [Module K V] [Fintype P]

/-! ## Specification -/

/-- The strain, temperature and time at the fraction `l` of the step. -/
def strainAt (a : Args K V S H) (l : K) : V := a.start.e + l • (a.e1 - a.start.e)
/-- See `strainAt`. -/
def tempAt (a : Args K V S H) (l : K) : K := a.start.T + l * (a.T1 - a.start.T)
/-- See `strainAt`. -/
def timeAt (a : Args K V S H) (l : K) : K := a.start.t + l * (a.t1 - a.start.t)

/-- `Chain base a k l x D`: `k` consecutive increments of the base model, starting at the
beginning-of-step state, each starting where the one before ended, have led along the
straight path to the fraction `l` of the step and to the point `x`. `D` is the chained
sensitivity of the unknowns to the end-of-step strain. -/
inductive Chain (base : Base K V S H P Q) (a : Args K V S H) :
    Nat → K → Point K V S H → Matrix P Q K → Prop
  | start : Chain base a 0 0 a.start 0
  | next {k l x D} (l' : K) (inc : Inc K S H P Q) : Chain base a k l x D → l < l' → l' ≤ 1 →
      base x (strainAt a l') (tempAt a l') (timeAt a l') = some inc →
      Chain base a (k + 1) l'
        ⟨strainAt a l', tempAt a l', timeAt a l', inc.s, inc.h, inc.u, inc.p⟩
        (inc.A * (D + (l' - l) • inc.E))

/-! ## The invariant -/

variable {base : Base K V S H P Q} {m : Int} {force : Bool} {a : Args K V S H}

theorem tf_nonneg (hm : 0 ≤ m) : tf m = 2 ^ m.toNat := by
  unfold tf; rw [if_neg (by omega)]

/-- The loop invariant: the current step size is `2^-nd` of the total, divides what is
left, and an accepted chain leads to the current point. -/
structure Inv (base : Base K V S H P Q) (m : Int) (force : Bool) (a : Args K V S H)
    (st : St K V S H P Q) : Prop where
  nd0 : 0 ≤ st.nd
  ndm : st.nd ≤ m
  strict : force = false → st.nd < m ∨ st.nd = 0
  size : st.cm * 2 ^ st.nd.toNat = tf m
  left : ∃ q, st.cs + st.cm * q = tf m
  chain : ∃ k, k ≤ st.cs ∧ Chain base a k ((st.cs : K) / (tf m : K)) st.past st.Aold
  fin : 0 < st.cs → st.cs = tf m →
    ∃ inc, st.out = some inc ∧ st.Anew = some st.Aold ∧
      inc.s = st.past.s ∧ inc.h = st.past.h ∧ inc.u = st.past.u ∧ inc.p = st.past.p ∧
      st.past.e = a.e1 ∧ st.past.T = a.T1 ∧ st.past.t = a.t1
  calls : (st.calls : Int) ≤ st.nd + st.cs

theorem inv_init (hm : 0 ≤ m) : Inv base m force a (initSt m a) where
  nd0 := le_refl _
  ndm := hm
  strict _ := Or.inr rfl
  size := by simp [initSt]
  left := ⟨1, by simp [initSt]⟩
  chain := ⟨0, le_refl _, by simpa [initSt] using Chain.start⟩
  fin h := by simp [initSt] at h
  calls := by simp [initSt]

theorem half_size {cm nd N : Nat} (h : cm * 2 ^ nd = 2 ^ N) (hn : nd < N) :
    cm / 2 * 2 ^ (nd + 1) = 2 ^ N ∧ cm = 2 * (cm / 2) := by
  have hcm : cm = 2 ^ (N - nd) := by
    have : 2 ^ (N - nd) * 2 ^ nd = 2 ^ N := by rw [← pow_add]; congr 1; omega
    exact Nat.eq_of_mul_eq_mul_right (by positivity) (h.trans this.symm)
  have h2 : cm = 2 * 2 ^ (N - nd - 1) := by
    rw [hcm, ← pow_succ']; congr 1; omega
  have h3 : cm / 2 = 2 ^ (N - nd - 1) := by omega
  refine ⟨?_, by omega⟩
  rw [h3, ← pow_add]; congr 1; omega

theorem inv_body (hm : 0 ≤ m) {st st' : St K V S H P Q} (hi : Inv base m force a st)
    (hlt : st.cs < tf m) (h : body base m force a st = some st') :
    Inv base m force a st' ∧ st.nd + st.cs < st'.nd + st'.cs := by
  have htf : tf m = 2 ^ m.toNat := tf_nonneg hm
  have htfpos : (0 : K) < (tf m : K) := by rw [htf]; push_cast; positivity
  have hcm0 : 0 < st.cm := by
    rcases Nat.eq_zero_or_pos st.cm with h0 | h0
    · have := hi.size; rw [h0, zero_mul, htf] at this
      have : 0 < 2 ^ m.toNat := by positivity
      omega
    · exact h0
  have hhalf : st.nd < m → st.cm / 2 * 2 ^ (st.nd + 1).toNat = tf m ∧ st.cm = 2 * (st.cm / 2) := by
    intro hnd
    have h1 := hi.size
    rw [htf] at h1 ⊢
    have h0 := hi.nd0
    have h2 : (st.nd + 1).toNat = st.nd.toNat + 1 := by omega
    rw [h2]
    exact half_size h1 (by omega)
  simp only [body] at h
  split at h
  · -- failed attempt
    split_ifs at h with hmd
    simp only [Option.some.injEq] at h
    subst h
    have hnd : st.nd < m := by omega
    obtain ⟨h1, h2⟩ := hhalf hnd
    refine ⟨⟨?_, ?_, ?_, h1, ?_, hi.chain, ?_, ?_⟩, ?_⟩
    · have := hi.nd0; simp only; omega
    · simp only; omega
    · intro _; left; simp only; omega
    · obtain ⟨q, hq⟩ := hi.left
      refine ⟨2 * q, ?_⟩
      simp only
      rw [← hq]
      conv_rhs => rw [h2]
      ring
    · intro _ h4; simp only at h4; omega
    · have := hi.calls; simp only; push_cast; omega
    · simp only; omega
  · rename_i inc hbase
    split_ifs at h with hforce
    · -- forced division
      simp only [Option.some.injEq] at h
      subst h
      obtain ⟨hf, hnd⟩ := hforce
      obtain ⟨h1, h2⟩ := hhalf hnd
      refine ⟨⟨?_, ?_, ?_, h1, ?_, hi.chain, ?_, ?_⟩, ?_⟩
      · have := hi.nd0; simp only; omega
      · simp only; omega
      · intro hff; rw [hff] at hf; simp at hf
      · obtain ⟨q, hq⟩ := hi.left
        refine ⟨2 * q, ?_⟩
        simp only
        rw [← hq]
        conv_rhs => rw [h2]
        ring
      · intro _ h4; simp only at h4; omega
      · have := hi.calls; simp only; push_cast; omega
      · simp only; omega
    · -- accepted
      simp only [Option.some.injEq] at h
      obtain ⟨q, hq⟩ := hi.left
      have hq1 : 1 ≤ q := by
        rcases Nat.eq_zero_or_pos q with h0 | h0
        · rw [h0, mul_zero] at hq; omega
        · exact h0
      have hle : st.cs + st.cm ≤ tf m := by nlinarith
      obtain ⟨k, hk, hchain⟩ := hi.chain
      have hnew : Chain base a (k + 1) (((st.cs + st.cm : Nat) : K) / (tf m : K))
          st'.past st'.Aold := by
        have hlt' : (st.cs : K) / (tf m : K) < ((st.cs + st.cm : Nat) : K) / (tf m : K) := by
          rw [div_lt_div_iff_of_pos_right htfpos]
          exact_mod_cast Nat.lt_add_of_pos_right hcm0
        have hle' : ((st.cs + st.cm : Nat) : K) / (tf m : K) ≤ 1 := by
          rw [div_le_one htfpos]; exact_mod_cast hle
        have := Chain.next _ inc hchain hlt' hle' hbase
        have hdiff : ((st.cs + st.cm : Nat) : K) / (tf m : K) - (st.cs : K) / (tf m : K) =
            (st.cm : K) / (tf m : K) := by
          rw [← sub_div]; push_cast; congr 1; ring
        rw [hdiff] at this
        rw [← h]
        exact this
      have hcs : st'.cs = st.cs + st.cm := by rw [← h]
      refine ⟨⟨?_, ?_, ?_, ?_, ?_, ?_, ?_, ?_⟩, ?_⟩
      · rw [← h]; exact hi.nd0
      · rw [← h]; exact hi.ndm
      · rw [← h]; exact hi.strict
      · rw [← h]; exact hi.size
      · refine ⟨q - 1, ?_⟩
        rw [← h]
        simp only
        obtain ⟨r, rfl⟩ : ∃ r, q = r + 1 := ⟨q - 1, by omega⟩
        rw [← hq]
        simp only [Nat.add_sub_cancel]
        ring
      · refine ⟨k + 1, by omega, ?_⟩
        rw [hcs]
        exact hnew
      · intro _ hfin
        rw [hcs] at hfin
        have hone : ((st.cs + st.cm : Nat) : K) / (tf m : K) = 1 := by
          rw [hfin]; exact div_self htfpos.ne'
        rw [← h]
        refine ⟨inc, rfl, rfl, rfl, rfl, rfl, rfl, ?_, ?_, ?_⟩
        · simp only [hone]; module
        · simp only [hone]; ring
        · simp only [hone]; ring
      · rw [← h]; have := hi.calls; simp only; push_cast; omega
      · rw [← h]; simp only; push_cast; omega

theorem loop_inv (hm : 0 ≤ m) (fuel : Nat) (st st' : St K V S H P Q)
    (hi : Inv base m force a st) (h : loop base m force a fuel st = some (some st')) :
    Inv base m force a st' ∧ ¬ st'.cs < tf m := by
  induction fuel generalizing st with
  | zero =>
    rw [loop] at h
    split_ifs at h with hc
    simp only [Option.some.injEq] at h
    subst h
    exact ⟨hi, hc⟩
  | succ fuel ih =>
    rw [loop] at h
    by_cases hc : st.cs < tf m
    · rw [if_pos hc] at h
      cases hb : body base m force a st with
      | none => rw [hb] at h; simp at h
      | some st2 =>
        rw [hb] at h
        exact ih st2 (inv_body hm hi hc hb).1 h
    · rw [if_neg hc] at h
      simp only [Option.some.injEq] at h
      subst h
      exact ⟨hi, hc⟩

theorem loop_stops (hm : 0 ≤ m) (fuel : Nat) (st : St K V S H P Q) (hi : Inv base m force a st)
    (hf : m + tf m - (st.nd + st.cs) ≤ fuel) : loop base m force a fuel st ≠ none := by
  induction fuel generalizing st with
  | zero =>
    rw [loop]
    have h1 := hi.ndm
    obtain ⟨q, hq⟩ := hi.left
    have : ¬ st.cs < tf m := by
      intro h
      omega
    rw [if_neg this]; simp
  | succ fuel ih =>
    rw [loop]
    by_cases hc : st.cs < tf m
    · rw [if_pos hc]
      cases hb : body base m force a st with
      | none => simp
      | some st2 =>
        obtain ⟨h1, h2⟩ := inv_body hm hi hc hb
        exact ih st2 h1 (by omega)
    · rw [if_neg hc]; simp

theorem chain_zero {k : Nat} {l : K} {x : Point K V S H} {D : Matrix P Q K}
    (h : Chain base a k l x D) (hk : k = 0) : l = 0 := by
  cases h with
  | start => rfl
  | next => simp at hk

/-! ## C19 -/

/-- C19 and C22. For every base model, every pattern of failures, every maximum division
count: if the substepped update returns, then a chain of accepted increments leads from
the beginning-of-step state to exactly the requested strain, temperature and time; the
output buffers hold the stress, history, energy and work at the end of that chain, and
the accumulated tangent is the one of that chain. -/
theorem C19_covers_step (hm : 0 ≤ m) (fuel : Nat) (st : St K V S H P Q)
    (h : update base m force a fuel = some (some st)) :
    ∃ k x D inc, Chain base a k 1 x D ∧ k ≤ 2 ^ m.toNat ∧ 1 ≤ k ∧
      x.e = a.e1 ∧ x.T = a.T1 ∧ x.t = a.t1 ∧
      st.out = some inc ∧ inc.s = x.s ∧ inc.h = x.h ∧ inc.u = x.u ∧ inc.p = x.p ∧
      st.Anew = some D := by
  obtain ⟨hi, hc⟩ := loop_inv hm fuel _ st (inv_init hm) h
  have htf : tf m = 2 ^ m.toNat := tf_nonneg hm
  have hpos : 0 < tf m := by rw [htf]; positivity
  obtain ⟨q, hq⟩ := hi.left
  have hcs : st.cs = tf m := by omega
  obtain ⟨inc, h1, h2, h3, h4, h5, h6, h7, h8, h9⟩ := hi.fin (by omega) hcs
  obtain ⟨k, hk, hch⟩ := hi.chain
  have hone : ((st.cs : Nat) : K) / (tf m : K) = 1 := by
    rw [hcs]; apply div_self
    have : (0 : K) < (tf m : K) := by exact_mod_cast hpos
    exact this.ne'
  rw [hone] at hch
  refine ⟨k, st.past, st.Aold, inc, hch, by omega, ?_, h7, h8, h9, h1, h3, h4, h5, h6, h2⟩
  rcases Nat.eq_zero_or_pos k with h0 | h0
  · exact absurd (chain_zero hch h0) one_ne_zero
  · exact h0

/-! ## C20 -/

/-- C20. The loop stops after at most `max_divide + 2^max_divide` calls of the base model. -/
theorem C20_stops (hm : 0 ≤ m) (fuel : Nat) (hf : m + 2 ^ m.toNat ≤ fuel) :
    update base m force a fuel ≠ none := by
  apply loop_stops hm fuel _ (inv_init hm)
  have htf : tf m = 2 ^ m.toNat := tf_nonneg hm
  rw [htf]
  simp only [initSt]
  push_cast
  omega

/-- C20. Number of base model calls of a successful update. -/
theorem C20_calls (hm : 0 ≤ m) (fuel : Nat) (st : St K V S H P Q)
    (h : update base m force a fuel = some (some st)) :
    (st.calls : Int) ≤ m + 2 ^ m.toNat := by
  obtain ⟨hi, hc⟩ := loop_inv hm fuel _ st (inv_init hm) h
  obtain ⟨q, hq⟩ := hi.left
  have htf : tf m = 2 ^ m.toNat := tf_nonneg hm
  have h1 := hi.calls
  have h2 := hi.ndm
  have h3 : (st.cs : Int) ≤ (2 : Int) ^ m.toNat := by
    have : st.cs ≤ 2 ^ m.toNat := by omega
    exact_mod_cast this
  omega

theorem loop_throw (hm : 0 ≤ m) (fuel : Nat) (st : St K V S H P Q)
    (hi : Inv base m force a st) (h : loop base m force a fuel st = some none) :
    ∃ k l x D d, Chain base a k l x D ∧ 0 < d ∧ l + d ≤ 1 ∧ d * (2 : K) ^ m.toNat ≤ 2 ∧
      base x (strainAt a (l + d)) (tempAt a (l + d)) (timeAt a (l + d)) = none := by
  induction fuel generalizing st with
  | zero => rw [loop] at h; split_ifs at h; simp at h
  | succ fuel ih =>
    rw [loop] at h
    by_cases hc : st.cs < tf m
    · rw [if_pos hc] at h
      cases hb : body base m force a st with
      | some st2 => rw [hb] at h; exact ih st2 (inv_body hm hi hc hb).1 h
      | none =>
        have htf : tf m = 2 ^ m.toNat := tf_nonneg hm
        have htfpos : (0 : K) < (tf m : K) := by rw [htf]; push_cast; positivity
        simp only [body] at hb
        split at hb
        · rename_i hbase
          split_ifs at hb with hmd
          obtain ⟨k, hk, hch⟩ := hi.chain
          have hsum : ((st.cs : Nat) : K) / (tf m : K) + (st.cm : K) / (tf m : K) =
              ((st.cs + st.cm : Nat) : K) / (tf m : K) := by
            rw [← add_div]; push_cast; rfl
          have hcm0 : 0 < st.cm := by
            rcases Nat.eq_zero_or_pos st.cm with h0 | h0
            · have := hi.size; rw [h0, zero_mul, htf] at this
              have : 0 < 2 ^ m.toNat := by positivity
              omega
            · exact h0
          obtain ⟨q, hq⟩ := hi.left
          have hq1 : 1 ≤ q := by
            rcases Nat.eq_zero_or_pos q with h0 | h0
            · rw [h0, mul_zero] at hq; omega
            · exact h0
          have hle : st.cs + st.cm ≤ tf m := by nlinarith
          have hcm2 : st.cm ≤ 2 := by
            have hsz := hi.size
            rw [htf] at hsz
            have h0 := hi.nd0
            have h1 := hi.ndm
            by_contra hgt
            have h3 : st.nd.toNat + 1 ≥ m.toNat := by omega
            have h4 : 2 ^ m.toNat ≤ 2 ^ (st.nd.toNat + 1) := Nat.pow_le_pow_right (by omega) h3
            rw [pow_succ] at h4
            have h5 : 0 < 2 ^ st.nd.toNat := by positivity
            nlinarith
          refine ⟨k, _, st.past, st.Aold, (st.cm : K) / (tf m : K), hch, ?_, ?_, ?_, ?_⟩
          · exact div_pos (by exact_mod_cast hcm0) htfpos
          · rw [hsum, div_le_one htfpos]; exact_mod_cast hle
          · have : (tf m : K) = 2 ^ m.toNat := by rw [htf]; push_cast; rfl
            rw [this] at htfpos ⊢
            rw [div_mul_cancel₀ _ htfpos.ne']
            exact_mod_cast hcm2
          · rw [hsum]; exact hbase
        · split_ifs at hb
    · rw [if_neg hc] at h; simp at h

/-- C20. An error is raised only after the base model failed on an increment, starting at the
end of an accepted chain, whose length is at most `2 / 2^max_divide` of the step (the finest
size the loop ever tries on failure). Missing for the full claim: that the failed increment has
the finest size `2^-max_divide`; that is false, see `C20_finest_size_not_tried`. -/
theorem C20_throws_only_at_finest_partial (hm : 0 ≤ m) (fuel : Nat)
    (h : update base m force a fuel = some none) :
    ∃ k l x D d, Chain base a k l x D ∧ 0 < d ∧ l + d ≤ 1 ∧ d * (2 : K) ^ m.toNat ≤ 2 ∧
      base x (strainAt a (l + d)) (tempAt a (l + d)) (timeAt a (l + d)) = none :=
  loop_throw hm fuel _ (inv_init hm) h

/-- C20. Without `force_divide`, a step on which the base model succeeds is taken in one
increment, which is the base model's own answer. -/
theorem C20_one_increment (hm : 0 ≤ m) (fuel : Nat) (hf : 1 ≤ fuel) (inc : Inc K S H P Q)
    (h : base a.start a.e1 a.T1 a.t1 = some inc) :
    ∃ st, update base m false a fuel = some (some st) ∧ st.out = some inc ∧
      st.Anew = some (inc.A * inc.E) ∧ st.calls = 1 := by
  have htf : tf m = 2 ^ m.toNat := tf_nonneg hm
  have hpos : 0 < tf m := by rw [htf]; positivity
  have htfne : (tf m : K) ≠ 0 := by
    have : (0 : K) < (tf m : K) := by exact_mod_cast hpos
    exact this.ne'
  obtain ⟨g, rfl⟩ : ∃ g, fuel = g + 1 := ⟨fuel - 1, by omega⟩
  have he : a.start.e + (1 : K) • (a.e1 - a.start.e) = a.e1 := by module
  have hT : a.start.T + (1 : K) * (a.T1 - a.start.T) = a.T1 := by ring
  have ht : a.start.t + (1 : K) * (a.t1 - a.start.t) = a.t1 := by ring
  have hb : body base m false a (initSt m a) = some
      { nd := 0, cm := tf m, cs := tf m, past := ⟨a.e1, a.T1, a.t1, inc.s, inc.h, inc.u, inc.p⟩,
        Aold := inc.A * inc.E, Anew := some (inc.A * inc.E), out := some inc, calls := 1 } := by
    simp only [body, initSt, Nat.zero_add, div_self htfne, he, hT, ht, h]
    simp
  refine ⟨⟨0, tf m, tf m, ⟨a.e1, a.T1, a.t1, inc.s, inc.h, inc.u, inc.p⟩,
      inc.A * inc.E, some (inc.A * inc.E), some inc, 1⟩, ?_, rfl, rfl, rfl⟩
  · unfold update
    rw [loop, if_pos (by simpa [initSt] using hpos), hb]
    cases g <;> simp [loop]

/-- C20, negation: with `max_divide = 1` a single failure of the whole step raises the error, even
if both half steps would succeed. -/
theorem C20_finest_size_not_tried (fuel : Nat) (hf : 1 ≤ fuel)
    (h : base a.start a.e1 a.T1 a.t1 = none) : update base 1 force a fuel = some none := by
  have htf : tf 1 = 2 := by decide
  obtain ⟨g, rfl⟩ : ∃ g, fuel = g + 1 := ⟨fuel - 1, by omega⟩
  have he : a.start.e + (1 : K) • (a.e1 - a.start.e) = a.e1 := by module
  have hT : a.start.T + (1 : K) * (a.T1 - a.start.T) = a.T1 := by ring
  have ht : a.start.t + (1 : K) * (a.t1 - a.start.t) = a.t1 := by ring
  have h2 : ((2 : Nat) : K) / ((2 : Nat) : K) = 1 := by
    push_cast; exact div_self two_ne_zero
  have hb : body base 1 force a (initSt 1 a) = none := by
    simp only [body, initSt, Nat.zero_add, htf, h2, he, hT, ht, h]
    simp
  unfold update
  rw [loop, if_pos (by simp [initSt, htf]), hb]

/-! ## C22 -/

/-- C22. For a non-negative `max_divide` the update either raises an error or ends exactly at
the requested state; it never returns with anything else. -/
theorem C22_no_partial_state (hm : 0 ≤ m) (fuel : Nat) (hf : m + 2 ^ m.toNat ≤ fuel) :
    update base m force a fuel = some none ∨
    ∃ st k x D inc, update base m force a fuel = some (some st) ∧ Chain base a k 1 x D ∧
      x.e = a.e1 ∧ x.T = a.T1 ∧ x.t = a.t1 ∧ st.out = some inc ∧ inc.s = x.s ∧ inc.h = x.h := by
  cases h : update base m force a fuel with
  | none => exact absurd h (C20_stops hm fuel hf)
  | some r =>
    cases r with
    | none => exact Or.inl rfl
    | some st =>
      obtain ⟨k, x, D, inc, h1, _, _, h2, h3, h4, h5, h6, h7, _⟩ := C19_covers_step hm fuel st h
      exact Or.inr ⟨st, k, x, D, inc, rfl, h1, h2, h3, h4, h5, h6, h7⟩

/-- C22, negation for a negative `max_divide`: the update returns at once, having called
nothing and written nothing (the caller reads whatever was in the output buffers). -/
theorem C22_negative_max_divide (hm : m < 0) (fuel : Nat) :
    ∃ st, update base m force a fuel = some (some st) ∧ st.out = none ∧ st.Anew = none ∧
      st.calls = 0 := by
  refine ⟨initSt m a, ?_, rfl, rfl, rfl⟩
  have h0 : tf m = 0 := by unfold tf; rw [if_pos hm]
  unfold update
  cases fuel <;> rw [loop, if_neg (by simp [initSt, h0])]

/-- A base model on `ℚ` that fails for increments longer than 0.3 and otherwise adds the strain
increment to the stress. -/
def demo : Base ℚ ℚ ℚ Unit (Fin 1) (Fin 1) := fun x e _ _ =>
  if e - x.e > 3 / 10 then none else some ⟨x.s + (e - x.e), (), 1, 1, 0, 0⟩

/-- Concrete case for C19, C20, C22: from 0 to 1 with failures; four accepted increments of a
quarter. -/
example : ((update demo 4 false ⟨⟨0, 0, 0, 5, (), 0, 0⟩, 1, 0, 1⟩ 20).map (Option.map fun st =>
    (st.out.map (fun i => i.s), st.calls, st.cm))) = some (some (some 6, 6, 4)) := by
  have ht : tf 4 = 16 := by decide
  simp only [update, loop, body, initSt, demo, ht]
  norm_num

end Neml.Substep
