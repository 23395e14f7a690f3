import Verif.Props.Crystal

/-!
# C56: size and temperature of the substeps
-/

namespace Neml.Crystal

section Loop

variable {K S H F R A : Type} [Field K] [LinearOrder K] [IsStrictOrderedRing K] [AddCommGroup S] [Module K S]
variable {ph : Phys K S H F R A} {o : Opts} {a : Args K S H R} {predictor : Bool}

/-- Dividing never goes down to `1/2^max_divide`: an update that returns has last taken a substep of size
`1/2^k` with `k < max_divide`, unless that many divisions were forced from the start. -/
theorem C56_smallest (fuel : Nat) (st : St S H R A) (h : attempt ph o a predictor fuel = some (some st)) :
    st.subdiv = o.forceDivide ∨ st.subdiv < o.maxDivide := by
  have key : ∀ (fuel : Nat) (st st' : St S H R A), (st.subdiv = o.forceDivide ∨ st.subdiv < o.maxDivide) →
      loop ph o a predictor fuel st = some (some st') →
      st'.subdiv = o.forceDivide ∨ st'.subdiv < o.maxDivide := by
    intro fuel
    induction fuel with
    | zero =>
      intro st st' hi h
      rw [loop] at h
      split_ifs at h
      simp only [Option.some.injEq] at h
      exact h ▸ hi
    | succ n ih =>
      intro st st' hi h
      rw [loop] at h
      split_ifs at h with hc
      · cases hb : body ph o a predictor st with
        | none => rw [hb] at h; simp at h
        | some st2 =>
          rw [hb] at h
          refine ih st2 st' ?_ h
          simp only [body] at hb
          split at hb
          · split_ifs at hb with hm
            simp only [Option.some.injEq] at hb
            subst hb
            exact Or.inr (by simp only; omega)
          · simp only [Option.some.injEq] at hb
            subst hb
            exact hi
      · simp only [Option.some.injEq] at h
        exact h ▸ hi
  exact key fuel _ st (Or.inl rfl) h

/-- The equations a returned update has solved last were those of a substep of size `1/2^k` at the
temperature the fraction `1/2^k` into the change of temperature. So an update that divided has not used the
temperature at the end of the step in its last substep, unless the temperature is constant. -/
theorem C56_temperature (hs : Sensible o) (fuel : Nat) (st : St S H R A)
    (h : attempt ph o a predictor fuel = some (some st)) :
    ∃ (k : Nat) (tr : Trial K S H F), (k : Int) = st.subdiv ∧ ph.solve tr = some (st.S, st.H) ∧
      tr.dt = a.dt / 2 ^ k ∧ tr.T = a.Tn * (1 - 1 / 2 ^ k) + a.T1 * (1 / 2 ^ k) ∧
      (a.T1 ≠ a.Tn → (tr.T = a.T1 ↔ k = 0)) := by
  obtain ⟨k, l, s, h0, hk, -, -, -, hsol, -⟩ := C56_partial hs fuel st h
  refine ⟨k, _, hk, hsol, by simp only [trialAt]; ring, by simp only [trialAt]; ring, fun hne => ?_⟩
  simp only [trialAt]
  constructor
  · intro e
    by_contra hk0
    have h4 : (1 : K) < 2 ^ k := one_lt_pow₀ (by norm_num) hk0
    have h5 : (1 : K) / 2 ^ k < 1 := by rw [div_lt_one (by positivity)]; exact h4
    have h6 : (a.T1 - a.Tn) * (1 - 1 / 2 ^ k) = 0 := by linear_combination -e
    rcases mul_eq_zero.mp h6 with h7 | h7
    · exact hne (sub_eq_zero.mp h7)
    · linarith
  · intro e
    subst e
    simp

end Loop

/-- A solver that returns the temperature it sees as stress and the time it has covered as history, and
fails on a whole unit of time. -/
def probe : Phys ℚ ℚ ℚ Unit Unit Unit where
  decouple _ _ _ := ()
  predict s _ _ _ := s
  solve tr := if tr.dt = 1 then none else some (tr.T, tr.hist + tr.dt)
  tangents _ _ _ := ()
  rotate _ _ _ := ()

/-- Case: the first solve fails and both halves succeed, so the step divides once; heating from 0 to 100
over the step, the last half is solved at 50. -/
example : (attempt probe ⟨4, 0, true⟩ ⟨0, 0, (), 0, 100, 1⟩ false 20).map (·.map fun st => (st.S, st.H, st.subdiv)) =
    some (some (50, 1, 1)) := by decide +kernel

end Neml.Crystal
