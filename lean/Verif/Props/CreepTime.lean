import Verif.Model.CreepTime
import Verif.Props.Creep

/-!
# C176: derivatives of creep rates by time and temperature
-/

namespace Neml.Creep

/-- C176: the derivative by time of the rate of a J2 creep model is right wherever that of its scalar rule is. -/
theorem C176_j2_time (eps : ℝ) (r : Scalar) (s e : Fin 6 → ℝ) (t T : ℝ)
    (h : HasDerivAt (fun x => r.g (seq s) (eeq e) x T) (r.dg_dt (seq s) (eeq e) t T) t) :
    HasDerivAt (fun x => (j2 eps r).f s e x T) (j2dt eps r s e t T) t := by
  rw [hasDerivAt_pi]
  intro i
  exact (h.const_mul (3 / 2)).const_mul _

/-- C176: the derivative by temperature of the rate of a J2 creep model is right wherever that of its scalar rule is. -/
theorem C176_j2_temperature (eps : ℝ) (r : Scalar) (s e : Fin 6 → ℝ) (t T : ℝ)
    (h : HasDerivAt (fun x => r.g (seq s) (eeq e) t x) (r.dg_dT (seq s) (eeq e) t T) T) :
    HasDerivAt (fun x => (j2 eps r).f s e t x) (j2dT eps r s e t T) T := by
  rw [hasDerivAt_pi]
  intro i
  exact (h.const_mul (3 / 2)).const_mul _

/-- C176: if the stress deviator is not too small, a wrong derivative of the scalar rule is a wrong derivative of the J2 model. -/
theorem C176_j2_temperature_wrong {eps : ℝ} (heps : 0 < eps) (r : Scalar) (s e : Fin 6 → ℝ) (t T g' : ℝ) (hs : eps ≤ seq s)
    (h : HasDerivAt (fun x => r.g (seq s) (eeq e) t x) g' T) (hne : g' ≠ r.dg_dT (seq s) (eeq e) t T) :
    ¬ HasDerivAt (fun x => (j2 eps r).f s e t x) (j2dT eps r s e t T) T := by
  intro hd
  rw [hasDerivAt_pi] at hd
  have hpos : 0 < seq s := lt_of_lt_of_le heps hs
  obtain ⟨i, hi⟩ : ∃ i, sdir eps s i ≠ 0 := by
    by_contra hc
    push Not at hc
    have hdev : ∀ i, Mandel.devVec s i = 0 := by
      intro i
      have := hc i
      rw [sdir, if_neg (not_lt.mpr hs)] at this
      rcases div_eq_zero_iff.mp this with h | h
      · exact h
      · exact absurd h hpos.ne'
    have : seq s = 0 := by
      have : Mandel.devVec s = 0 := funext hdev
      simp [seq, this, Flow.norm2]
    exact hpos.ne' this
  have h1 := (hd i).unique ((h.const_mul (3 / 2)).const_mul (sdir eps s i))
  have h2 := mul_left_cancel₀ hi h1
  have h3 := mul_left_cancel₀ (by norm_num : (3 / 2 : ℝ) ≠ 0) h2
  exact hne h3.symm

/-- C176: no rule depends on time, so that the derivative by time, always zero, is right. -/
theorem C176_time (eps : ℝ) (A n beta m s0 G U f f' : ℝ → ℝ) (R Q C n' V shift kboltz b eps0 A' D0 k k1 k2 : ℝ) (cuts : List ℝ)
    (AB : List ((ℝ → ℝ) × (ℝ → ℝ))) (r : Scalar)
    (hr : r ∈ [powerLaw A n, normalizedPowerLaw s0 n, blackburn A n beta R Q, swindeman C n' V Q shift,
      regionKM cuts AB kboltz b eps0 shift G, nortonBailey eps A m n, mukherjee G A' n' D0 Q b k R, generic f f',
      minCreep U k1 k2]) (s e t T : ℝ) : HasDerivAt (fun x => r.g s e x T) (r.dg_dt s e t T) t := by
  simp only [List.mem_cons, List.not_mem_nil, or_false] at hr
  rcases hr with rfl | rfl | rfl | rfl | rfl | rfl | rfl | rfl | rfl <;> exact hasDerivAt_const t _

/-- C176, what holds: with coefficients that do not vary with temperature the derivative by temperature is right for the power
laws, Norton-Bailey and generic creep; for Blackburn's and Swindeman's rules see C42. Missing: coefficients that vary, and the
rules of Mukherjee and of Kocks-Mecking, which ignore their own temperature dependence (see below). -/
theorem C176_constant_partial (eps A n m s0 : ℝ) (f f' : ℝ → ℝ) (r : Scalar)
    (hr : r ∈ [powerLaw (fun _ => A) fun _ => n, normalizedPowerLaw (fun _ => s0) fun _ => n,
      nortonBailey eps (fun _ => A) (fun _ => m) fun _ => n, generic f f']) (s e t T : ℝ) :
    HasDerivAt (fun x => r.g s e t x) (r.dg_dT s e t T) T := by
  simp only [List.mem_cons, List.not_mem_nil, or_false] at hr
  rcases hr with rfl | rfl | rfl | rfl <;> exact hasDerivAt_const T _

/-- C176, what is not so: a power law whose prefactor varies with temperature. -/
theorem C176_powerLaw_disagreement (A : ℝ → ℝ) (n s e t T A' : ℝ) (hA : HasDerivAt A A' T) (h0 : A' ≠ 0) (hs : 0 < s) :
    ∃ g', HasDerivAt (fun x => (powerLaw A fun _ => n).g s e t x) g' T ∧ g' ≠ (powerLaw A fun _ => n).dg_dT s e t T :=
  ⟨A' * s ^ n, hA.mul_const _, mul_ne_zero h0 (Real.rpow_pos_of_pos hs n).ne'⟩

/-- C176, what is not so: Blackburn's rule leaves out the change of its prefactor. -/
theorem C176_blackburn_disagreement (A : ℝ → ℝ) (n beta R Q s e t T A' : ℝ) (hA : HasDerivAt A A' T) (h0 : A' ≠ 0)
    (hR : R ≠ 0) (hT : T ≠ 0) (hs : 0 < beta * s / n) :
    ∃ g', HasDerivAt (fun x => (blackburn A (fun _ => n) (fun _ => beta) R Q).g s e t x) g' T ∧
      g' ≠ (blackburn A (fun _ => n) (fun _ => beta) R Q).dg_dT s e t T := by
  have h1 : HasDerivAt (fun x : ℝ => -Q / (R * x)) (Q / (R * T * T)) T := by
    have := (HasDerivAt.fun_div (hasDerivAt_const T (-Q)) ((hasDerivAt_id T).const_mul R) (mul_ne_zero hR hT))
    refine this.congr_deriv ?_
    simp only [id]
    field_simp
    ring
  refine ⟨_, (hA.mul_const (Real.sinh (beta * s / n) ^ n)).fun_mul h1.exp, ?_⟩
  have hp : 0 < Real.sinh (beta * s / n) ^ n := Real.rpow_pos_of_pos (Real.sinh_pos_iff.mpr hs) n
  have hne : A' * Real.sinh (beta * s / n) ^ n * Real.exp (-Q / (R * T)) ≠ 0 :=
    mul_ne_zero (mul_ne_zero h0 hp.ne') (Real.exp_pos _).ne'
  simp only [blackburn]
  intro h
  apply hne
  have e1 : A T * Real.sinh (beta * s / n) ^ n * Real.exp (-Q / (R * T)) * Q / (R * T * T) =
      A T * Real.sinh (beta * s / n) ^ n * (Real.exp (-Q / (R * T)) * (Q / (R * T * T))) := by ring
  rw [e1] at h
  linarith

/-- C176, what is not so: Mukherjee's rule with a constant shear modulus is proportional to `exp (-Q/RT) / T`, and the derivative
by temperature returned for it is zero; it is right only at the one temperature `Q/R`. -/
theorem C176_mukherjee_disagreement (mu A n D0 Q b k R s e t T : ℝ) (hA : 0 < A) (hD : 0 < D0) (hb : 0 < b) (hk : 0 < k)
    (hmu : 0 < mu) (hR : R ≠ 0) (hT : T ≠ 0) (hs : 0 < s) (hQ : Q ≠ R * T) :
    ∃ g', HasDerivAt (fun x => (mukherjee (fun _ => mu) A n D0 Q b k R).g s e t x) g' T ∧
      g' ≠ (mukherjee (fun _ => mu) A n D0 Q b k R).dg_dT s e t T := by
  have h1 : HasDerivAt (fun x : ℝ => -Q / (R * x)) (Q / (R * T * T)) T := by
    have := (HasDerivAt.fun_div (hasDerivAt_const T (-Q)) ((hasDerivAt_id T).const_mul R) (mul_ne_zero hR hT))
    refine this.congr_deriv ?_
    simp only [id]
    field_simp
    ring
  have h2 : HasDerivAt (fun x : ℝ => A * (D0 * Real.exp (-Q / (R * x))) * mu * b)
      (A * (D0 * (Real.exp (-Q / (R * T)) * (Q / (R * T * T)))) * mu * b) T :=
    (((h1.exp.const_mul D0).const_mul A).mul_const mu).mul_const b
  have h3 : HasDerivAt (fun x : ℝ => k * x) k T := by simpa using (hasDerivAt_id T).const_mul k
  refine ⟨_, ((h2.fun_div h3 (mul_ne_zero hk.ne' hT)).mul_const ((s / mu) ^ n)), ?_⟩
  have hp : 0 < (s / mu) ^ n := Real.rpow_pos_of_pos (div_pos hs hmu) n
  show _ ≠ (0 : ℝ)
  refine mul_ne_zero (div_ne_zero ?_ (pow_ne_zero 2 (mul_ne_zero hk.ne' hT))) hp.ne'
  have e1 : A * (D0 * (Real.exp (-Q / (R * T)) * (Q / (R * T * T)))) * mu * b * (k * T) -
      A * (D0 * Real.exp (-Q / (R * T))) * mu * b * k =
      A * D0 * mu * b * k * Real.exp (-Q / (R * T)) * ((Q - R * T) / (R * T)) := by
    generalize Real.exp (-Q / (R * T)) = X
    field_simp
  rw [e1]
  have hc : 0 < A * D0 * mu * b * k * Real.exp (-Q / (R * T)) := by positivity
  exact mul_ne_zero hc.ne' (div_ne_zero (sub_ne_zero.mpr hQ) (mul_ne_zero hR hT))

/-! ## Examples -/

example : HasDerivAt (fun x => (powerLaw (fun T => T) fun _ => 1).g 2 0 0 x) 2 5 := by
  simpa [powerLaw] using (hasDerivAt_id (5 : ℝ)).mul_const (2 : ℝ)

example : (powerLaw (fun T => T) fun _ => 1).dg_dT 2 0 0 5 = 0 := rfl

example : ∃ g', HasDerivAt (fun x => (mukherjee (fun _ => 1) 1 3 1 2 1 1 1).g 1 0 0 x) g' 1 ∧
    g' ≠ (mukherjee (fun _ => 1) 1 3 1 2 1 1 1).dg_dT 1 0 0 1 :=
  C176_mukherjee_disagreement 1 1 3 1 2 1 1 1 1 0 0 1 (by norm_num) (by norm_num) (by norm_num) (by norm_num) (by norm_num)
    (by norm_num) (by norm_num) (by norm_num) (by norm_num)

/-- C176: a creep model that does not say otherwise reports right derivatives exactly where its rate does not change with
time, or with temperature, to first order. -/
theorem C176_default_partial (f : (Fin 6 → ℝ) → (Fin 6 → ℝ) → ℝ → ℝ → Fin 6 → ℝ) (s e : Fin 6 → ℝ) (t T : ℝ) (d d' : Fin 6 → ℝ)
    (hd : HasDerivAt (fun x => f s e x T) d t) (hd' : HasDerivAt (fun x => f s e t x) d' T) :
    (HasDerivAt (fun x => f s e x T) (defaultDf s e t T) t ↔ d = 0) ∧
      (HasDerivAt (fun x => f s e t x) (defaultDf s e t T) T ↔ d' = 0) := by
  refine ⟨⟨fun h => hd.unique h, fun h => ?_⟩, ⟨fun h => hd'.unique h, fun h => ?_⟩⟩
  · rw [h] at hd; exact hd
  · rw [h] at hd'; exact hd'

/-- A rate that does not change. -/
example (s e : Fin 6 → ℝ) : HasDerivAt (fun _ : ℝ => s) (defaultDf s e 1 2) 1 :=
  ((C176_default_partial (fun s _ _ _ => s) s e 1 2 0 0 (hasDerivAt_const _ _) (hasDerivAt_const _ _)).1).2 rfl

end Neml.Creep
