import Verif.Props.ViscoReturn

/-!
# C184: a viscoplastic J2 step has exactly one solution
-/

namespace Neml.SolveStep

open Matrix Neml.SmallStrain Neml.Flow Neml.Mandel Neml.Elastic

variable {el : Elastic ℝ (Fin 6)} {eps G Kb : ℝ} {r : Iso} {gf : GFlow}
  {x : Substep.Point ℝ (Fin 6 → ℝ) (Fin 6 → ℝ) (Unit → ℝ)} {e1 : Fin 6 → ℝ} {T1 t1 : ℝ}

/-- The unknowns after a plastic strain of length `d` along the deviator of the trial stress. -/
noncomputable def vray (G : ℝ) (s : Fin 6 → ℝ) (al d : ℝ) : Fin 6 ⊕ Unit → ℝ :=
  Sum.elim (back G s d) fun _ => al + √(2 / 3) * d

/-- A plastic strain less what the flow at the stress it leads to produces in the time. -/
noncomputable def lag (r : Iso) (gf : GFlow) (G N al T dt d : ℝ) : ℝ :=
  d - dt * rate gf T (gap r G N al T d)

/-- What is asked of the flow function at a temperature: no flow without overstress, and more flow
under more overstress, without jumps. -/
structure Flowing (gf : GFlow) (T : ℝ) : Prop where
  zero : gf.g 0 T = 0
  mono : ∀ f f', 0 ≤ f → f ≤ f' → gf.g f T ≤ gf.g f' T
  cont : ContinuousOn (fun f => gf.g f T) (Set.Ici 0)

theorem rate_of_pos {T f : ℝ} (h : 0 < f) : rate gf T f = gf.g f T := by
  unfold rate
  rw [if_pos h, abs_of_pos h]

theorem rate_of_nonpos {T f : ℝ} (h : f ≤ 0) : rate gf T f = 0 := by
  unfold rate
  rw [if_neg (not_lt.mpr h)]

theorem Flowing.nonneg {T : ℝ} (h : Flowing gf T) (f : ℝ) : 0 ≤ rate gf T f := by
  rcases lt_or_ge 0 f with hf | hf
  · rw [rate_of_pos hf, ← h.zero]
    exact h.mono 0 f le_rfl hf.le
  · rw [rate_of_nonpos hf]

theorem Flowing.rate_le {T : ℝ} (h : Flowing gf T) {f f' : ℝ} (hf : f ≤ f') :
    rate gf T f ≤ rate gf T f' := by
  rcases lt_or_ge 0 f with h0 | h0
  · rw [rate_of_pos h0, rate_of_pos (h0.trans_le hf)]
    exact h.mono _ _ h0.le hf
  · rw [rate_of_nonpos h0]
    exact h.nonneg f'

theorem lag_mono {N al T dt : ℝ} (hm : Flowing gf T) (hdt : 0 < dt) (ht : Tame eps G r al T)
    {d1 d2 : ℝ} (h1 : 0 ≤ d1) (h : d1 < d2) :
    lag r gf G N al T dt d1 < lag r gf G N al T dt d2 := by
  have := mul_le_mul_of_nonneg_left
    (hm.rate_le (gap_anti (N := N) ht h1 h).le) hdt.le
  unfold lag
  linarith

theorem excess_back (he : 0 < eps) {s : Fin 6 → ℝ} (h : 0 < norm2 (devVec s)) {al d : ℝ}
    (hd : eps ≤ norm2 (devVec s) - 2 * G * d) :
    excess r T1 (back G s d) (al + √(2 / 3) * d) = gap r G (norm2 (devVec s)) al T1 d := by
  unfold excess gap
  rw [norm2_back he h hd]

theorem giR_ray (he : 0 < eps) (hdt : 0 < t1 - x.t) (hC : el.C T1 = isoC G Kb)
    (h : 0 < norm2 (devVec (trial el x e1 T1))) {d : ℝ}
    (hd : eps ≤ norm2 (devVec (trial el x e1 T1)) - 2 * G * d) :
    giR (tvp el (isoPerzyna eps r gf)) (giTrial x e1 T1 t1) (vray G (trial el x e1 T1) (x.h ()) d) =
      lag r gf G (norm2 (devVec (trial el x e1 T1))) (x.h ()) T1 (t1 - x.t) d •
        Sum.elim (-(2 * G) • dir (trial el x e1 T1)) (fun _ => √(2 / 3)) := by
  have htr : tr3 (dir (trial el x e1 T1)) = 0 := by rw [dir, tr3_smul, tr3_devVec, mul_zero]
  rw [vray, giR_iso hdt hC, excess_back he h hd, normalize_back he h hd, isoC_dev G Kb htr]
  ext a
  rcases a with i | a
  · simp only [back, lag, Sum.elim_inl, Pi.add_apply, Pi.sub_apply, Pi.smul_apply, smul_eq_mul]
    ring
  · simp only [lag, Sum.elim_inr, Pi.smul_apply, smul_eq_mul]
    ring

theorem giR_inside (hdt : 0 < t1 - x.t) (hC : el.C T1 = isoC G Kb)
    (h : excess r T1 (trial el x e1 T1) (x.h ()) ≤ 0) :
    giR (tvp el (isoPerzyna eps r gf)) (giTrial x e1 T1 t1)
      (Sum.elim (trial el x e1 T1) fun _ => x.h ()) = 0 := by
  rw [giR_iso hdt hC, rate_of_nonpos h]
  ext a
  rcases a with i | a <;> simp

/-- Every solution is a point of the ray at which the plastic strain is what the flow produces, or
the trial state itself inside the surface. -/
theorem visco_on_ray (he : 0 < eps) (hG : 0 < G) (hdt : 0 < t1 - x.t) (hC : el.C T1 = isoC G Kb)
    (hm : Flowing gf T1) (ht : Tame eps G r (x.h ()) T1) {z : Fin 6 ⊕ Unit → ℝ}
    (h : giR (tvp el (isoPerzyna eps r gf)) (giTrial x e1 T1 t1) z = 0) :
    ∃ d, 0 ≤ d ∧ z = vray G (trial el x e1 T1) (x.h ()) d ∧
      lag r gf G (norm2 (devVec (trial el x e1 T1))) (x.h ()) T1 (t1 - x.t) d = 0 ∧
      excess r T1 (fun i => z (.inl i)) (z (.inr ())) =
        gap r G (norm2 (devVec (trial el x e1 T1))) (x.h ()) T1 d := by
  obtain ⟨s, al1, rfl⟩ : ∃ s al1, z = Sum.elim s fun _ => al1 :=
    ⟨fun i => z (.inl i), z (.inr ()), by ext a; rcases a with i | a <;> rfl⟩
  rw [giR_iso hdt hC] at h
  set str := trial el x e1 T1
  set dt := t1 - x.t
  have h2 : al1 = x.h () + √(2 / 3) * (dt * rate gf T1 (excess r T1 s al1)) := by
    have := congrFun h (.inr ())
    simp only [Sum.elim_inr, Pi.zero_apply] at this
    linarith
  have hr := hm.nonneg (excess r T1 s al1)
  rcases le_or_gt (excess r T1 s al1) 0 with hf | hf
  · have hy := rate_of_nonpos (gf := gf) (T := T1) hf
    have h3 : s = str := by
      ext i
      have := congrFun h (.inl i)
      simp only [hy, mul_zero, zero_smul, add_zero, Sum.elim_inl, Pi.sub_apply, Pi.zero_apply] at this
      linarith
    have h4 : al1 = x.h () := by rw [h2, hy]; ring
    refine ⟨0, le_rfl, ?_, ?_, ?_⟩
    · unfold vray back
      rw [h3, h4]
      simp
    · have hg : gap r G (norm2 (devVec str)) (x.h ()) T1 0 = excess r T1 s al1 := by
        unfold gap excess
        rw [h3, h4]
        simp
      unfold lag
      rw [hg, hy]
      ring
    · simp only [Sum.elim_inl, Sum.elim_inr]
      unfold gap excess
      rw [h3, h4]
      simp
  · set y := rate gf T1 (excess r T1 s al1) with hyd
    have hal : x.h () ≤ al1 := by rw [h2]; exact le_add_of_nonneg_right (by positivity)
    have hfl : eps ≤ norm2 (devVec s) := by
      have := ht.floor al1 hal
      unfold excess at hf
      linarith
    obtain ⟨hu, hdev⟩ := unit_of he hfl
    have htr : tr3 (normalize eps (devVec s)) = 0 := tr3_normalize (tr3_devVec s)
    set m := normalize eps (devVec s) with hmdef
    have h1 : str = s + (2 * G * (dt * y)) • m := by
      have h4 : s - str + (dt * y) • (isoC G Kb *ᵥ m) = 0 := by ext i; exact congrFun h (.inl i)
      rw [isoC_dev G Kb htr] at h4
      rw [eq_comm, ← sub_eq_zero, ← h4]
      module
    have h5 : devVec str = (norm2 (devVec s) + 2 * G * (dt * y)) • m := by
      rw [h1, devVec_add,
        devVec_of_tr3 (v := (2 * G * (dt * y)) • m) (by rw [tr3_smul, htr, mul_zero]),
        add_smul, ← hdev]
    have hp0 : 0 < norm2 (devVec s) + 2 * G * (dt * y) := by
      have := he.trans_le hfl
      positivity
    have h6 : norm2 (devVec str) = norm2 (devVec s) + 2 * G * (dt * y) := by
      rw [h5, norm2_unit hu, abs_of_pos hp0]
    have hp : 0 < norm2 (devVec str) := by rw [h6]; exact hp0
    have h7 : dir str = m := by
      unfold dir
      rw [h5, norm2_unit hu, smul_smul, ← h6, abs_of_pos hp]
      field_simp
      simp
    have hex : excess r T1 s al1 = gap r G (norm2 (devVec str)) (x.h ()) T1 (dt * y) := by
      unfold excess gap
      rw [h6, ← h2]
      ring
    refine ⟨dt * y, by positivity, ?_, ?_, hex⟩
    · unfold vray back
      rw [h7, ← h2, h1]
      congr 1
      module
    · unfold lag
      rw [← hex]
      ring

/-- C184: the equations of a viscoplastic step have exactly one solution. -/
theorem C184_unique (he : 0 < eps) (hG : 0 < G) (hdt : 0 < t1 - x.t) (hC : el.C T1 = isoC G Kb)
    (hm : Flowing gf T1) (ht : Tame eps G r (x.h ()) T1) :
    ∃! z : Fin 6 ⊕ Unit → ℝ,
      giR (tvp el (isoPerzyna eps r gf)) (giTrial x e1 T1 t1) z = 0 := by
  set N := norm2 (devVec (trial el x e1 T1)) with hN
  set al := x.h () with hal
  set dt := t1 - x.t with hdtd
  have huniq : ∀ z z' : Fin 6 ⊕ Unit → ℝ,
      giR (tvp el (isoPerzyna eps r gf)) (giTrial x e1 T1 t1) z = 0 →
      giR (tvp el (isoPerzyna eps r gf)) (giTrial x e1 T1 t1) z' = 0 → z = z' := by
    intro z z' hz hz'
    obtain ⟨d, h1, h2, h3, -⟩ := visco_on_ray he hG hdt hC hm ht hz
    obtain ⟨d', h1', h2', h3', -⟩ := visco_on_ray he hG hdt hC hm ht hz'
    have : d = d' := by
      rcases lt_trichotomy d d' with h | h | h
      · have := lag_mono (N := N) hm hdt ht h1 h
        linarith
      · exact h
      · have := lag_mono (N := N) hm hdt ht h1' h
        linarith
    rw [h2, h2', this]
  rcases le_or_gt (excess r T1 (trial el x e1 T1) al) 0 with hf | hf
  · have h0 := giR_inside (eps := eps) (gf := gf) (e1 := e1) hdt hC hf
    exact ⟨_, h0, fun z hz => huniq z _ hz h0⟩
  · have h0 : 0 < gap r G N al T1 0 := by
      unfold gap
      unfold excess at hf
      simpa using hf
    have hfl := ht.floor al le_rfl
    have hNp : 0 < N := by
      unfold excess at hf
      linarith
    obtain ⟨d, hd, hd0⟩ := exists_root he hG ht h0
    have hc : 0 < √(2 / 3 : ℝ) := Real.sqrt_pos.mpr (by norm_num)
    have hpos : ∀ e ∈ Set.Icc 0 d, 0 ≤ gap r G N al T1 e := by
      intro e hed
      rcases hed.2.eq_or_lt with h | h
      · rw [h, hd0]
      · have := gap_anti (N := N) ht hed.1 h
        linarith
    have hgc : ContinuousOn (gap r G N al T1) (Set.Icc 0 d) := by
      unfold gap
      refine ContinuousOn.sub (by fun_prop) (ContinuousOn.mul (by fun_prop) (ContinuousOn.neg ?_))
      exact ht.cont.comp (f := fun d => al + √(2 / 3) * d) (by fun_prop)
        fun e hed => le_add_of_nonneg_right (mul_nonneg hc.le hed.1)
    have hcont : ContinuousOn (fun e => e - dt * gf.g (gap r G N al T1 e) T1) (Set.Icc 0 d) := by
      refine ContinuousOn.sub (by fun_prop) (ContinuousOn.mul (by fun_prop) ?_)
      exact hm.cont.comp hgc fun e hed => hpos e hed
    have hr : ∀ e ∈ Set.Icc 0 d, rate gf T1 (gap r G N al T1 e) = gf.g (gap r G N al T1 e) T1 := by
      intro e hed
      rcases (hpos e hed).eq_or_lt with h | h
      · rw [rate_of_nonpos h.ge, ← h, hm.zero]
      · exact rate_of_pos h
    have hlo : 0 - dt * gf.g (gap r G N al T1 0) T1 ≤ 0 := by
      have := hm.nonneg (gap r G N al T1 0)
      rw [hr 0 ⟨le_rfl, hd.le⟩] at this
      have := mul_nonneg hdt.le this
      linarith
    have hhi : 0 ≤ d - dt * gf.g (gap r G N al T1 d) T1 := by
      rw [hd0, hm.zero]
      linarith
    obtain ⟨e, hed, he0⟩ := intermediate_value_Icc hd.le hcont ⟨hlo, hhi⟩
    have hfar : eps ≤ N - 2 * G * e := by
      have h1 := ht.floor (al + √(2 / 3) * e) (le_add_of_nonneg_right (mul_nonneg hc.le hed.1))
      have h2 := hpos e hed
      unfold gap at h2
      linarith
    have hz : giR (tvp el (isoPerzyna eps r gf)) (giTrial x e1 T1 t1)
        (vray G (trial el x e1 T1) al e) = 0 := by
      rw [giR_ray he hdt hC hNp hfar]
      have : lag r gf G N al T1 dt e = 0 := by
        unfold lag
        rw [hr e hed]
        exact he0
      rw [this, zero_smul]
    exact ⟨_, hz, fun z hz' => huniq z _ hz' hz⟩

/-- C184: that solution has the mean stress of the trial stress and its deviator along the trial
deviator. It is elastic if the trial stress is not outside the surface; otherwise it stays between the
surface and the trial stress, and the plastic strain is what the flow at the final overstress produces in
the time. -/
theorem C184_flow (he : 0 < eps) (hG : 0 < G) (hdt : 0 < t1 - x.t) (hC : el.C T1 = isoC G Kb)
    (hm : Flowing gf T1) (ht : Tame eps G r (x.h ()) T1) {z : Fin 6 ⊕ Unit → ℝ}
    (h : giR (tvp el (isoPerzyna eps r gf)) (giTrial x e1 T1 t1) z = 0) :
    (excess r T1 (trial el x e1 T1) (x.h ()) ≤ 0 →
      (fun i => z (.inl i)) = trial el x e1 T1 ∧ z (.inr ()) = x.h ()) ∧
    (0 < excess r T1 (trial el x e1 T1) (x.h ()) →
      0 ≤ excess r T1 (fun i => z (.inl i)) (z (.inr ())) ∧
      excess r T1 (fun i => z (.inl i)) (z (.inr ())) ≤ excess r T1 (trial el x e1 T1) (x.h ()) ∧
      z (.inr ()) = x.h () + √(2 / 3) *
        ((t1 - x.t) * gf.g (excess r T1 (fun i => z (.inl i)) (z (.inr ()))) T1) ∧
      (fun i => z (.inl i)) = trial el x e1 T1 - (2 * G *
        ((t1 - x.t) * gf.g (excess r T1 (fun i => z (.inl i)) (z (.inr ()))) T1)) •
          dir (trial el x e1 T1)) := by
  obtain ⟨d, hd, hz, hl, hx⟩ := visco_on_ray he hG hdt hC hm ht h
  have hg0 : gap r G (norm2 (devVec (trial el x e1 T1))) (x.h ()) T1 0 =
      excess r T1 (trial el x e1 T1) (x.h ()) := by
    unfold gap excess
    simp
  constructor
  · intro hf
    have h0 : d = 0 := by
      by_contra hne
      have hdp : 0 < d := lt_of_le_of_ne hd (Ne.symm hne)
      have h1 := gap_anti (N := norm2 (devVec (trial el x e1 T1))) ht le_rfl hdp
      unfold lag at hl
      rw [rate_of_nonpos (by linarith)] at hl
      linarith
    constructor
    · rw [hz, h0]
      ext i
      simp [vray, back]
    · rw [hz, h0]
      simp [vray]
  · intro hf
    have hpos : 0 ≤ gap r G (norm2 (devVec (trial el x e1 T1))) (x.h ()) T1 d := by
      by_contra hneg
      have hneg' := not_le.mp hneg
      unfold lag at hl
      rw [rate_of_nonpos hneg'.le] at hl
      have : d = 0 := by linarith
      rw [this, hg0] at hneg'
      linarith
    have hdt' : d = (t1 - x.t) * gf.g (gap r G (norm2 (devVec (trial el x e1 T1))) (x.h ()) T1 d) T1 := by
      unfold lag at hl
      rcases hpos.eq_or_lt with h1 | h1
      · rw [rate_of_nonpos h1.ge] at hl
        rw [← h1, hm.zero]
        linarith
      · rw [rate_of_pos h1] at hl
        linarith
    rw [hx, ← hdt']
    refine ⟨hpos, ?_, ?_, ?_⟩
    · rw [← hg0]
      rcases hd.eq_or_lt with h1 | h1
      · rw [← h1]
      · exact (gap_anti (N := norm2 (devVec (trial el x e1 T1))) ht le_rfl h1).le
    · rw [hz]; rfl
    · rw [hz]; rfl

/-- C184: the power law flow function is of the kind. -/
theorem C184_power (n eta : ℝ → ℝ) (T : ℝ) (hn : 0 < n T) (he : 0 < eta T) :
    Flowing (gPowerLaw n eta) T where
  zero := by simp [gPowerLaw, Real.zero_rpow hn.ne']
  mono f f' hf hff := by
    simp only [gPowerLaw]
    exact Real.rpow_le_rpow (by positivity) (by gcongr) hn.le
  cont := by
    unfold gPowerLaw
    exact (continuousOn_id.div_const _).rpow_const fun _ _ => Or.inr hn.le

/-- The conditions together: Voce hardening and a flow exponent of three. -/
example : Flowing (gPowerLaw (fun _ => 3) (fun _ => 100)) 0 ∧
    Tame (1 / 2) 1 (voceIso (fun _ => 2) (fun _ => -1) (fun _ => 2)) 0 0 :=
  ⟨C184_power _ _ _ (by norm_num) (by norm_num),
    C182_softening _ _ _ le_rfl (by norm_num) (by norm_num) (by norm_num) (by
      have : (1 / 2 : ℝ) ≤ √(2 / 3) := by
        rw [Real.le_sqrt (by norm_num) (by norm_num)]; norm_num
      norm_num at this ⊢
      linarith)⟩

end Neml.SolveStep
