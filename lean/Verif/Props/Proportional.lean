import Verif.Props.SlowLimit

/-!
# C202: proportional straining, in however many steps
-/

namespace Neml.SolveStep

open Matrix Neml.SmallStrain Neml.Flow Neml.Mandel Neml.Elastic

variable {G Kb eps T : ℝ} {el : Elastic ℝ (Fin 6)} {r : Iso}

theorem Tame.later {al a : ℝ} (ht : Tame eps G r al T) (h : al ≤ a) : Tame eps G r a T :=
  ⟨fun b hb => ht.floor b (h.trans hb), ht.cont.mono (Set.Ici_subset_Ici.2 h), fun b c hb => ht.slow b c (h.trans hb)⟩

/-- A step along the direction `d` of the deviator of the trial stress, whose length is `N`: the plastic strain has the length
`g`. -/
structure Radially (G : ℝ) (r : Iso) (T : ℝ) (d t : Fin 6 → ℝ) (N al : ℝ) (s : Fin 6 → ℝ) (a g : ℝ) : Prop where
  nonneg : 0 ≤ g
  stress : s = t - (2 * G * g) • d
  hard : a = al + √(2 / 3) * g
  inside : gap r G N al T g ≤ 0
  only : g * gap r G N al T g = 0
  left : 0 ≤ N - 2 * G * g

/-- The plastic strain of a step is the only one. -/
theorem Radially.unique {d t : Fin 6 → ℝ} {N al : ℝ} (ht : Tame eps G r al T) {s s' : Fin 6 → ℝ} {a a' g g' : ℝ}
    (h : Radially G r T d t N al s a g) (h' : Radially G r T d t N al s' a' g') : s = s' ∧ a = a' := by
  have key : ∀ {s s' : Fin 6 → ℝ} {a a' g g' : ℝ}, Radially G r T d t N al s a g → Radially G r T d t N al s' a' g' →
      ¬ g < g' := by
    intro s s' a a' g g' h h' hlt
    have h1 := gap_anti (N := N) ht h.nonneg hlt
    have h2 := (mul_eq_zero.1 h'.only).resolve_left (h.nonneg.trans_lt hlt).ne'
    linarith [h.inside]
  have hg : g = g' := le_antisymm (not_lt.1 (key h' h)) (not_lt.1 (key h h'))
  subst hg
  exact ⟨h.stress.trans h'.stress.symm, h.hard.trans h'.hard.symm⟩

theorem norm2_along {d : Fin 6 → ℝ} (hd : d ⬝ᵥ d = 1) {N : ℝ} (hN : 0 ≤ N) : norm2 (N • d) = N := by
  rw [norm2_unit hd, abs_of_nonneg hN]

theorem Returns.radially (he : 0 < eps) (hG : 0 < G) (hC : el.C T = isoC G Kb) {x : State} {e s : Fin 6 → ℝ} {a : ℝ}
    (ht : Tame eps G r (x.h ()) T) {d : Fin 6 → ℝ} (hd : d ⬝ᵥ d = 1) {N : ℝ} (hN : 0 ≤ N)
    (hdev : devVec (trial' el x e T) = N • d) (h : Returns el eps r x e T s a) :
    ∃ g, Radially G r T d (trial' el x e T) N (x.h ()) s a g := by
  have hn : norm2 (devVec (trial' el x e T)) = N := by rw [hdev, norm2_along hd hN]
  rcases h with ⟨h0, rfl, rfl⟩ | ⟨h0, z, hz, hR, rfl, rfl⟩
  · refine ⟨0, le_rfl, by simp, by simp, ?_, by simp, by simpa using hN⟩
    unfold excess at h0
    rw [hn] at h0
    unfold gap
    simpa using h0
  · obtain ⟨h1, h2, h3⟩ := on_ray he hG hC ht hz hR
    rw [hn] at h2 h3
    have hNp : 0 < N := by
      have := mul_nonneg (mul_nonneg zero_le_two hG.le) hz
      linarith
    have hdir : dir (trial' el x e T) = d := by
      rw [dir, hn, hdev, smul_smul, one_div_mul_cancel hNp.ne', one_smul]
    refine ⟨z (.inr (.inr ())), hz, ?_, ?_, h2.le, by rw [h2, mul_zero], he.le.trans h3⟩
    · conv_lhs => rw [h1]
      funext i
      rw [← hdir]
      rfl
    · conv_lhs => rw [h1]
      rfl

/-- Strains whose deviators grow along the direction `d`; the volumetric part is left free. -/
def Ascends (d : Fin 6 → ℝ) : (Fin 6 → ℝ) → List ((Fin 6 → ℝ) × ℝ) → Prop
  | _, [] => True
  | e, i :: l => (∃ τ : ℝ, 0 ≤ τ ∧ devVec (i.1 - e) = τ • d) ∧ Ascends d i.1 l

/-- The last strain. -/
def lastStrain : (Fin 6 → ℝ) → List ((Fin 6 → ℝ) × ℝ) → Fin 6 → ℝ
  | e, [] => e
  | _, i :: l => lastStrain i.1 l

theorem trial'_eq (hG : 0 < G) (hB : 0 < Kb) (hC : el.C T = isoC G Kb) (hS : el.S T = isoS G Kb) {x : State}
    (hx : x.T = T) (e : Fin 6 → ℝ) : trial' el x e T = x.s + isoC G Kb *ᵥ (e - x.e) := by
  unfold trial'
  rw [hC, hx, hS]
  simp only [mulVec_sub]
  rw [mulVec_mulVec, (C36_iso_inverse G Kb hG hB).2, one_mulVec]
  abel

/-- Where a path along the direction ends is where one step would lead. -/
theorem along_radially (he : 0 < eps) (hG : 0 < G) (hB : 0 < Kb) (hC : el.C T = isoC G Kb) (hS : el.S T = isoS G Kb)
    {d : Fin 6 → ℝ} (hd : d ⬝ᵥ d = 1) (htr : tr3 d = 0) {x0 : State} (h0 : x0.T = T) (ht : Tame eps G r (x0.h ()) T)
    {c : ℝ} (hdev : devVec x0.s = c • d) (l : List ((Fin 6 → ℝ) × ℝ)) {x y : State} (hx : x.T = T) {τ g : ℝ}
    (hτ : devVec (x.e - x0.e) = τ • d) (hN : 0 ≤ c + 2 * G * τ)
    (hr : Radially G r T d (trial' el x0 x.e T) (c + 2 * G * τ) (x0.h ()) x.s (x.h ()) g)
    (hl : Ascends d x.e l) (h : Along (PlasticStep el eps r T) x l y) :
    ∃ τ' g', devVec (lastStrain x.e l - x0.e) = τ' • d ∧ 0 ≤ c + 2 * G * τ' ∧
      Radially G r T d (trial' el x0 (lastStrain x.e l) T) (c + 2 * G * τ') (x0.h ()) y.s (y.h ()) g' := by
  induction l generalizing x τ g with
  | nil =>
    rw [show y = x from h]
    exact ⟨τ, g, hτ, hN, hr⟩
  | cons i l ih =>
    obtain ⟨w, hw, h⟩ := h
    obtain ⟨⟨τ1, h1, h2⟩, hl⟩ := hl
    have hax : x0.h () ≤ x.h () := by
      rw [hr.hard]
      have := hr.nonneg
      exact le_add_of_nonneg_right (by positivity)
    have hdx : devVec x.s = (c + 2 * G * τ - 2 * G * g) • d := by
      rw [hr.stress, devVec_sub', devVec_of_tr3 (v := (2 * G * g) • d) (by rw [tr3_smul, htr, mul_zero]),
        trial'_eq hG hB hC hS h0, devVec_add, dev_stiff, hτ, hdev]
      module
    have hdt : devVec (trial' el x i.1 T) = (c + 2 * G * τ - 2 * G * g + 2 * G * τ1) • d := by
      rw [trial'_eq hG hB hC hS hx, devVec_add, dev_stiff, h2, hdx]
      module
    obtain ⟨g1, R⟩ := hw.1.radially he hG hC (ht.later hax) hd (by
      have := mul_nonneg (mul_nonneg zero_le_two hG.le) h1
      linarith [hr.left]) hdt
    have hgap : gap r G (c + 2 * G * τ - 2 * G * g + 2 * G * τ1) (x.h ()) T g1 =
        gap r G (c + 2 * G * (τ + τ1)) (x0.h ()) T (g + g1) := by
      unfold gap
      rw [hr.hard, show x0.h () + √(2 / 3) * g + √(2 / 3) * g1 = x0.h () + √(2 / 3) * (g + g1) by ring]
      ring
    have hw1 : w.e = i.1 := hw.2.1
    have hτ1 : 0 ≤ 2 * G * τ1 := mul_nonneg (mul_nonneg zero_le_two hG.le) h1
    have := ih (x := w) (τ := τ + τ1) (g := g + g1) hw.2.2.1 ?_ ?_ ?_ (by rw [hw1]; exact hl) h
    · rw [hw1] at this
      exact this
    · rw [hw1, show i.1 - x0.e = (i.1 - x.e) + (x.e - x0.e) by abel, devVec_add, h2, hτ]
      module
    · linarith
    · have e1 := R.inside
      have e2 := R.only
      rw [hgap] at e1 e2
      refine ⟨add_nonneg hr.nonneg R.nonneg, ?_, ?_, e1, ?_, ?_⟩
      · rw [R.stress, trial'_eq hG hB hC hS hx, hr.stress, trial'_eq hG hB hC hS h0, trial'_eq hG hB hC hS h0, hw1,
          show i.1 - x0.e = (x.e - x0.e) + (i.1 - x.e) by abel, mulVec_add]
        module
      · rw [R.hard, hr.hard]; ring
      · rcases R.nonneg.eq_or_lt with h3 | h3
        · rw [← h3, add_zero] at e1 ⊢
          rcases hr.nonneg.eq_or_lt with h4 | h4
          · rw [← h4, zero_mul]
          · have h5 := (mul_eq_zero.1 hr.only).resolve_left h4.ne'
            have h6 : gap r G (c + 2 * G * (τ + τ1)) (x0.h ()) T g =
                gap r G (c + 2 * G * τ) (x0.h ()) T g + 2 * G * τ1 := by
              unfold gap; ring
            rw [h6, h5, zero_add] at e1 ⊢
            rw [le_antisymm e1 hτ1, mul_zero]
        · rw [(mul_eq_zero.1 e2).resolve_left h3.ne', mul_zero]
      · linarith [R.left]

theorem reaches (he : 0 < eps) (hG : 0 < G) (hB : 0 < Kb) (hC : el.C T = isoC G Kb)
    (hS : el.S T = isoS G Kb) {d : Fin 6 → ℝ} (hd : d ⬝ᵥ d = 1) (htr : tr3 d = 0) {x : State} (hx : x.T = T)
    (ht : Tame eps G r (x.h ()) T) {c : ℝ} (hc : 0 ≤ c) (hdev : devVec x.s = c • d)
    {l : List ((Fin 6 → ℝ) × ℝ)} {y : State} (hne : l ≠ []) (hl : Ascends d x.e l)
    (h : Along (PlasticStep el eps r T) x l y) : ∃ τ g, devVec (lastStrain x.e l - x.e) = τ • d ∧
      Radially G r T d (trial' el x (lastStrain x.e l) T) (c + 2 * G * τ) (x.h ()) y.s (y.h ()) g := by
  cases l with
  | nil => exact absurd rfl hne
  | cons i l =>
    obtain ⟨w, hw, h⟩ := h
    obtain ⟨⟨τ, h1, h2⟩, hl⟩ := hl
    have hτ := mul_nonneg (mul_nonneg zero_le_two hG.le) h1
    have hdt : devVec (trial' el x i.1 T) = (c + 2 * G * τ) • d := by
      rw [trial'_eq hG hB hC hS hx, devVec_add, dev_stiff, h2, hdev]
      module
    obtain ⟨g, R⟩ := hw.1.radially he hG hC ht hd (by linarith) hdt
    have hw1 : w.e = i.1 := hw.2.1
    rw [← hw1] at R h2 hl
    obtain ⟨τ', g', q1, -, q3⟩ := along_radially he hG hB hC hS hd htr hx ht hdev l hw.2.2.1 h2 (by linarith) R hl h
    rw [hw1] at q1 q3
    exact ⟨τ', g', q1, q3⟩

/-- **C202.** J2 plasticity with any isotropic hardening: from a state without deviatoric stress, or with one along the
straining, two proportional paths to the same strain lead to the same stress and hardening, whatever the numbers and sizes
of their steps and whatever they do to the volume on the way. -/
theorem C202_proportional (he : 0 < eps) (hG : 0 < G) (hB : 0 < Kb) (hC : el.C T = isoC G Kb)
    (hS : el.S T = isoS G Kb) {d : Fin 6 → ℝ} (hd : d ⬝ᵥ d = 1) (htr : tr3 d = 0) {x y y' : State} (hx : x.T = T)
    (ht : Tame eps G r (x.h ()) T) {c : ℝ} (hc : 0 ≤ c) (hdev : devVec x.s = c • d)
    {l l' : List ((Fin 6 → ℝ) × ℝ)} (hne : l ≠ []) (hne' : l' ≠ []) (hlast : lastStrain x.e l = lastStrain x.e l')
    (hl : Ascends d x.e l) (hl' : Ascends d x.e l')
    (h : Along (PlasticStep el eps r T) x l y) (h' : Along (PlasticStep el eps r T) x l' y') :
    y.s = y'.s ∧ y.h () = y'.h () := by
  obtain ⟨τ, g, q1, q2⟩ := reaches he hG hB hC hS hd htr hx ht hc hdev hne hl h
  obtain ⟨τ', g', q1', q2'⟩ := reaches he hG hB hC hS hd htr hx ht hc hdev hne' hl' h'
  rw [← hlast, q1] at q1'
  have hττ : τ = τ' := by
    have := congrArg (fun v => v ⬝ᵥ d) q1'
    simpa [smul_dotProduct, hd] using this
  subst hττ
  rw [← hlast] at q2'
  exact q2.unique ht q2'

/-- **C202.** If there was any flow, the stress at the end is on the hardening curve: the equivalent stress is the yield stress
at the equivalent plastic strain. The plastic strain is what the elastic strain of the stress leaves of the strain. -/
theorem C202_curve (he : 0 < eps) (hG : 0 < G) (hB : 0 < Kb) (hC : el.C T = isoC G Kb)
    (hS : el.S T = isoS G Kb) {d : Fin 6 → ℝ} (hd : d ⬝ᵥ d = 1) (htr : tr3 d = 0) {x y : State} (hx : x.T = T)
    (ht : Tame eps G r (x.h ()) T) {c : ℝ} (hc : 0 ≤ c) (hdev : devVec x.s = c • d)
    {l : List ((Fin 6 → ℝ) × ℝ)} (hne : l ≠ []) (hl : Ascends d x.e l)
    (h : Along (PlasticStep el eps r T) x l y) :
    x.h () ≤ y.h () ∧ (x.h () ≠ y.h () → √(3 / 2) * norm2 (devVec y.s) = -r.q (y.h ()) T) ∧
      lastStrain x.e l - x.e = isoS G Kb *ᵥ (y.s - x.s) + (√(3 / 2) * (y.h () - x.h ())) • d := by
  obtain ⟨τ, g, q1, q2⟩ := reaches he hG hB hC hS hd htr hx ht hc hdev hne hl h
  have hp : √(2 / 3 : ℝ) * √(2 / 3) = 2 / 3 := Real.mul_self_sqrt (by norm_num)
  have hq : √(3 / 2 : ℝ) * √(2 / 3) = 1 := by
    rw [← Real.sqrt_mul (by norm_num), show (3 / 2 : ℝ) * (2 / 3) = 1 by norm_num, Real.sqrt_one]
  have hds : devVec y.s = (c + 2 * G * τ - 2 * G * g) • d := by
    rw [q2.stress, devVec_sub', devVec_of_tr3 (v := (2 * G * g) • d) (by rw [tr3_smul, htr, mul_zero]),
      trial'_eq hG hB hC hS hx, devVec_add, dev_stiff, q1, hdev]
    module
  refine ⟨?_, fun hne => ?_, ?_⟩
  · rw [q2.hard]
    have := q2.nonneg
    exact le_add_of_nonneg_right (by positivity)
  · have hg : g ≠ 0 := by
      rintro rfl
      exact hne (by rw [q2.hard]; ring)
    have h0 := (mul_eq_zero.1 q2.only).resolve_left hg
    rw [hds, norm2_along hd q2.left]
    unfold gap at h0
    rw [← q2.hard] at h0
    rw [show c + 2 * G * τ - 2 * G * g = √(2 / 3) * -r.q (y.h ()) T by linarith, ← mul_assoc, hq, one_mul]
  · have h1 : isoC G Kb *ᵥ (g • d) = (2 * G * g) • d := by
      rw [mulVec_smul, isoC_dev G Kb htr, smul_smul]
      congr 1
      ring
    have h2 : isoC G Kb *ᵥ (lastStrain x.e l - x.e) = (y.s - x.s) + isoC G Kb *ᵥ (g • d) := by
      rw [h1, q2.stress, trial'_eq hG hB hC hS hx]
      abel
    have h3 := congrArg (fun v => isoS G Kb *ᵥ v) h2
    simp only [mulVec_add, mulVec_mulVec, (C36_iso_inverse G Kb hG hB).1, one_mulVec] at h3
    rw [h3, q2.hard]
    congr 2
    rw [add_sub_cancel_left, ← mul_assoc, hq, one_mul]

/-- Every strain path can be followed. -/
theorem path_exists (he : 0 < eps) (hG : 0 < G) (hC : el.C T = isoC G Kb) (l : List ((Fin 6 → ℝ) × ℝ)) {x : State}
    (ht : Tame eps G r (x.h ()) T) : ∃ y, Along (PlasticStep el eps r T) x l y := by
  induction l generalizing x with
  | nil => exact ⟨x, rfl⟩
  | cons i l ih =>
    have step : ∃ s a, Returns el eps r x i.1 T s a := by
      rcases le_or_gt (excess r T (trial' el x i.1 T) (x.h ())) 0 with h | h
      · exact ⟨_, _, Or.inl ⟨h, rfl, rfl⟩⟩
      · obtain ⟨z, ⟨hz, hR⟩, -⟩ := C182_unique he hG hC ht (by unfold excess at h; linarith)
        exact ⟨_, _, Or.inr ⟨h, z, hz, hR, rfl, rfl⟩⟩
    obtain ⟨s, a, h1⟩ := step
    have hP : PlasticStep el eps r T x i ⟨i.1, T, i.2, s, fun _ => a, 0, 0⟩ := ⟨h1, rfl, rfl, rfl⟩
    obtain ⟨y, hy⟩ := ih (x := ⟨i.1, T, i.2, s, fun _ => a, 0, 0⟩) (ht.later (hP.grows he hG hC ht))
    exact ⟨y, _, hP, hy⟩

/-- Voce hardening, sheared far beyond yield in three uneven steps or in one. -/
example : ∃ y y', Along (PlasticStep (isoElastic 1 1) (1 / 10) (voceIso (fun _ => 1) (fun _ => 1) fun _ => 1) 0)
      ⟨0, 0, 0, 0, fun _ => 0, 0, 0⟩ [((1 : ℝ) • shear, 1), ((4 : ℝ) • shear, 2), ((9 : ℝ) • shear, 3)] y ∧
    Along (PlasticStep (isoElastic 1 1) (1 / 10) (voceIso (fun _ => 1) (fun _ => 1) fun _ => 1) 0)
      ⟨0, 0, 0, 0, fun _ => 0, 0, 0⟩ [((9 : ℝ) • shear, 3)] y' ∧ y.s = y'.s ∧ y.h () = y'.h () := by
  have hs : (1 / 10 : ℝ) ≤ √(2 / 3) := Real.le_sqrt_of_sq_le (by norm_num)
  have ht : Tame (1 / 10) 1 (voceIso (fun _ => 1) (fun _ => 1) fun _ => 1) 0 0 :=
    (C183_voce _ _ _ 0 0 zero_le_one zero_le_one).tame one_pos (by simp only [voceIso]; simpa using hs)
  obtain ⟨y, hy⟩ := path_exists (el := isoElastic 1 1) (Kb := 1) (by norm_num) one_pos rfl
    [((1 : ℝ) • shear, 1), ((4 : ℝ) • shear, 2), ((9 : ℝ) • shear, 3)] (x := ⟨0, 0, 0, 0, fun _ => 0, 0, 0⟩) ht
  obtain ⟨y', hy'⟩ := path_exists (el := isoElastic 1 1) (Kb := 1) (by norm_num) one_pos rfl
    [((9 : ℝ) • shear, 3)] (x := ⟨0, 0, 0, 0, fun _ => 0, 0, 0⟩) ht
  refine ⟨y, y', hy, hy', C202_proportional (d := shear) (c := 0) (Kb := 1) (G := 1) (T := 0)
    (x := ⟨0, 0, 0, 0, fun _ => 0, 0, 0⟩) (by norm_num) one_pos one_pos rfl rfl
    (by simp [shear, dotProduct, Fin.sum_univ_succ]) (by simp [tr3, shear]) rfl ht le_rfl ?_ (by simp) (by simp) ?_ ?_ ?_
    hy hy'⟩
  · simpa using devVec_shear 0
  · simp only [lastStrain]
  · refine ⟨⟨1, by norm_num, ?_⟩, ⟨3, by norm_num, ?_⟩, ⟨5, by norm_num, ?_⟩, trivial⟩
    · rw [sub_zero, devVec_shear]
    · rw [← sub_smul, devVec_shear]; norm_num
    · rw [← sub_smul, devVec_shear]; norm_num
  · refine ⟨⟨9, by norm_num, ?_⟩, trivial⟩
    rw [sub_zero, devVec_shear]

end Neml.SolveStep
