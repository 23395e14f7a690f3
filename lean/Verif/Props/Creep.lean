import Verif.Model.Creep
import Verif.Props.Surface
import Verif.Props.Newton
import Verif.Props.CreepPlastic
import Mathlib.Analysis.SpecialFunctions.Trigonometric.DerivHyp
import Mathlib.Data.List.Sort

/-!
# C41, C42, C43, C86: creep

Specification of a region: the normalised stress lies between the cut below and the cut above. Specification
of a scalar rule's derivatives: the rate is differentiable in stress and strain together, with the
reported partial derivatives.
-/

namespace Neml.Creep

open Matrix Neml.Mandel Neml.Flow

/-! ## C41 -/

/-- `x` is in region `k`: not below any of the first `k` cuts, not above any later one. -/
def InRegion (cuts : List ℝ) (k : Nat) (x : ℝ) : Prop :=
  k ≤ cuts.length ∧ ∀ j (h : j < cuts.length), (j < k → cuts[j] ≤ x) ∧ (k ≤ j → x ≤ cuts[j])

/-- **C41** one region, or two regions: the region of the stress is used. -/
theorem C41_two_regions (c : ℝ) (x : ℝ) :
    selectRegion [] 1 x = some 0 ∧ InRegion [] 0 x ∧
    ∃ k, selectRegion [c] 2 x = some k ∧ InRegion [c] k x := by
  refine ⟨by simp [selectRegion], ⟨by simp, by simp⟩, ?_⟩
  by_cases h : x < c
  · refine ⟨0, by simp [selectRegion, h], by simp, fun j hj => ?_⟩
    obtain rfl : j = 0 := by simpa using hj
    simp [h.le]
  · refine ⟨1, ?_, by simp, fun j hj => ?_⟩
    · by_cases h2 : x > c
      · simp [selectRegion, h, h2]
      · simp [selectRegion, h, h2]
    · obtain rfl : j = 0 := by simpa using hj
      simp [not_lt.mp h]

/-- **C41**, three or more regions (cuts increasing, one more constant than cuts). Some region is
used, and it is the region of the stress exactly when the stress is not above the second cut and
not at the first one. -/
theorem C41_right_iff (c0 c1 : ℝ) (cs : List ℝ) (hs : (c0 :: c1 :: cs).Pairwise (· < ·)) (x : ℝ) :
    ∃ k, selectRegion (c0 :: c1 :: cs) (cs.length + 3) x = some k ∧
      (InRegion (c0 :: c1 :: cs) k x ↔ x ≠ c0 ∧ x ≤ c1) := by
  have h01 : c0 < c1 := by simp only [List.pairwise_cons] at hs; exact hs.1 _ (by simp)
  have hge : ∀ c ∈ c0 :: c1 :: cs, c0 ≤ c := by
    intro c hc
    rcases List.mem_cons.mp hc with rfl | hc
    · exact le_rfl
    · simp only [List.pairwise_cons] at hs; exact (hs.1 _ hc).le
  have hge1 : ∀ c ∈ c1 :: cs, c1 ≤ c := by
    intro c hc
    rcases List.mem_cons.mp hc with rfl | hc
    · exact le_rfl
    · simp only [List.pairwise_cons] at hs; exact (hs.2.1 _ hc).le
  rcases lt_trichotomy x c0 with h | h | h
  · refine ⟨0, by simp [selectRegion, h], ?_⟩
    refine ⟨fun _ => ⟨h.ne, (h.trans h01).le⟩, fun _ => ⟨by simp, fun j hj => ⟨by simp, fun _ => ?_⟩⟩⟩
    exact h.le.trans (hge _ (List.getElem_mem hj))
  · subst h
    have hn : (x :: c1 :: cs).findIdx? (fun c => decide (x > c)) = none := by
      rw [List.findIdx?_eq_none_iff]
      intro c hc
      simpa using hge c hc
    refine ⟨cs.length + 2, ?_, ?_⟩
    · simp only [selectRegion]
      rw [if_neg (by omega), if_neg (lt_irrefl x)]
      split
      · rename_i i hi; rw [hn] at hi; cases hi
      · simp
    · refine iff_of_false (fun hr => ?_) (by simp)
      have := (hr.2 1 (by simp)).1 (by omega)
      simp only [List.getElem_cons_succ, List.getElem_cons_zero] at this
      linarith
  · refine ⟨1, by simp [selectRegion, h, not_lt.mpr h.le, List.findIdx?_cons], ?_⟩
    constructor
    · intro hr
      have := (hr.2 1 (by simp)).2 le_rfl
      simp only [List.getElem_cons_succ, List.getElem_cons_zero] at this
      exact ⟨h.ne', this⟩
    · rintro ⟨-, h1⟩
      refine ⟨by simp, fun j hj => ⟨fun hj1 => ?_, fun hj1 => ?_⟩⟩
      · obtain rfl : j = 0 := by omega
        exact h.le
      · obtain ⟨j, rfl⟩ : ∃ i, j = i + 1 := ⟨j - 1, by omega⟩
        rw [List.getElem_cons_succ]
        exact h1.trans (hge1 _ (List.getElem_mem _))

/-- **C41** (partial) the region of the stress is used below the second cut, off the first. Missing:
`C41_right_iff` shows that the code is wrong for all other stresses. -/
theorem C41_region_partial (c0 c1 : ℝ) (cs : List ℝ) (hs : (c0 :: c1 :: cs).Pairwise (· < ·)) (x : ℝ)
    (h0 : x ≠ c0) (h1 : x ≤ c1) :
    ∃ k, selectRegion (c0 :: c1 :: cs) (cs.length + 3) x = some k ∧
      InRegion (c0 :: c1 :: cs) k x := by
  obtain ⟨k, hk, h⟩ := C41_right_iff c0 c1 cs hs x
  exact ⟨k, hk, h.mpr ⟨h0, h1⟩⟩

/-- Concrete case, and a stress in the third region that gets the constants of the second. -/
example : [(1 : ℝ), 2].Pairwise (· < ·) ∧ selectRegion [1, 2] 3 3 = some 1 ∧
    ¬ InRegion [1, 2] 1 3 ∧ InRegion [1, 2] 2 3 := by
  have hp : [(1 : ℝ), 2].Pairwise (· < ·) := by simp
  refine ⟨hp, by norm_num [selectRegion, List.findIdx?_cons], fun h => ?_, by simp, fun j hj => ?_⟩
  · have := (h.2 1 (by simp)).2 le_rfl
    norm_num at this
  · have : j = 0 ∨ j = 1 := by simp at hj; omega
    rcases this with rfl | rfl <;> norm_num

/-! ## C42 -/

/-- The rate is differentiable in stress and strain, with the reported derivatives. -/
def Scalar.CorrectAt (r : Scalar) (s e t T : ℝ) : Prop :=
  HasFDerivAt (fun p : ℝ × ℝ => r.g p.1 p.2 t T)
    (r.dg_ds s e t T • ContinuousLinearMap.fst ℝ ℝ ℝ + r.dg_de s e t T • ContinuousLinearMap.snd ℝ ℝ ℝ)
    (s, e)

/-- What the specification says about each variable on its own. -/
theorem Scalar.CorrectAt.partials {r : Scalar} {s e t T : ℝ} (h : r.CorrectAt s e t T) :
    HasDerivAt (fun x => r.g x e t T) (r.dg_ds s e t T) s ∧
    HasDerivAt (fun x => r.g s x t T) (r.dg_de s e t T) e := by
  have h' : HasFDerivAt (fun p : ℝ × ℝ => r.g p.1 p.2 t T)
    (r.dg_ds s e t T • ContinuousLinearMap.fst ℝ ℝ ℝ + r.dg_de s e t T • ContinuousLinearMap.snd ℝ ℝ ℝ)
    (s, e) := h
  constructor
  · have := h'.comp_hasDerivAt (f := fun x => (x, e)) s ((hasDerivAt_id s).prodMk (hasDerivAt_const s e))
    simpa [Function.comp_def] using this
  · have := h'.comp_hasDerivAt (f := fun x => (s, x)) e ((hasDerivAt_const e s).prodMk (hasDerivAt_id e))
    simpa [Function.comp_def] using this

/-- A rule that does not depend on the strain. -/
def Scalar.StrainFree (r : Scalar) : Prop :=
  (∀ s e e' t T, r.g s e t T = r.g s e' t T) ∧ ∀ s e t T, r.dg_de s e t T = 0

theorem comp_fst {φ : ℝ → ℝ} {d : ℝ} (p : ℝ × ℝ) (h : HasDerivAt φ d p.1) :
    HasFDerivAt (fun q : ℝ × ℝ => φ q.1) (d • ContinuousLinearMap.fst ℝ ℝ ℝ) p := by
  have h1 : HasFDerivAt (fun q : ℝ × ℝ => q.1) (ContinuousLinearMap.fst ℝ ℝ ℝ) p := hasFDerivAt_fst
  exact h.comp_hasFDerivAt p h1

theorem comp_snd {φ : ℝ → ℝ} {d : ℝ} (p : ℝ × ℝ) (h : HasDerivAt φ d p.2) :
    HasFDerivAt (fun q : ℝ × ℝ => φ q.2) (d • ContinuousLinearMap.snd ℝ ℝ ℝ) p := by
  have h1 : HasFDerivAt (fun q : ℝ × ℝ => q.2) (ContinuousLinearMap.snd ℝ ℝ ℝ) p := hasFDerivAt_snd
  exact h.comp_hasFDerivAt p h1

theorem Scalar.correct_of_stress {r : Scalar} (hf : r.StrainFree) {s e t T : ℝ}
    (h : HasDerivAt (fun x => r.g x e t T) (r.dg_ds s e t T) s) : r.CorrectAt s e t T := by
  have h1 := comp_fst (s, e) h
  have h2 : (fun p : ℝ × ℝ => r.g p.1 p.2 t T) = fun p => r.g p.1 e t T :=
    funext fun p => hf.1 _ _ _ _ _
  unfold Scalar.CorrectAt
  rw [h2, hf.2, zero_smul, add_zero]
  exact h1

/-- **C42** power law. -/
theorem C42_powerLaw (A n : ℝ → ℝ) {s : ℝ} (e t T : ℝ) (hs : s ≠ 0 ∨ 1 ≤ n T) :
    (powerLaw A n).CorrectAt s e t T := by
  refine Scalar.correct_of_stress ⟨fun _ _ _ _ _ => rfl, fun _ _ _ _ => rfl⟩ ?_
  refine ((Real.hasDerivAt_rpow_const hs).const_mul (A T)).congr_deriv ?_
  simp only [powerLaw]; ring

/-- **C42** normalised power law. -/
theorem C42_normalizedPowerLaw (s0 n : ℝ → ℝ) {s : ℝ} (e t T : ℝ) (h0 : s0 T ≠ 0)
    (hs : s ≠ 0 ∨ 1 ≤ n T) : (normalizedPowerLaw s0 n).CorrectAt s e t T := by
  refine Scalar.correct_of_stress ⟨fun _ _ _ _ _ => rfl, fun _ _ _ _ => rfl⟩ ?_
  have h1 : HasDerivAt (fun x : ℝ => x / s0 T) (1 / s0 T) s := (hasDerivAt_id s).div_const _
  have h2 := h1.rpow_const (p := n T) (hs.imp (fun h => div_ne_zero h h0) id)
  refine h2.congr_deriv ?_
  simp only [normalizedPowerLaw]; ring

/-- **C42** Blackburn's rule, stress. -/
theorem C42_blackburn (A n beta : ℝ → ℝ) (R Q : ℝ) {s : ℝ} (e t T : ℝ) (hn : n T ≠ 0)
    (hs : beta T * s ≠ 0 ∨ 1 ≤ n T) : (blackburn A n beta R Q).CorrectAt s e t T := by
  refine Scalar.correct_of_stress ⟨fun _ _ _ _ _ => rfl, fun _ _ _ _ => rfl⟩ ?_
  have h1 : HasDerivAt (fun x : ℝ => beta T * x / n T) (beta T / n T) s := by
    simpa using ((hasDerivAt_id s).const_mul (beta T)).div_const (n T)
  have h2 := (h1.sinh).rpow_const (p := n T) (hs.imp
    (fun h => by rw [Ne, Real.sinh_eq_zero]; exact div_ne_zero h hn) id)
  refine ((h2.const_mul (A T)).mul_const _).congr_deriv ?_
  simp only [blackburn]
  field_simp

/-- **C42** Blackburn's rule, temperature, for coefficients that do not vary with temperature. -/
theorem C42_blackburn_temperature (A n beta R Q : ℝ) (s e t : ℝ) {T : ℝ} (hR : R ≠ 0) (hT : T ≠ 0) :
    HasDerivAt (fun x => (blackburn (fun _ => A) (fun _ => n) (fun _ => beta) R Q).g s e t x)
      ((blackburn (fun _ => A) (fun _ => n) (fun _ => beta) R Q).dg_dT s e t T) T := by
  have h1 : HasDerivAt (fun x : ℝ => -Q / (R * x)) (Q / (R * T * T)) T := by
    have := (HasDerivAt.fun_div (hasDerivAt_const T (-Q)) ((hasDerivAt_id T).const_mul R)
      (mul_ne_zero hR hT))
    refine this.congr_deriv ?_
    simp only [id]
    field_simp
    ring
  refine (h1.exp.const_mul _).congr_deriv ?_
  simp only [blackburn]; ring

/-- **C42** Swindeman's rule, stress. -/
theorem C42_swindeman (C n V Q shift : ℝ) {s : ℝ} (e t T : ℝ) (hs : s ≠ 0) :
    (swindeman C n V Q shift).CorrectAt s e t T := by
  refine Scalar.correct_of_stress ⟨fun _ _ _ _ _ => rfl, fun _ _ _ _ => rfl⟩ ?_
  have h1 : HasDerivAt (fun x : ℝ => V * x) V s := by simpa using (hasDerivAt_id s).const_mul V
  have h2 := (((Real.hasDerivAt_rpow_const (p := n) (Or.inl hs)).const_mul C).fun_mul h1.exp).mul_const
    (Real.exp (-Q / (T + shift)))
  refine h2.congr_deriv ?_
  simp only [swindeman]
  rw [Real.rpow_sub_one hs n, mul_comm s V]
  field_simp

/-- **C42** Swindeman's rule, temperature. -/
theorem C42_swindeman_temperature (C n V Q shift s e t : ℝ) {T : ℝ} (hT : T + shift ≠ 0) :
    HasDerivAt (fun x => (swindeman C n V Q shift).g s e t x)
      ((swindeman C n V Q shift).dg_dT s e t T) T := by
  have h1 : HasDerivAt (fun x : ℝ => -Q / (x + shift)) (Q / ((T + shift) * (T + shift))) T := by
    have := (HasDerivAt.fun_div (hasDerivAt_const T (-Q)) ((hasDerivAt_id T).add_const shift) hT)
    refine this.congr_deriv ?_
    simp only [id]
    field_simp
    ring
  refine (h1.exp.const_mul _).congr_deriv ?_
  simp only [swindeman]; ring

/-- The rate of one region. -/
theorem hasDerivAt_kmRate {eps0 C1 G A B s : ℝ} (hG : G ≠ 0) (hs : s ≠ 0) :
    HasDerivAt (kmRate eps0 C1 G A B) (kmRateDs eps0 C1 G A B s) s := by
  have h1 : HasDerivAt (fun x : ℝ => x / G) (1 / G) s := (hasDerivAt_id s).div_const _
  refine ((h1.rpow_const (p := C1 * A) (Or.inl (div_ne_zero hs hG))).const_mul
    (eps0 * Real.exp (C1 * B))).congr_deriv ?_
  simp only [kmRateDs]; ring

/-- The region used does not change near a normalised stress that is none of the cuts. -/
theorem selectRegion_eventually (cuts : List ℝ) (n : Nat) (x : ℝ) (hx : x ∉ cuts) :
    ∀ᶠ y in nhds x, selectRegion cuts n y = selectRegion cuts n x := by
  have key : ∀ᶠ y in nhds x, ∀ c ∈ cuts, (y < c ↔ x < c) ∧ (c < y ↔ c < x) := by
    induction cuts with
    | nil => simp
    | cons c cs ih =>
      simp only [List.mem_cons, not_or] at hx
      have h1 : ∀ᶠ y in nhds x, (y < c ↔ x < c) ∧ (c < y ↔ c < x) := by
        rcases lt_or_gt_of_ne hx.1 with h | h
        · filter_upwards [eventually_lt_nhds h] with y hy
          exact ⟨by simp [hy, h], by simp [hy.le, h.le, not_lt.mpr]⟩
        · filter_upwards [eventually_gt_nhds h] with y hy
          exact ⟨by simp [hy.le, h.le, not_lt.mpr], by simp [hy, h]⟩
      filter_upwards [h1, ih hx.2] with y a b c' hc'
      rcases List.mem_cons.mp hc' with rfl | hc'
      · exact a
      · exact b c' hc'
  filter_upwards [key] with y hy
  unfold selectRegion
  cases cuts with
  | nil => rfl
  | cons c cs =>
    have hf : (c :: cs).findIdx? (fun c => decide (y > c)) =
        (c :: cs).findIdx? (fun c => decide (x > c)) := by
      have : ∀ l : List ℝ, (∀ c ∈ l, (c < y ↔ c < x)) →
          l.findIdx? (fun c => decide (y > c)) = l.findIdx? (fun c => decide (x > c)) := by
        intro l
        induction l with
        | nil => intro _; rfl
        | cons a l ih =>
          intro h
          simp only [List.findIdx?_cons, gt_iff_lt, decide_eq_true_eq, h a (by simp)]
          rw [show l.findIdx? (fun c => decide (c < y)) = l.findIdx? (fun c => decide (c < x)) from
            ih fun c hc => h c (by simp [hc])]
      exact this _ fun c hc => (hy c hc).2
    simp only [hf, (hy c (by simp)).1]

/-- **C42** regional rule, at a stress that is none of the cuts. -/
theorem C42_regionKM (cuts : List ℝ) (AB : List ((ℝ → ℝ) × (ℝ → ℝ))) (kboltz b eps0 shift : ℝ)
    (G : ℝ → ℝ) {s : ℝ} (e t T : ℝ) (hG : G T ≠ 0) (hs : s ≠ 0) (hc : s / G T ∉ cuts) :
    (regionKM cuts AB kboltz b eps0 shift G).CorrectAt s e t T := by
  refine Scalar.correct_of_stress ⟨fun _ _ _ _ _ => rfl, fun _ _ _ _ => rfl⟩ ?_
  have hcont : ContinuousAt (fun x : ℝ => x / G T) s := continuousAt_id.div_const _
  have hev := hcont.eventually (selectRegion_eventually cuts AB.length _ hc)
  rcases hr : (selectRegion cuts AB.length (s / G T)).bind (AB[·]?) with _ | ⟨A, B⟩
  · refine HasDerivAt.congr_of_eventuallyEq (f := fun _ => (0 : ℝ)) ?_ ?_
    · simp only [regionKM, hr]; exact hasDerivAt_const _ _
    · filter_upwards [hev] with y hy
      simp only [regionKM, hy, hr]
  · refine HasDerivAt.congr_of_eventuallyEq
      (f := kmRate eps0 (-G T * b ^ 3 / (kboltz * (T + shift))) (G T) (A T) (B T)) ?_ ?_
    · simp only [regionKM, hr]; exact hasDerivAt_kmRate hG hs
    · filter_upwards [hev] with y hy
      simp only [regionKM, hy, hr]

/-- **C42** Norton-Bailey rule, above the guards. -/
theorem C42_nortonBailey {eps : ℝ} (he : 0 < eps) (A m n : ℝ → ℝ) {s e : ℝ} (t T : ℝ) (hm : m T ≠ 0)
    (hs : eps < s) (hee : eps < e) : (nortonBailey eps A m n).CorrectAt s e t T := by
  have hs0 : s ≠ 0 := (he.trans hs).ne'
  have he0 : e ≠ 0 := (he.trans hee).ne'
  have h1 := comp_fst (s, e) (Real.hasDerivAt_rpow_const (p := n T / m T) (Or.inl hs0))
  have h2 := comp_snd (s, e) (Real.hasDerivAt_rpow_const (p := (m T - 1) / m T) (Or.inl he0))
  have h3 := (h1.const_mul (m T * A T ^ (1 / m T))).fun_mul h2
  unfold Scalar.CorrectAt
  refine (h3.congr_fderiv ?_).congr_of_eventuallyEq ?_
  · have hx : (m T - 1) / m T - 1 = -1 / m T := by field_simp; ring
    refine ContinuousLinearMap.ext fun p => ?_
    simp only [nortonBailey, ContinuousLinearMap.add_apply, ContinuousLinearMap.smul_apply, smul_eq_mul,
      ContinuousLinearMap.coe_fst', ContinuousLinearMap.coe_snd', if_neg (not_lt.mpr hs.le),
      if_neg (not_lt.mpr hee.le), hx]
    field_simp
    ring
  · have e1 : ∀ᶠ p : ℝ × ℝ in nhds (s, e), eps < p.1 :=
      (continuous_fst.tendsto (s, e)).eventually (eventually_gt_nhds hs)
    have e2 : ∀ᶠ p : ℝ × ℝ in nhds (s, e), eps < p.2 :=
      (continuous_snd.tendsto (s, e)).eventually (eventually_gt_nhds hee)
    filter_upwards [e1, e2] with p h1 h2
    simp only [nortonBailey, if_neg (not_lt.mpr h1.le), if_neg (not_lt.mpr h2.le)]

/-- **C42** Mukherjee's rule. -/
theorem C42_mukherjee (mu : ℝ → ℝ) (A n D0 Q b k R : ℝ) {s : ℝ} (e t T : ℝ) (hmu : mu T ≠ 0)
    (hs : s ≠ 0 ∨ 1 ≤ n) : (mukherjee mu A n D0 Q b k R).CorrectAt s e t T := by
  refine Scalar.correct_of_stress ⟨fun _ _ _ _ _ => rfl, fun _ _ _ _ => rfl⟩ ?_
  have h1 : HasDerivAt (fun x : ℝ => x / mu T) (1 / mu T) s := (hasDerivAt_id s).div_const _
  have h2 := (h1.rpow_const (p := n) (hs.imp (fun h => div_ne_zero h hmu) id)).const_mul
    (A * (D0 * Real.exp (-Q / (R * T))) * mu T * b / (k * T))
  refine h2.congr_deriv ?_
  simp only [mukherjee]; ring

/-- **C42** generic rule: at a positive stress where the interpolation function is right, the reported
stress derivative is right exactly when the rate is `exp 1` or the interpolation function is flat.
The code has the value of the interpolation function as an extra factor. -/
theorem C42_generic_right_iff (f f' : ℝ → ℝ) {s : ℝ} (e t T : ℝ) (hs : 0 < s)
    (hf : HasDerivAt f (f' (Real.log s)) (Real.log s)) :
    (generic f f').CorrectAt s e t T ↔ f (Real.log s) = 1 ∨ f' (Real.log s) = 0 := by
  have h1 : HasDerivAt (fun x => (generic f f').g x e t T)
      (Real.exp (f (Real.log s)) * (f' (Real.log s) * s⁻¹)) s :=
    (HasDerivAt.comp s hf (Real.hasDerivAt_log hs.ne')).exp
  have hd : (generic f f').dg_ds s e t T =
      f (Real.log s) * Real.exp (f (Real.log s)) * f' (Real.log s) / s := by simp [generic, hs]
  have hE := Real.exp_pos (f (Real.log s))
  constructor
  · intro h
    have h2 := h.partials.1.unique h1
    rw [hd] at h2
    have h3 : (f (Real.log s) - 1) * f' (Real.log s) = 0 := by
      field_simp at h2
      linear_combination h2
    rcases mul_eq_zero.mp h3 with h | h
    · exact Or.inl (sub_eq_zero.mp h)
    · exact Or.inr h
  · intro h
    refine Scalar.correct_of_stress ⟨fun _ _ _ _ _ => rfl, fun _ _ _ _ => rfl⟩ ?_
    refine h1.congr_deriv ?_
    rw [hd]
    rcases h with h | h <;> rw [h] <;> field_simp
    simp

/-- `10` to a differentiable exponent, two decades lower. -/
theorem hasDerivAt_tenth {E : ℝ → ℝ} {E' x : ℝ} (h : HasDerivAt E E' x) :
    HasDerivAt (fun y => (10 : ℝ) ^ E y / 100) ((10 : ℝ) ^ (E x - 2) * E' * Real.log 10) x := by
  have h1 := (h.const_rpow (a := 10) (by norm_num)).div_const 100
  refine h1.congr_deriv ?_
  rw [Real.rpow_sub (by norm_num) (E x) 2]
  norm_num
  ring

/-- **C42** (partial) the 2.25Cr-1Mo rule, inside each of its two regimes, with the constants
`987.72 / log 10` and `5862.4 / log 10`. Missing: the code has these two constants rounded to six digits, so
that its derivative is right to that accuracy only. -/
theorem C42_minCreep_partial (U : ℝ → ℝ) {s : ℝ} (e t T : ℝ) (hs : 0 < s) (hU : U T ≠ 0) (hT : T ≠ 0)
    (hr : s < 60 ∨ (60 < s ∧ T ≠ minCreepLimit s)) :
    (minCreep U (987.72 / Real.log 10) (5862.4 / Real.log 10)).CorrectAt s e t T := by
  refine Scalar.correct_of_stress ⟨fun _ _ _ _ _ => rfl, fun _ _ _ _ => rfl⟩ ?_
  have hl10 : Real.log 10 ≠ 0 := (Real.log_pos (by norm_num)).ne'
  have hlog : HasDerivAt (fun x => Real.logb 10 x) (1 / (s * Real.log 10)) s := by
    simp only [Real.logb]
    refine ((Real.hasDerivAt_log hs.ne').div_const _).congr_deriv ?_
    field_simp
  have h1 : HasDerivAt (fun x => 6.7475 + 0.011426 * x + 987.72 / U T * Real.logb 10 x - 13494 / T)
      (0.011426 + 987.72 / U T * (1 / (s * Real.log 10))) s := by
    have := ((((hasDerivAt_id s).const_mul (0.011426 : ℝ)).const_add 6.7475).fun_add
      (hlog.const_mul (987.72 / U T))).sub_const (13494 / T)
    simpa using this
  have h2 : HasDerivAt (fun x => 11.498 - 8.2226 * U T / T - 20448 / T + 5862.4 / T * Real.logb 10 x)
      (5862.4 / T * (1 / (s * Real.log 10))) s := (hlog.const_mul (5862.4 / T)).const_add _
  have g1 := hasDerivAt_tenth h1
  have g2 := hasDerivAt_tenth h2
  have e1 : (6.7475 : ℝ) + 0.011426 * s + 987.72 / U T * Real.logb 10 s - 13494 / T - 2 =
      4.7475 + 0.011426 * s + 987.72 / Real.log 10 / U T * Real.log s - 13494 / T := by
    simp only [Real.logb]; field_simp; ring
  have e2 : (11.498 : ℝ) - 8.2226 * U T / T - 20448 / T + 5862.4 / T * Real.logb 10 s - 2 =
      9.498 - 8.2226 * U T / T - 20448 / T + 5862.4 / Real.log 10 / T * Real.log s := by
    simp only [Real.logb]; field_simp; ring
  rw [e1] at g1
  rw [e2] at g2
  have hlim : ContinuousAt minCreepLimit s := by
    unfold minCreepLimit
    exact (((Real.continuousAt_rpow_const _ _ (Or.inl hs.ne')).const_mul _).sub
      (continuousAt_id.const_mul _)).add continuousAt_const
  have b1 : ∀ {x : ℝ}, (x < 60 ∨ T ≤ minCreepLimit x) →
      (minCreep U (987.72 / Real.log 10) (5862.4 / Real.log 10)).g x e t T =
        (10 : ℝ) ^ (6.7475 + 0.011426 * x + 987.72 / U T * Real.logb 10 x - 13494 / T) / 100 := by
    intro x hx
    simp only [minCreep]
    rcases hx with h | h
    · rw [if_pos h]
    · rw [if_pos h, ite_self]
  have b2 : ∀ {x : ℝ}, 60 < x → minCreepLimit x < T →
      (minCreep U (987.72 / Real.log 10) (5862.4 / Real.log 10)).g x e t T =
        (10 : ℝ) ^ (11.498 - 8.2226 * U T / T - 20448 / T + 5862.4 / T * Real.logb 10 x) / 100 := by
    intro x hx hx2
    simp only [minCreep]
    rw [if_neg (not_lt.mpr hx.le), if_neg (not_le.mpr hx2)]
  have first : (∀ᶠ x in nhds s, x < 60 ∨ T ≤ minCreepLimit x) → (s < 60 ∨ T ≤ minCreepLimit s) →
      HasDerivAt (fun x => (minCreep U (987.72 / Real.log 10) (5862.4 / Real.log 10)).g x e t T)
        ((minCreep U (987.72 / Real.log 10) (5862.4 / Real.log 10)).dg_ds s e t T) s := by
    intro hev hat
    refine (g1.congr_of_eventuallyEq ?_).congr_deriv ?_
    · filter_upwards [hev] with x hx using b1 hx
    · have hd : (minCreep U (987.72 / Real.log 10) (5862.4 / Real.log 10)).dg_ds s e t T =
          (10 : ℝ) ^ (4.7475 + 0.011426 * s + 987.72 / Real.log 10 / U T * Real.log s - 13494 / T) *
            (0.011426 + 987.72 / Real.log 10 / (s * U T)) * Real.log 10 := by
        simp only [minCreep]
        rcases hat with h | h
        · rw [if_pos h]
        · rw [if_pos h, ite_self]
      rw [hd]
      congr 2
      field_simp
  rcases hr with h | ⟨h, hne⟩
  · exact first ((eventually_lt_nhds h).mono fun x hx => Or.inl hx) (Or.inl h)
  rcases lt_or_gt_of_ne hne with h2 | h2
  · exact first ((hlim.eventually (eventually_gt_nhds h2)).mono fun x hx => Or.inr hx.le) (Or.inr h2.le)
  · refine (g2.congr_of_eventuallyEq ?_).congr_deriv ?_
    · filter_upwards [eventually_gt_nhds h, hlim.eventually (eventually_lt_nhds h2)] with x hx hx2
        using b2 hx hx2
    · simp only [minCreep]
      rw [if_neg (not_lt.mpr h.le), if_neg (not_le.mpr h2)]
      field_simp

/-- Concrete cases for C42. -/
example : (powerLaw (fun _ => 2) (fun _ => 3)).CorrectAt 5 0 0 300 ∧
    (nortonBailey (1 / 1000) (fun _ => 2) (fun _ => 1 / 2) fun _ => 3).CorrectAt 5 1 0 300 ∧
    (regionKM [1, 2] [(fun _ => 1, fun _ => 2), (fun _ => 3, fun _ => 4), (fun _ => 5, fun _ => 6)]
      1 1 1 0 fun _ => 2).CorrectAt 3 0 0 300 ∧
    ¬ (generic (fun x => 2 * x) fun _ => 2).CorrectAt 1 0 0 300 := by
  refine ⟨C42_powerLaw _ _ _ _ _ (Or.inl (by norm_num)),
    C42_nortonBailey (by norm_num) _ _ _ _ _ (by norm_num) (by norm_num) (by norm_num),
    C42_regionKM _ _ _ _ _ _ _ _ _ _ (by norm_num) (by norm_num) (by norm_num), ?_⟩
  rw [C42_generic_right_iff _ _ _ _ _ one_pos
    (by simpa using (hasDerivAt_id (Real.log 1)).const_mul (2 : ℝ))]
  norm_num

/-! ## C86: multiaxial creep -/

theorem seq_nonneg (s : Fin 6 → ℝ) : 0 ≤ seq s := mul_nonneg (Real.sqrt_nonneg _) (norm2_nonneg _)

theorem sqrt_mul_sqrt : √(3 / 2 : ℝ) * √(3 / 2) = 3 / 2 ∧ √(2 / 3 : ℝ) * √(2 / 3) = 2 / 3 :=
  ⟨Real.mul_self_sqrt (by norm_num), Real.mul_self_sqrt (by norm_num)⟩

theorem sdir_of_le {eps : ℝ} {s : Fin 6 → ℝ} (h : eps ≤ seq s) :
    sdir eps s = fun i => devVec s i / seq s := by rw [sdir, if_neg (not_lt.mpr h)]

theorem edir_of_le {eps : ℝ} {e : Fin 6 → ℝ} (h : eps ≤ eeq e) :
    edir eps e = fun i => e i / eeq e := by rw [edir, if_neg (not_lt.mpr h)]

theorem tr3_sdir (eps : ℝ) (s : Fin 6 → ℝ) : tr3 (sdir eps s) = 0 := by
  unfold sdir
  split_ifs
  · simp [tr3]
  · have := tr3_devVec s
    simp only [tr3] at *
    rw [← add_div, ← add_div, this, zero_div]

/-- **C86** the creep rate has no volume change. -/
theorem C86_incompressible (eps : ℝ) (r : Scalar) (s e : Fin 6 → ℝ) (t T : ℝ) :
    (usym ((j2 eps r).f s e t T)).trace = 0 := by
  have := tr3_sdir eps s
  simp only [tr3] at this
  simp [j2, usym, Matrix.trace, Fin.sum_univ_succ]
  linear_combination (3 / 2 * r.g (seq s) (eeq e) t T) * this

theorem dot_devVec (s : Fin 6 → ℝ) : s ⬝ᵥ devVec s = devVec s ⬝ᵥ devVec s := by
  simp [devVec, dotProduct, Fin.sum_univ_succ]; ring

theorem devVec_dot (s : Fin 6 → ℝ) : devVec s ⬝ᵥ devVec s = 2 / 3 * (seq s * seq s) := by
  rw [← norm2_sq, seq]
  linear_combination (-2 / 3 * norm2 (devVec s) * norm2 (devVec s)) * sqrt_mul_sqrt.1

/-- **C86** the creep power is the equivalent stress times the scalar rate. -/
theorem C86_power {eps : ℝ} (he : 0 < eps) (r : Scalar) {s : Fin 6 → ℝ} (e : Fin 6 → ℝ) (t T : ℝ)
    (hs : eps ≤ seq s) : s ⬝ᵥ (j2 eps r).f s e t T = seq s * r.g (seq s) (eeq e) t T := by
  have h0 := (he.trans_le hs).ne'
  have h1 : s ⬝ᵥ (j2 eps r).f s e t T =
      (s ⬝ᵥ devVec s) * (3 / 2 * r.g (seq s) (eeq e) t T / seq s) := by
    simp only [j2, sdir_of_le hs, dotProduct, Finset.sum_mul]
    exact Finset.sum_congr rfl fun i _ => by ring
  rw [h1, dot_devVec, devVec_dot]
  field_simp

/-- **C86** the equivalent strain rate is the scalar rate. -/
theorem C86_equivalent_rate {eps : ℝ} (he : 0 < eps) (r : Scalar) {s : Fin 6 → ℝ} (e : Fin 6 → ℝ)
    (t T : ℝ) (hs : eps ≤ seq s) : eeq ((j2 eps r).f s e t T) = |r.g (seq s) (eeq e) t T| := by
  have h0 := (he.trans_le hs).ne'
  have h1 : (j2 eps r).f s e t T = (3 / 2 * r.g (seq s) (eeq e) t T / seq s) • devVec s := by
    ext i
    simp only [j2, sdir_of_le hs, Pi.smul_apply, smul_eq_mul]; ring
  have h2 : norm2 (devVec s) = √(2 / 3) * seq s := by
    have : √(2 / 3 : ℝ) * √(3 / 2) = 1 := by
      rw [← Real.sqrt_mul (by norm_num)]; norm_num
    rw [seq, ← mul_assoc, this, one_mul]
  rw [h1, eeq, norm2_smul, h2, abs_div, abs_mul, abs_of_nonneg (seq_nonneg s),
    abs_of_pos (by norm_num : (0 : ℝ) < 3 / 2)]
  have := sqrt_mul_sqrt.2
  field_simp
  linear_combination (3 * |r.g (seq s) (eeq e) t T|) * this

/-- **C86** under uniaxial tension the model creeps at the scalar rate along the load, and contracts
by half of it across. -/
theorem C86_uniaxial {eps : ℝ} (he : 0 < eps) (r : Scalar) {σ : ℝ} (hσ : eps ≤ σ) (e : Fin 6 → ℝ)
    (t T : ℝ) : (j2 eps r).f ![σ, 0, 0, 0, 0, 0] e t T =
      r.g σ (eeq e) t T • ![1, -1 / 2, -1 / 2, 0, 0, 0] := by
  have h0 := he.trans_le hσ
  have hs : seq ![σ, 0, 0, 0, 0, 0] = σ := by
    have h1 := devVec_dot ![σ, 0, 0, 0, 0, 0]
    have h2 : devVec ![σ, 0, 0, 0, 0, 0] ⬝ᵥ devVec ![σ, 0, 0, 0, 0, 0] = 2 / 3 * (σ * σ) := by
      simp [devVec, dotProduct, Fin.sum_univ_succ]; ring
    rw [h2] at h1
    exact ((mul_self_inj h0.le (seq_nonneg _)).mp (by linarith)).symm
  have hne := h0.ne'
  ext i
  simp only [j2, sdir_of_le (hs.symm ▸ hσ : eps ≤ seq _), hs, Pi.smul_apply, smul_eq_mul]
  fin_cases i <;> simp [devVec] <;> field_simp <;> norm_num

/-- Chain rule with a function of two numbers. -/
theorem D1_scalar2 {ι κ : Type} [Fintype ι] [Fintype κ] {f h : (ι → ℝ) → (κ → ℝ) → ℝ} {fs hs : ι → ℝ}
    {fa ha : κ → ℝ} {s1 : ι → ℝ} {a1 : κ → ℝ} {g : ℝ → ℝ → ℝ} {x y : ℝ} (hf : D1 f fs fa s1 a1)
    (hh : D1 h hs ha s1 a1)
    (hg : HasFDerivAt (fun p : ℝ × ℝ => g p.1 p.2)
      (x • ContinuousLinearMap.fst ℝ ℝ ℝ + y • ContinuousLinearMap.snd ℝ ℝ ℝ) (f s1 a1, h s1 a1)) :
    D1 (fun s a => g (f s a) (h s a)) (x • fs + y • hs) (x • fa + y • ha) s1 a1 := by
  have hf' : HasFDerivAt (fun p : (ι → ℝ) × (κ → ℝ) => f p.1 p.2) (grad fs fa) (s1, a1) := hf
  have hh' : HasFDerivAt (fun p : (ι → ℝ) × (κ → ℝ) => h p.1 p.2) (grad hs ha) (s1, a1) := hh
  refine (HasFDerivAt.comp (g := fun p : ℝ × ℝ => g p.1 p.2) (s1, a1) hg
    (hf'.prodMk hh')).congr_fderiv (ContinuousLinearMap.ext fun p => ?_)
  simp only [ContinuousLinearMap.comp_apply, ContinuousLinearMap.add_apply,
    ContinuousLinearMap.smul_apply, ContinuousLinearMap.coe_fst', ContinuousLinearMap.coe_snd',
    ContinuousLinearMap.prod_apply, grad_apply, smul_eq_mul, add_dotProduct, smul_dotProduct]
  ring

section derivs

variable {κ : Type} [Fintype κ] [DecidableEq κ]

theorem devVec_DV (s : Fin 6 → ℝ) (a : κ → ℝ) :
    DV (fun s (_ : κ → ℝ) => devVec s) devProj 0 s a := by
  intro i
  have h1 : D1 (fun (s : Fin 6 → ℝ) (_ : κ → ℝ) => ∑ j, devProj i j * s j) _ _ s a :=
    D1.sum Finset.univ fun j _ => (D1.coord_s j).smul (devProj i j)
  have h2 : (fun (s : Fin 6 → ℝ) (_ : κ → ℝ) => devVec s i) = fun s _ => ∑ j, devProj i j * s j := by
    funext s q
    simp only [devVec_eq, mulVec, dotProduct]
  simp only [h2]
  refine h1.congr ?_ ?_
  · ext j
    simp [Pi.single_apply]
  · ext j
    simp

theorem seq_D1 {s : Fin 6 → ℝ} (a : κ → ℝ) (h0 : 0 < seq s) :
    D1 (fun s (_ : κ → ℝ) => seq s) (fun i => 3 / 2 * (devVec s i / seq s)) 0 s a := by
  have hn : 0 < norm2 (devVec s) := by
    refine lt_of_le_of_ne (norm2_nonneg _) fun h => ?_
    rw [seq, ← h, mul_zero] at h0; exact lt_irrefl _ h0
  have h32 : 0 < √(3 / 2 : ℝ) := Real.sqrt_pos.mpr (by norm_num)
  refine ((norm2_DV (devVec_DV s a) hn).smul (√(3 / 2))).congr ?_ ?_
  · have ht : tr3 (fun i => devVec s i / norm2 (devVec s)) = 0 := by
      have := tr3_devVec s
      simp only [tr3] at *
      rw [← add_div, ← add_div, this, zero_div]
    rw [devProj_symm, devProj_of_tr3 ht]
    ext i
    simp only [Pi.smul_apply, smul_eq_mul, seq]
    rw [mul_div_assoc', mul_div_assoc', div_eq_div_iff hn.ne' (mul_pos h32 hn).ne']
    linear_combination (devVec s i * norm2 (devVec s)) * sqrt_mul_sqrt.1
  · ext i; simp

theorem eeq_D1 (s : Fin 6 → ℝ) {e : Fin 6 → ℝ} (h0 : 0 < eeq e) :
    D1 (fun (_ : Fin 6 → ℝ) e => eeq e) 0 (fun i => 2 / 3 * (e i / eeq e)) s e := by
  have hn : 0 < norm2 e := by
    refine lt_of_le_of_ne (norm2_nonneg _) fun h => ?_
    rw [eeq, ← h, mul_zero] at h0; exact lt_irrefl _ h0
  have h32 : 0 < √(2 / 3 : ℝ) := Real.sqrt_pos.mpr (by norm_num)
  have hid : DV (fun (_ : Fin 6 → ℝ) (e : Fin 6 → ℝ) => e) 0 1 s e := fun i =>
    (D1.coord_a i).congr rfl (by ext j; simp [Pi.single_apply, Matrix.one_apply, eq_comm])
  refine ((norm2_DV hid hn).smul (√(2 / 3))).congr ?_ ?_
  · ext i; simp
  · ext i
    simp only [Matrix.transpose_one, Matrix.one_mulVec, Pi.smul_apply, smul_eq_mul, eeq]
    rw [mul_div_assoc', mul_div_assoc', div_eq_div_iff hn.ne' (mul_pos h32 hn).ne']
    linear_combination (e i * norm2 e) * sqrt_mul_sqrt.2

end derivs

theorem devId_eq : devId = (3 / 2 : ℝ) • devProj := by
  ext i j
  fin_cases i <;> fin_cases j <;> simp [devId, devProj, vecMulVec_apply, Matrix.one_apply] <;> norm_num

/-- A creep model whose derivatives are right at a point. -/
def Model.CorrectAt (m : Model) (s e : Fin 6 → ℝ) (t T : ℝ) : Prop :=
  DV (fun s e => m.f s e t T) (m.df_ds s e t T) (m.df_de s e t T) s e

/-- The derivatives of the creep rate from those of the scalar rate as a function of the two tensors. -/
theorem j2_correct_of_rate {eps : ℝ} (he : 0 < eps) (r : Scalar) {s e : Fin 6 → ℝ} {t T : ℝ}
    (hs : eps < seq s)
    (hr : D1 (fun s e => r.g (seq s) (eeq e) t T)
      (r.dg_ds (seq s) (eeq e) t T • fun i => 3 / 2 * (devVec s i / seq s))
      (r.dg_de (seq s) (eeq e) t T • fun i => 2 / 3 * edir eps e i) s e) :
    (j2 eps r).CorrectAt s e t T := by
  have hpos := he.trans hs
  have hseq := seq_D1 e hpos
  intro i
  have h1 := ((devVec_DV s e i).div hseq hpos.ne').mul (hr.smul (3 / 2))
  refine ((hseq.sub (D1.const eps)).congr_near (sub_pos.mpr hs) (fun s' e' h => ?_) h1).congr ?_ ?_
  · simp only [j2, sdir_of_le (sub_pos.mp h).le]
  · have hdd : vecMulVec (sdir eps s) (sdir eps s) * devProj = vecMulVec (sdir eps s) (sdir eps s) := by
      rw [vecMulVec_mul, ← mulVec_transpose, devProj_symm, devProj_of_tr3 (tr3_sdir eps s)]
    have hm : (j2 eps r).df_ds s e t T = (3 / 2 : ℝ) •
        ((3 / 2 * (r.dg_ds (seq s) (eeq e) t T - r.g (seq s) (eeq e) t T / seq s)) •
          vecMulVec (sdir eps s) (sdir eps s) + (r.g (seq s) (eeq e) t T / seq s) • devProj) := by
      simp only [j2, if_neg (not_lt.mpr hs.le), devId_eq, Matrix.mul_smul, Matrix.add_mul,
        Matrix.smul_mul, hdd, Matrix.one_mul]
    rw [hm]
    ext j
    simp only [sdir_of_le hs.le, Pi.smul_apply, Pi.add_apply, Pi.sub_apply, smul_eq_mul,
      Matrix.smul_apply, Matrix.add_apply, vecMulVec_apply]
    field_simp
    ring
  · ext j
    simp only [j2, sdir_of_le hs.le, Pi.smul_apply, Pi.add_apply, Pi.sub_apply, smul_eq_mul,
      vecMulVec_apply, Matrix.zero_apply, Pi.zero_apply]
    ring

/-- **C86** the stress and strain derivatives of the creep rate are right wherever those of the scalar
rule are, away from zero stress and zero creep strain. -/
theorem C86_derivatives {eps : ℝ} (he : 0 < eps) (r : Scalar) {s e : Fin 6 → ℝ} {t T : ℝ}
    (hs : eps < seq s) (hee : eps < eeq e) (hr : r.CorrectAt (seq s) (eeq e) t T) :
    (j2 eps r).CorrectAt s e t T := by
  refine j2_correct_of_rate he r hs ?_
  refine (D1_scalar2 (g := fun x y => r.g x y t T) (x := r.dg_ds (seq s) (eeq e) t T)
    (y := r.dg_de (seq s) (eeq e) t T) (seq_D1 e (he.trans hs)) (eeq_D1 s (he.trans hee)) hr).congr ?_ ?_
  · simp
  · rw [edir_of_le hee.le]; simp

/-- **C86** for a rule that does not depend on the creep strain: at every creep strain. -/
theorem C86_derivatives_strain_free {eps : ℝ} (he : 0 < eps) (r : Scalar) (hfree : r.StrainFree)
    {s e : Fin 6 → ℝ} {t T : ℝ} (hs : eps < seq s) (hr : r.CorrectAt (seq s) (eeq e) t T) :
    (j2 eps r).CorrectAt s e t T := by
  refine j2_correct_of_rate he r hs ?_
  have h1 : D1 (fun s (_ : Fin 6 → ℝ) => r.g (seq s) (eeq e) t T) _ _ s e :=
    (seq_D1 e (he.trans hs)).scalar (φ := fun x => r.g x (eeq e) t T) hr.partials.1
  have h2 : (fun s (e' : Fin 6 → ℝ) => r.g (seq s) (eeq e') t T) =
      fun s _ => r.g (seq s) (eeq e) t T := by
    funext s e'; exact hfree.1 _ _ _ _ _
  rw [h2]
  refine h1.congr rfl ?_
  rw [hfree.2, zero_smul, smul_zero]

/-- Concrete case: power law creep under a uniaxial stress from zero creep strain. -/
example : (j2 (1 / 1000) (powerLaw (fun _ => 2) fun _ => 3)).CorrectAt ![3, 0, 0, 0, 0, 0] 0 0 300 := by
  have h : seq ![3, 0, 0, 0, 0, 0] = 3 := by
    have h1 := devVec_dot ![3, 0, 0, 0, 0, 0]
    have h2 : devVec ![3, 0, 0, 0, 0, 0] ⬝ᵥ devVec ![3, 0, 0, 0, 0, 0] = 2 / 3 * (3 * 3) := by
      simp [devVec, dotProduct, Fin.sum_univ_succ]; ring
    rw [h2] at h1
    exact ((mul_self_inj (by norm_num) (seq_nonneg _)).mp (by linarith)).symm
  refine C86_derivatives_strain_free (by norm_num) _ ⟨fun _ _ _ _ _ => rfl, fun _ _ _ _ => rfl⟩
    (by rw [h]; norm_num) (C42_powerLaw _ _ _ _ _ (Or.inl (by rw [h]; norm_num)))

/-! ## C43 -/

section upd

variable {m : Model} {lin : Matrix (Fin 6) (Fin 6) ℝ → (Fin 6 → ℝ) → Option (Fin 6 → ℝ)}
  {inv : Matrix (Fin 6) (Fin 6) ℝ → Option (Matrix (Fin 6) (Fin 6) ℝ)} {p : Newton.Params} {fuel : Nat}
  {T1 t1 t0 : ℝ} {s en e1 : Fin 6 → ℝ} {A : Matrix (Fin 6) (Fin 6) ℝ}

/-- **C43** a returned creep strain is the old one plus the rate at the end of the step times the step
length, to the solver's tolerances. -/
theorem C43_backward_euler (hm : 1 ≤ p.miter)
    (h : update m lin inv p fuel T1 t1 t0 s en = some (e1, A)) :
    let R := fun i => e1 i - en i - m.f s e1 t1 T1 i * (t1 - t0)
    norm2 R < p.atol ∨ norm2 R < p.rtol * norm2 fun i => m.f s en t1 T1 i * (t1 - t0) := by
  unfold update at h
  split at h
  · rename_i it hit
    split at h
    · cases h
    · cases h
      obtain ⟨R0, J0, h1, h2, h3⟩ := Newton.C17_converged hm fuel it hit
      simp only [creepSystem, creepRJ, Option.some.injEq, Prod.mk.injEq] at h1 h2
      have e0 : R0 = -fun i => m.f s en t1 T1 i * (t1 - t0) := by
        rw [← h1.1]; ext i; simp
      have hn : Newton.norm2 R0 = norm2 fun i => m.f s en t1 T1 i * (t1 - t0) := by
        rw [e0]; simp [Newton.norm2, norm2, dotProduct]
      rw [hn, ← h2.1] at h3
      exact h3
  · cases h

/-- **C43** the reported stress derivative solves the linearised equation at the returned strain. -/
theorem C43_tangent_equation (hinv : ∀ M N, inv M = some N → M * N = 1)
    (h : update m lin inv p fuel T1 t1 t0 s en = some (e1, A)) :
    (1 - (t1 - t0) • m.df_de s e1 t1 T1) * A = (t1 - t0) • m.df_ds s e1 t1 T1 := by
  unfold update at h
  split at h
  · rename_i it hit
    split at h
    · cases h
    · rename_i A' hA
      cases h
      unfold creepTangent at hA
      split at hA
      · cases hA
      · rename_i Ji hJ
        cases hA
        have h1 := hinv _ _ hJ
        have h2 : (creepRJ m s en t1 T1 (t1 - t0) it.x).2 = 1 - (t1 - t0) • m.df_de s it.x t1 T1 := by
          ext i j
          simp [creepRJ, Matrix.one_apply]; ring
        have h3 : (Matrix.of fun i j => Ji i j * (t1 - t0)) = (t1 - t0) • Ji := by
          ext i j; simp [mul_comm]
        rw [h3, Matrix.smul_mul, Matrix.mul_smul, ← Matrix.mul_assoc, ← h2, h1, Matrix.one_mul]
  · cases h

/-- **C43** the reported stress derivative is the derivative of the creep strain: along every
differentiable stress path on which the creep strain solves the backward Euler equation. -/
theorem C43_tangent (hinv : ∀ M N, inv M = some N → M * N = 1) (σ c : ℝ → Fin 6 → ℝ) (σ' c' : Fin 6 → ℝ)
    (τ : ℝ) (h : update m lin inv p fuel T1 t1 t0 (σ τ) en = some (c τ, A))
    (hσ : HasDerivAt σ σ' τ) (hc : HasDerivAt c c' τ) (hm : m.CorrectAt (σ τ) (c τ) t1 T1)
    (hsol : ∀ᶠ x in nhds τ, ∀ i, c x i = en i + m.f (σ x) (c x) t1 T1 i * (t1 - t0)) :
    c' = A *ᵥ σ' := by
  have h1 := C43_tangent_equation hinv h
  have hd : ∀ i, HasDerivAt (fun x => m.f (σ x) (c x) t1 T1 i)
      (m.df_ds (σ τ) (c τ) t1 T1 i ⬝ᵥ σ' + m.df_de (σ τ) (c τ) t1 T1 i ⬝ᵥ c') τ := by
    intro i
    have h' : HasFDerivAt (fun p : (Fin 6 → ℝ) × (Fin 6 → ℝ) => m.f p.1 p.2 t1 T1 i)
      (grad (m.df_ds (σ τ) (c τ) t1 T1 i) (m.df_de (σ τ) (c τ) t1 T1 i)) ((fun x => (σ x, c x)) τ) := hm i
    exact HasFDerivAt.comp_hasDerivAt τ h' (hσ.prodMk hc)
  have h2 : c' = (t1 - t0) • (m.df_ds (σ τ) (c τ) t1 T1 *ᵥ σ') +
      (t1 - t0) • (m.df_de (σ τ) (c τ) t1 T1 *ᵥ c') := by
    ext i
    have ha := (hasDerivAt_pi.mp hc i)
    have hb := (((hd i).mul_const (t1 - t0)).const_add (en i)).congr_of_eventuallyEq
      (hsol.mono fun x hx => hx i)
    have := ha.unique hb
    simp only [Pi.add_apply, Pi.smul_apply, smul_eq_mul, mulVec]
    linarith
  have h3 : (1 - (t1 - t0) • m.df_de (σ τ) (c τ) t1 T1) *ᵥ c' =
      (1 - (t1 - t0) • m.df_de (σ τ) (c τ) t1 T1) *ᵥ (A *ᵥ σ') := by
    rw [mulVec_mulVec, h1, sub_mulVec, one_mulVec, smul_mulVec, smul_mulVec]
    nth_rewrite 1 [h2]
    abel
  -- the matrix is regular, since `inv` found an inverse
  unfold update at h
  split at h
  · rename_i it hit
    split at h
    · cases h
    · rename_i A' hA
      simp only [Option.some.injEq, Prod.mk.injEq] at h
      unfold creepTangent at hA
      split at hA
      · cases hA
      · rename_i Ji hJ
        have h4 := mul_eq_one_comm.mp (hinv _ _ hJ)
        have h5 : (creepRJ m (σ τ) en t1 T1 (t1 - t0) it.x).2 =
            1 - (t1 - t0) • m.df_de (σ τ) (c τ) t1 T1 := by
          rw [← h.1]
          ext i j
          simp [creepRJ, Matrix.one_apply]; ring
        rw [h5] at h4
        have := congrArg (Ji *ᵥ ·) h3
        simpa only [mulVec_mulVec, h4, one_mulVec, ← Matrix.mul_assoc, Matrix.one_mul] using this
  · cases h

/-- A creep model whose rate does not depend on the creep strain. -/
def Model.StrainFree (m : Model) : Prop :=
  (∀ s e e' t T, m.f s e t T = m.f s e' t T) ∧ ∀ s e t T, m.df_de s e t T = 0

/-- **C43** for rates that do not depend on the creep strain the update is exact: the new creep strain
is the old one plus rate times step length, and its stress derivative is the derivative of that, as
soon as the increment is not below the absolute tolerance. -/
theorem C43_explicit (hf : m.StrainFree) (hlin : ∀ b, lin 1 b = some b) (hinv : inv 1 = some 1)
    (ha : 0 < p.atol) (hr : p.rtol ≤ 1) (hm : 2 ≤ p.miter) (hfuel : 2 ≤ fuel)
    (hbig : p.atol ≤ norm2 fun i => m.f s en t1 T1 i * (t1 - t0)) :
    update m lin inv p fuel T1 t1 t0 s en =
      some (fun i => en i + m.f s en t1 T1 i * (t1 - t0), (t1 - t0) • m.df_ds s
        (fun i => en i + m.f s en t1 T1 i * (t1 - t0)) t1 T1) := by
  obtain ⟨fuel, rfl⟩ : ∃ n, fuel = n + 2 := ⟨fuel - 2, by omega⟩
  set D : Fin 6 → ℝ := fun i => m.f s en t1 T1 i * (t1 - t0) with hD
  have hRJ : ∀ x, creepRJ m s en t1 T1 (t1 - t0) x = (x - en - D, 1) := by
    intro x
    unfold creepRJ
    rw [hf.1 s x en]
    refine Prod.ext rfl ?_
    ext i j
    simp [hf.2, Matrix.one_apply]
  have hx : (fun j => en j - (en - en - D) j) = fun i => en i + D i := by ext j; simp
  have hR1 : (fun i => en i + D i) - en - D = 0 := by ext i; simp
  have hn0 : Newton.norm2 (en - en - D) = norm2 D := by simp [Newton.norm2, norm2, dotProduct]
  have hn1 : Newton.norm2 (0 : Fin 6 → ℝ) = 0 := by simp [Newton.norm2]
  have hpos : 0 < norm2 D := ha.trans_le hbig
  have hc0 : ¬ Newton.Conv p (norm2 D) ⟨en, en - en - D, 1, norm2 D, 1⟩ := by
    rintro (h | ⟨-, h⟩)
    · exact absurd h (not_lt.mpr hbig)
    · rw [div_self hpos.ne'] at h; linarith
  have hbody : Newton.body (creepSystem m s en t1 T1 (t1 - t0)) lin p
      ⟨en, en - en - D, 1, norm2 D, 1⟩ = .ok ⟨fun i => en i + D i, 0, 1, 0, 2⟩ := by
    have hx1 : (fun j => en j - 1 * (en - en - D) j) = fun i => en i + D i := by ext j; simp
    simp only [Newton.body, hlin]
    split_ifs
    · simp only [Newton.mline, Newton.lineSearch, creepSystem, hRJ, hx1, hR1, hn1, if_pos hpos]
    · simp only [creepSystem, hRJ, hx, hR1, hn1]
  have hnew : Newton.newton (creepSystem m s en t1 T1 (t1 - t0)) lin p (fuel + 2) =
      some (.ok ⟨fun i => en i + D i, 0, 1, 0, 2⟩) := by
    have hinit : (creepSystem m s en t1 T1 (t1 - t0)).RJ (creepSystem m s en t1 T1 (t1 - t0)).init =
        some (en - en - D, 1) := by simp only [creepSystem, hRJ]
    have hl : Newton.loop (creepSystem m s en t1 T1 (t1 - t0)) lin p (norm2 D) (fuel + 2) 0
        ⟨en, en - en - D, 1, norm2 D, 1⟩ = some (.ok (1, ⟨fun i => en i + D i, 0, 1, 0, 2⟩)) := by
      rw [Newton.loop_of_step hc0 hbody, if_neg (by omega)]
      exact Newton.loop_of_conv (Or.inl ha)
    simp only [Newton.newton, hinit, hn0]
    rw [show (creepSystem m s en t1 T1 (t1 - t0)).init = en from rfl, hl]
    simp only
    rw [if_neg (by omega)]
  have ht : creepTangent inv m s en t1 T1 (t1 - t0) (fun i => en i + D i) =
      some ((t1 - t0) • m.df_ds s (fun i => en i + D i) t1 T1) := by
    have h3 : (Matrix.of fun i j => (1 : Matrix (Fin 6) (Fin 6) ℝ) i j * (t1 - t0)) = (t1 - t0) • 1 := by
      ext i j; simp [mul_comm]
    simp only [creepTangent, hRJ, hinv, h3, Matrix.smul_mul, Matrix.one_mul]
  simp only [update, hnew, ht]
  rfl

/-- **C43**, what the tolerance means: an increment below the absolute tolerance is dropped. -/
theorem C43_small_step_dropped (hf : m.StrainFree) (hinv : inv 1 = some 1) (hm : p.miter ≠ 0) (hfuel : 1 ≤ fuel)
    (hsmall : norm2 (fun i => m.f s en t1 T1 i * (t1 - t0)) < p.atol) :
    ∃ A, update m lin inv p fuel T1 t1 t0 s en = some (en, A) := by
  obtain ⟨fuel, rfl⟩ : ∃ n, fuel = n + 1 := ⟨fuel - 1, by omega⟩
  have hn : Newton.norm2 (creepRJ m s en t1 T1 (t1 - t0) en).1 < p.atol := by
    refine lt_of_eq_of_lt ?_ hsmall
    simp [creepRJ, Newton.norm2, norm2, dotProduct]
  have hJ : (creepRJ m s en t1 T1 (t1 - t0) en).2 = 1 := by
    ext i j
    simp [creepRJ, hf.2, Matrix.one_apply]
  have hnew : Newton.newton (creepSystem m s en t1 T1 (t1 - t0)) lin p (fuel + 1) =
      some (.ok ⟨en, (creepRJ m s en t1 T1 (t1 - t0) en).1, (creepRJ m s en t1 T1 (t1 - t0) en).2,
        Newton.norm2 (creepRJ m s en t1 T1 (t1 - t0) en).1, 1⟩) := by
    have hinit : (creepSystem m s en t1 T1 (t1 - t0)).RJ (creepSystem m s en t1 T1 (t1 - t0)).init =
        some ((creepRJ m s en t1 T1 (t1 - t0) en).1, (creepRJ m s en t1 T1 (t1 - t0) en).2) := rfl
    simp only [Newton.newton, hinit]
    rw [Newton.loop_of_conv (Or.inl hn)]
    simp only
    rw [if_neg (Ne.symm hm)]
    rfl
  simp only [update, hnew, creepTangent, hJ, hinv]
  exact ⟨_, rfl⟩

/-- A history of creep steps: each entry is the stress, temperature and end time of a step. -/
noncomputable def creepRun (m : Model)
    (lin : Matrix (Fin 6) (Fin 6) ℝ → (Fin 6 → ℝ) → Option (Fin 6 → ℝ))
    (inv : Matrix (Fin 6) (Fin 6) ℝ → Option (Matrix (Fin 6) (Fin 6) ℝ)) (p : Newton.Params) (fuel : Nat) :
    ℝ → (Fin 6 → ℝ) → List ((Fin 6 → ℝ) × ℝ × ℝ) → Option (Fin 6 → ℝ)
  | _, e, [] => some e
  | t0, e, (s, T, t1) :: rest =>
    match update m lin inv p fuel T t1 t0 s e with
    | none => none
    | some (e1, _) => creepRun m lin inv p fuel t1 e1 rest

/-- Every step would change the creep strain `e` by less than `tol`. -/
def AllSmall (m : Model) (tol : ℝ) (e : Fin 6 → ℝ) : ℝ → List ((Fin 6 → ℝ) × ℝ × ℝ) → Prop
  | _, [] => True
  | t0, (s, T, t1) :: rest =>
    norm2 (fun i => m.f s e t1 T i * (t1 - t0)) < tol ∧ AllSmall m tol e t1 rest

/-- **C43**, consequence: a history of any length, each step of which creeps less than the absolute
tolerance, accumulates no creep strain at all. -/
theorem C43_small_steps_lost (hf : m.StrainFree) (hinv : inv 1 = some 1) (hm : p.miter ≠ 0)
    (hfuel : 1 ≤ fuel) (steps : List ((Fin 6 → ℝ) × ℝ × ℝ)) (t0 : ℝ) (e : Fin 6 → ℝ)
    (hsmall : AllSmall m p.atol e t0 steps) :
    creepRun m lin inv p fuel t0 e steps = some e := by
  induction steps generalizing t0 with
  | nil => rfl
  | cons x rest ih =>
    obtain ⟨s, T, t1⟩ := x
    obtain ⟨A, hA⟩ := C43_small_step_dropped (lin := lin) hf hinv hm hfuel hsmall.1
    simp only [creepRun, hA]
    exact ih t1 hsmall.2

/-- Concrete case: uniaxial power law creep, one step of unit length. -/
example : ∃ A, update (j2 (1 / 1000) (powerLaw (fun _ => 2) fun _ => 1)) (fun _ b => some b) some
    ⟨1 / 100, 1 / 100, 25, false⟩ 30 300 1 0 ![3, 0, 0, 0, 0, 0] 0 = some (![6, -3, -3, 0, 0, 0], A) := by
  have hu := C86_uniaxial (eps := 1 / 1000) (by norm_num) (powerLaw (fun _ => 2) fun _ => 1)
    (σ := 3) (by norm_num) 0 1 300
  have hval : (j2 (1 / 1000) (powerLaw (fun _ => 2) fun _ => 1)).f ![3, 0, 0, 0, 0, 0] 0 1 300 =
      ![6, -3, -3, 0, 0, 0] := by
    rw [hu]
    ext i
    fin_cases i <;> simp [powerLaw] <;> norm_num
  have hfree : (j2 (1 / 1000) (powerLaw (fun _ => 2) fun _ => 1)).StrainFree :=
    ⟨fun _ _ _ _ _ => rfl, fun s e t T => by ext i j; simp [j2, powerLaw, vecMulVec_apply]⟩
  have hD : (fun i => (j2 (1 / 1000) (powerLaw (fun _ => 2) fun _ => 1)).f ![3, 0, 0, 0, 0, 0] 0 1 300 i *
      ((1 : ℝ) - 0)) = ![6, -3, -3, 0, 0, 0] := by rw [hval]; ext i; simp
  have := C43_explicit (lin := fun _ b => some b) (inv := some) (p := ⟨1 / 100, 1 / 100, 25, false⟩)
    (fuel := 30) (s := ![3, 0, 0, 0, 0, 0]) (en := 0) (t1 := 1) (t0 := 0) (T1 := 300) hfree (fun _ => rfl) rfl (by norm_num)
    (by norm_num) (by norm_num) (by norm_num) (by
      rw [hD, norm2]
      refine Real.le_sqrt_of_sq_le ?_
      simp [dotProduct, Fin.sum_univ_succ]
      norm_num)
  refine ⟨_, this.trans (congrArg some (Prod.ext ?_ rfl))⟩
  simp only
  rw [hval]
  ext i
  simp

/-- Concrete case: the same material held for `n` steps of a ten-thousandth: no creep strain. -/
example (n : Nat) : creepRun (j2 (1 / 1000) (powerLaw (fun _ => 2) fun _ => 1)) (fun _ b => some b) some
    ⟨1 / 100, 1 / 100, 25, false⟩ 30 0 0 ((List.range n).map fun k : Nat => (![3, 0, 0, 0, 0, 0], 300,
      ((k : ℝ) + 1) / 10000)) = some 0 := by
  have hfree : (j2 (1 / 1000) (powerLaw (fun _ => 2) fun _ => 1)).StrainFree :=
    ⟨fun _ _ _ _ _ => rfl, fun s e t T => by ext i j; simp [j2, powerLaw, vecMulVec_apply]⟩
  refine C43_small_steps_lost hfree rfl (by norm_num) (by norm_num) _ _ _ ?_
  have key : ∀ (n a : Nat), AllSmall (j2 (1 / 1000) (powerLaw (fun _ => 2) fun _ => 1)) (1 / 100) 0
      ((a : ℝ) / 10000) ((List.range' a n).map fun k : Nat => (![3, 0, 0, 0, 0, 0], 300,
        ((k : ℝ) + 1) / 10000)) := by
    intro n
    induction n with
    | zero => intro a; trivial
    | succ n ih =>
      intro a
      rw [List.range'_succ, List.map_cons]
      refine ⟨?_, ?_⟩
      · have hu := C86_uniaxial (eps := 1 / 1000) (by norm_num) (powerLaw (fun _ => 2) fun _ => 1)
          (σ := 3) (by norm_num) 0 (((a : ℝ) + 1) / 10000) 300
        have hD : (fun i => (j2 (1 / 1000) (powerLaw (fun _ => 2) fun _ => 1)).f ![3, 0, 0, 0, 0, 0] 0
            (((a : ℝ) + 1) / 10000) 300 i * (((a : ℝ) + 1) / 10000 - (a : ℝ) / 10000)) =
            ![6 / 10000, -3 / 10000, -3 / 10000, 0, 0, 0] := by
          rw [hu]
          ext i
          fin_cases i <;> simp [powerLaw] <;> ring
        rw [hD, norm2, Real.sqrt_lt' (by norm_num)]
        simp [dotProduct, Fin.sum_univ_succ]
        norm_num
      · have := ih (a + 1)
        push_cast at this
        exact this
  have := key n 0
  rw [List.range_eq_range']
  simpa using this

end upd

end Neml.Creep
