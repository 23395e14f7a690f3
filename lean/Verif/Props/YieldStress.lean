import Verif.Model.DriverCycles
import Verif.Props.TensionTest
import Mathlib.Topology.Order.IntermediateValue
import Mathlib.Topology.Algebra.Order.Field

/-!
# C161: the yield stress of a tension curve

The specification is the curve: the points on the straight pieces between the recorded points. -/

namespace Neml.DriverTests

/-- The point is on one of the straight pieces between recorded points. -/
def OnCurve (ps : List (ℝ × ℝ)) (e s : ℝ) : Prop :=
  ∃ i p q w, ps[i]? = some p ∧ ps[i + 1]? = some q ∧ 0 ≤ w ∧ w ≤ 1 ∧ e = (1 - w) * p.1 + w * q.1 ∧ s = (1 - w) * p.2 + w * q.2

/-- Strains in increasing order. -/
def Increasing (ps : List (ℝ × ℝ)) : Prop := ps.IsChain fun p q => p.1 < q.1

/-- The slopes are at most `E`, and below `E` once the curve has left the elastic line. -/
def Softens (E : ℝ) (ps : List (ℝ × ℝ)) : Prop :=
  ps.IsChain fun p q => q.2 - p.2 ≤ E * (q.1 - p.1) ∧ (p.2 < E * p.1 → q.2 - p.2 < E * (q.1 - p.1))

/-- What is expected of the root finder: if the signs at the ends are the same it raises, otherwise it finds a zero of a
continuous function between them. -/
def Brent (root : (ℝ → ℝ) → ℝ → ℝ → Option ℝ) : Prop :=
  ∀ (f : ℝ → ℝ) (a b : ℝ), a ≤ b → (0 < f a * f b → root f a b = none) ∧
    (f a * f b ≤ 0 → ContinuousOn f (Set.Icc a b) → ∃ x ∈ Set.Icc a b, root f a b = some x ∧ f x = 0)

open Classical in
/-- There is such a root finder. -/
theorem brent_exists : ∃ root, Brent root := by
  refine ⟨fun f a b => if h : ¬ 0 < f a * f b ∧ ∃ x ∈ Set.Icc a b, f x = 0 then some h.2.choose else none,
    fun f a b hab => ⟨fun h => ?_, fun h hc => ?_⟩⟩
  · beta_reduce
    rw [dif_neg]
    exact fun h' => h'.1 h
  · have hx : ∃ x ∈ Set.Icc a b, f x = 0 := by
      rcases mul_nonpos_iff.1 h with ⟨h1, h2⟩ | ⟨h1, h2⟩
      · obtain ⟨x, hx, e⟩ := intermediate_value_Icc' hab hc ⟨h2, h1⟩
        exact ⟨x, hx, e⟩
      · obtain ⟨x, hx, e⟩ := intermediate_value_Icc hab hc ⟨h1, h2⟩
        exact ⟨x, hx, e⟩
    have h' : ¬ 0 < f a * f b ∧ ∃ x ∈ Set.Icc a b, f x = 0 := ⟨not_lt.2 h, hx⟩
    exact ⟨h'.2.choose, h'.2.choose_spec.1, dif_pos h', h'.2.choose_spec.2⟩

/-! ## The interpolation -/

theorem interp_first (x0 y0 : ℝ) (ps : List (ℝ × ℝ)) (h : Increasing ((x0, y0) :: ps)) : interp ((x0, y0) :: ps) x0 = y0 := by
  cases ps with
  | nil => rfl
  | cons p ps =>
    obtain ⟨x1, y1⟩ := p
    have h1 : x0 < x1 := (List.isChain_cons_cons.1 h).1
    simp [interp, h1.le]

theorem interp_cont (ps : List (ℝ × ℝ)) (h : Increasing ps) : Continuous (interp ps) := by
  induction ps with
  | nil => exact continuous_const
  | cons p ps ih =>
    obtain ⟨x0, y0⟩ := p
    cases ps with
    | nil => exact continuous_const
    | cons q ps =>
      obtain ⟨x1, y1⟩ := q
      have h1 : x0 < x1 := (List.isChain_cons_cons.1 h).1
      have h2 : Increasing ((x1, y1) :: ps) := (List.isChain_cons_cons.1 h).2
      have : interp ((x0, y0) :: (x1, y1) :: ps) = fun x =>
          if x ≤ x1 then y0 + (y1 - y0) / (x1 - x0) * (x - x0) else interp ((x1, y1) :: ps) x := by
        funext x; simp [interp]
      rw [this]
      refine Continuous.if_le (by fun_prop) (ih h2) continuous_id continuous_const fun x hx => ?_
      have hx' : x = x1 := hx
      rw [hx', interp_first _ _ _ h2, div_mul_cancel₀ _ (by linarith)]
      ring

/-- The last of a list that is not empty. -/
def lastOf (p : ℝ × ℝ) : List (ℝ × ℝ) → ℝ × ℝ
  | [] => p
  | q :: ps => lastOf q ps

theorem first_le_last (p : ℝ × ℝ) (ps : List (ℝ × ℝ)) (h : Increasing (p :: ps)) : p.1 ≤ (lastOf p ps).1 := by
  induction ps generalizing p with
  | nil => exact le_refl _
  | cons q ps ih =>
    have h1 := List.isChain_cons_cons.1 h
    exact h1.1.le.trans (ih q h1.2)

theorem interp_last (p : ℝ × ℝ) (ps : List (ℝ × ℝ)) (h : Increasing (p :: ps)) :
    interp (p :: ps) (lastOf p ps).1 = (lastOf p ps).2 := by
  induction ps generalizing p with
  | nil => rfl
  | cons q ps ih =>
    obtain ⟨x0, y0⟩ := p
    obtain ⟨x1, y1⟩ := q
    have h1 := List.isChain_cons_cons.1 h
    have h2 := first_le_last _ _ h1.2
    simp only [lastOf]
    rw [interp]
    split_ifs with h3
    · have he : (lastOf (x1, y1) ps).1 = x1 := le_antisymm h3 h2
      have := ih (x1, y1) h1.2
      rw [he, interp_first _ _ _ h1.2] at this
      have hx : x0 < x1 := h1.1
      rw [he, div_mul_cancel₀ _ (by linarith), ← this]
      ring
    · exact ih _ h1.2

theorem max_last (p : ℝ × ℝ) (ps : List (ℝ × ℝ)) (h : Increasing (p :: ps)) :
    Cyclic.maxOf ((p :: ps).map Prod.fst) = (lastOf p ps).1 := by
  have : ∀ (ps : List (ℝ × ℝ)) (p : ℝ × ℝ), Increasing (p :: ps) → (ps.map Prod.fst).foldl max p.1 = (lastOf p ps).1 := by
    intro ps
    induction ps with
    | nil => intro p _; rfl
    | cons q ps ih =>
      intro p h
      have h1 := List.isChain_cons_cons.1 h
      simp only [List.map_cons, List.foldl_cons, lastOf]
      rw [max_eq_right h1.1.le]
      exact ih q h1.2
  exact this ps p h

/-- The interpolation is the curve. -/
theorem interp_curve (p q : ℝ × ℝ) (ps : List (ℝ × ℝ)) (h : Increasing (p :: q :: ps)) (e : ℝ) (h0 : p.1 ≤ e)
    (h1 : e ≤ (lastOf p (q :: ps)).1) : OnCurve (p :: q :: ps) e (interp (p :: q :: ps) e) := by
  induction ps generalizing p q with
  | nil =>
    obtain ⟨x0, y0⟩ := p
    obtain ⟨x1, y1⟩ := q
    have hx : x0 < x1 := (List.isChain_cons_cons.1 h).1
    simp only [lastOf] at h1
    have hd : x1 - x0 ≠ 0 := by linarith
    refine ⟨0, (x0, y0), (x1, y1), (e - x0) / (x1 - x0), rfl, rfl, div_nonneg (by simpa using h0) (by linarith), ?_, ?_, ?_⟩
    · rw [div_le_one (by linarith)]; linarith
    · field_simp; ring
    · rw [interp, if_pos h1]; field_simp; ring
  | cons r ps ih =>
    obtain ⟨x0, y0⟩ := p
    obtain ⟨x1, y1⟩ := q
    have hx : x0 < x1 := (List.isChain_cons_cons.1 h).1
    have hd : x1 - x0 ≠ 0 := by linarith
    by_cases he : e ≤ x1
    · refine ⟨0, (x0, y0), (x1, y1), (e - x0) / (x1 - x0), rfl, rfl, div_nonneg (by simpa using h0) (by linarith), ?_, ?_, ?_⟩
      · rw [div_le_one (by linarith)]; linarith
      · field_simp; ring
      · rw [interp, if_pos he]; field_simp; ring
    · obtain ⟨i, p, q, w, c1, c2, c3⟩ := ih (x1, y1) r (List.isChain_cons_cons.1 h).2 (not_le.1 he).le h1
      refine ⟨i + 1, p, q, w, by simpa using c1, by simpa using c2, ?_⟩
      rw [interp, if_neg he]
      exact c3

/-- A softening curve falls behind the elastic line. -/
theorem gap_anti (E : ℝ) (p : ℝ × ℝ) (ps : List (ℝ × ℝ)) (h : Increasing (p :: ps)) (hs : Softens E (p :: ps)) (e e' : ℝ)
    (h0 : p.1 ≤ e) (h1 : e < e') (h2 : e' ≤ (lastOf p ps).1) :
    interp (p :: ps) e' - E * e' ≤ interp (p :: ps) e - E * e ∧
    (interp (p :: ps) e < E * e → interp (p :: ps) e' - E * e' < interp (p :: ps) e - E * e) := by
  induction ps generalizing p e e' with
  | nil => simp only [lastOf] at h2; linarith
  | cons q ps ih =>
    obtain ⟨x0, y0⟩ := p
    obtain ⟨x1, y1⟩ := q
    obtain ⟨hx, hi⟩ := List.isChain_cons_cons.1 h
    obtain ⟨⟨hl, hst⟩, hsi⟩ := List.isChain_cons_cons.1 hs
    simp only at hx hl hst h0
    have hd : 0 < x1 - x0 := by linarith
    obtain ⟨m, hm⟩ : ∃ m, m = (y1 - y0) / (x1 - x0) := ⟨_, rfl⟩
    have hy : y1 = y0 + m * (x1 - x0) := by rw [hm, div_mul_cancel₀ _ hd.ne']; ring
    have hmE : m ≤ E := by rw [hm, div_le_iff₀ hd]; exact hl
    have hmS : y0 < E * x0 → m < E := fun h => by rw [hm, div_lt_iff₀ hd]; exact hst h
    have hval : ∀ x, x ≤ x1 → interp ((x0, y0) :: (x1, y1) :: ps) x = y0 + m * (x - x0) := fun x hx => by
      rw [interp, if_pos hx, hm]
    have hval' : ∀ x, x1 ≤ x → interp ((x0, y0) :: (x1, y1) :: ps) x = interp ((x1, y1) :: ps) x := fun x hx => by
      rcases eq_or_lt_of_le hx with rfl | hx
      · rw [hval _ (le_refl _), interp_first _ _ _ hi, hy]
      · rw [interp, if_neg (not_le.2 hx)]
    -- along the first piece
    have hseg : ∀ a b, x0 ≤ a → a < b → (y0 + m * (b - x0) - E * b ≤ y0 + m * (a - x0) - E * a ∧
        (y0 + m * (a - x0) < E * a → y0 + m * (b - x0) - E * b < y0 + m * (a - x0) - E * a)) := by
      intro a b ha hb
      refine ⟨by nlinarith, fun hlt => ?_⟩
      have : m < E := by
        rcases lt_or_ge y0 (E * x0) with h | h
        · exact hmS h
        · by_contra hc
          have : m = E := le_antisymm hmE (not_lt.1 hc)
          rw [this] at hlt
          nlinarith
      nlinarith
    rcases le_total e' x1 with he' | he'
    · rw [hval e' he', hval e (h1.le.trans he')]
      exact hseg e e' h0 h1
    · rcases lt_or_ge e x1 with he | he
      · rw [hval e he.le, hval' e' he']
        have s1 := hseg e x1 h0 he
        rw [← hy] at s1
        rcases eq_or_lt_of_le he' with rfl | he'
        · rw [interp_first _ _ _ hi]
          exact s1
        · have s2 := ih (x1, y1) hi hsi x1 e' (le_refl _) he' h2
          rw [interp_first _ _ _ hi] at s2
          exact ⟨s2.1.trans s1.1, fun h => s2.1.trans_lt (s1.2 h)⟩
      · rw [hval' e he, hval' e' he']
        exact ih (x1, y1) hi hsi e e' he h1 h2

/-! ## The property -/

theorem gap_cont (ps : List (ℝ × ℝ)) (h : Increasing ps) (E off : ℝ) : Continuous (offGap ps E off) := by
  have := interp_cont ps h
  unfold offGap
  fun_prop

theorem abs_id (ps : List (ℝ × ℝ)) (h : ∀ p ∈ ps, 0 ≤ p.1 ∧ 0 ≤ p.2) : (ps.map fun p => (|p.1|, |p.2|)) = ps := by
  conv_rhs => rw [← List.map_id ps]
  refine List.map_congr_left fun p hp => ?_
  rw [abs_of_nonneg (h p hp).1, abs_of_nonneg (h p hp).2]
  rfl

/-- What the root finder gives for a curve from the origin. -/
theorem root_spec (root : (ℝ → ℝ) → ℝ → ℝ → Option ℝ) (hb : Brent root) (E off : ℝ) (hE : 0 < E) (ho : 0 < off)
    (q : ℝ × ℝ) (ps : List (ℝ × ℝ)) (h : Increasing ((0, 0) :: q :: ps)) :
    (∀ e, root (offGap ((0, 0) :: q :: ps) E off) 0 (lastOf (0, 0) (q :: ps)).1 = some e →
      0 ≤ e ∧ e ≤ (lastOf (0, 0) (q :: ps)).1 ∧ interp ((0, 0) :: q :: ps) e = E * (e - off)) ∧
    (root (offGap ((0, 0) :: q :: ps) E off) 0 (lastOf (0, 0) (q :: ps)).1 = none ↔
      E * ((lastOf (0, 0) (q :: ps)).1 - off) < (lastOf (0, 0) (q :: ps)).2) := by
  have hl : (0 : ℝ) ≤ (lastOf (0, 0) (q :: ps)).1 := first_le_last _ _ h
  have h0 : offGap ((0, 0) :: q :: ps) E off 0 = E * off := by
    rw [offGap, interp_first _ _ _ h]; ring
  have h1 : offGap ((0, 0) :: q :: ps) E off (lastOf (0, 0) (q :: ps)).1 =
      (lastOf (0, 0) (q :: ps)).2 - E * ((lastOf (0, 0) (q :: ps)).1 - off) := by
    rw [offGap, interp_last _ _ h]
  obtain ⟨b1, b2⟩ := hb (offGap ((0, 0) :: q :: ps) E off) 0 _ hl
  rw [h0, h1] at b1 b2
  have hEo : 0 < E * off := mul_pos hE ho
  by_cases hc : E * ((lastOf (0, 0) (q :: ps)).1 - off) < (lastOf (0, 0) (q :: ps)).2
  · have := b1 (mul_pos hEo (sub_pos.2 hc))
    rw [this]
    exact ⟨by simp, by simpa using hc⟩
  · obtain ⟨x, hx, e, hz⟩ := b2 (mul_nonpos_iff.2 (Or.inl ⟨hEo.le, by linarith [not_lt.1 hc]⟩)) (gap_cont _ h E off).continuousOn
    rw [e]
    refine ⟨fun y hy => ?_, by simpa using hc⟩
    obtain rfl := Option.some.inj hy
    refine ⟨hx.1, hx.2, ?_⟩
    rw [offGap] at hz
    linarith

/-- **C161.** The yield stress of a tension test is the stress of a point that is both on the recorded curve and on the line
of slope `E` through the offset strain. It is infinite exactly if the curve ends above that line. -/
theorem C161_yield (root : (ℝ → ℝ) → ℝ → ℝ → Option ℝ) (hb : Brent root) (E off : ℝ) (hE : 0 < E) (ho : 0 < off)
    (q : ℝ × ℝ) (ps : List (ℝ × ℝ)) (h : Increasing ((0, 0) :: q :: ps)) (hp : ∀ p ∈ q :: ps, 0 ≤ p.1 ∧ 0 ≤ p.2) :
    (∀ s, yieldStress root E off ((0, 0) :: q :: ps) = some s →
      ∃ e, OnCurve ((0, 0) :: q :: ps) e s ∧ s = E * (e - off)) ∧
    (yieldStress root E off ((0, 0) :: q :: ps) = none ↔
      ∀ z, ((0, 0) :: q :: ps).getLast? = some z → E * (z.1 - off) < z.2) := by
  have hab : (((0, 0) :: q :: ps).map fun p : ℝ × ℝ => (|p.1|, |p.2|)) = (0, 0) :: q :: ps := by
    refine abs_id _ fun p hp' => ?_
    rcases List.mem_cons.1 hp' with rfl | hp'
    · exact ⟨le_refl _, le_refl _⟩
    · exact hp p hp'
  obtain ⟨r1, r2⟩ := root_spec root hb E off hE ho q ps h
  have hlast : ∀ (ps : List (ℝ × ℝ)) (p : ℝ × ℝ), (p :: ps).getLast? = some (lastOf p ps) := by
    intro ps
    induction ps with
    | nil => intro p; rfl
    | cons q ps ih => intro p; rw [List.getLast?_cons_cons, ih]; rfl
  unfold yieldStress
  simp only [max_last _ _ h, hab, Option.map_eq_none_iff]
  refine ⟨fun s hs => ?_, ?_⟩
  · obtain ⟨e, he, rfl⟩ := Option.map_eq_some_iff.1 hs
    obtain ⟨e1, e2, e3⟩ := r1 e he
    refine ⟨e, ?_, rfl⟩
    rw [← e3]
    exact interp_curve _ _ _ h e e1 e2
  · rw [r2]
    refine ⟨fun h' z hz => ?_, fun h' => h' _ (hlast _ _)⟩
    rw [hlast, Option.some.injEq] at hz
    rw [← hz]
    exact h'

/-- The curve is the interpolation. -/
theorem curve_interp (p : ℝ × ℝ) (ps : List (ℝ × ℝ)) (h : Increasing (p :: ps)) (e s : ℝ) (hc : OnCurve (p :: ps) e s) :
    p.1 ≤ e ∧ e ≤ (lastOf p ps).1 ∧ interp (p :: ps) e = s := by
  induction ps generalizing p with
  | nil =>
    obtain ⟨i, a, b, w, -, c2, -⟩ := hc
    simp at c2
  | cons q ps ih =>
    obtain ⟨x0, y0⟩ := p
    obtain ⟨x1, y1⟩ := q
    obtain ⟨hx, hi⟩ := List.isChain_cons_cons.1 h
    simp only at hx
    obtain ⟨i, a, b, w, c1, c2, w0, w1, he, hs⟩ := hc
    cases i with
    | zero =>
      simp only [List.getElem?_cons_zero, List.getElem?_cons_succ, Option.some.injEq, zero_add] at c1 c2
      subst c1 c2
      simp only at he hs
      have hle : e ≤ x1 := by rw [he]; nlinarith
      refine ⟨by simp only; rw [he]; nlinarith, hle.trans (first_le_last _ _ hi), ?_⟩
      rw [interp, if_pos hle, he, hs]
      have hd : x1 - x0 ≠ 0 := by linarith
      field_simp
      ring
    | succ i =>
      simp only [List.getElem?_cons_succ] at c1 c2
      obtain ⟨i1, i2, i3⟩ := ih (x1, y1) hi ⟨i, a, b, w, c1, c2, w0, w1, he, hs⟩
      simp only at i1
      refine ⟨by simp only; linarith, i2, ?_⟩
      rw [interp]
      split_ifs with hle
      · have : e = x1 := le_antisymm hle i1
        rw [this, interp_first _ _ _ hi] at i3
        rw [this, div_mul_cancel₀ _ (by linarith), ← i3]
        ring
      · exact i3

/-- **C161.** If the slope of the curve never exceeds `E`, and is smaller once the curve has left the elastic line, there is
one such point at most: the yield stress does not depend on the root finder. -/
theorem C161_unique (E off : ℝ) (hE : 0 < E) (ho : 0 < off) (p : ℝ × ℝ) (ps : List (ℝ × ℝ)) (h : Increasing (p :: ps))
    (hs : Softens E (p :: ps)) (e e' s s' : ℝ) (c : OnCurve (p :: ps) e s) (c' : OnCurve (p :: ps) e' s')
    (l : s = E * (e - off)) (l' : s' = E * (e' - off)) : e = e' ∧ s = s' := by
  obtain ⟨i1, i2, i3⟩ := curve_interp p ps h e s c
  obtain ⟨j1, j2, j3⟩ := curve_interp p ps h e' s' c'
  have hEo : 0 < E * off := mul_pos hE ho
  have key : ∀ a b u v, p.1 ≤ a → a < b → b ≤ (lastOf p ps).1 → interp (p :: ps) a = u → interp (p :: ps) b = v →
      u = E * (a - off) → v = E * (b - off) → False := by
    intro a b u v ha hab hb hu hv hu' hv'
    have := (gap_anti E p ps h hs a b ha hab hb).2 (by rw [hu, hu']; nlinarith)
    rw [hu, hv, hu', hv'] at this
    nlinarith
  rcases lt_trichotomy e e' with he | he | he
  · exact (key e e' s s' i1 he j2 i3 j3 l l').elim
  · exact ⟨he, by rw [l, l', he]⟩
  · exact (key e' e s' s j1 he i2 j3 i3 l' l).elim

/-- **C161.** A material that stays elastic has no yield stress. -/
theorem C161_elastic (root : (ℝ → ℝ) → ℝ → ℝ → Option ℝ) (hb : Brent root) (E off : ℝ) (hE : 0 < E) (ho : 0 < off)
    (q : ℝ × ℝ) (ps : List (ℝ × ℝ)) (h : Increasing ((0, 0) :: q :: ps)) (hp : ∀ p ∈ q :: ps, 0 ≤ p.1 ∧ p.2 = E * p.1) :
    yieldStress root E off ((0, 0) :: q :: ps) = none := by
  refine (C161_yield root hb E off hE ho q ps h fun p hp' => ?_).2.2 fun z hz => ?_
  · obtain ⟨h1, h2⟩ := hp p hp'
    exact ⟨h1, by rw [h2]; exact mul_nonneg hE.le h1⟩
  · have hmem : z ∈ q :: ps := by
      rw [List.getLast?_cons_cons] at hz
      exact List.mem_of_getLast? hz
    rw [(hp z hmem).2]
    nlinarith

/-- **C161.** An elastic, perfectly plastic material pulled with strain steps no larger than the offset, and far enough, has
its true yield stress. -/
theorem C161_plastic (root : (ℝ → ℝ) → ℝ → ℝ → Option ℝ) (hb : Brent root) (E off Y : ℝ) (hE : 0 < E) (ho : 0 < off)
    (hY : 0 < Y) (q : ℝ × ℝ) (ps : List (ℝ × ℝ)) (h : Increasing ((0, 0) :: q :: ps))
    (hst : ((0, 0) :: q :: ps).IsChain fun p q : ℝ × ℝ => q.1 - p.1 ≤ off)
    (hp : ∀ p ∈ (0, 0) :: q :: ps, 0 ≤ p.1 ∧ p.2 = min (E * p.1) Y)
    (hfar : ∀ z, ((0, 0) :: q :: ps).getLast? = some z → Y / E + off ≤ z.1) :
    yieldStress root E off ((0, 0) :: q :: ps) = some Y := by
  have hpos : ∀ p ∈ q :: ps, 0 ≤ p.1 ∧ 0 ≤ p.2 := fun p hp' => by
    obtain ⟨h1, h2⟩ := hp p (List.mem_cons_of_mem _ hp')
    exact ⟨h1, by rw [h2]; exact le_min (mul_nonneg hE.le h1) hY.le⟩
  obtain ⟨y1, y2⟩ := C161_yield root hb E off hE ho q ps h hpos
  cases hr : yieldStress root E off ((0, 0) :: q :: ps) with
  | none =>
    exfalso
    have := y2.1 hr
    have hz : ((0, 0) :: q :: ps).getLast? = some (((0, 0) :: q :: ps).getLast (by simp)) := List.getLast?_eq_some_getLast _
    have t1 := this _ hz
    have t2 := hfar _ hz
    obtain ⟨-, t3⟩ := hp _ (List.getLast_mem (by simp : (0, 0) :: q :: ps ≠ []))
    have t4 : min (E * (((0, 0) :: q :: ps).getLast (by simp)).1) Y ≤ Y := min_le_right _ _
    have t5 : E * (Y / E) = Y := mul_div_cancel₀ _ hE.ne'
    rw [t3] at t1
    nlinarith
  | some s =>
    obtain ⟨e, ⟨i, p, p', w, c1, c2, w0, w1, he, hs⟩, hl⟩ := y1 s hr
    have hchain : p.1 < p'.1 ∧ p'.1 - p.1 ≤ off := by
      have hi : i + 1 < ((0, 0) :: q :: ps).length := (List.getElem?_eq_some_iff.1 c2).1
      have e1 := List.isChain_iff_getElem.1 h i hi
      have e2 := List.isChain_iff_getElem.1 hst i hi
      rw [List.getElem?_eq_getElem (by omega), Option.some.injEq] at c1
      rw [List.getElem?_eq_getElem hi, Option.some.injEq] at c2
      rw [c1, c2] at e1 e2
      exact ⟨e1, e2⟩
    obtain ⟨a1, a2⟩ := hp p (List.mem_of_getElem? c1)
    obtain ⟨b1, b2⟩ := hp p' (List.mem_of_getElem? c2)
    -- the piece is beyond the yield strain
    have hyield : Y ≤ E * p.1 := by
      by_contra hc
      have hc : E * p.1 < Y := not_le.1 hc
      rw [min_eq_left hc.le] at a2
      rcases le_total (E * p'.1) Y with hq | hq
      · rw [min_eq_left hq] at b2
        rw [a2, b2] at hs
        have : s = E * e := by rw [hs, he]; ring
        nlinarith
      · rw [min_eq_right hq] at b2
        rw [a2, b2] at hs
        have k1 : E * (p'.1 - p.1) ≤ E * off := mul_le_mul_of_nonneg_left hchain.2 hE.le
        have k2 : s = E * ((1 - w) * p.1 + w * p'.1 - off) := by rw [hl, he]
        have k3 : w * (Y - E * p'.1) + E * off = 0 := by rw [hs] at k2; linarith
        have k4 : E * p'.1 - Y < E * off := by nlinarith
        nlinarith [mul_nonneg w0 (sub_nonneg.2 hq)]
    have hyield' : Y ≤ E * p'.1 := hyield.trans (mul_le_mul_of_nonneg_left hchain.1.le hE.le)
    rw [a2, b2, min_eq_right hyield, min_eq_right hyield'] at hs
    rw [hs]
    congr 1
    ring

/-- **C161.** `offset_stress` gives such a point too, with the slope of the first piece, and raises exactly if the curve ends
above the line. -/
theorem C161_offset (root : (ℝ → ℝ) → ℝ → ℝ → Option ℝ) (hb : Brent root) (off : ℝ) (ho : 0 < off) (q : ℝ × ℝ)
    (hq : 0 < q.2) (ps : List (ℝ × ℝ)) (h : Increasing ((0, 0) :: q :: ps)) :
    (∀ s, offsetStress root off ((0, 0) :: q :: ps) = some s →
      ∃ e, OnCurve ((0, 0) :: q :: ps) e s ∧ s = q.2 / q.1 * (e - off)) ∧
    (offsetStress root off ((0, 0) :: q :: ps) = none ↔
      ∀ z, ((0, 0) :: q :: ps).getLast? = some z → q.2 / q.1 * (z.1 - off) < z.2) := by
  obtain ⟨e1, s1⟩ := q
  have hx : (0 : ℝ) < e1 := (List.isChain_cons_cons.1 h).1
  have hE : 0 < s1 / e1 := div_pos hq hx
  obtain ⟨r1, r2⟩ := root_spec root hb (s1 / e1) off hE ho (e1, s1) ps h
  have hlast : ∀ (ps : List (ℝ × ℝ)) (p : ℝ × ℝ), (p :: ps).getLast? = some (lastOf p ps) := by
    intro ps
    induction ps with
    | nil => intro p; rfl
    | cons q ps ih => intro p; rw [List.getLast?_cons_cons, ih]; rfl
  simp only [offsetStress, hx.ne', lt_irrefl, or_self, if_false, max_last _ _ h, Option.map_eq_none_iff]
  refine ⟨fun s hs => ?_, ?_⟩
  · obtain ⟨e, he, rfl⟩ := Option.map_eq_some_iff.1 hs
    obtain ⟨c1, c2, c3⟩ := r1 e he
    exact ⟨e, interp_curve _ _ _ h e c1 c2, c3⟩
  · rw [r2]
    refine ⟨fun h' z hz => ?_, fun h' => h' _ (hlast _ _)⟩
    rw [hlast, Option.some.injEq] at hz
    rw [← hz]
    exact h'

/-! ## In the tension test -/

theorem run_stress {H : Type} (d d' : Driver.Driver H) (ops : List Driver.Op) (h : d.run ops = some d') :
    d.stress.toList <+: d'.stress.toList := by
  induction ops generalizing d with
  | nil => simp only [Driver.Driver.run, Option.some.injEq] at h; subst h; exact List.prefix_refl _
  | cons o os ih =>
    simp only [Driver.Driver.run, Option.bind_eq_some_iff] at h
    obtain ⟨d1, h1, h2⟩ := h
    obtain ⟨e, t, hs, -⟩ := Driver.step_strain d d1 o h1
    obtain ⟨_, -, -, -, -, -, -, -, -, -, -, h4, -⟩ := Driver.strainStep_spec d d1 e t _ hs
    refine List.IsPrefix.trans ?_ (ih d1 h2)
    rw [h4, Driver.Series.push_toList]
    exact List.prefix_append _ _

/-- **C161.** So it is in a tension test to a positive strain with exactly solved steps in which the stress does not change
sign, with the modulus the test reports. -/
theorem C161_test {H : Type} (root : (ℝ → ℝ) → ℝ → ℝ → Option ℝ) (hb : Brent root) (off : ℝ) (ho : 0 < off) (a : Tension H)
    (c : Setup H) (hr : c.rtol = 0) (ha : c.atol = 0) (hs : PySolve.norm2 a.sdir = 1) (hem : 0 < a.emax) (o : TensionOut H)
    (h : a.run c = some o) (hE : 0 < o.youngs) (hpos : ∀ s ∈ o.stress, 0 ≤ s) :
    (∀ s, yieldStress root o.youngs off (o.strain.zip o.stress) = some s →
      ∃ e, OnCurve (o.strain.zip o.stress) e s ∧ s = o.youngs * (e - off)) ∧
    (yieldStress root o.youngs off (o.strain.zip o.stress) = none ↔
      ∀ z, (o.strain.zip o.stress).getLast? = some z → o.youngs * (z.1 - off) < z.2) := by
  obtain ⟨l1, l2, l3, l4⟩ := C122_strains a c hr ha hs o h
  obtain ⟨hn, r, k, hk, -, w, -, e1, e2, -⟩ := Tension.run_went a c hr ha o h
  have hstep : 0 < a.emax / a.nsteps := div_pos hem (by exact_mod_cast Nat.pos_of_ne_zero hn)
  obtain ⟨f1, f2, -, f5, f4, -⟩ := Tension.driver_fields c a.T a.history
  have h0 : o.stress[0]? = some 0 := by
    obtain ⟨ops, hops, -⟩ := w.run
    have p1 := run_stress _ _ _ hops
    rw [f4] at p1
    have p2 := w.stresses
    rw [← e2] at p2
    have g1 : r.d.stress.toList[0]? = some 0 := by
      obtain ⟨l, hl⟩ := p1
      rw [← hl]; rfl
    obtain ⟨l, hl⟩ := p2
    have g2 : (o.stress ++ l)[0]? = some 0 := by
      rw [hl, List.getElem?_map, g1]
      simp
    rwa [List.getElem?_append_left (by omega)] at g2
  have hinc : Increasing (o.strain.zip o.stress) := by
    refine List.isChain_iff_getElem.2 fun i hi => ?_
    rw [List.length_zip] at hi
    simp only [List.getElem_zip]
    rw [l4 i (by omega), l4 (i + 1) (by omega)]
    push_cast
    nlinarith
  have hmem : ∀ p ∈ o.strain.zip o.stress, 0 ≤ p.1 ∧ 0 ≤ p.2 := by
    intro p hp
    obtain ⟨x, y⟩ := p
    obtain ⟨m1, m2⟩ := List.of_mem_zip hp
    obtain ⟨i, hi, rfl⟩ := List.getElem_of_mem m1
    exact ⟨by simp only; rw [l4 i hi]; positivity, hpos _ m2⟩
  have hz0 : (o.strain.zip o.stress)[0]? = some (0, 0) := by
    rw [List.getElem?_zip_eq_some]
    refine ⟨?_, h0⟩
    rw [List.getElem?_eq_getElem (by omega), l4 0 (by omega)]
    simp
  have hzl : 2 ≤ (o.strain.zip o.stress).length := by rw [List.length_zip]; omega
  generalize o.strain.zip o.stress = ps at hinc hmem hz0 hzl ⊢
  match ps, hzl with
  | p :: q :: ps, _ =>
    simp only [List.getElem?_cons_zero, Option.some.injEq] at hz0
    subst hz0
    exact C161_yield root hb o.youngs off hE ho q ps hinc fun p hp => hmem p (List.mem_cons_of_mem _ hp)

/-- A curve that meets the hypotheses: modulus 100, yield stress 1, steps of the offset. -/
example (root : (ℝ → ℝ) → ℝ → ℝ → Option ℝ) (hb : Brent root) :
    yieldStress root 100 (1 / 100) [(0, 0), (1 / 200, 1 / 2), (3 / 200, 1), (5 / 200, 1)] = some 1 := by
  refine C161_plastic root hb 100 (1 / 100) 1 (by norm_num) (by norm_num) (by norm_num) _ _ ?_ ?_ ?_ ?_
  · simp [Increasing]; norm_num
  · simp; norm_num
  · intro p hp
    simp only [List.mem_cons, List.not_mem_nil, or_false] at hp
    rcases hp with rfl | rfl | rfl | rfl <;> norm_num
  · intro z hz
    simp only [List.getLast?_cons_cons, List.getLast?_singleton, Option.some.injEq] at hz
    rw [← hz]; norm_num

/-- **C161.** Steps larger than the offset: the kink is cut off, and the yield stress found is less than the true one. Here it
is 3/4 of it: modulus 1, yield stress 1, offset 1/2 and a step from strain 1/2 to strain 2. -/
example : OnCurve [((0 : ℝ), (0 : ℝ)), (1 / 2, 1 / 2), (2, 1)] (5 / 4) (3 / 4) ∧ (3 / 4 : ℝ) = 1 * (5 / 4 - 1 / 2) :=
  ⟨⟨1, (1 / 2, 1 / 2), (2, 1), 1 / 2, rfl, rfl, by norm_num, by norm_num, by norm_num, by norm_num⟩, by norm_num⟩

end Neml.DriverTests
