import Verif.Props.CreepTest

/-!
# C126: isochronous curves -/

namespace Neml.DriverTests

open Matrix Neml.Driver Neml.PySolve Neml.Uniaxial

variable {H : Type}

/-- What holds for the lists while the curve grows, for the creep strains `strain`. -/
structure IsoInv (strain : ℝ → Option (ℝ × Bool)) (emax : ℝ) (es ss : Series ℝ) : Prop where
  len : es.before.length = ss.before.length
  e0 : es.toList[0]? = some 0
  s0 : ss.toList[0]? = some 0
  pts : ∀ i e s, 0 < i → es.toList[i]? = some e → ss.toList[i]? = some s → strain s = some (e, false)
  below : ∀ e ∈ es.before, e < emax
  inc : ss.toList.Pairwise (· < ·)

theorem IsoInv.push {strain : ℝ → Option (ℝ × Bool)} {emax : ℝ} {es ss : Series ℝ} (h : IsoInv strain emax es ss)
    (e ds : ℝ) (hd : 0 < ds) (hl : es.last < emax) (hs : strain (ss.last + ds) = some (e, false)) :
    IsoInv strain emax (es.push e) (ss.push (ss.last + ds)) := by
  have hlen : es.toList.length = ss.toList.length := by rw [toList_len, toList_len, h.len]
  refine ⟨by simp [Series.push, h.len], ?_, ?_, ?_, ?_, ?_⟩
  · rw [Series.push_toList, List.getElem?_append_left (by rw [toList_len]; omega)]; exact h.e0
  · rw [Series.push_toList, List.getElem?_append_left (by rw [toList_len]; omega)]; exact h.s0
  · intro i e' s' hi he hs'
    rw [Series.push_toList] at he hs'
    rcases lt_trichotomy i es.toList.length with hlt | heq | hgt
    · rw [List.getElem?_append_left hlt] at he
      rw [List.getElem?_append_left (by omega)] at hs'
      exact h.pts i e' s' hi he hs'
    · rw [List.getElem?_append_right (by omega), heq, Nat.sub_self] at he
      rw [List.getElem?_append_right (by omega), heq, hlen, Nat.sub_self] at hs'
      simp only [List.getElem?_cons_zero, Option.some.injEq] at he hs'
      rw [← he, ← hs', hs]
    · have := (List.getElem?_eq_some_iff.1 he).1
      simp only [List.length_append, List.length_cons, List.length_nil] at this
      omega
  · intro x hx
    simp only [Series.push, List.mem_cons] at hx
    rcases hx with rfl | hx
    · exact hl
    · exact h.below x hx
  · rw [Series.push_toList, List.pairwise_append]
    refine ⟨h.inc, by simp, fun x hx y hy => ?_⟩
    rw [List.mem_singleton.1 hy]
    have hin := h.inc
    rw [Series.toList] at hx hin
    rcases List.mem_append.1 hx with hx | hx
    · have := (List.pairwise_append.1 hin).2.2 x hx _ (List.mem_singleton.2 rfl)
      linarith
    · rw [List.mem_singleton.1 hx]; linarith

theorem isoLoop_inv (strain : ℝ → Option (ℝ × Bool)) (emax : ℝ) (maxCut fuel : ℕ) (ds : ℝ) (hd : 0 < ds) (ncut : ℕ)
    (es ss es' ss' : Series ℝ) (flat : Bool) (h : isoLoop strain emax maxCut fuel ds ncut es ss = some (es', ss', flat))
    (hi : IsoInv strain emax es ss) :
    IsoInv strain emax es' ss' ∧ (flat = false → emax ≤ es'.last) ∧ (flat = true → es'.last < emax) := by
  induction fuel generalizing ds ncut es ss with
  | zero => cases h
  | succ fuel ih =>
    rw [isoLoop] at h
    by_cases h1 : es.last < emax
    · rw [if_pos h1] at h
      cases hx : strain (ss.last + ds) with
      | none =>
        rw [hx] at h
        simp only at h
        split_ifs at h with h2
        · simp only [Option.some.injEq, Prod.mk.injEq] at h
          obtain ⟨rfl, rfl, rfl⟩ := h
          exact ⟨hi, by simp, fun _ => h1⟩
        · exact ih _ (half_pos hd) _ _ _ h hi
      | some q =>
        obtain ⟨e, f⟩ := q
        rw [hx] at h
        simp only at h
        cases f with
        | true =>
          simp only [if_true, Option.some.injEq, Prod.mk.injEq] at h
          obtain ⟨rfl, rfl, rfl⟩ := h
          exact ⟨hi, by simp, fun _ => h1⟩
        | false =>
          simp only [Bool.false_eq_true, if_false] at h
          exact ih _ hd _ _ _ h (hi.push e ds hd h1 hx)
    · rw [if_neg h1] at h
      simp only [Option.some.injEq, Prod.mk.injEq] at h
      obtain ⟨rfl, rfl, rfl⟩ := h
      exact ⟨hi, fun _ => not_lt.1 h1, by simp⟩

open Classical in
/-- Linear interpolation of increasing data. -/
noncomputable def lerp : List ℝ → List ℝ → ℝ → ℝ
  | x0 :: x1 :: xs, y0 :: y1 :: ys, x =>
    if x ≤ x1 then y0 + (y1 - y0) / (x1 - x0) * (x - x0) else lerp (x1 :: xs) (y1 :: ys) x
  | _, _, _ => 0

theorem lerp_last (A B : List ℝ) (hl : A.length = B.length) (x0 x1 y0 y1 x : ℝ) (hA : ∀ a ∈ A, a < x) (h0 : x0 < x)
    (h1 : x ≤ x1) : lerp (A ++ [x0, x1]) (B ++ [y0, y1]) x = y0 + (y1 - y0) / (x1 - x0) * (x - x0) := by
  induction A generalizing B with
  | nil =>
    rw [List.length_nil] at hl
    rw [List.eq_nil_of_length_eq_zero hl.symm]
    simp only [List.nil_append, lerp, if_pos h1]
  | cons a A ih =>
    cases B with
    | nil => cases hl
    | cons b B =>
      have ih' := ih B (by simpa using hl) fun z hz => hA z (by simp [hz])
      cases A with
      | nil =>
        have : B = [] := List.eq_nil_of_length_eq_zero (by simpa using hl.symm)
        subst this
        simp only [List.cons_append, List.nil_append, lerp, if_pos h1, if_neg (not_le.2 h0)]
      | cons a' A =>
        cases B with
        | nil => simp at hl
        | cons b' B =>
          simp only [List.cons_append, lerp] at ih' ⊢
          rw [if_neg (not_le.2 (hA a' (by simp)))]
          exact ih'

/-- **C126.** The curve starts in the origin and ends at the largest strain; all strains before the last are below it. All
points between are points of creep tests that did not fail. The stresses before the last are increasing. -/
theorem C126_curve (strain : ℝ → Option (ℝ × Bool)) (interp : List ℝ → List ℝ → ℝ → ℝ) (emax ds : ℝ) (hd : 0 < ds)
    (he : 0 < emax) (maxCut fuel : ℕ) (E S : List ℝ) (h : isochronous strain interp emax ds maxCut fuel = some (E, S)) :
    E.length = S.length ∧ 2 ≤ E.length ∧ E[0]? = some 0 ∧ S[0]? = some 0 ∧ E.getLast? = some emax ∧
    (∀ e ∈ E.dropLast, e < emax) ∧ S.dropLast.Pairwise (· < ·) ∧
    ∀ i e s, 0 < i → i + 1 < E.length → E[i]? = some e → S[i]? = some s → strain s = some (e, false) := by
  unfold isochronous at h
  cases hx : isoLoop strain emax maxCut fuel ds 0 ⟨0, []⟩ ⟨0, []⟩ with
  | none => rw [hx] at h; cases h
  | some q =>
    obtain ⟨es, ss, flat⟩ := q
    rw [hx] at h
    simp only [Option.some.injEq, Prod.mk.injEq] at h
    have hi0 : IsoInv strain emax (⟨0, []⟩ : Series ℝ) ⟨0, []⟩ := by
      refine ⟨rfl, rfl, rfl, ?_, by simp, by simp [Series.toList]⟩
      intro i e s hi he
      have := (List.getElem?_eq_some_iff.1 he).1
      simp only [Series.toList, List.reverse_nil, List.nil_append, List.length_cons, List.length_nil] at this
      omega
    obtain ⟨inv, i2, i3⟩ := isoLoop_inv strain emax maxCut fuel ds hd 0 _ _ es ss flat hx hi0
    cases flat with
    | true =>
      simp only [if_true, Series.push] at h
      obtain ⟨rfl, rfl⟩ := h
      rw [List.reverse_cons, List.reverse_cons]
      have h3 := i3 rfl
      have ee : es.before.reverse ++ [es.last] = es.toList := rfl
      have se : ss.before.reverse ++ [ss.last] = ss.toList := rfl
      rw [ee, se]
      have hle : es.toList.length = ss.toList.length := by rw [toList_len, toList_len, inv.len]
      have hpos : 0 < es.toList.length := by rw [toList_len]; omega
      refine ⟨by simp [hle], by simp; omega, ?_, ?_, by simp, ?_, ?_, ?_⟩
      · rw [List.getElem?_append_left hpos, inv.e0]
      · rw [List.getElem?_append_left (by omega), inv.s0]
      · rw [List.dropLast_concat]
        intro e he
        rw [Series.toList] at he
        rcases List.mem_append.1 he with he | he
        · exact inv.below e (by simpa using he)
        · rw [List.mem_singleton.1 he]; exact h3
      · rw [List.dropLast_concat]; exact inv.inc
      · intro i e s hi hil he hs
        simp only [List.length_append, List.length_cons, List.length_nil] at hil
        rw [List.getElem?_append_left (by omega)] at he hs
        exact inv.pts i e s hi he hs
    | false =>
      simp only [Bool.false_eq_true, if_false] at h
      obtain ⟨rfl, rfl⟩ := h
      have h2 := i2 rfl
      have hle : es.before.reverse.length = ss.before.reverse.length := by simp [inv.len]
      have hpos : 0 < es.before.reverse.length := by
        by_contra hcon
        have hnil : es.before = [] := by simpa using hcon
        have := inv.e0
        rw [Series.toList, hnil] at this
        simp only [List.reverse_nil, List.nil_append, List.getElem?_cons_zero, Option.some.injEq] at this
        linarith
      have e0 := inv.e0
      have s0 := inv.s0
      rw [Series.toList, List.getElem?_append_left hpos] at e0
      rw [Series.toList, List.getElem?_append_left (by omega)] at s0
      refine ⟨by simp [inv.len], by simp only [List.length_append, List.length_cons, List.length_nil]; omega, ?_, ?_, by simp,
        ?_, ?_, ?_⟩
      · rw [List.getElem?_append_left hpos, e0]
      · rw [List.getElem?_append_left (by omega), s0]
      · rw [List.dropLast_concat]
        intro e he
        exact inv.below e (by simpa using he)
      · rw [List.dropLast_concat]
        have := inv.inc
        rw [Series.toList, List.pairwise_append] at this
        exact this.1
      · intro i e s hi hil he hs
        simp only [List.length_append, List.length_cons, List.length_nil] at hil
        rw [List.getElem?_append_left (by omega)] at he hs
        refine inv.pts i e s hi ?_ ?_
        · rw [Series.toList, List.getElem?_append_left (by omega)]; exact he
        · rw [Series.toList, List.getElem?_append_left (by omega)]; exact hs

/-- **C126.** The last stress, with linear interpolation and creep strains that increase with the stress: the curve is either
closed flat (no creep test above the last but one point worked), or the last point is on the line between the last but one
point and the point of a creep test that did reach the largest strain. -/
theorem C126_last (strain : ℝ → Option (ℝ × Bool)) (emax ds : ℝ) (hd : 0 < ds) (he : 0 < emax) (maxCut fuel : ℕ)
    (hinc : ∀ s s' e e' f f', s < s' → strain s = some (e, f) → strain s' = some (e', f') → e < e')
    (E S : List ℝ) (h : isochronous strain lerp emax ds maxCut fuel = some (E, S)) :
    ∃ e s l, E[E.length - 2]? = some e ∧ S[S.length - 2]? = some s ∧ S.getLast? = some l ∧ (l = s ∨
      ∃ e' s', strain s' = some (e', false) ∧ s < s' ∧ e < emax ∧ emax ≤ e' ∧
        l = s + (s' - s) / (e' - e) * (emax - e) ∧ s < l ∧ l ≤ s') := by
  obtain ⟨-, -⟩ := C126_curve strain lerp emax ds hd he maxCut fuel E S h
  unfold isochronous at h
  cases hx : isoLoop strain emax maxCut fuel ds 0 ⟨0, []⟩ ⟨0, []⟩ with
  | none => rw [hx] at h; cases h
  | some q =>
    obtain ⟨es, ss, flat⟩ := q
    rw [hx] at h
    simp only [Option.some.injEq, Prod.mk.injEq] at h
    have hi0 : IsoInv strain emax (⟨0, []⟩ : Series ℝ) ⟨0, []⟩ := by
      refine ⟨rfl, rfl, rfl, ?_, by simp, by simp [Series.toList]⟩
      intro i e s hi he
      have := (List.getElem?_eq_some_iff.1 he).1
      simp only [Series.toList, List.reverse_nil, List.nil_append, List.length_cons, List.length_nil] at this
      omega
    obtain ⟨inv, i2, i3⟩ := isoLoop_inv strain emax maxCut fuel ds hd 0 _ _ es ss flat hx hi0
    cases flat with
    | true =>
      simp only [if_true, Series.push] at h
      obtain ⟨rfl, rfl⟩ := h
      refine ⟨es.last, ss.last, _, ?_, ?_, by simp; rfl, Or.inl ?_⟩
      · simp
      · simp
      · have h3 := i3 rfl
        have hl := lerp_last es.before.reverse ss.before.reverse (by simp [inv.len]) es.last emax ss.last ss.last emax
          (fun a ha => inv.below a (by simpa using ha)) h3 le_rfl
        simp only [Series.toList, List.reverse_cons, List.append_assoc, List.singleton_append] at hl ⊢
        rw [hl]
        simp
    | false =>
      simp only [Bool.false_eq_true, if_false] at h
      obtain ⟨rfl, rfl⟩ := h
      have h2 := i2 rfl
      obtain ⟨e, eb, heb⟩ : ∃ e eb, es.before = e :: eb := by
        cases hb : es.before with
        | nil =>
          have := inv.e0
          rw [Series.toList, hb] at this
          simp only [List.reverse_nil, List.nil_append, List.getElem?_cons_zero, Option.some.injEq] at this
          linarith
        | cons e eb => exact ⟨e, eb, rfl⟩
      obtain ⟨s, sb, hsb⟩ : ∃ s sb, ss.before = s :: sb := by
        cases hb : ss.before with
        | nil =>
          have := inv.len
          rw [heb, hb] at this
          cases this
        | cons s sb => exact ⟨s, sb, rfl⟩
      have hlen : eb.length = sb.length := by
        have := inv.len
        rw [heb, hsb] at this
        simpa using this
      have hel : e < emax := inv.below e (by rw [heb]; simp)
      have hss : s < ss.last := by
        have := inv.inc
        rw [Series.toList, hsb, List.reverse_cons, List.append_assoc, List.pairwise_append] at this
        simpa using this.2.1
      have hst : strain ss.last = some (es.last, false) := by
        refine inv.pts es.before.length es.last ss.last (by rw [heb]; simp) ?_ ?_
        · rw [Series.toList, List.getElem?_append_right (by simp)]; simp
        · rw [Series.toList, List.getElem?_append_right (by simp [inv.len])]; simp [inv.len]
      have hl := lerp_last eb.reverse sb.reverse (by simp [hlen]) e es.last s ss.last emax
        (fun a ha => inv.below a (by rw [heb]; simp at ha; simp [ha])) hel h2
      have hpos : 0 < es.last - e := by linarith
      refine ⟨e, s, s + (ss.last - s) / (es.last - e) * (emax - e), ?_, ?_, ?_, Or.inr ⟨es.last, ss.last, hst, hss, hel, h2, rfl,
        ?_, ?_⟩⟩
      · rw [heb]; simp
      · rw [hsb]; simp
      · simp only [Series.toList, heb, hsb, List.reverse_cons, List.append_assoc, List.singleton_append,
          List.cons_append, List.nil_append] at hl ⊢
        rw [hl]
        simp
      · have : 0 < (ss.last - s) / (es.last - e) * (emax - e) :=
          mul_pos (div_pos (by linarith) hpos) (by linarith)
        linarith
      · have : (ss.last - s) / (es.last - e) * (emax - e) ≤ ss.last - s := by
          rw [div_mul_eq_mul_div, div_le_iff₀ hpos]
          exact mul_le_mul_of_nonneg_left (by linarith) (by linarith)
        linarith

/-- **C126.** The search for the curve ends, if the creep strains are at least some multiple of the stress (as they are when
there is an elastic strain). -/
theorem C126_ends (strain : ℝ → Option (ℝ × Bool)) (emax ds c : ℝ) (hd : 0 < ds) (hc : 0 < c) (maxCut : ℕ)
    (hs : ∀ s e f, strain s = some (e, f) → c * s ≤ e) :
    ∃ N, ∀ fuel, N ≤ fuel → ∃ r, isoLoop strain emax maxCut fuel ds 0 ⟨0, []⟩ ⟨0, []⟩ = some r := by
  have hδ : 0 < c * (ds / 2 ^ maxCut) := by positivity
  obtain ⟨k, hk⟩ := exists_nat_gt (emax / (c * (ds / 2 ^ maxCut)))
  have main : ∀ (fuel k ncut : ℕ) (es ss : Series ℝ), ncut ≤ maxCut → c * ss.last ≤ es.last →
      emax ≤ c * (ss.last + k * (ds / 2 ^ maxCut)) → (maxCut - ncut) + k < fuel →
      ∃ r, isoLoop strain emax maxCut fuel (ds / 2 ^ ncut) ncut es ss = some r := by
    intro fuel
    induction fuel with
    | zero => intro k ncut es ss _ _ _ h; omega
    | succ fuel ih =>
      intro k ncut es ss hn h1 h2 h3
      rw [isoLoop]
      by_cases hlt : es.last < emax
      · rw [if_pos hlt]
        cases hx : strain (ss.last + ds / 2 ^ ncut) with
        | none =>
          simp only
          split_ifs with hcut
          · exact ⟨_, rfl⟩
          · have := ih k (ncut + 1) es ss (by omega) h1 h2 (by omega)
            rwa [pow_succ, ← div_div] at this
        | some q =>
          obtain ⟨e, f⟩ := q
          cases f with
          | true => exact ⟨(es, ss, true), by simp⟩
          | false =>
            simp only [Bool.false_eq_true, if_false]
            cases k with
            | zero =>
              simp only [Nat.cast_zero, zero_mul, add_zero] at h2
              linarith
            | succ k =>
              refine ih k ncut _ _ hn (hs _ _ _ hx) ?_ (by omega)
              refine h2.trans (mul_le_mul_of_nonneg_left ?_ hc.le)
              have : ds / 2 ^ maxCut ≤ ds / 2 ^ ncut :=
                div_le_div_of_nonneg_left hd.le (by positivity) (pow_le_pow_right₀ (by norm_num) hn)
              simp only [Series.push]
              push_cast
              linarith
      · exact ⟨_, by rw [if_neg hlt]⟩
  refine ⟨maxCut + k + 1, fun fuel hf => ?_⟩
  have := main fuel k 0 ⟨0, []⟩ ⟨0, []⟩ (Nat.zero_le _) (by simp) (by
    rw [div_lt_iff₀ hδ] at hk
    rw [zero_add]
    linarith) (by omega)
  simpa using this

/-- **C126, disagreement.** It does not end if the creep strains stay below the largest strain of the curve and no creep test
fails. -/
theorem C126_endless (strain : ℝ → Option (ℝ × Bool)) (emax ds : ℝ) (he : 0 < emax)
    (hs : ∀ s, ∃ e, strain s = some (e, false) ∧ e < emax) (maxCut fuel : ℕ) :
    isoLoop strain emax maxCut fuel ds 0 ⟨0, []⟩ ⟨0, []⟩ = none := by
  have main : ∀ (fuel : ℕ) (es ss : Series ℝ), es.last < emax → isoLoop strain emax maxCut fuel ds 0 es ss = none := by
    intro fuel
    induction fuel with
    | zero => intro es ss _; rfl
    | succ fuel ih =>
      intro es ss h
      obtain ⟨e, h1, h2⟩ := hs (ss.last + ds)
      rw [isoLoop, if_pos h, h1]
      simp only [Bool.false_eq_true, if_false]
      exact ih _ _ h2
  exact main fuel _ _ he

/-- A concrete curve: strains proportional to the stress, in steps of 10 up to 5%. -/
example : isochronous (fun s => some (s / 1000, false)) lerp (1 / 20) 20 4 10 =
    some ([0, 20 / 1000, 40 / 1000, 1 / 20], [0, 20, 40, 50]) := by
  have h : isoLoop (fun s => some (s / 1000, false)) (1 / 20) 4 10 20 0 ⟨0, []⟩ ⟨0, []⟩ =
      some (⟨60 / 1000, [40 / 1000, 20 / 1000, 0]⟩, ⟨60, [40, 20, 0]⟩, false) := by
    norm_num [isoLoop, Series.push]
  rw [isochronous, h]
  norm_num [Series.toList, lerp]

end Neml.DriverTests
