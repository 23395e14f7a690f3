import Verif.Model.Driver
import Verif.Props.PySolve
import Verif.Props.Elastic

/-!
# C71: what the driver records

The statements are about the nine series of the driver after any sequence of step calls. -/

namespace Neml.Driver

open Matrix Neml.PySolve Neml.Uniaxial Neml.Elastic

variable {H : Type}

/-! ## The record -/

/-- The entries, newest first. -/
def Series.all {α : Type} (s : Series α) : List α := s.last :: s.before

theorem Series.toList_eq {α : Type} (s : Series α) : s.toList = s.all.reverse := by
  simp [Series.toList, Series.all]

theorem Series.push_toList {α : Type} (s : Series α) (a : α) : (s.push a).toList = s.toList ++ [a] := by
  simp [Series.toList, Series.push]

/-- One row of the record. -/
structure Row (H : Type) where
  strain : Fin 6 → ℝ
  thermal : Fin 6 → ℝ
  mech : Fin 6 → ℝ
  stress : Fin 6 → ℝ
  stored : H
  T : ℝ
  t : ℝ
  u : ℝ
  p : ℝ

/-- A row follows another: mechanical and thermal strain add up; the thermal strain has grown by the mean
expansion coefficient times the change of temperature in the three normal directions (unless thermal strains are
switched off); and stress, store, energy and dissipation are the material's response to the mechanical strain from
the row before. -/
def Row.Follows (m : Model3 H) (nts : Bool) (new old : Row H) : Prop :=
  new.strain = new.mech + new.thermal ∧
  new.thermal = (if nts then 0 else
    old.thermal + ((m.alpha new.T + m.alpha old.T) / 2 * (new.T - old.T)) • ![1, 1, 1, 0, 0, 0]) ∧
  ∃ A, m.update ⟨new.mech, old.mech, new.T, old.T, new.t, old.t, old.stress, old.stored, old.u, old.p⟩ =
    some ⟨new.stress, new.stored, A, new.u, new.p⟩

/-- The first row. -/
def Row.first (m : Model3 H) (T0 : ℝ) : Row H := ⟨0, 0, 0, 0, m.init, T0, 0, 0, 0⟩

/-- The nine series are the columns of these rows (newest first). -/
structure Columns (d : Driver H) (rows : List (Row H)) : Prop where
  strain : d.strain.all = rows.map Row.strain
  thermal : d.thermal.all = rows.map Row.thermal
  mech : d.mech.all = rows.map Row.mech
  stress : d.stress.all = rows.map Row.stress
  stored : d.stored.all = rows.map Row.stored
  T : d.T.all = rows.map Row.T
  t : d.t.all = rows.map Row.t
  u : d.u.all = rows.map Row.u
  p : d.p.all = rows.map Row.p

/-- What a strain step does to the record. -/
theorem strainStep_spec (d d' : Driver H) (e : Fin 6 → ℝ) (t T : ℝ) (h : d.strainStep e t T = some d') :
    ∃ o, d.call e t T = some o ∧ d'.model = d.model ∧ d'.nts = d.nts ∧ d'.rtol = d.rtol ∧ d'.atol = d.atol ∧
      d'.miter = d.miter ∧ d'.fuel = d.fuel ∧
      d'.strain = d.strain.push e ∧ d'.mech = d.mech.push (e - d.thermalNext T) ∧
      d'.thermal = d.thermal.push (d.thermalNext T) ∧ d'.stress = d.stress.push o.s ∧ d'.stored = d.stored.push o.h ∧
      d'.T = d.T.push T ∧ d'.t = d.t.push t ∧ d'.u = d.u.push o.u ∧ d'.p = d.p.push o.p := by
  simp only [Driver.strainStep, Option.map_eq_some_iff] at h
  obtain ⟨o, e1, rfl⟩ := h
  exact ⟨o, e1, rfl, rfl, rfl, rfl, rfl, rfl, rfl, rfl, rfl, rfl, rfl, rfl, rfl, rfl, rfl⟩

/-- The temperature a call asks for. -/
def Op.temp : Op → ℝ
  | .strain _ _ T | .stress _ _ T | .erate _ _ _ T _ _ | .erateEinc _ _ _ T _ _ | .srateSinc _ _ _ T
  | .hold _ _ T _ _ => T

/-- The time a call asks for, when it names one. -/
def Op.time : Op → Option ℝ
  | .strain _ t _ | .stress _ t _ | .erate _ _ t _ _ _ | .hold _ t _ _ _ => some t
  | .erateEinc _ _ _ _ _ _ | .srateSinc _ _ _ _ => none

theorem stressStep_strain (d d' : Driver H) (s : Fin 6 → ℝ) (t T : ℝ) (h : d.stressStep s t T = some d') :
    ∃ e, d.strainStep e t T = some d' := by
  simp only [Driver.stressStep] at h
  split at h
  · cases h
  · exact ⟨_, h⟩

theorem erateStep_strain (d : Driver H) (n : Fin 6 → ℝ) (r t T : ℝ) (eg : Option (Fin 6 → ℝ)) (ag : Option ℝ)
    (q : Driver H × (Fin 6 → ℝ) × ℝ) (h : d.erateStep n r t T eg ag = some q) :
    ∃ e, d.strainStep e t T = some q.1 := by
  simp only [Driver.erateStep] at h
  split_ifs at h
  split at h
  · cases h
  · simp only [Option.map_eq_some_iff] at h
    obtain ⟨d', h, rfl⟩ := h
    exact ⟨_, h⟩

/-- Every successful step call is a strain step at the temperature asked for, at the time asked for. -/
theorem step_strain (d d' : Driver H) (o : Op) (h : d.step o = some d') :
    ∃ e t, d.strainStep e t o.temp = some d' ∧ ∀ t', o.time = some t' → t = t' := by
  cases o with
  | strain e t T => exact ⟨e, t, h, fun t' h => Option.some.inj h⟩
  | stress s t T =>
    obtain ⟨e, he⟩ := stressStep_strain d d' s t T h
    exact ⟨e, t, he, fun t' h => Option.some.inj h⟩
  | erate n r t T eg ag =>
    simp only [Driver.step, Option.map_eq_some_iff] at h
    obtain ⟨q, h, rfl⟩ := h
    obtain ⟨e, he⟩ := erateStep_strain d n r t T eg ag q h
    exact ⟨e, t, he, fun t' h => Option.some.inj h⟩
  | erateEinc n r de T eg ag =>
    simp only [Driver.step, Option.map_eq_some_iff, Driver.erateEincStep] at h
    obtain ⟨q, h, rfl⟩ := h
    split_ifs at h
    obtain ⟨e, he⟩ := erateStep_strain d n r _ T eg ag q h
    exact ⟨e, _, he, fun t' h => by cases h⟩
  | srateSinc n r s T =>
    simp only [Driver.step, Driver.srateSincStep] at h
    obtain ⟨e, he⟩ := stressStep_strain d d' _ _ T h
    exact ⟨e, _, he, fun t' h => by cases h⟩
  | hold i t T q E =>
    simp only [Driver.step, Driver.holdStep] at h
    split_ifs at h
    split at h
    · cases h
    · exact ⟨_, t, h, fun t' h => Option.some.inj h⟩

theorem all_push {α β : Type} (s : Series α) (a : α) (rows : List β) (f : β → α) (r : β)
    (h : s.all = rows.map f) (hr : f r = a) : (s.push a).all = (r :: rows).map f := by
  rw [List.map_cons, hr, ← h]; rfl

theorem all_head {α β : Type} {s : Series α} {r : β} {rows : List β} {f : β → α} (h : s.all = (r :: rows).map f) :
    s.last = f r := by
  simp only [Series.all, List.map_cons, List.cons.injEq] at h
  exact h.1

theorem strainStep_columns (d d' : Driver H) (e : Fin 6 → ℝ) (t T : ℝ) (h : d.strainStep e t T = some d')
    (r : Row H) (rows : List (Row H)) (hc : Columns d (r :: rows)) :
    ∃ r', Columns d' (r' :: r :: rows) ∧ r'.Follows d.model d.nts r ∧ r'.T = T ∧ r'.t = t ∧ r'.strain = e := by
  obtain ⟨o, hcall, -, -, -, -, -, -, h1, h2, h3, h4, h5, h6, h7, h8, h9⟩ := strainStep_spec d d' e t T h
  refine ⟨⟨e, d.thermalNext T, e - d.thermalNext T, o.s, o.h, T, t, o.u, o.p⟩, ?_, ?_, rfl, rfl, rfl⟩
  · exact ⟨by rw [h1]; exact all_push _ _ _ _ _ hc.strain rfl, by rw [h3]; exact all_push _ _ _ _ _ hc.thermal rfl,
      by rw [h2]; exact all_push _ _ _ _ _ hc.mech rfl, by rw [h4]; exact all_push _ _ _ _ _ hc.stress rfl,
      by rw [h5]; exact all_push _ _ _ _ _ hc.stored rfl, by rw [h6]; exact all_push _ _ _ _ _ hc.T rfl,
      by rw [h7]; exact all_push _ _ _ _ _ hc.t rfl, by rw [h8]; exact all_push _ _ _ _ _ hc.u rfl,
      by rw [h9]; exact all_push _ _ _ _ _ hc.p rfl⟩
  · refine ⟨by simp, ?_, o.A, ?_⟩
    · simp only [Driver.thermalNext, isoDir, all_head hc.T, all_head hc.thermal]
      split_ifs
      · rfl
      · congr 2
        ring
    · simp only [Driver.call, all_head hc.mech, all_head hc.T, all_head hc.t, all_head hc.stress, all_head hc.stored,
        all_head hc.u, all_head hc.p] at hcall
      exact hcall

theorem step_fixed (d d' : Driver H) (o : Op) (h : d.step o = some d') : d'.model = d.model ∧ d'.nts = d.nts := by
  obtain ⟨e, t, h, -⟩ := step_strain d d' o h
  obtain ⟨o, -, h1, h2, -⟩ := strainStep_spec d d' e t _ h
  exact ⟨h1, h2⟩

theorem run_columns (d d' : Driver H) (ops : List Op) (h : d.run ops = some d') (r : Row H) (rows : List (Row H))
    (hc : Columns d (r :: rows)) (hch : (r :: rows).IsChain (Row.Follows d.model d.nts)) :
    ∃ new : List (Row H), Columns d' (new ++ r :: rows) ∧ (new ++ r :: rows).IsChain (Row.Follows d.model d.nts) ∧
      new.reverse.map Row.T = ops.map Op.temp ∧ new.length = ops.length ∧
      (∀ ts : List ℝ, ops.map Op.time = ts.map some → new.reverse.map Row.t = ts) := by
  induction ops generalizing d r rows with
  | nil =>
    simp only [Driver.run, Option.some.injEq] at h
    subst h
    exact ⟨[], hc, hch, rfl, rfl, fun ts h => by simpa using h.symm⟩
  | cons o os ih =>
    simp only [Driver.run, Option.bind_eq_some_iff] at h
    obtain ⟨d1, h1, h2⟩ := h
    obtain ⟨e, t, hs, ht⟩ := step_strain d d1 o h1
    obtain ⟨r', c1, c2, c3, c4, -⟩ := strainStep_columns d d1 e t _ hs r rows hc
    obtain ⟨e1, e2⟩ := step_fixed d d1 o h1
    obtain ⟨new, n1, n2, n3, n4, n5⟩ := ih d1 h2 r' (r :: rows) c1 (by
      rw [e1, e2]; exact List.IsChain.cons_cons c2 hch)
    rw [e1, e2] at n2
    refine ⟨new ++ [r'], by simpa using n1, by simpa using n2, by simp [n3, c3], by simp [n4], ?_⟩
    intro ts hts
    cases ts with
    | nil => simp at hts
    | cons t' ts =>
      simp only [List.map_cons, List.cons.injEq] at hts
      have := ht t' hts.1
      simp [n5 ts hts.2, c4, this]

/-- **C71.** After any sequence of step calls the nine series are the columns of one table: the first row is the
initial state, and every row follows the row before it. The temperatures recorded are those asked for, and so are
the times, if all calls name one. There is one row for the start and one for each call. -/
theorem C71_record (m : Model3 H) (rtol atol : ℝ) (miter fuel : Nat) (T0 : ℝ) (nts : Bool) (ops : List Op)
    (d : Driver H) (h : (Driver.new m rtol atol miter fuel T0 nts).run ops = some d) :
    ∃ rows : List (Row H), Columns d rows ∧ rows.IsChain (Row.Follows m nts) ∧
      rows.getLast? = some (Row.first m T0) ∧ rows.length = ops.length + 1 ∧
      d.T.toList = T0 :: ops.map Op.temp ∧
      ∀ ts : List ℝ, ops.map Op.time = ts.map some → d.t.toList = 0 :: ts := by
  obtain ⟨new, n1, n2, n3, n4, n5⟩ := run_columns _ d ops h (Row.first m T0) []
    ⟨rfl, rfl, rfl, rfl, rfl, rfl, rfl, rfl, rfl⟩ (List.isChain_singleton _)
  refine ⟨new ++ [Row.first m T0], n1, n2, by simp, by simp [n4], ?_, ?_⟩
  · rw [Series.toList_eq, n1.T]
    simp [← n3, Row.first]
  · intro ts hts
    rw [Series.toList_eq, n1.t]
    simp [← n5 ts hts, Row.first]

/-- **C71.** All nine series have the same length: one entry for the start and one for each call. -/
theorem C71_aligned (m : Model3 H) (rtol atol : ℝ) (miter fuel : Nat) (T0 : ℝ) (nts : Bool) (ops : List Op)
    (d : Driver H) (h : (Driver.new m rtol atol miter fuel T0 nts).run ops = some d) :
    d.stress.toList.length = ops.length + 1 ∧ d.stored.toList.length = ops.length + 1 ∧
    d.T.toList.length = ops.length + 1 ∧ d.t.toList.length = ops.length + 1 ∧ d.u.toList.length = ops.length + 1 ∧
    d.p.toList.length = ops.length + 1 ∧ d.strain.toList.length = ops.length + 1 ∧
    d.thermal.toList.length = ops.length + 1 ∧ d.mech.toList.length = ops.length + 1 := by
  obtain ⟨rows, hc, -, -, hl, -⟩ := C71_record m rtol atol miter fuel T0 nts ops d h
  simp only [Series.toList_eq, List.length_reverse, hc.stress, hc.stored, hc.T, hc.t, hc.u, hc.p, hc.strain,
    hc.thermal, hc.mech, List.length_map, hl, and_self]

/-- **C71.** The recorded total strain is the sum of the recorded mechanical and thermal strains, entry by entry. -/
theorem C71_strain (m : Model3 H) (rtol atol : ℝ) (miter fuel : Nat) (T0 : ℝ) (nts : Bool) (ops : List Op)
    (d : Driver H) (h : (Driver.new m rtol atol miter fuel T0 nts).run ops = some d) :
    d.strain.toList = List.zipWith (· + ·) d.mech.toList d.thermal.toList := by
  obtain ⟨rows, hc, hch, hlast, -⟩ := C71_record m rtol atol miter fuel T0 nts ops d h
  have hrow : ∀ r ∈ rows, r.strain = r.mech + r.thermal := by
    clear hc
    induction rows with
    | nil => simp
    | cons r rows ih =>
      cases rows with
      | nil =>
        intro r' hr'
        simp only [List.mem_singleton] at hr'
        simp only [List.getLast?_singleton, Option.some.injEq] at hlast
        subst hr' hlast
        simp [Row.first]
      | cons r2 rows =>
        intro r' hr'
        rcases List.mem_cons.1 hr' with rfl | hr'
        · exact (List.isChain_cons_cons.1 hch).1.1
        · exact ih (List.isChain_cons_cons.1 hch).2 (by simpa using hlast) r' hr'
  simp only [Series.toList_eq, hc.strain, hc.mech, hc.thermal, ← List.map_reverse, List.zipWith_map_left,
    List.zipWith_map_right, List.zipWith_self]
  exact List.map_congr_left fun r hr => hrow r (List.mem_reverse.1 hr)

/-- **C71.** With a linear expansion coefficient `a + b T` the thermal strain recorded depends on the temperature
alone, not on the path: it is the integral of the coefficient from the initial temperature, in the three normal
directions. -/
theorem C71_thermal (m : Model3 H) (a b : ℝ) (hm : ∀ T, m.alpha T = a + b * T) (rtol atol : ℝ) (miter fuel : Nat)
    (T0 : ℝ) (ops : List Op) (d : Driver H) (h : (Driver.new m rtol atol miter fuel T0 false).run ops = some d) :
    d.thermal.toList = d.T.toList.map fun T =>
      (a * (T - T0) + b / 2 * (T ^ 2 - T0 ^ 2)) • ![1, 1, 1, 0, 0, 0] := by
  obtain ⟨rows, hc, hch, hlast, -⟩ := C71_record m rtol atol miter fuel T0 false ops d h
  have hrow : ∀ r ∈ rows, r.thermal =
      (a * (r.T - T0) + b / 2 * (r.T ^ 2 - T0 ^ 2)) • (![1, 1, 1, 0, 0, 0] : Fin 6 → ℝ) := by
    clear hc
    induction rows with
    | nil => simp
    | cons r rows ih =>
      cases rows with
      | nil =>
        intro r' hr'
        simp only [List.mem_singleton] at hr'
        simp only [List.getLast?_singleton, Option.some.injEq] at hlast
        subst hr' hlast
        simp [Row.first]
      | cons r2 rows =>
        intro r' hr'
        have ih := ih (List.isChain_cons_cons.1 hch).2 (by simpa using hlast)
        rcases List.mem_cons.1 hr' with rfl | hr'
        · rw [(List.isChain_cons_cons.1 hch).1.2.1, ih r2 List.mem_cons_self, if_neg (by simp), ← add_smul, hm, hm]
          congr 1
          ring
        · exact ih r' hr'
  simp only [Series.toList_eq, hc.thermal, hc.T, ← List.map_reverse, List.map_map]
  exact List.map_congr_left fun r hr => hrow r (List.mem_reverse.1 hr)

/-- **C71.** With thermal strains switched off all thermal strains recorded are zero. -/
theorem C71_no_thermal (m : Model3 H) (rtol atol : ℝ) (miter fuel : Nat) (T0 : ℝ) (ops : List Op) (d : Driver H)
    (h : (Driver.new m rtol atol miter fuel T0 true).run ops = some d) : ∀ e ∈ d.thermal.toList, e = 0 := by
  obtain ⟨rows, hc, hch, hlast, -⟩ := C71_record m rtol atol miter fuel T0 true ops d h
  have hrow : ∀ r ∈ rows, r.thermal = 0 := by
    clear hc
    induction rows with
    | nil => simp
    | cons r rows ih =>
      cases rows with
      | nil =>
        intro r' hr'
        simp only [List.mem_singleton] at hr'
        simp only [List.getLast?_singleton, Option.some.injEq] at hlast
        subst hr' hlast
        rfl
      | cons r2 rows =>
        intro r' hr'
        rcases List.mem_cons.1 hr' with rfl | hr'
        · rw [(List.isChain_cons_cons.1 hch).1.2.1, if_pos rfl]
        · exact ih (List.isChain_cons_cons.1 hch).2 (by simpa using hlast) r' hr'
  intro e he
  rw [Series.toList_eq, List.mem_reverse, hc.thermal, List.mem_map] at he
  obtain ⟨r, hr, rfl⟩ := he
  exact hrow r hr

/-! ## The steps reach what they ask for -/

theorem solveTry_zero {n : Nat} (d : Driver H) (h1 : d.rtol = 0) (h2 : d.atol = 0)
    (rj : (Fin n → ℝ) → Option ((Fin n → ℝ) × Matrix (Fin n) (Fin n) ℝ)) (x0 : Fin n → ℝ) (extra : List (Fin n → ℝ))
    (x : Fin n → ℝ) (h : d.solveTry rj x0 extra = some x) : ∃ j, rj x = some (0, j) := by
  obtain ⟨g, -, rg, jg, r, j, -, e, hr⟩ := C112_try rj _ _ _ _ _ _ _ h
  rw [h1, h2, zero_mul, or_self] at hr
  rw [norm2_eq_zero.1 (le_antisymm hr (norm2_nonneg r))] at e
  exact ⟨j, e⟩

/-- **C71.** A stress controlled step ends at the stress asked for, within the tolerance: the recorded stress differs
from it by no more than the absolute tolerance, or the relative tolerance times the difference at one of the
guesses. -/
theorem C71_stress (d d' : Driver H) (s1 : Fin 6 → ℝ) (t1 T1 : ℝ) (h : d.stressStep s1 t1 T1 = some d') :
    ∃ g og, d.call g t1 T1 = some og ∧ (norm2 (d'.stress.last - s1) ≤ d.rtol * norm2 (og.s - s1) ∨
      norm2 (d'.stress.last - s1) ≤ d.atol) := by
  simp only [Driver.stressStep] at h
  split at h
  · cases h
  · rename_i e1 he
    obtain ⟨g, -, rg, jg, r, j, eg, e, hr⟩ := C112_try _ _ _ _ _ _ _ _ he
    obtain ⟨o, ho, -, -, -, -, -, -, -, -, -, h4, -⟩ := strainStep_spec d d' e1 t1 T1 h
    simp only [Driver.stressRJ, Option.map_eq_some_iff, Prod.mk.injEq] at eg e
    obtain ⟨og, hog, rfl, -⟩ := eg
    obtain ⟨o', ho', rfl, -⟩ := e
    rw [ho] at ho'
    obtain rfl : o = o' := Option.some.inj ho'
    exact ⟨g, og, hog, by rw [h4]; exact hr⟩

/-- **C71.** With exactly solved systems a stress controlled step ends at the stress asked for. -/
theorem C71_stress_exact (d d' : Driver H) (hr : d.rtol = 0) (ha : d.atol = 0) (s1 : Fin 6 → ℝ) (t1 T1 : ℝ)
    (h : d.stressStep s1 t1 T1 = some d') : d'.stress.last = s1 := by
  obtain ⟨g, og, -, hd⟩ := C71_stress d d' s1 t1 T1 h
  rw [hr, ha, zero_mul, or_self] at hd
  exact sub_eq_zero.1 (norm2_eq_zero.1 (le_antisymm hd (norm2_nonneg _)))

theorem unit_norm {sdir : Fin 6 → ℝ} (h : norm2 sdir ≠ 0) : norm2 (unit sdir) = 1 := by
  rw [unit, norm2_smul, abs_of_nonneg (inv_nonneg.2 (norm2_nonneg _)), inv_mul_cancel₀ h]

/-- **C71.** With exactly solved systems a rate controlled step changes the stress along the direction given and
nowhere else, and its strain increment along the (normalised) direction is the rate times the time increment. -/
theorem C71_erate (d : Driver H) (hr : d.rtol = 0) (ha : d.atol = 0) (sdir : Fin 6 → ℝ) (erate t1 T1 : ℝ)
    (eg : Option (Fin 6 → ℝ)) (ag : Option ℝ) (d' : Driver H) (de : Fin 6 → ℝ) (a : ℝ)
    (h : d.erateStep sdir erate t1 T1 eg ag = some (d', de, a)) :
    d'.stress.last = d.stress.last + (a / norm2 sdir) • sdir ∧ d'.strain.last = d.strain.last + de ∧
      (d'.strain.last - d.strain.last) ⬝ᵥ sdir = erate * (t1 - d.t.last) * norm2 sdir ∧ d'.t.last = t1 := by
  simp only [Driver.erateStep] at h
  split_ifs at h with hn
  split at h
  · cases h
  · rename_i x hx
    simp only [Option.map_eq_some_iff, Prod.mk.injEq] at h
    obtain ⟨d1, h, rfl, rfl, rfl⟩ := h
    obtain ⟨o, ho, -, -, -, -, -, -, h1, -, -, h4, -, -, h7, -⟩ := strainStep_spec d d1 _ t1 T1 h
    obtain ⟨j, e⟩ := solveTry_zero d hr ha _ _ _ _ hx
    simp only [Driver.erateRJ] at e
    split_ifs at e with hdt
    simp only [Option.map_eq_some_iff, Prod.mk.injEq] at e
    obtain ⟨o', ho', e, -⟩ := e
    rw [ho] at ho'
    obtain rfl : o = o' := Option.some.inj ho'
    have es : ∀ k : Fin 6, o.s k = unit sdir k * x 0 + d.stress.last k := fun k => by
      have := congrFun e k.castSucc
      simp only [Fin.snoc_castSucc, Pi.zero_apply] at this
      linarith
    have er : (fun k : Fin 6 => x k.succ) ⬝ᵥ unit sdir = erate * (t1 - d.t.last) := by
      have := congrFun e (Fin.last 6)
      simp only [Fin.snoc_last, Pi.zero_apply] at this
      rw [sub_eq_zero, div_eq_iff hdt] at this
      exact this
    refine ⟨?_, by rw [h1]; rfl, ?_, by rw [h7]; rfl⟩
    · rw [h4]
      funext k
      simp only [Series.push, es k, unit, Pi.smul_apply, smul_eq_mul, Pi.add_apply]
      ring
    · rw [h1]
      simp only [Series.push, add_sub_cancel_left]
      rw [← er, unit, dotProduct_smul, smul_eq_mul]
      field_simp

/-- **C71.** The length of the direction vector is of no account in a rate controlled step. -/
theorem C71_erate_scale (d : Driver H) (sdir : Fin 6 → ℝ) (c : ℝ) (hc : 0 < c) (erate t1 T1 : ℝ)
    (eg : Option (Fin 6 → ℝ)) (ag : Option ℝ) :
    d.erateStep (c • sdir) erate t1 T1 eg ag = d.erateStep sdir erate t1 T1 eg ag := by
  have hn : norm2 (c • sdir) = c * norm2 sdir := by rw [norm2_smul, abs_of_pos hc]
  have hu : unit (c • sdir) = unit sdir := by
    unfold unit
    rw [hn, smul_smul, mul_inv, mul_comm c⁻¹, mul_assoc, inv_mul_cancel₀ hc.ne', mul_one]
  unfold Driver.erateStep
  rw [hu, hn]
  by_cases h : norm2 sdir = 0
  · rw [if_pos h, if_pos (by rw [h, mul_zero])]
  · rw [if_neg h, if_neg (mul_ne_zero hc.ne' h)]

/-- **C71.** A step given by its strain increment and rate takes the time the increment needs at that rate, and makes
that increment along the direction. -/
theorem C71_einc (d : Driver H) (hr : d.rtol = 0) (ha : d.atol = 0) (sdir : Fin 6 → ℝ) (hs : norm2 sdir = 1)
    (erate einc T1 : ℝ) (eg : Option (Fin 6 → ℝ)) (ag : Option ℝ) (d' : Driver H) (de : Fin 6 → ℝ) (a : ℝ)
    (h : d.erateEincStep sdir erate einc T1 eg ag = some (d', de, a)) :
    d'.t.last = d.t.last + einc / erate ∧ (d'.strain.last - d.strain.last) ⬝ᵥ sdir = einc ∧
      ∃ c : ℝ, d'.stress.last = d.stress.last + c • sdir := by
  simp only [Driver.erateEincStep] at h
  split_ifs at h with he
  obtain ⟨h1, h2, h3, h4⟩ := C71_erate d hr ha sdir erate _ T1 eg ag d' de a h
  refine ⟨h4, ?_, _, h1⟩
  rw [h3, hs]
  field_simp
  ring

theorem dot_self_norm (v : Fin 6 → ℝ) : v ⬝ᵥ v = norm2 v ^ 2 := by
  rw [norm2_sq]
  exact Finset.sum_congr rfl fun i _ => by ring

theorem srateSinc_spec (d d' : Driver H) (hr : d.rtol = 0) (ha : d.atol = 0) (sdir : Fin 6 → ℝ)
    (hs : ¬ ∀ k, |sdir k| ≤ 1 / 10 ^ 8) (srate sinc T1 : ℝ) (hq : 1 / 10 ^ 8 < |srate|)
    (h : d.srateSincStep sdir srate sinc T1 = some d') :
    d'.stress.last = d.stress.last + (sinc / norm2 sdir) • sdir ∧
      d'.t.last = d.t.last + norm2 sdir * (|sinc| / |srate|) := by
  have hn : norm2 sdir ≠ 0 := fun h => hs fun k => by
    rw [norm2_eq_zero.1 h]
    simp only [Pi.zero_apply, abs_zero]
    positivity
  have hsd : ¬ ∀ k, IsClose (sdir k) 0 := by
    simpa only [IsClose, sub_zero, abs_zero, mul_zero, add_zero] using hs
  have hsr : ¬ IsClose srate 0 := by
    simp only [IsClose, sub_zero, abs_zero, mul_zero, add_zero, not_le]
    exact hq
  simp only [Driver.srateSincStep, Driver.sincStress, if_neg hsd] at h
  have h1 := C71_stress_exact d d' hr ha _ _ _ h
  obtain ⟨e, he⟩ := stressStep_strain d d' _ _ _ h
  obtain ⟨-, -, -, -, -, -, -, -, -, -, -, -, -, -, h7, -⟩ := strainStep_spec d d' e _ T1 he
  refine ⟨?_, ?_⟩
  · rw [h1]
    congr 1
    simp only [unit, smul_smul, div_eq_mul_inv]
  · rw [h7]
    simp only [Series.push, Driver.sincTime, if_neg hsr, add_sub_cancel_left]
    congr 1
    rw [unit, smul_smul, smul_dotProduct, dot_self_norm, smul_eq_mul, abs_div, abs_mul, abs_mul, abs_inv,
      abs_of_nonneg (norm2_nonneg sdir), abs_of_nonneg (sq_nonneg (norm2 sdir))]
    field_simp

/-- **C71, for unit directions.** A step given by its stress increment and rate makes that increment along the
direction, in the time it needs at that rate. Missing: directions of another length, see the next theorem. -/
theorem C71_srate_partial (d d' : Driver H) (hr : d.rtol = 0) (ha : d.atol = 0) (sdir : Fin 6 → ℝ)
    (hs : norm2 sdir = 1) (srate sinc T1 : ℝ) (hq : 1 / 10 ^ 8 < |srate|)
    (h : d.srateSincStep sdir srate sinc T1 = some d') :
    d'.stress.last = d.stress.last + sinc • sdir ∧ d'.t.last = d.t.last + |sinc| / |srate| := by
  have hz : ¬ ∀ k, |sdir k| ≤ 1 / 10 ^ 8 := by
    intro hall
    have h2 := norm2_sq sdir
    rw [hs, Fin.sum_univ_six] at h2
    have hk : ∀ k, sdir k ^ 2 ≤ 1 / 10 := fun k => by
      have := hall k
      rw [← sq_abs]
      nlinarith [abs_nonneg (sdir k)]
    linarith [hk 0, hk 1, hk 2, hk 3, hk 4, hk 5]
  obtain ⟨h1, h2⟩ := srateSinc_spec d d' hr ha sdir hz srate sinc T1 hq h
  rw [hs] at h1 h2
  exact ⟨by rw [h1, div_one], by rw [h2, one_mul]⟩

/-- **C71, disagreement.** The time of such a step is proportional to the length of the direction vector, although
the stress increment is not: for a direction of length two the step takes twice the time, so the stress rate is half
the rate asked for. -/
theorem C71_srate_disagreement (d d' : Driver H) (hr : d.rtol = 0) (ha : d.atol = 0) (srate sinc T1 : ℝ)
    (hq : 1 / 10 ^ 8 < |srate|) (h : d.srateSincStep ![2, 0, 0, 0, 0, 0] srate sinc T1 = some d') :
    d'.stress.last = d.stress.last + sinc • ![1, 0, 0, 0, 0, 0] ∧
      d'.t.last = d.t.last + 2 * (|sinc| / |srate|) := by
  have hn : norm2 ![(2 : ℝ), 0, 0, 0, 0, 0] = 2 := by
    simp only [norm2, Fin.sum_univ_six]
    rw [show (2 : ℝ) = √(2 ^ 2) from (Real.sqrt_sq (by norm_num)).symm]
    congr 1
    simp
  obtain ⟨h1, h2⟩ := srateSinc_spec d d' hr ha ![2, 0, 0, 0, 0, 0] (fun hall => by
    have := hall 0
    norm_num at this) srate sinc T1 hq h
  rw [hn] at h1 h2
  refine ⟨?_, h2⟩
  rw [h1]
  congr 1
  funext k
  fin_cases k <;> simp

/-- **C71.** With exactly solved systems a strain hold keeps the five other stress components, and the strain held
plus the follow-up, the stress change over the modulus times the factor less one, does not change. Without follow-up
the strain is held. -/
theorem C71_hold (d d' : Driver H) (hr : d.rtol = 0) (ha : d.atol = 0) (i : Fin 6) (t1 T1 q E : ℝ)
    (h : d.holdStep i t1 T1 q E = some d') :
    (∀ k, k ≠ i → d'.stress.last k = d.stress.last k) ∧
      (d'.strain.last i - d.strain.last i) + (q - 1) * ((d'.stress.last i - d.stress.last i) / E) = 0 ∧
      (q = 1 → d'.strain.last i = d.strain.last i) := by
  simp only [Driver.holdStep] at h
  split_ifs at h
  split at h
  · cases h
  · rename_i e1 he
    obtain ⟨o, ho, -, -, -, -, -, -, h1, -, -, h4, -⟩ := strainStep_spec d d' e1 t1 T1 h
    obtain ⟨j, e⟩ := solveTry_zero d hr ha _ _ _ _ he
    simp only [Driver.holdRJ] at e
    split_ifs at e with hE
    simp only [Option.map_eq_some_iff, Prod.mk.injEq] at e
    obtain ⟨o', ho', e, -⟩ := e
    rw [ho] at ho'
    obtain rfl : o = o' := Option.some.inj ho'
    rw [h1, h4]
    simp only [Series.push]
    have e0 := congrFun e 0
    simp only [Fin.cons_zero, Pi.zero_apply] at e0
    refine ⟨fun k hk => ?_, by rw [← e0]; ring, fun hq => ?_⟩
    · obtain ⟨l, rfl⟩ := Fin.exists_succAbove_eq hk
      have := congrFun e l.succ
      simp only [Fin.cons_succ, Pi.zero_apply] at this
      linarith
    · rw [hq, sub_self, mul_zero, add_zero] at e0
      linarith

end Neml.Driver
