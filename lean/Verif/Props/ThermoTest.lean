import Verif.Props.DriverTests

/-!
# C127: thermomechanical data are followed

The statement is about the states of the driver at the data points: time, temperature and strain are those of the data, and
the stress is uniaxial and the one returned. -/

namespace Neml.DriverTests

open Matrix Neml.Driver Neml.PySolve Neml.Uniaxial

variable {H : Type}

/-- The driver, started as `d0`, has been brought to time, temperature and strain (along the direction) of a data point, up to
an offset of the strain, and its stress is uniaxial. -/
structure At (d0 : Driver H) (sdir : Fin 6 → ℝ) (off : ℝ) (d : Driver H) (p : Datum) : Prop where
  run : ∃ ops, d0.run ops = some d
  t : d.t.last = p.t
  T : d.T.last = p.T
  e : d.strain.last ⬝ᵥ sdir = p.e + off
  s : ∃ c : ℝ, d.stress.last = c • sdir

/-- The rate of strain between two points. -/
noncomputable def slope (p q : Datum) : ℝ := (q.e - p.e) / (q.t - p.t)

theorem thermoSub_spec (d0 : Driver H) (hr : d0.rtol = 0) (ha : d0.atol = 0) (sdir : Fin 6 → ℝ) (hs : norm2 sdir = 1)
    (n : ℕ) (hn : n ≠ 0) (first : Bool) (p q : Datum) (off : ℝ) (k : ℕ) (d d' : Driver H) (g g' : Guess)
    (hd : ∃ ops, d0.run ops = some d) (hc : ∃ c : ℝ, d.stress.last = c • sdir)
    (he : d.strain.last ⬝ᵥ sdir = (p.at q n k).e + off + slope p q * (d.t.last - (p.at q n k).t))
    (h : thermoSub sdir n first p q k d g = some (d', g')) : At d0 sdir off d' (p.at q n (k + 1 : ℕ)) := by
  have hnr : (n : ℝ) ≠ 0 := by exact_mod_cast hn
  obtain ⟨ops, ho⟩ := hd
  obtain ⟨h1, h2, -⟩ := run_tol d0 d ops ho
  unfold thermoSub at h
  extract_lets b a gg at h
  by_cases ht : b.t - a.t = 0
  · rw [if_pos ht] at h; cases h
  rw [if_neg ht] at h
  simp only [Option.map_eq_some_iff] at h
  obtain ⟨⟨d1, de, s⟩, h, e⟩ := h
  cases e
  have hdt : q.t - p.t ≠ 0 := fun h0 => ht (by
    change (q.t - p.t) / n * (k + 1) + p.t - ((q.t - p.t) / n * k + p.t) = 0
    rw [h0]; ring)
  have hab : b.t - a.t = (q.t - p.t) / n := by
    change (q.t - p.t) / n * (k + 1) + p.t - ((q.t - p.t) / n * k + p.t) = _
    ring
  have hrate : (b.e - a.e) / (b.t - a.t) = slope p q := by
    rw [hab]
    change ((q.e - p.e) / n * (k + 1) + p.e - ((q.e - p.e) / n * k + p.e)) / _ = _
    rw [slope]
    field_simp
    ring
  rw [hrate] at h
  obtain ⟨e1, e2, e3, e4⟩ := C71_erate d (h1.trans hr) (h2.trans ha) sdir _ _ _ _ _ _ _ _ h
  obtain ⟨x, hx⟩ := erateStep_strain d _ _ _ _ _ _ _ h
  obtain ⟨_, -, -, -, -, -, -, -, -, -, -, -, -, hT, -⟩ := strainStep_spec _ _ _ _ _ hx
  have hb : b = p.at q n (k + 1 : ℕ) := by rw [Nat.cast_add, Nat.cast_one]
  obtain ⟨c, hc⟩ := hc
  refine ⟨⟨ops ++ [.erate sdir (slope p q) b.t b.T (gg.map Prod.fst) (gg.map Prod.snd)], ?_⟩, ?_, ?_, ?_, ?_⟩
  · rw [run_append, ho]
    simp only [Option.bind_some, Driver.step, h, Option.map_some]
  · rw [e4, hb]
  · rw [hT, ← hb]; rfl
  · rw [sub_dotProduct, he, hs, mul_one] at e3
    have : b.e = a.e + slope p q * (b.t - a.t) := by
      rw [← hrate]; field_simp; ring
    rw [← hb, this]
    have ha' : a = p.at q n k := rfl
    rw [← ha'] at e3
    linarith
  · refine ⟨c + s, ?_⟩
    rw [e1, hc, hs, div_one, add_smul]

theorem at_zero (p q : Datum) (n : ℕ) : p.at q n (0 : ℕ) = p := by
  simp [Datum.at]

theorem at_n (p q : Datum) (n : ℕ) (hn : n ≠ 0) : p.at q n n = q := by
  have hnr : (n : ℝ) ≠ 0 := by exact_mod_cast hn
  simp only [Datum.at]
  rw [div_mul_cancel₀ _ hnr, div_mul_cancel₀ _ hnr, div_mul_cancel₀ _ hnr]
  simp

theorem thermoSubs_spec (d0 : Driver H) (hr : d0.rtol = 0) (ha : d0.atol = 0) (sdir : Fin 6 → ℝ) (hs : norm2 sdir = 1)
    (n : ℕ) (hn : n ≠ 0) (first : Bool) (p q : Datum) (off : ℝ) (m k : ℕ) (hk : k + m = n) (d d' : Driver H) (g g' : Guess)
    (hd : ∃ ops, d0.run ops = some d) (hc : ∃ c : ℝ, d.stress.last = c • sdir)
    (he : d.strain.last ⬝ᵥ sdir = (p.at q n k).e + off + slope p q * (d.t.last - (p.at q n k).t))
    (hm : 0 < m ∨ At d0 sdir off d q)
    (h : thermoSubs sdir n first p q m k d g = some (d', g')) : At d0 sdir off d' q := by
  induction m generalizing k d g with
  | zero =>
    simp only [thermoSubs, Option.some.injEq, Prod.mk.injEq] at h
    obtain ⟨rfl, -⟩ := h
    exact hm.resolve_left (lt_irrefl _)
  | succ m ih =>
    simp only [thermoSubs] at h
    cases hx : thermoSub sdir n first p q k d g with
    | none => rw [hx] at h; cases h
    | some y =>
      obtain ⟨d1, g1⟩ := y
      rw [hx] at h
      have h1 := thermoSub_spec d0 hr ha sdir hs n hn first p q off k d d1 g g1 hd hc he hx
      refine ih (k + 1) (by omega) d1 g1 h1.run h1.s (by rw [h1.e, h1.t]; ring) ?_ h
      rcases Nat.eq_zero_or_pos m with h0 | h0
      · right
        have : k + 1 = n := by omega
        rw [this, at_n p q n hn] at h1
        exact h1
      · exact Or.inl h0

/-- What is stored for a point is taken from a state of the driver at this point. -/
def RowAt (d0 : Driver H) (sdir : Fin 6 → ℝ) (off : ℝ) (row : ThermoRow) (p : Datum) : Prop :=
  ∃ d : Driver H, At d0 sdir off d p ∧ d.stress.last = row.stress • sdir ∧ row.mech = d.thermal.last ⬝ᵥ sdir

theorem At.row {d0 : Driver H} {sdir : Fin 6 → ℝ} (hs : norm2 sdir = 1) {off : ℝ} {d : Driver H} {p : Datum}
    (h : At d0 sdir off d p) : RowAt d0 sdir off ⟨d.stress.last ⬝ᵥ sdir, d.thermal.last ⬝ᵥ sdir⟩ p := by
  refine ⟨d, h, ?_, rfl⟩
  obtain ⟨c, hc⟩ := h.s
  change d.stress.last = (d.stress.last ⬝ᵥ sdir) • sdir
  rw [hc, smul_dotProduct, dot_self_norm, hs]
  simp

theorem thermoLoop_rows (sdir : Fin 6 → ℝ) (n : ℕ) (first : Bool) (p : Datum) (qs : List Datum) (d : Driver H) (g : Guess)
    (rows : List ThermoRow) :
    ∃ new, (thermoLoop sdir n first p qs d g rows).2.1 = new ++ rows ∧ new.length ≤ qs.length ∧
      ((thermoLoop sdir n first p qs d g rows).2.2 = true → new.length = qs.length) ∧
      ((thermoLoop sdir n first p qs d g rows).2.2 = false → new.length < qs.length) := by
  induction qs generalizing first p d g rows with
  | nil => exact ⟨[], rfl, le_rfl, fun _ => rfl, fun h => by cases h⟩
  | cons q qs ih =>
    simp only [thermoLoop]
    cases hx : thermoSubs sdir n first p q n 0 d g with
    | none => exact ⟨[], rfl, Nat.zero_le _, (fun h => by cases h), fun _ => by simp⟩
    | some y =>
      obtain ⟨d', g'⟩ := y
      obtain ⟨new, h1, h2, h3, h4⟩ := ih false q d' g' (⟨d'.stress.last ⬝ᵥ sdir, d'.thermal.last ⬝ᵥ sdir⟩ :: rows)
      refine ⟨new ++ [⟨d'.stress.last ⬝ᵥ sdir, d'.thermal.last ⬝ᵥ sdir⟩], ?_, ?_, ?_, ?_⟩
      · simpa using h1
      · simpa using h2
      · intro h; simpa using h3 h
      · intro h; simpa using h4 h

theorem thermoLoop_spec (d0 : Driver H) (hr : d0.rtol = 0) (ha : d0.atol = 0) (sdir : Fin 6 → ℝ) (hs : norm2 sdir = 1)
    (n : ℕ) (hn : n ≠ 0) (off : ℝ) (first : Bool) (p : Datum) (qs : List Datum) (d : Driver H) (g : Guess)
    (rows : List ThermoRow) (hd : ∃ ops, d0.run ops = some d) (hc : ∃ c : ℝ, d.stress.last = c • sdir)
    (he : ∀ q, qs.head? = some q → d.strain.last ⬝ᵥ sdir = p.e + off + slope p q * (d.t.last - p.t)) :
    ∃ new : List ThermoRow, (thermoLoop sdir n first p qs d g rows).2.1 = new.reverse ++ rows ∧
      ∀ (i : ℕ) row q, new[i]? = some row → qs[i]? = some q → RowAt d0 sdir off row q := by
  induction qs generalizing first p d g rows with
  | nil => exact ⟨[], rfl, by simp⟩
  | cons q qs ih =>
    simp only [thermoLoop]
    cases hx : thermoSubs sdir n first p q n 0 d g with
    | none => exact ⟨[], rfl, by simp⟩
    | some y =>
      obtain ⟨d', g'⟩ := y
      have h1 : At d0 sdir off d' q := thermoSubs_spec d0 hr ha sdir hs n hn first p q off n 0 (by omega) d d' g g' hd hc
        (by rw [at_zero]; exact he q rfl) (Or.inl (Nat.pos_of_ne_zero hn)) hx
      obtain ⟨new, h2, h3⟩ := ih false q d' g' (⟨d'.stress.last ⬝ᵥ sdir, d'.thermal.last ⬝ᵥ sdir⟩ :: rows) h1.run h1.s
        (fun q' _ => by rw [h1.e, h1.t]; ring)
      refine ⟨⟨d'.stress.last ⬝ᵥ sdir, d'.thermal.last ⬝ᵥ sdir⟩ :: new, by simpa using h2, ?_⟩
      intro i row q' hi hq
      cases i with
      | zero =>
        simp only [List.getElem?_cons_zero, Option.some.injEq] at hi hq
        subst hi hq
        exact h1.row hs
      | succ i =>
        simp only [List.getElem?_cons_succ] at hi hq
        exact h3 i row q' hi hq

theorem thermo_spec (c : Setup H) (hr : c.rtol = 0) (ha : c.atol = 0) (sdir : Fin 6 → ℝ) (hs : norm2 sdir = 1) (n : ℕ)
    (hn : n ≠ 0) (p q : Datum) (qs : List Datum) (out : ThermoOut) (h : thermo c sdir n (p :: q :: qs) = some out) :
    out.data = (p :: q :: qs).take out.rows.length ∧ out.rows.length ≤ qs.length + 1 ∧ 0 < out.rows.length ∧
    ∀ i row x, 0 < i → out.rows[i]? = some row → (p :: q :: qs)[i]? = some x →
      RowAt (c.driver p.T none) sdir (slope p q * p.t - p.e) row x := by
  obtain ⟨new, e1, e2, e3, e4⟩ := thermoLoop_rows sdir n true p (q :: qs) (c.driver p.T none) none []
  obtain ⟨new', f1, f2⟩ := thermoLoop_spec (c.driver p.T none) hr ha sdir hs n hn (slope p q * p.t - p.e) true p (q :: qs)
    (c.driver p.T none) none [] ⟨[], rfl⟩ ⟨0, by simp [Setup.driver, Driver.new]⟩ (by
      intro q' hq
      simp only [List.head?_cons, Option.some.injEq] at hq
      subst hq
      simp [Setup.driver, Driver.new])
  unfold thermo at h
  cases hl : thermoLoop sdir n true p (q :: qs) (c.driver p.T none) none [] with
  | mk d rest =>
    obtain ⟨rows, done⟩ := rest
    rw [hl] at e1 e3 e4 f1
    simp only [List.append_nil] at e1 f1
    subst e1
    have hrev : rows.reverse = new' := by rw [f1, List.reverse_reverse]
    simp only [hl, Option.some.injEq] at h
    simp only [List.length_cons] at e2 e3 e4
    subst h
    have hk : (if done = true then rows.length else rows.length + 1) ≤ qs.length + 1 ∧
        0 < (if done = true then rows.length else rows.length + 1) ∧
        (if done = true then rows.length else rows.length + 1) ≤ rows.length + 1 := by
      cases done with
      | true => have := e3 rfl; simp only [if_true]; omega
      | false => have := e4 rfl; simp only [Bool.false_eq_true, if_false]; omega
    generalize (if done = true then rows.length else rows.length + 1) = k at hk ⊢
    have hlen : (((⟨0, 0⟩ : ThermoRow) :: rows.reverse) ++
        List.replicate ((p :: q :: qs).length - 1 - rows.length) (⟨0, 0⟩ : ThermoRow)).length = qs.length + 2 := by
      simp only [List.length_append, List.length_cons, List.length_reverse, List.length_replicate]
      omega
    refine ⟨?_, ?_, ?_, ?_⟩
    · simp only [List.length_take]
      rw [hlen, Nat.min_eq_left (by omega)]
    · simp only [List.length_take]
      rw [hlen]; omega
    · simp only [List.length_take]
      rw [hlen]; omega
    · intro i row x hi hrow hx
      have hik : i < k := by
        have := (List.getElem?_eq_some_iff.1 hrow).1
        rw [List.length_take] at this
        omega
      simp only at hrow
      rw [List.getElem?_take_of_lt hik, List.getElem?_append_left (by simp; omega)] at hrow
      obtain ⟨j, rfl⟩ := Nat.exists_eq_succ_of_ne_zero hi.ne'
      simp only [Nat.succ_eq_add_one, List.getElem?_cons_succ] at hrow hx
      exact f2 j row x (hrev ▸ hrow) hx

/-- **C127, as far as it goes.** Data that start at time and strain zero are followed, with exactly solved steps: for each
point returned (but the first) the driver has been at the time, the temperature and the strain of the point, with a stress
along the direction and nowhere else, and this is the stress returned. What is returned is a first part of the data. Missing:
other data, the last point, and the mechanical strain, see the next theorems. -/
theorem C127_followed_partial (c : Setup H) (hr : c.rtol = 0) (ha : c.atol = 0) (sdir : Fin 6 → ℝ) (hs : norm2 sdir = 1)
    (n : ℕ) (hn : n ≠ 0) (p q : Datum) (qs : List Datum) (ht : p.t = 0) (he : p.e = 0) (out : ThermoOut)
    (h : thermo c sdir n (p :: q :: qs) = some out) :
    out.data = (p :: q :: qs).take out.rows.length ∧
    ∀ i row x, 0 < i → out.rows[i]? = some row → (p :: q :: qs)[i]? = some x →
      ∃ d : Driver H, (∃ ops, (c.driver p.T none).run ops = some d) ∧ d.t.last = x.t ∧ d.T.last = x.T ∧
        d.strain.last ⬝ᵥ sdir = x.e ∧ d.stress.last = row.stress • sdir := by
  obtain ⟨h1, -, -, h4⟩ := thermo_spec c hr ha sdir hs n hn p q qs out h
  refine ⟨h1, fun i row x hi hrow hx => ?_⟩
  obtain ⟨d, hd, e1, -⟩ := h4 i row x hi hrow hx
  exact ⟨d, hd.run, hd.t, hd.T, by rw [hd.e, ht, he]; ring, e1⟩

/-- **C127, disagreement.** Data that start at another time or strain are not followed: the material is at the strain of the
data plus an offset, the first rate times the first time less the first strain. The strains returned are those of the data. -/
theorem C127_offset (c : Setup H) (hr : c.rtol = 0) (ha : c.atol = 0) (sdir : Fin 6 → ℝ) (hs : norm2 sdir = 1)
    (n : ℕ) (hn : n ≠ 0) (p q : Datum) (qs : List Datum) (out : ThermoOut)
    (h : thermo c sdir n (p :: q :: qs) = some out) (i : ℕ) (row : ThermoRow) (x : Datum) (hi : 0 < i)
    (hrow : out.rows[i]? = some row) (hx : out.data[i]? = some x) :
      ∃ d : Driver H, (∃ ops, (c.driver p.T none).run ops = some d) ∧ d.t.last = x.t ∧
        d.strain.last ⬝ᵥ sdir = x.e + ((q.e - p.e) / (q.t - p.t) * p.t - p.e) ∧ d.stress.last = row.stress • sdir := by
  obtain ⟨h1, -, -, h4⟩ := thermo_spec c hr ha sdir hs n hn p q qs out h
  have hx' : (p :: q :: qs)[i]? = some x := by
    rw [h1] at hx
    rwa [List.getElem?_take_of_lt (List.getElem?_eq_some_iff.1 hrow).1] at hx
  obtain ⟨d, hd, e1, -⟩ := h4 i row x hi hrow hx'
  exact ⟨d, hd.run, hd.t, hd.e, e1⟩

/-- **C127, disagreement.** The last data point is never returned, also if all steps were solved. -/
theorem C127_last (c : Setup H) (sdir : Fin 6 → ℝ) (n : ℕ) (data : List Datum) (out : ThermoOut)
    (h : thermo c sdir n data = some out) : out.data.length < data.length ∧ out.rows.length < data.length := by
  match data, h with
  | p :: q :: qs, h =>
    obtain ⟨new, e1, e2, e3, e4⟩ := thermoLoop_rows sdir n true p (q :: qs) (c.driver p.T none) none []
    unfold thermo at h
    cases hl : thermoLoop sdir n true p (q :: qs) (c.driver p.T none) none [] with
    | mk d rest =>
      obtain ⟨rows, done⟩ := rest
      rw [hl] at e1 e3 e4
      simp only [List.append_nil] at e1
      subst e1
      simp only [hl, Option.some.injEq] at h
      subst h
      simp only [List.length_cons, List.length_take, List.length_append, List.length_reverse, List.length_replicate] at e3 e4 ⊢
      cases done with
      | true => have := e3 rfl; simp only [if_true]; omega
      | false => have := e4 rfl; simp only [Bool.false_eq_true, if_false]; omega

theorem run_thermal_zero (d0 d : Driver H) (ops : List Op) (hm : ∀ T, d0.model.alpha T = 0) (h0 : d0.thermal.last = 0)
    (h : d0.run ops = some d) : d.thermal.last = 0 := by
  induction ops generalizing d0 with
  | nil => simp only [Driver.run, Option.some.injEq] at h; subst h; exact h0
  | cons o os ih =>
    simp only [Driver.run, Option.bind_eq_some_iff] at h
    obtain ⟨d1, h1, h2⟩ := h
    obtain ⟨e, t, hst, -⟩ := step_strain d0 d1 o h1
    obtain ⟨_, -, m1, -, -, -, -, -, -, -, m2, -⟩ := strainStep_spec _ _ _ _ _ hst
    refine ih d1 (by rw [m1]; exact hm) ?_ h2
    rw [m2]
    change d0.thermalNext _ = 0
    rw [Driver.thermalNext, h0, hm, hm]
    simp

/-- **C127, disagreement.** What is returned as mechanical strain is the thermal strain: without thermal expansion it is zero
at all points, although the mechanical strain then is the whole strain. -/
theorem C127_mechanical (c : Setup H) (hr : c.rtol = 0) (ha : c.atol = 0) (sdir : Fin 6 → ℝ) (hs : norm2 sdir = 1)
    (hm : ∀ T, c.model.alpha T = 0) (n : ℕ) (hn : n ≠ 0) (p q : Datum) (qs : List Datum) (out : ThermoOut)
    (h : thermo c sdir n (p :: q :: qs) = some out) (i : ℕ) (row : ThermoRow) (hi : 0 < i)
    (hrow : out.rows[i]? = some row) : row.mech = 0 := by
  obtain ⟨h1, h2, -, h4⟩ := thermo_spec c hr ha sdir hs n hn p q qs out h
  have hl := (List.getElem?_eq_some_iff.1 hrow).1
  obtain ⟨x, hx⟩ : ∃ x, (p :: q :: qs)[i]? = some x :=
    ⟨_, List.getElem?_eq_getElem (by simp only [List.length_cons]; omega)⟩
  obtain ⟨d, hd, -, e⟩ := h4 i row x hi hrow hx
  obtain ⟨ops, ho⟩ := hd.run
  rw [e, run_thermal_zero _ d ops (fun T => hm T) rfl ho, zero_dotProduct]

/-- **C127.** With a linear elastic material all points but the last are returned, if the times are all different from the ones
before. -/
theorem C127_elastic (c : Setup H) (hr : c.rtol = 0) (ha : c.atol = 0) (hi : 0 < c.miter) (C : Matrix (Fin 6) (Fin 6) ℝ)
    (hm : IsElastic c.model C) (hC : C.det ≠ 0) (sdir : Fin 6 → ℝ) (hs : norm2 sdir = 1)
    (hd : sdir ⬝ᵥ C⁻¹ *ᵥ sdir ≠ 0) (n : ℕ) (hn : n ≠ 0) (data : List Datum) (h2 : 2 ≤ data.length)
    (h0 : ∀ p, data.head? = some p → p.t = 0) (ht : data.IsChain fun p q => p.t ≠ q.t) :
    ∃ out, thermo c sdir n data = some out ∧ out.data = data.dropLast := by
  match data, h2, h0, ht with
  | p :: q :: qs, h2, h0, ht =>
    have hnr : (n : ℝ) ≠ 0 := by exact_mod_cast hn
    have subs : ∀ (first : Bool) (p q : Datum) (hpq : p.t ≠ q.t) (m k : ℕ) (hk : k + m = n) (d : Driver H) (g : Guess),
        d.rtol = 0 → d.atol = 0 → 0 < d.miter → d.model = c.model → d.t.last = (p.at q n k).t →
        ∃ d' g', thermoSubs sdir n first p q m k d g = some (d', g') ∧ d'.rtol = 0 ∧ d'.atol = 0 ∧ 0 < d'.miter ∧
          d'.model = c.model ∧ d'.t.last = q.t := by
      intro first p q hpq m
      induction m with
      | zero =>
        intro k hk d g m1 m2 m3 m4 m5
        refine ⟨d, g, rfl, m1, m2, m3, m4, ?_⟩
        rw [m5, show k = n by omega, at_n p q n hn]
      | succ m ih =>
        intro k hk d g m1 m2 m3 m4 m5
        have hdt : (p.at q n (k + 1)).t - (p.at q n k).t ≠ 0 := by
          change (q.t - p.t) / n * (k + 1) + p.t - ((q.t - p.t) / n * k + p.t) ≠ 0
          rw [show (q.t - p.t) / n * (k + 1) + p.t - ((q.t - p.t) / n * k + p.t) = (q.t - p.t) / n by ring]
          exact div_ne_zero (sub_ne_zero.2 hpq.symm) hnr
        obtain ⟨⟨d1, de, s⟩, hx⟩ := C71_elastic_erate d m1.ge m2.ge m3 C (m4 ▸ hm) hC sdir hd
          (((p.at q n (k + 1)).e - (p.at q n k).e) / ((p.at q n (k + 1)).t - (p.at q n k).t)) (p.at q n (k + 1)).t
          (p.at q n (k + 1)).T (by rw [m5]; exact sub_ne_zero.1 hdt)
          ((if first then none else g).map Prod.fst) ((if first then none else g).map Prod.snd)
        obtain ⟨x, hx'⟩ := erateStep_strain d _ _ _ _ _ _ _ hx
        obtain ⟨_, -, q1, -, q2, q3, q4, -, -, -, -, -, -, -, q5, -⟩ := strainStep_spec _ _ _ _ _ hx'
        obtain ⟨d', g', hd', hrest⟩ := ih (k + 1) (by omega) d1 (some (de, s)) (q2.trans m1) (q3.trans m2) (q4.symm ▸ m3)
          (q1.trans m4) (by rw [q5, Nat.cast_add, Nat.cast_one]; rfl)
        refine ⟨d', g', ?_, hrest⟩
        rw [thermoSubs]
        have : thermoSub sdir n first p q k d g = some (d1, some (de, s)) := by
          unfold thermoSub
          rw [if_neg hdt]
          simp only [hx, Option.map_some]
        rw [this]
        exact hd'
    have lp : ∀ (qs : List Datum) (first : Bool) (p : Datum) (d : Driver H) (g : Guess) (rows : List ThermoRow),
        (p :: qs).IsChain (fun p q => p.t ≠ q.t) → d.rtol = 0 → d.atol = 0 → 0 < d.miter → d.model = c.model →
        d.t.last = p.t → (thermoLoop sdir n first p qs d g rows).2.2 = true := by
      intro qs
      induction qs with
      | nil => intros; rfl
      | cons q qs ih =>
        intro first p d g rows hch m1 m2 m3 m4 m5
        obtain ⟨d', g', hx, r1, r2, r3, r4, r5⟩ := subs first p q (List.isChain_cons_cons.1 hch).1 n 0 (by omega) d g m1 m2 m3
          m4 (by rw [at_zero]; exact m5)
        rw [thermoLoop, hx]
        exact ih false q d' g' _ (List.isChain_cons_cons.1 hch).2 r1 r2 r3 r4 r5
    have hdone := lp (q :: qs) true p (c.driver p.T none) none [] ht hr ha hi rfl (h0 p rfl).symm
    obtain ⟨new, e1, e2, e3, e4⟩ := thermoLoop_rows sdir n true p (q :: qs) (c.driver p.T none) none []
    have e5 := e3 hdone
    unfold thermo
    cases hl : thermoLoop sdir n true p (q :: qs) (c.driver p.T none) none [] with
    | mk d rest =>
      obtain ⟨rows, done⟩ := rest
      rw [hl] at e1 hdone
      simp only at hdone
      subst hdone
      simp only [List.append_nil] at e1
      subst e1
      simp only [hl, if_true, Option.some.injEq]
      refine ⟨_, rfl, ?_⟩
      simp only
      rw [e5, List.dropLast_eq_take]
      simp

/-- Three points of data, with two substeps for each interval: the material is loaded to 1 %, and the mechanical strain
returned there is zero. -/
example : ∃ out row, thermo (⟨counter, 0, 0, 25, 0⟩ : Setup ℕ) ![1, 0, 0, 0, 0, 0] 2
    [⟨0, 300, 0⟩, ⟨10, 400, 1 / 100⟩, ⟨20, 300, 0⟩] = some out ∧ out.rows[1]? = some row ∧ row.mech = 0 := by
  have hone : norm2 (![1, 0, 0, 0, 0, 0] : Fin 6 → ℝ) = 1 := by simp [norm2, Fin.sum_univ_six]
  obtain ⟨out, h, hd⟩ := C127_elastic (⟨counter, 0, 0, 25, 0⟩ : Setup ℕ) rfl rfl (by norm_num) 1 counter_elastic (by simp)
    ![1, 0, 0, 0, 0, 0] hone (by simp [dotProduct, Fin.sum_univ_six]) 2 (by norm_num)
    [⟨0, 300, 0⟩, ⟨10, 400, 1 / 100⟩, ⟨20, 300, 0⟩] (by simp) (by simp) (by simp)
  obtain ⟨e1, -⟩ := thermo_spec (⟨counter, 0, 0, 25, 0⟩ : Setup ℕ) rfl rfl ![1, 0, 0, 0, 0, 0] hone 2 (by norm_num) _ _ _ out h
  have hl : out.rows.length = 2 := by
    have h1 := congrArg List.length e1
    have h2 := (C127_last _ _ _ _ _ h).2
    rw [hd] at h1
    simp only [List.dropLast, List.length_cons, List.length_nil, List.length_take] at h1 h2
    omega
  have hrow : out.rows[1]? = some (out.rows[1]'(by omega)) := List.getElem?_eq_getElem _
  exact ⟨out, _, h, hrow, C127_mechanical _ rfl rfl _ hone (fun _ => rfl) 2 (by norm_num) _ _ _ out h 1 _ (by norm_num) hrow⟩

end Neml.DriverTests
