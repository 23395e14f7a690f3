import Verif.Props.DriverTests

/-!
# C128: strain rate jump tests follow their strains and rates
-/

namespace Neml.DriverTests

open Matrix Neml.Driver Neml.PySolve Neml.Uniaxial

variable {H : Type}

/-- The points of a jump test from time `t` and strain `e`: each strain of the list is approached in `n` equal steps at its
rate. -/
noncomputable def jumpPath (n : ℕ) : ℝ → ℝ → List (ℝ × ℝ) → List (ℝ × ℝ)
  | _, _, [] => []
  | t, e, (e', rate) :: l =>
    leg t e ((e' - e) / n / rate) ((e' - e) / n) n ++ jumpPath n (t + (e' - e) / rate) e' l

/-- Strains at equal distances, with the rates. -/
def evenly (d : ℝ) : ℝ → List ℝ → List (ℝ × ℝ)
  | _, [] => []
  | e, rate :: rates => (e + d, rate) :: evenly d (e + d) rates

theorem leg_end (path : List (ℝ × ℝ)) (t e e' rate : ℝ) (n : ℕ) (hn : n ≠ 0) (h : path.getLast? = some (t, e)) :
    (path ++ leg t e ((e' - e) / n / rate) ((e' - e) / n) n).getLast? = some (t + (e' - e) / rate, e') := by
  have hnr : (n : ℝ) ≠ 0 := by exact_mod_cast hn
  rw [leg_last path t e _ _ n h]
  congr 2
  · rw [← mul_div_assoc, mul_div_cancel₀ _ hnr]
  · rw [mul_div_cancel₀ _ hnr]; ring

theorem jumps_on {d0 : Driver H} (hr : d0.rtol = 0) (ha : d0.atol = 0)
    (h0 : d0.t.before.length = d0.stress.before.length) (sdir : Fin 6 → ℝ) (T eper : ℝ) (n : ℕ) (hn : n ≠ 0)
    (rates : List ℝ) (r r' : Rec H) (path : List (ℝ × ℝ)) (t e : ℝ) (h : On d0 T sdir r path)
    (hp : path.getLast? = some (t, e)) (hj : jumps sdir (eper / n) T n rates r = some r') :
    On d0 T sdir r' (path ++ jumpPath n t e (evenly eper e rates)) := by
  induction rates generalizing r path t e with
  | nil =>
    simp only [jumps, Option.some.injEq] at hj
    subst hj
    simpa [jumpPath, evenly] using h
  | cons rate rates ih =>
    simp only [jumps] at hj
    have hl := loop_leg (eincStep_went (sdir := sdir) hr ha h0 (fun _ => false) 1 (Or.inl rfl) rate (eper / n)) n (r, none) path
      t e h hp
    rw [one_smul, one_mul] at hl
    cases hx : loop (eincStep (fun _ => false) sdir sdir rate (eper / n) T) n (r, none) with
    | stop y => rw [hx] at hj; cases hj
    | ok y =>
      rw [hx] at hj hl
      have h1 := hl.1
      have hd : e + eper - e = eper := by ring
      have := ih y.1 _ (t + (e + eper - e) / rate) (e + eper) h1 (by
        have := leg_end path t e (e + eper) rate n hn hp
        rwa [hd] at this ⊢) hj
      rw [hd] at this
      simpa [jumpPath, evenly, hd] using this

/-- **C128.** A jump test along a unit direction, with exactly solved steps, makes the same strain at each of the rates, in
equal steps. The strains returned are evenly spaced, and the times and stresses of the driver are those at these strains. -/
theorem C128_rates (c : Setup H) (hr : c.rtol = 0) (ha : c.atol = 0) (T : ℝ) (history : Option H) (sdir : Fin 6 → ℝ)
    (hs : norm2 sdir = 1) (eper : ℝ) (n : ℕ) (rates : List ℝ) (r : Rec H)
    (h : rateJump c T history sdir eper n rates = some r) :
    r.strain.toList = (List.range (n * rates.length + 1)).map (fun k : ℕ => (k : ℝ) * (eper / n)) ∧
    r.d.t.toList = ((0, 0) :: jumpPath n 0 0 (evenly eper 0 rates)).map Prod.fst ∧
    r.d.strain.toList.map (· ⬝ᵥ sdir) = r.strain.toList ∧ r.d.stress.toList.map (· ⬝ᵥ sdir) = r.stress.toList := by
  unfold rateJump at h
  split_ifs at h with hn
  have hnr : (n : ℝ) ≠ 0 := by exact_mod_cast hn
  have w0 : On (c.driver T history) T sdir (Rec.new (c.driver T history)) [(0, 0)] := by
    refine ⟨?_, ?_, ?_, ?_, ?_, [], rfl, by simp⟩ <;> cases history <;>
      simp [Rec.new, Setup.driver, Driver.new, Series.toList]
  have w := jumps_on (by cases history <;> exact hr) (by cases history <;> exact ha) (by cases history <;> rfl) sdir T eper n hn
    rates _ r _ 0 0 w0 (by simp) h
  refine ⟨?_, ?_, w.strains, w.stresses⟩
  · have key : ∀ (rates : List ℝ) (t : ℝ) (j : ℕ), (jumpPath n t (j * (eper / n)) (evenly eper (j * (eper / n)) rates)).map
        Prod.snd = (List.range (n * rates.length)).map (fun k : ℕ => ((j + k + 1 : ℕ) : ℝ) * (eper / n)) := by
      intro rates
      induction rates with
      | nil => intro t j; simp [jumpPath, evenly]
      | cons rate rates ih =>
        intro t j
        have e1 : (j : ℝ) * (eper / n) + eper = ((j + n : ℕ) : ℝ) * (eper / n) := by
          rw [Nat.cast_add, add_mul, mul_div_cancel₀ _ hnr]
        have e2 : (j : ℝ) * (eper / n) + eper - j * (eper / n) = eper := by ring
        simp only [evenly, jumpPath, List.map_append, e2]
        rw [e1, ih, List.length_cons, Nat.mul_succ, Nat.add_comm (n * rates.length) n, List.range_add, List.map_append]
        congr 1
        · simp only [leg, List.map_map]
          refine List.map_congr_left fun k _ => ?_
          simp only [Function.comp_apply]
          push_cast
          ring
        · simp only [List.map_map]
          refine List.map_congr_left fun k _ => ?_
          simp only [Function.comp_apply]
          congr 2
          omega
    rw [w.strain, hs]
    have := key rates 0 0
    simp only [Nat.cast_zero, zero_mul, Nat.zero_add] at this
    simp only [one_mul, List.cons_append, List.nil_append, List.map_cons]
    rw [this, List.range_succ_eq_map, List.map_cons, List.map_map]
    congr 1
    simp
  · rw [w.times, w.time]; rfl

/-- Steps while the strain is below the target are exactly `n`. -/
theorem jumpTo_on {d0 : Driver H} (hr : d0.rtol = 0) (ha : d0.atol = 0)
    (h0 : d0.t.before.length = d0.stress.before.length) (sdir : Fin 6 → ℝ) (hs : norm2 sdir = 1) (T rate inc e' : ℝ)
    (hinc : 0 < inc) (m : ℕ) (fuel : ℕ) (r r' : Rec H) (path : List (ℝ × ℝ)) (t e : ℝ) (he : e + m * inc = e')
    (h : On d0 T sdir r path) (hp : path.getLast? = some (t, e)) (hj : jumpTo sdir rate inc T e' fuel r = some r') :
    On d0 T sdir r' (path ++ leg t e (inc / rate) inc m) := by
  induction m generalizing fuel r path t e with
  | zero =>
    cases fuel with
    | zero => cases hj
    | succ fuel =>
      have hl : r.strain.last = e := by
        have := toList_last (x := norm2 sdir * e) h.strain (by rw [List.getLast?_map, hp]; rfl)
        rwa [hs, one_mul] at this
      simp only [jumpTo] at hj
      rw [if_neg (by rw [hl, ← he]; simp)] at hj
      simp only [Option.some.injEq] at hj
      subst hj
      simpa [leg] using h
  | succ m ih =>
    cases fuel with
    | zero => cases hj
    | succ fuel =>
      have hl : r.strain.last = e := by
        have := toList_last (x := norm2 sdir * e) h.strain (by rw [List.getLast?_map, hp]; rfl)
        rwa [hs, one_mul] at this
      simp only [jumpTo] at hj
      rw [if_pos (by
        rw [hl, ← he]
        have : (0 : ℝ) < ((m + 1 : ℕ) : ℝ) * inc := mul_pos (by positivity) hinc
        linarith)] at hj
      have hl := eincStep_went (sdir := sdir) hr ha h0 (fun _ => false) 1 (Or.inl rfl) rate inc (r, none) path t e h hp
      rw [one_smul, one_mul] at hl
      cases hx : eincStep (fun _ => false) sdir sdir rate inc T (r, none) with
      | stop y => rw [hx] at hj; cases hj
      | ok y =>
        rw [hx] at hj hl
        have := ih fuel y.1 _ (t + inc / rate) (e + inc) (by rw [← he]; push_cast; ring) hl.1 (by simp) hj
        rw [leg_succ]
        simpa using this

theorem jumpsTo_on {d0 : Driver H} (hr : d0.rtol = 0) (ha : d0.atol = 0)
    (h0 : d0.t.before.length = d0.stress.before.length) (sdir : Fin 6 → ℝ) (hs : norm2 sdir = 1) (T : ℝ) (n : ℕ) (hn : n ≠ 0)
    (fuel : ℕ) (l : List (ℝ × ℝ)) (r r' : Rec H) (path : List (ℝ × ℝ)) (t e : ℝ)
    (hl : (e :: l.map Prod.fst).IsChain (· < ·)) (h : On d0 T sdir r path) (hp : path.getLast? = some (t, e))
    (hj : jumpsTo sdir T n fuel e l r = some r') : On d0 T sdir r' (path ++ jumpPath n t e l) := by
  have hnr : (0 : ℝ) < n := by exact_mod_cast Nat.pos_of_ne_zero hn
  induction l generalizing r path t e with
  | nil =>
    simp only [jumpsTo, Option.some.injEq] at hj
    subst hj
    simpa [jumpPath] using h
  | cons p l ih =>
    obtain ⟨e', rate⟩ := p
    simp only [List.map_cons, List.isChain_cons_cons] at hl
    simp only [jumpsTo] at hj
    cases hx : jumpTo sdir rate ((e' - e) / n) T e' fuel r with
    | none => rw [hx] at hj; cases hj
    | some y =>
      rw [hx] at hj
      have h1 := jumpTo_on hr ha h0 sdir hs T rate _ e' (div_pos (sub_pos.2 hl.1) hnr) n fuel r y path t e
        (by rw [mul_div_cancel₀ _ hnr.ne']; ring) h hp hx
      have := ih y _ _ e' hl.2 h1 (leg_end path t e e' rate n hn hp) hj
      simpa [jumpPath] using this

/-- **C128, as far as it goes.** A jump test with given strains, which increase from zero: each strain is approached in equal
steps, the given number of them, at its rate, and reached. Missing: strains that do not increase, see the next theorem. -/
theorem C128_strains_partial (c : Setup H) (hr : c.rtol = 0) (ha : c.atol = 0) (T : ℝ) (history : Option H)
    (sdir : Fin 6 → ℝ) (hs : norm2 sdir = 1) (n fuel : ℕ) (l : List (ℝ × ℝ)) (hl : (0 :: l.map Prod.fst).IsChain (· < ·))
    (r : Rec H) (h : rateJumpTo c T history sdir n fuel l = some r) :
    r.strain.toList = ((0, 0) :: jumpPath n 0 0 l).map Prod.snd ∧
    r.d.t.toList = ((0, 0) :: jumpPath n 0 0 l).map Prod.fst ∧
    r.d.strain.toList.map (· ⬝ᵥ sdir) = r.strain.toList ∧ r.d.stress.toList.map (· ⬝ᵥ sdir) = r.stress.toList := by
  unfold rateJumpTo at h
  split_ifs at h with hn
  have w0 : On (c.driver T history) T sdir (Rec.new (c.driver T history)) [(0, 0)] := by
    refine ⟨?_, ?_, ?_, ?_, ?_, [], rfl, by simp⟩ <;> cases history <;>
      simp [Rec.new, Setup.driver, Driver.new, Series.toList]
  have w := jumpsTo_on (by cases history <;> exact hr) (by cases history <;> exact ha) (by cases history <;> rfl) sdir hs T n hn
    fuel l _ r _ 0 0 hl w0 (by simp) h
  refine ⟨?_, ?_, w.strains, w.stresses⟩
  · rw [w.strain, hs]; simp
  · rw [w.times, w.time]; rfl

/-- **C128, disagreement.** With strains in compression nothing is run at all: the start is returned, whatever the rates. -/
theorem C128_compression (c : Setup H) (T : ℝ) (history : Option H) (sdir : Fin 6 → ℝ) (n fuel : ℕ) (hn : n ≠ 0)
    (l : List (ℝ × ℝ)) (hl : ∀ p ∈ l, p.1 ≤ 0) :
    ∃ r, rateJumpTo c T history sdir n (fuel + 1) l = some r ∧ r.strain.toList = [0] ∧ r.stress.toList = [0] := by
  refine ⟨Rec.new (c.driver T history), ?_, rfl, rfl⟩
  unfold rateJumpTo
  rw [if_neg hn]
  generalize (0 : ℝ) = prev
  induction l generalizing prev with
  | nil => rfl
  | cons p l ih =>
    obtain ⟨e, rate⟩ := p
    have he : e ≤ 0 := hl (e, rate) (by simp)
    have : jumpTo sdir rate ((e - prev) / n) T e (fuel + 1) (Rec.new (c.driver T history)) =
        some (Rec.new (c.driver T history)) := by
      rw [jumpTo, if_neg (by simpa [Rec.new] using he)]
    simp only [jumpsTo, this]
    exact ih (fun p hp => hl p (List.mem_cons_of_mem _ hp)) e

theorem eincStep_elastic (d0 : Driver H) (hr : d0.rtol = 0) (ha : d0.atol = 0) (hi : 0 < d0.miter)
    (C : Matrix (Fin 6) (Fin 6) ℝ) (hm : IsElastic d0.model C) (hC : C.det ≠ 0) (sdir : Fin 6 → ℝ)
    (hd : sdir ⬝ᵥ C⁻¹ *ᵥ sdir ≠ 0) (T rate inc : ℝ) (h1 : rate ≠ 0) (h2 : inc ≠ 0) (x : Rec H × Guess)
    (path : List (ℝ × ℝ)) (h : On d0 T sdir x.1 path) :
    ∃ y, eincStep (fun _ => false) sdir sdir rate inc T x = .ok y := by
  obtain ⟨m1, m2, m3, m4⟩ := h.model
  obtain ⟨q, hx⟩ := C71_elastic_einc x.1.d (m1.trans hr).ge (m2.trans ha).ge (by rw [m4]; exact hi) C
    (by rw [m3]; exact hm) hC sdir hd rate inc T h1 h2 (x.2.map Prod.fst) (x.2.map Prod.snd)
  exact ⟨_, by rw [eincStep, hx]; simp only [Bool.false_eq_true, if_false]; rfl⟩

/-- **C128.** With a linear elastic material and exact solves a jump test with increasing strains is run, and the search for
each strain takes one round more than steps. -/
theorem C128_elastic (c : Setup H) (hr : c.rtol = 0) (ha : c.atol = 0) (hi : 0 < c.miter)
    (C : Matrix (Fin 6) (Fin 6) ℝ) (hm : IsElastic c.model C) (hC : C.det ≠ 0) (T : ℝ) (history : Option H)
    (sdir : Fin 6 → ℝ) (hs : norm2 sdir = 1) (hd : sdir ⬝ᵥ C⁻¹ *ᵥ sdir ≠ 0) (n fuel : ℕ) (hn : n ≠ 0) (hf : n < fuel)
    (l : List (ℝ × ℝ)) (hl : (0 :: l.map Prod.fst).IsChain (· < ·)) (hrate : ∀ p ∈ l, p.2 ≠ 0) :
    ∃ r, rateJumpTo c T history sdir n fuel l = some r := by
  have hnr : (0 : ℝ) < n := by exact_mod_cast Nat.pos_of_ne_zero hn
  unfold rateJumpTo
  rw [if_neg hn]
  have w0 : On (c.driver T history) T sdir (Rec.new (c.driver T history)) [(0, 0)] := by
    refine ⟨?_, ?_, ?_, ?_, ?_, [], rfl, by simp⟩ <;> cases history <;>
      simp [Rec.new, Setup.driver, Driver.new, Series.toList]
  have g1 : (c.driver T history).rtol = 0 := by cases history <;> exact hr
  have g2 : (c.driver T history).atol = 0 := by cases history <;> exact ha
  have g3 : (c.driver T history).t.before.length = (c.driver T history).stress.before.length := by cases history <;> rfl
  have g4 : 0 < (c.driver T history).miter := by cases history <;> exact hi
  have g5 : IsElastic (c.driver T history).model C := by cases history <;> exact hm
  have one : ∀ (m fuel : ℕ) (hm : m < fuel) (rate inc e' : ℝ) (h1 : rate ≠ 0) (h2 : 0 < inc) (r : Rec H)
      (path : List (ℝ × ℝ)) (t e : ℝ), On (c.driver T history) T sdir r path → path.getLast? = some (t, e) →
      e + m * inc = e' → ∃ r', jumpTo sdir rate inc T e' fuel r = some r' := by
    intro m
    induction m with
    | zero =>
      intro fuel hf rate inc e' h1 h2 r path t e h hp he
      obtain ⟨fuel, rfl⟩ := Nat.exists_eq_succ_of_ne_zero (Nat.ne_of_gt hf)
      have hl : r.strain.last = e := by
        have := toList_last (x := norm2 sdir * e) h.strain (by rw [List.getLast?_map, hp]; rfl)
        rwa [hs, one_mul] at this
      exact ⟨r, by rw [jumpTo, if_neg (by rw [hl, ← he]; simp)]⟩
    | succ m ih =>
      intro fuel hf rate inc e' h1 h2 r path t e h hp he
      obtain ⟨fuel, rfl⟩ := Nat.exists_eq_succ_of_ne_zero (Nat.ne_of_gt (Nat.lt_of_le_of_lt (Nat.zero_le _) hf))
      have hl : r.strain.last = e := by
        have := toList_last (x := norm2 sdir * e) h.strain (by rw [List.getLast?_map, hp]; rfl)
        rwa [hs, one_mul] at this
      obtain ⟨y, hy⟩ := eincStep_elastic _ g1 g2 g4 C g5 hC sdir hd T rate inc h1 h2.ne' (r, none) path h
      have hw := eincStep_went (sdir := sdir) g1 g2 g3 (fun _ => false) 1 (Or.inl rfl) rate inc (r, none) path t e h hp
      rw [one_smul, one_mul, hy] at hw
      obtain ⟨r', hr'⟩ := ih fuel (by omega) rate inc e' h1 h2 y.1 _ (t + inc / rate) (e + inc) hw.1 (by simp)
        (by rw [← he]; push_cast; ring)
      refine ⟨r', ?_⟩
      rw [jumpTo, if_pos (by
        rw [hl, ← he]
        have : (0 : ℝ) < ((m + 1 : ℕ) : ℝ) * inc := mul_pos (by positivity) h2
        linarith), hy]
      exact hr'
  have all : ∀ (l : List (ℝ × ℝ)) (r : Rec H) (path : List (ℝ × ℝ)) (t e : ℝ), (e :: l.map Prod.fst).IsChain (· < ·) →
      (∀ p ∈ l, p.2 ≠ 0) → On (c.driver T history) T sdir r path → path.getLast? = some (t, e) →
      ∃ r', jumpsTo sdir T n fuel e l r = some r' := by
    intro l
    induction l with
    | nil => intro r path t e _ _ _ _; exact ⟨r, rfl⟩
    | cons p l ih =>
      intro r path t e hl hrate h hp
      obtain ⟨e', rate⟩ := p
      simp only [List.map_cons, List.isChain_cons_cons] at hl
      have hinc : 0 < (e' - e) / n := div_pos (sub_pos.2 hl.1) hnr
      have hsum : e + n * ((e' - e) / n) = e' := by rw [mul_div_cancel₀ _ hnr.ne']; ring
      obtain ⟨y, hy⟩ := one n fuel hf rate _ e' (hrate (e', rate) (by simp)) hinc r path t e h hp hsum
      have h1 := jumpTo_on g1 g2 g3 sdir hs T rate _ e' hinc n fuel r y path t e hsum h hp hy
      obtain ⟨z, hz⟩ := ih y _ _ e' hl.2 (fun p hp => hrate p (List.mem_cons_of_mem _ hp)) h1
        (leg_end path t e e' rate n hn hp)
      exact ⟨z, by rw [jumpsTo, hy]; exact hz⟩
  exact all l _ _ 0 0 hl hrate w0 (by simp)

/-- A concrete test with two jumps. -/
example : ∃ r, rateJumpTo (⟨counter, 0, 0, 25, 0⟩ : Setup ℕ) 300 none ![1, 0, 0, 0, 0, 0] 10 11
    [(1 / 100, 1 / 1000), (3 / 100, 1 / 10)] = some r ∧ r.strain.toList.length = 21 := by
  have hone : norm2 (![1, 0, 0, 0, 0, 0] : Fin 6 → ℝ) = 1 := by simp [norm2, Fin.sum_univ_six]
  have hch : ((0 : ℝ) :: [((1 / 100 : ℝ), (1 / 1000 : ℝ)), (3 / 100, 1 / 10)].map Prod.fst).IsChain (· < ·) := by
    norm_num
  obtain ⟨r, hr⟩ := C128_elastic (⟨counter, 0, 0, 25, 0⟩ : Setup ℕ) rfl rfl (by norm_num) 1 counter_elastic (by simp) 300 none
    ![1, 0, 0, 0, 0, 0] hone (by simp [dotProduct, Fin.sum_univ_six]) 10 11 (by norm_num) (by norm_num) _ hch (by simp)
  refine ⟨r, hr, ?_⟩
  rw [(C128_strains_partial _ rfl rfl _ _ _ hone _ _ _ hch r hr).1]
  simp [jumpPath, leg]

end Neml.DriverTests
