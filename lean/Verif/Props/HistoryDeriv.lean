import Verif.Props.HistoryMore
import Mathlib.Algebra.BigOperators.Ring.List

/-!
# C08: derivative histories

`history_derivative` of a history with variables `vs` with respect to one with
variables `ws` has one variable `v_w` per pair. Storage of the blocks is row-major:
block `v_w` starts at `start v * (size of ws) + size v * start w`.
-/

namespace Neml.Hist

variable {K : Type}

/-- The name of a derivative block. -/
def pairName (v w : String) : String := v ++ "_" ++ w

/-- All block names, row by row. -/
def blockNames (vs ws : List Var) : List String :=
  vs.flatMap (fun v => ws.map (fun w => pairName v.1 w.1))

theorem derivTy_size {a b t : STy} (h : derivTy a b = some t) {n k : Nat}
    (hn : a.size? = some n) (hk : b.size? = some k) : t.size? = some (n * k) := by
  cases a <;> cases b <;> simp [derivTy] at h <;> subst h <;> simp [STy.size?] at hn hk ⊢ <;> subst hn hk <;> rfl

/-- The variables of the derivative history. -/
def derivVars (vs ws : List Var) : List Var :=
  vs.flatMap (fun v => ws.map (fun w =>
    (pairName v.1 w.1, (derivTy v.2.1 w.2.1).getD .blank, v.2.2 * w.2.2)))

theorem names_derivVars (vs ws : List Var) : names (derivVars vs ws) = blockNames vs ws := by
  simp [names, derivVars, blockNames, List.map_flatMap, Function.comp_def]

/-- Every pair has a derivative type. -/
def Pairable (vs ws : List Var) : Prop :=
  ∀ v ∈ vs, ∀ w ∈ ws, (derivTy v.2.1 w.2.1).isSome

theorem derivEntries_append (h o : Layout) (a b : List (String × String)) :
    derivEntries h o (a ++ b) = match derivEntries h o a with
      | .error e => .error e
      | .ok xs => match derivEntries h o b with
        | .error e => .error e
        | .ok ys => .ok (xs ++ ys) := by
  induction a with
  | nil => simp only [List.nil_append, derivEntries]; cases derivEntries h o b <;> rfl
  | cons p r ih =>
    obtain ⟨x, y⟩ := p
    simp only [List.cons_append, derivEntries, ih]
    cases derivEntry h o x y with
    | error e => rfl
    | ok z =>
      simp only
      cases derivEntries h o r with
      | error e => rfl
      | ok xs =>
        simp only
        cases derivEntries h o b <;> simp

theorem derivEntry_ok {h o : Layout} {vs ws : List Var} (th : Tiled h vs) (tw : Tiled o ws)
    {v w : Var} (hv : v ∈ vs) (hw : w ∈ ws) {t : STy} (ht : derivTy v.2.1 w.2.1 = some t)
    (sv : v.2.1.size? = some v.2.2) (sw : w.2.1.size? = some w.2.2) :
    derivEntry h o v.1 w.1 = .ok (pairName v.1 w.1, t, v.2.2 * w.2.2) := by
  unfold derivEntry
  rw [th.typ, tw.typ, typeOf_mem th.nodup hv, typeOf_mem tw.nodup hw]
  simp only [ht, derivTy_size ht sv sw]
  rfl

theorem derivEntries_ok {h o : Layout} {vs ws : List Var} (th : Tiled h vs) (tw : Tiled o ws)
    (hsv : ∀ v ∈ vs, v.2.1.size? = some v.2.2) (hsw : ∀ w ∈ ws, w.2.1.size? = some w.2.2)
    (hp : Pairable vs ws) :
    derivEntries h o (pairs h.order o.order) = .ok (derivVars vs ws) := by
  rw [th.order, tw.order]
  have row : ∀ v ∈ vs, ∀ (r : List Var), (∀ w ∈ r, w ∈ ws) →
      derivEntries h o ((names r).map (fun y => (v.1, y))) =
        .ok (r.map (fun w => (pairName v.1 w.1, (derivTy v.2.1 w.2.1).getD .blank, v.2.2 * w.2.2))) := by
    intro v hv r
    induction r with
    | nil => intro _; rfl
    | cons w r ih =>
      intro hr
      obtain ⟨t, ht⟩ := Option.isSome_iff_exists.1 (hp v hv w (hr w (by simp)))
      simp only [names_cons, List.map_cons, derivEntries]
      rw [derivEntry_ok th tw hv (hr w (by simp)) ht (hsv v hv) (hsw w (hr w (by simp))),
        ih (fun w hw => hr w (by simp [hw]))]
      simp [ht]
  have all : ∀ (l : List Var), (∀ v ∈ l, v ∈ vs) →
      derivEntries h o (pairs (names l) (names ws)) = .ok (derivVars l ws) := by
    intro l
    induction l with
    | nil => intro _; rfl
    | cons v l ih =>
      intro hl
      have e : pairs (names (v :: l)) (names ws) =
          (names ws).map (fun y => (v.1, y)) ++ pairs (names l) (names ws) := by
        simp [pairs, names_cons]
      rw [e, derivEntries_append, row v (hl v (by simp)) ws (fun w hw => hw),
        ih (fun v hv => hl v (by simp [hv]))]
      simp [derivVars]
  exact all vs (fun v hv => hv)

theorem derivEntries_fail {h o : Layout} {vs ws : List Var} (th : Tiled h vs) (tw : Tiled o ws)
    {v w : Var} (hv : v ∈ vs) (hw : w ∈ ws) (ht : derivTy v.2.1 w.2.1 = none) :
    ∃ e, derivEntries h o (pairs h.order o.order) = .error e := by
  have hmem : (v.1, w.1) ∈ pairs h.order o.order := by
    simp only [pairs, List.mem_flatMap, List.mem_map, th.order, tw.order]
    exact ⟨v.1, List.mem_map_of_mem hv, w.1, List.mem_map_of_mem hw, rfl⟩
  have hbad : ∃ e, derivEntry h o v.1 w.1 = .error e := by
    unfold derivEntry
    rw [th.typ, tw.typ, typeOf_mem th.nodup hv, typeOf_mem tw.nodup hw]
    simp [ht]
  generalize pairs h.order o.order = l at hmem
  induction l with
  | nil => simp at hmem
  | cons p r ih =>
    obtain ⟨x, y⟩ := p
    simp only [derivEntries]
    cases hd : derivEntry h o x y with
    | error e => exact ⟨e, rfl⟩
    | ok z =>
      rcases List.mem_cons.1 hmem with he | he
      · simp only [Prod.mk.injEq] at he
        obtain ⟨e, hb⟩ := hbad
        rw [he.1, he.2, hd] at hb
        simp at hb
      · obtain ⟨e, h2⟩ := ih he
        exact ⟨e, by simp [h2]⟩

theorem total_derivVars (vs ws : List Var) : total (derivVars vs ws) = total vs * total ws := by
  induction vs with
  | nil => simp [derivVars, total]
  | cons v r ih =>
    have e : derivVars (v :: r) ws = ws.map (fun w =>
      (pairName v.1 w.1, (derivTy v.2.1 w.2.1).getD .blank, v.2.2 * w.2.2)) ++ derivVars r ws := by
      simp [derivVars]
    rw [e, total_append, ih, total_cons]
    have : total (ws.map (fun w =>
        ((pairName v.1 w.1, (derivTy v.2.1 w.2.1).getD .blank, v.2.2 * w.2.2) : Var))) =
        v.2.2 * total ws := by
      simp only [total, List.map_map, Function.comp_def]
      rw [List.sum_map_mul_left]
    rw [this]; ring

theorem startOf_row (f : Var → Var) (c : Nat) : ∀ (ws : List Var),
    (∀ w ∈ ws, (f w).2.2 = c * w.2.2) → (names (ws.map f)).Nodup → (names ws).Nodup →
    ∀ w ∈ ws, ∀ q, startOf ws w.1 = some q → startOf (ws.map f) (f w).1 = some (c * q) := by
  intro ws
  induction ws with
  | nil => intro _ _ _ w hw; simp at hw
  | cons u r ih =>
    intro hf hn hn' w hw q hq
    simp only [List.map_cons, names_cons, List.nodup_cons] at hn hn'
    rcases List.mem_cons.1 hw with rfl | hw
    · simp only [startOf, if_true, Option.some.injEq] at hq
      subst hq
      simp [startOf]
    · have h1 : (f w).1 ≠ (f u).1 := by
        intro he; apply hn.1; rw [← he]
        exact List.mem_map_of_mem (f := fun v : Var => v.1) (List.mem_map_of_mem hw)
      have h2 : w.1 ≠ u.1 := by
        intro he; apply hn'.1; rw [← he]; exact List.mem_map_of_mem hw
      simp only [startOf, h2, if_false, Option.map_eq_some_iff] at hq
      obtain ⟨q', hq', rfl⟩ := hq
      have := ih (fun w hw => hf w (by simp [hw])) hn.2 hn'.2 w hw q' hq'
      simp only [List.map_cons, startOf, h1, if_false, this, Option.map_some]
      rw [hf u (by simp)]
      congr 1; ring

theorem startOf_derivVars {vs ws : List Var} (hn : (blockNames vs ws).Nodup) (hnv : (names vs).Nodup)
    (hnw : (names ws).Nodup) {v w : Var} (hv : v ∈ vs) (hw : w ∈ ws) {p q : Nat}
    (hp : startOf vs v.1 = some p) (hq : startOf ws w.1 = some q) :
    startOf (derivVars vs ws) (pairName v.1 w.1) = some (p * total ws + v.2.2 * q) := by
  induction vs generalizing p with
  | nil => simp at hv
  | cons u r ih =>
    have e : derivVars (u :: r) ws = ws.map (fun w =>
      (pairName u.1 w.1, (derivTy u.2.1 w.2.1).getD .blank, u.2.2 * w.2.2)) ++ derivVars r ws := by
      simp [derivVars]
    have eb : blockNames (u :: r) ws = ws.map (fun w => pairName u.1 w.1) ++ blockNames r ws := by
      simp [blockNames]
    rw [eb, List.nodup_append] at hn
    simp only [names_cons, List.nodup_cons] at hnv
    have erow : names (ws.map (fun w =>
        ((pairName u.1 w.1, (derivTy u.2.1 w.2.1).getD .blank, u.2.2 * w.2.2) : Var))) =
        ws.map (fun w => pairName u.1 w.1) := by
      simp [names, Function.comp_def]
    have htot : total (ws.map (fun w =>
        ((pairName u.1 w.1, (derivTy u.2.1 w.2.1).getD .blank, u.2.2 * w.2.2) : Var))) =
        u.2.2 * total ws := by
      simp only [total, List.map_map, Function.comp_def]
      rw [List.sum_map_mul_left]
    rw [e, startOf_append]
    rcases List.mem_cons.1 hv with hvu | hvr
    · subst hvu
      simp only [startOf, if_true, Option.some.injEq] at hp
      subst hp
      have := startOf_row (fun w => (pairName v.1 w.1, (derivTy v.2.1 w.2.1).getD .blank, v.2.2 * w.2.2))
        v.2.2 ws (fun _ _ => rfl) (by rw [erow]; exact hn.1) hnw w hw q hq
      simp only at this
      rw [this]; simp
    · have hne : v.1 ≠ u.1 := by
        intro he; apply hnv.1; rw [← he]; exact List.mem_map_of_mem hvr
      simp only [startOf, hne, if_false, Option.map_eq_some_iff] at hp
      obtain ⟨p', hp', rfl⟩ := hp
      have hmem : pairName v.1 w.1 ∈ blockNames r ws := by
        simp only [blockNames, List.mem_flatMap, List.mem_map]
        exact ⟨v, hvr, w, hw, rfl⟩
      have hno : pairName v.1 w.1 ∉ names (ws.map (fun w =>
          ((pairName u.1 w.1, (derivTy u.2.1 w.2.1).getD .blank, u.2.2 * w.2.2) : Var))) := by
        rw [erow]; intro hc; exact hn.2.2 _ hc _ hmem rfl
      rw [startOf_eq_none.2 hno, ih hn.2.1 hnv.2 hvr hp']
      simp only [Option.map_some, htot]
      congr 1; ring

/-- Everything about a successful `history_derivative`. -/
theorem historyDerivative_spec [Zero K] {m m' : Mem K} {h o d : Obj} {vs ws : List Var}
    (th : Tiled h.toLayout vs) (tw : Tiled o.toLayout ws)
    (hsv : ∀ v ∈ vs, v.2.1.size? = some v.2.2) (hsw : ∀ w ∈ ws, w.2.1.size? = some w.2.2)
    (hr : historyDerivative m h o = .ok (d, m')) :
    Pairable vs ws ∧ (blockNames vs ws).Nodup ∧ Tiled d.toLayout (derivVars vs ws) ∧
      d.store = true ∧ (∀ k < d.size, m'.cell (d.base + k) = 0) ∧
      (∀ a < m.brk, m'.cell a = m.cell a) := by
  have hp : Pairable vs ws := by
    intro v hv w hw
    by_contra hc
    have hc' : derivTy v.2.1 w.2.1 = none := by simpa using hc
    obtain ⟨e, he⟩ := derivEntries_fail th tw hv hw hc'
    unfold historyDerivative at hr
    rw [he] at hr
    simp at hr
  unfold historyDerivative at hr
  rw [derivEntries_ok th tw hsv hsw hp] at hr
  simp only at hr
  -- the object after reserving
  have hl0 : Ok (increaseStore (new m).2 (new m).1 (h.size * o.size)).2
      (increaseStore (new m).2 (new m).1 (h.size * o.size)).1 := by
    refine ⟨fit_empty, ?_, ?_⟩
    · simp [increaseStore, foot, new, Layout.empty]
    · simp [increaseStore, foot, new, Layout.empty, Mem.alloc, Mem.copy]
  have ht0 : Tiled (increaseStore (new m).2 (new m).1 (h.size * o.size)).1.toLayout [] := tiled_empty
  cases h2 : addAll (increaseStore (new m).2 (new m).1 (h.size * o.size)).2
      (increaseStore (new m).2 (new m).1 (h.size * o.size)).1 (derivVars vs ws) with
  | error e => rw [h2] at hr; simp at hr
  | ok x =>
    obtain ⟨c, m1⟩ := x
    rw [h2] at hr
    simp only [Except.ok.injEq, Prod.mk.injEq] at hr
    obtain ⟨rfl, rfl⟩ := hr
    obtain ⟨t, l, s, b, fr, _, _⟩ := addAll_spec _ hl0.live rfl ht0 h2
    simp only [List.nil_append] at t
    have hnd := t.nodup
    rw [names_derivVars] at hnd
    refine ⟨hp, hnd, t, s, ?_, ?_⟩
    · intro k hk
      exact if_pos ⟨by omega, by omega⟩
    · have hz : ∀ v ∈ derivVars vs ws, v.2.1.size? = some v.2.2 := by
        intro z hz
        simp only [derivVars, List.mem_flatMap, List.mem_map] at hz
        obtain ⟨v, hv, w, hw, rfl⟩ := hz
        obtain ⟨t, ht⟩ := Option.isSome_iff_exists.1 (hp v hv w hw)
        simp only [ht, Option.getD_some]
        exact derivTy_size ht (hsv v hv) (hsw w hw)
      obtain ⟨mk, hs⟩ := addAll_keeps m _ hl0 hz rfl
        (by simp [increaseStore, new, Mem.alloc])
        (by simp [increaseStore, new, Mem.alloc, Mem.copy])
        (by
          intro a ha
          simp only [increaseStore]
          refine (copy_out _ (by simp only [new, Mem.alloc]; omega)).trans ?_
          simp [new, Mem.alloc]) h2
      intro a ha
      have hb := (mk.own hs).2.1
      exact (if_neg (by omega)).trans (mk.cells a ha)

/-- C08. `history_derivative` of histories built by additions `vs` and `ws` succeeds
exactly when every pair of types has a derivative type and the combined names are
distinct. -/
theorem C08_derivative_iff [Zero K] (m₁ m₁' m₂ m₂' m : Mem K) (h o : Obj) (vs ws : List Var)
    (hh : addAll (new m₁).2 (new m₁).1 vs = .ok (h, m₁'))
    (ho : addAll (new m₂).2 (new m₂).1 ws = .ok (o, m₂'))
    (hsv : ∀ v ∈ vs, v.2.1.size? = some v.2.2) (hsw : ∀ w ∈ ws, w.2.1.size? = some w.2.2) :
    (∃ r, historyDerivative m h o = .ok r) ↔
      (∀ v ∈ vs, ∀ w ∈ ws, (derivTy v.2.1 w.2.1).isSome) ∧
      (vs.flatMap (fun v => ws.map (fun w => v.1 ++ "_" ++ w.1))).Nodup := by
  have th : Tiled h.toLayout vs := by simpa using addAll_tiled vs (h := (new m₁).1) tiled_empty hh
  have tw : Tiled o.toLayout ws := by simpa using addAll_tiled ws (h := (new m₂).1) tiled_empty ho
  constructor
  · rintro ⟨⟨d, m'⟩, hr⟩
    obtain ⟨h1, h2, _⟩ := historyDerivative_spec th tw hsv hsw hr
    exact ⟨h1, h2⟩
  · rintro ⟨hp, hn⟩
    unfold historyDerivative
    rw [derivEntries_ok th tw hsv hsw hp]
    simp only
    have ht0 : Tiled (increaseStore (new m).2 (new m).1 (h.size * o.size)).1.toLayout [] := tiled_empty
    obtain ⟨⟨d, m'⟩, hd⟩ := (addAll_ok_iff (derivVars vs ws)
      (m := (increaseStore (new m).2 (new m).1 (h.size * o.size)).2) ht0).2
      (by rw [List.nil_append, names_derivVars]; exact hn)
    rw [hd]
    exact ⟨_, rfl⟩

/-- C08. Layout of the derivative history: one block per ordered pair of variables,
listed row by row; block `v_w` has `size v * size w` entries and starts at
`start v * size(o) + size v * start w`; in total `size(h) * size(o)` entries, all
zero. -/
theorem C08_derivative_layout [Zero K] (m₁ m₁' m₂ m₂' m m' : Mem K) (h o d : Obj) (vs ws : List Var)
    (hh : addAll (new m₁).2 (new m₁).1 vs = .ok (h, m₁'))
    (ho : addAll (new m₂).2 (new m₂).1 ws = .ok (o, m₂'))
    (hsv : ∀ v ∈ vs, v.2.1.size? = some v.2.2) (hsw : ∀ w ∈ ws, w.2.1.size? = some w.2.2)
    (hr : historyDerivative m h o = .ok (d, m')) :
    d.order = vs.flatMap (fun v => ws.map (fun w => v.1 ++ "_" ++ w.1)) ∧
    d.size = h.size * o.size ∧
    (∀ k < d.size, m'.cell (d.base + k) = 0) ∧
    ∀ v ∈ vs, ∀ w ∈ ws, ∀ p q, h.loc v.1 = some p → o.loc w.1 = some q →
      d.loc (v.1 ++ "_" ++ w.1) = some (p * o.size + v.2.2 * q) ∧
      d.typ (v.1 ++ "_" ++ w.1) = derivTy v.2.1 w.2.1 ∧
      sizeOfEntry d.toLayout (v.1 ++ "_" ++ w.1) = some (v.2.2 * w.2.2) := by
  have th : Tiled h.toLayout vs := by simpa using addAll_tiled vs (h := (new m₁).1) tiled_empty hh
  have tw : Tiled o.toLayout ws := by simpa using addAll_tiled ws (h := (new m₂).1) tiled_empty ho
  obtain ⟨hp, hn, t, _, hz, _⟩ := historyDerivative_spec th tw hsv hsw hr
  refine ⟨by rw [t.order, names_derivVars]; rfl, ?_, hz, ?_⟩
  · rw [t.size, total_derivVars, th.size, tw.size]
  · intro v hv w hw p q hp' hq'
    rw [th.loc] at hp'
    rw [tw.loc] at hq'
    obtain ⟨ty, hty⟩ := Option.isSome_iff_exists.1 (hp v hv w hw)
    have hmem : (pairName v.1 w.1, (derivTy v.2.1 w.2.1).getD .blank, v.2.2 * w.2.2) ∈
        derivVars vs ws := by
      simp only [derivVars, List.mem_flatMap, List.mem_map]
      exact ⟨v, hv, w, hw, rfl⟩
    have htyp : d.typ (pairName v.1 w.1) = some ty := by
      rw [t.typ]
      have := typeOf_mem t.nodup hmem
      simpa [hty] using this
    refine ⟨?_, ?_, ?_⟩
    · rw [t.loc, tw.size]
      exact startOf_derivVars hn th.nodup tw.nodup hv hw hp' hq'
    · rw [hty]; exact htyp
    · unfold sizeOfEntry
      show (d.typ (pairName v.1 w.1)).bind STy.size? = _
      rw [htyp]
      exact derivTy_size hty (hsv v hv) (hsw w hw)

/-- Different variables can give the same combined name: `a`, `a_b` against `b_c`,
`c`. Then `history_derivative` throws although both histories are valid. -/
theorem C08_name_collision :
    ∃ (h o : Obj) (m₁ m₂ : Mem Int),
      addAll (new ⟨fun _ => 0, 0⟩).2 (new ⟨fun _ => (0 : Int), 0⟩).1
        [("a", .scalar, 1), ("a_b", .scalar, 1)] = .ok (h, m₁) ∧
      addAll (new ⟨fun _ => 0, 0⟩).2 (new ⟨fun _ => (0 : Int), 0⟩).1
        [("b_c", .scalar, 1), ("c", .scalar, 1)] = .ok (o, m₂) ∧
      historyDerivative m₂ h o = .error .nameExists :=
  ⟨_, _, _, _, rfl, rfl, by rfl⟩

/-- Non-vacuity for C08: a scalar and a symmetric tensor against the same. -/
example : ∃ (h : Obj) (m₁ : Mem Int) (r : Obj × Mem Int),
    addAll (new ⟨fun _ => 0, 0⟩).2 (new ⟨fun _ => (0 : Int), 0⟩).1
      [("a", .scalar, 1), ("b", .symmetric, 6)] = .ok (h, m₁) ∧
    historyDerivative m₁ h h = .ok r ∧ r.1.size = 49 ∧ r.1.loc "b_a" = some 7 ∧
    r.1.loc "b_b" = some 13 :=
  ⟨_, _, _, rfl, rfl, by rfl, by rfl, by rfl⟩

/-! ## unravel_hh -/

theorem divmod {a b n : Nat} (h : b < n) : (a * n + b) / n = a ∧ (a * n + b) % n = b := by
  have hpos : 0 < n := by omega
  constructor
  · rw [Nat.add_comm, Nat.add_mul_div_right _ _ hpos, Nat.div_eq_of_lt h, Nat.zero_add]
  · rw [Nat.add_comm, Nat.add_mul_mod_self_right, Nat.mod_eq_of_lt h]

theorem foldl_assign (m : Mem K) (G : Nat → K) (ps : List (Nat × Nat))
    (hG : ∀ p ∈ ps, m.cell p.2 = G p.1) (A : Nat → K) (x : Nat) :
    (ps.foldl (fun A p => fun x => if x = p.1 then m.cell p.2 else A x) A) x =
      if x ∈ ps.map Prod.fst then G x else A x := by
  induction ps generalizing A with
  | nil => simp
  | cons p r ih =>
    rw [List.foldl_cons, ih (fun q hq => hG q (by simp [hq]))]
    by_cases h1 : x ∈ r.map Prod.fst
    · rw [if_pos h1, if_pos (by simp only [List.map_cons, List.mem_cons]; exact Or.inr h1)]
    · rw [if_neg h1]
      by_cases h2 : x = p.1
      · rw [if_pos h2, if_pos (by simp [h2]), h2, hG p (by simp)]
      · rw [if_neg h2, if_neg (by
          simp only [List.map_cons, List.mem_cons, not_or]; exact ⟨h2, h1⟩)]

theorem unravelPairs_ok {d base : Obj} {vs : List Var} (tb : Tiled base.toLayout vs)
    (hs : ∀ v ∈ vs, v.2.1.size? = some v.2.2) (L : String → String → Nat)
    (hL : ∀ v ∈ vs, ∀ w ∈ vs, d.loc (v.1 ++ "_" ++ w.1) = some (L v.1 w.1)) :
    ∀ (l : List (String × String)), (∀ p ∈ l, p.1 ∈ names vs ∧ p.2 ∈ names vs) →
    ∃ ps, unravelPairs d base l = .ok ps ∧
      ∀ z, z ∈ ps ↔ ∃ v ∈ vs, ∃ w ∈ vs, (v.1, w.1) ∈ l ∧ ∃ o1 o2, base.loc v.1 = some o1 ∧
        base.loc w.1 = some o2 ∧ ∃ i < v.2.2, ∃ j < w.2.2,
          z = ((o1 + i) * base.size + (o2 + j), d.base + L v.1 w.1 + (i * w.2.2 + j)) := by
  intro l
  induction l with
  | nil => intro _; exact ⟨[], rfl, by simp⟩
  | cons p r ih =>
    intro hl
    obtain ⟨x, y⟩ := p
    obtain ⟨hx, hy⟩ := hl (x, y) (by simp)
    obtain ⟨v, hv, rfl⟩ := mem_of_name hx
    obtain ⟨w, hw, rfl⟩ := mem_of_name hy
    obtain ⟨o1, h1, _⟩ := startOf_le tb.nodup hv
    obtain ⟨o2, h2, _⟩ := startOf_le tb.nodup hw
    obtain ⟨ps, hps, hz⟩ := ih (fun p hp => hl p (by simp [hp]))
    have e1 : base.loc v.1 = some o1 := by rw [tb.loc, h1]
    have e2 : base.loc w.1 = some o2 := by rw [tb.loc, h2]
    simp only [unravelPairs]
    rw [entry_of_mem tb hv (hs v hv), entry_of_mem tb hw (hs w hw), e1, e2, hL v hv w hw]
    simp only [hps]
    refine ⟨_, rfl, ?_⟩
    intro z
    rw [List.mem_append, hz]
    simp only [List.mem_flatMap, List.mem_map, List.mem_range]
    constructor
    · rintro (⟨i, hi, j, hj, rfl⟩ | ⟨v', hv', w', hw', hm, rest⟩)
      · exact ⟨v, hv, w, hw, by simp, o1, o2, e1, e2, i, hi, j, hj, rfl⟩
      · exact ⟨v', hv', w', hw', by simp [hm], rest⟩
    · rintro ⟨v', hv', w', hw', hm, p1, p2, f1, f2, i, hi, j, hj, rfl⟩
      rcases List.mem_cons.1 hm with he | he
      · simp only [Prod.mk.injEq] at he
        have ev := mem_unique tb.nodup hv' hv he.1
        have ew := mem_unique tb.nodup hw' hw he.2
        subst ev ew
        rw [e1] at f1; rw [e2] at f2
        simp only [Option.some.injEq] at f1 f2
        subst f1 f2
        exact Or.inl ⟨i, hi, j, hj, rfl⟩
      · exact Or.inr ⟨v', hv', w', hw', he, p1, p2, f1, f2, i, hi, j, hj, rfl⟩

/-- C08. `unravel_hh`: take the history-by-history derivative of a history built by
additions `vs`, and fill its blocks so that entry `(i, j)` (row-major) of block
`v_w` is the matrix entry `J (start v + i) (start w + j)`. Then the unrolled array
is `J`, row-major, and nothing beyond it is written. -/
theorem C08_unravel [Zero K] (m₁ m₁' m m' m₂ : Mem K) (base d : Obj) (vs : List Var)
    (hb : addAll (new m₁).2 (new m₁).1 vs = .ok (base, m₁'))
    (hsv : ∀ v ∈ vs, v.2.1.size? = some v.2.2)
    (hr : historyDerivative m base base = .ok (d, m')) (J : Nat → Nat → K)
    (hJ : ∀ v ∈ vs, ∀ w ∈ vs, ∀ p q L, base.loc v.1 = some p → base.loc w.1 = some q →
      d.loc (v.1 ++ "_" ++ w.1) = some L → ∀ i < v.2.2, ∀ j < w.2.2,
        m₂.cell (d.base + L + (i * w.2.2 + j)) = J (p + i) (q + j))
    (array : Nat → K) :
    ∃ A, unravel m₂ d base array = .ok A ∧
      (∀ r < base.size, ∀ c < base.size, A (r * base.size + c) = J r c) ∧
      ∀ x, base.size * base.size ≤ x → A x = array x := by
  have tb : Tiled base.toLayout vs := by simpa using addAll_tiled vs (h := (new m₁).1) tiled_empty hb
  obtain ⟨hp, hn, t, _, hz, _⟩ := historyDerivative_spec tb tb hsv hsv hr
  have hLex : ∀ v ∈ vs, ∀ w ∈ vs, d.loc (v.1 ++ "_" ++ w.1) =
      some ((d.loc (v.1 ++ "_" ++ w.1)).getD 0) := by
    intro v hv w hw
    obtain ⟨p, hp1, _⟩ := startOf_le tb.nodup hv
    obtain ⟨q, hq1, _⟩ := startOf_le tb.nodup hw
    have : d.loc (pairName v.1 w.1) = some (p * total vs + v.2.2 * q) := by
      rw [t.loc]; exact startOf_derivVars hn tb.nodup tb.nodup hv hw hp1 hq1
    show d.loc (pairName v.1 w.1) = some ((d.loc (pairName v.1 w.1)).getD 0)
    rw [this]; rfl
  obtain ⟨ps, hps, hmem⟩ := unravelPairs_ok (d := d) tb hsv
    (fun a b => (d.loc (a ++ "_" ++ b)).getD 0) hLex (pairs base.order base.order) (by
      intro p hp
      simp only [pairs, List.mem_flatMap, List.mem_map] at hp
      obtain ⟨a, ha, b, hb, rfl⟩ := hp
      rw [tb.order] at ha hb
      exact ⟨ha, hb⟩)
  have hbound : ∀ w ∈ vs, ∀ o, base.loc w.1 = some o → o + w.2.2 ≤ base.size := by
    intro w hw o ho
    obtain ⟨q, hq1, hle⟩ := startOf_le tb.nodup hw
    rw [tb.loc, hq1] at ho
    simp only [Option.some.injEq] at ho
    subst ho
    rw [tb.size]; exact hle
  have hG : ∀ p ∈ ps, m₂.cell p.2 = J (p.1 / base.size) (p.1 % base.size) := by
    intro z hz
    obtain ⟨v, hv, w, hw, _, o1, o2, e1, e2, i, hi, j, hj, rfl⟩ := (hmem z).1 hz
    have hlt : o2 + j < base.size := by have := hbound w hw o2 e2; omega
    have hpos : 0 < base.size := by omega
    rw [hJ v hv w hw o1 o2 _ e1 e2 (hLex v hv w hw) i hi j hj]
    congr 1
    · exact (divmod hlt).1.symm
    · exact (divmod hlt).2.symm
  refine ⟨_, by unfold unravel; rw [hps], ?_, ?_⟩
  · intro r hrl c hc
    rw [foldl_assign m₂ (fun x => J (x / base.size) (x % base.size)) ps hG]
    have hin : r * base.size + c ∈ ps.map Prod.fst := by
      obtain ⟨v, hv, o1, e1, h1, h2⟩ := startOf_cover tb.nodup (a := r) (by rw [← tb.size]; exact hrl)
      obtain ⟨w, hw, o2, e2, h3, h4⟩ := startOf_cover tb.nodup (a := c) (by rw [← tb.size]; exact hc)
      rw [List.mem_map]
      refine ⟨((o1 + (r - o1)) * base.size + (o2 + (c - o2)), _), (hmem _).2 ⟨v, hv, w, hw, ?_,
        o1, o2, by rw [tb.loc, e1], by rw [tb.loc, e2], r - o1, by omega, c - o2, by omega, rfl⟩, ?_⟩
      · simp only [pairs, List.mem_flatMap, List.mem_map, tb.order]
        exact ⟨v.1, List.mem_map_of_mem hv, w.1, List.mem_map_of_mem hw, rfl⟩
      · show (o1 + (r - o1)) * base.size + (o2 + (c - o2)) = _
        rw [Nat.add_sub_cancel' h1, Nat.add_sub_cancel' h3]
    rw [if_pos hin]
    congr 1
    · exact (divmod hc).1
    · exact (divmod hc).2
  · intro x hx
    rw [foldl_assign m₂ (fun x => J (x / base.size) (x % base.size)) ps hG, if_neg]
    intro hin
    obtain ⟨z, hz, rfl⟩ := List.mem_map.1 hin
    obtain ⟨v, hv, w, hw, _, o1, o2, e1, e2, i, hi, j, hj, rfl⟩ := (hmem z).1 hz
    have h1 := hbound v hv o1 e1
    have h2 := hbound w hw o2 e2
    have : (o1 + i) * base.size + (o2 + j) < base.size * base.size := by
      have h3 : o1 + i + 1 ≤ base.size := by omega
      have h4 := Nat.mul_le_mul_right base.size h3
      rw [Nat.add_mul] at h4
      omega
    simp only at hx
    omega

/-! ## postmultiply -/

/-- C08. `postmultiply` fails exactly when the number of entries is not a multiple
of six; otherwise entry `(r, c)` of the 6-column matrix of entries becomes
`sum_k entry (r, k) * T k c`, in a new history with the same variables, and the
original is unchanged. -/
theorem C08_postmultiply [Zero K] [Add K] [Mul K] (cell : Nat → K) (user : Nat)
    (before : List (WOp K)) (w : World K) (h0 : runW (World.start cell user) before = .ok w)
    (h : Obj) (hm : h ∈ w.objs) (T : Nat → Nat → K) :
    (postmultiply w.mem h T = .error .notMultipleOfSix ↔ h.size % 6 ≠ 0) ∧
    (h.size % 6 = 0 → ∃ r, postmultiply w.mem h T = .ok r ∧ r.1.order = h.order ∧
      (∀ x, r.1.loc x = h.loc x) ∧ r.1.size = h.size ∧
      (∀ row c, c < 6 → row * 6 + c < h.size → r.2.cell (r.1.base + (row * 6 + c)) =
        ((List.range 6).map (fun k => w.mem.cell (h.base + (row * 6 + k)) * T k c)).sum) ∧
      (∀ a < w.mem.brk, r.2.cell a = w.mem.cell a)) := by
  have inv := runW_inv (start_inv cell user) before h0
  have hok := inv.ok hm
  have hin := hok.inside
  have hsz := hok.size
  have mk := makes_deepcopy (m := w.mem) hok.fit
  have hst : (deepcopy w.mem h).1.store = true := by
    obtain ⟨_, r2, _⟩ := reserve_spec (new_live w.mem) h.size
    exact r2
  have hbase := (mk.own hst).2.1
  have hord : (deepcopy w.mem h).1.order = h.order := rfl
  have hloc : ∀ x, (deepcopy w.mem h).1.loc x = h.loc x := by
    intro x
    obtain ⟨r1, _⟩ := reserve_spec (new_live w.mem) h.size
    show mapInsertAll (reserve (new w.mem).2 (new w.mem).1 h.size).1.loc h.loc x = h.loc x
    rw [r1]; rfl
  have hsize : (deepcopy w.mem h).1.size = h.size := by
    obtain ⟨r1, _⟩ := reserve_spec (new_live w.mem) h.size
    show (reserve (new w.mem).2 (new w.mem).1 h.size).1.size + h.size = h.size
    rw [r1]; simp [new, Layout.empty]
  constructor
  · unfold postmultiply
    by_cases hc : h.size % 6 = 0 <;> simp [hc]
  · intro hc
    unfold postmultiply
    rw [if_neg (by simpa using hc)]
    generalize deepcopy w.mem h = dc at *
    obtain ⟨n, m1⟩ := dc
    simp only at *
    refine ⟨_, rfl, hord, hloc, hsize, ?_, ?_⟩
    · intro row c hc6 hlt
      simp only
      rw [if_pos ⟨by omega, by omega⟩]
      have e1 : n.base + (row * 6 + c) - n.base = row * 6 + c := by omega
      have e2 : (row * 6 + c) / 6 = row := by omega
      have e3 : (row * 6 + c) % 6 = c := by omega
      rw [e1, e2, e3]
      congr 1
      apply List.map_congr_left
      intro k hk
      rw [List.mem_range] at hk
      rw [mk.cells _ (by omega)]
    · intro a ha
      simp only
      rw [if_neg (by omega)]
      exact mk.cells a ha

/-- Non-vacuity for `C08_postmultiply`: a history with two symmetric tensors. -/
example : ∃ (w : World Int) (h : Obj),
    runW (World.start (fun _ => 0) 0)
      [.create, .add 0 "a" .symmetric, .add 0 "b" .symmetric,
       .write 0 "a" .symmetric [1, 2, 3, 4, 5, 6]] = .ok w ∧
    w.objs[0]? = some h ∧ h.size % 6 = 0 ∧ h.size = 12 :=
  ⟨_, _, rfl, rfl, rfl, rfl⟩

end Neml.Hist
