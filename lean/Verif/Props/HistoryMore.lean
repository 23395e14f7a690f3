import Verif.Props.HistoryHeap
import Mathlib.Tactic.Ring
import Mathlib.Tactic.Linarith

/-!
# C05, C06 (any reachable world), split, and C08 (derivative histories)
-/

namespace Neml.Hist

variable {K : Type}

/-- Reading one name through maps shifted by `d`, over data shifted by `d`. -/
theorem get_shift {m m' : Mem K} {h h' : Obj} (f : Fit h.toLayout) {x : String} {d : Nat}
    (hl : h'.loc x = (h.loc x).map (fun p => p + d)) (ht : h'.typ x = h.typ x)
    (hc : ∀ k < h.size, m'.cell (h'.base + d + k) = m.cell (h.base + k)) (t : STy) :
    get m' h' x t = get m h x t := by
  unfold get
  rw [hl, ht]
  cases h1 : h.loc x with
  | none => rfl
  | some p =>
    cases h2 : h.typ x with
    | none => rfl
    | some t' =>
      simp only [Option.map_some]
      split_ifs with h3
      · subst h3
        cases h4 : t'.size? with
        | none => rfl
        | some n =>
          simp only
          congr 1
          have := f.inb x p t' n h1 h2 h4
          apply slice_congr
          intro k hk
          have := hc (p + k) (by omega)
          rw [show h'.base + (p + d) + k = h'.base + d + (p + k) by omega, this]
          congr 1; omega
      · rfl

section World
variable [Zero K] [Add K] [Mul K]

/-- C06. `add_union` of another history into an owning history, in any reachable
state: when none of the names is already present the result lists the variables of
the first and then of the second, and each reads the value it had. -/
theorem C06_union_any (cell : Nat → K) (user : Nat) (before : List (WOp K))
    (w w' : World K) (h0 : runW (World.start cell user) before = .ok w) (i j : Nat) (h o : Obj)
    (hi : w.objs[i]? = some h) (hj : w.objs[j]? = some o) (hown : h.store = true)
    (h1 : (WOp.union i j).run w = .ok w') :
    ∃ r, w'.objs[i]? = some r ∧ r.order = h.order ++ o.order ∧ r.size = h.size + o.size ∧
      (∀ x ∈ h.order, ∀ t, get w'.mem r x t = get w.mem h x t) ∧
      (∀ x ∈ o.order, ∀ t, get w'.mem r x t = get w.mem o x t) := by
  have inv := runW_inv (start_inv cell user) before h0
  have hok := inv.ok (List.mem_of_getElem? hi)
  have ook := inv.ok (List.mem_of_getElem? hj)
  have hilt : i < w.objs.length := by
    rw [List.getElem?_eq_some_iff] at hi; exact hi.1
  simp only [WOp.run, World.with, hj, World.upd, hi] at h1
  by_cases hc : (o.order.all fun x => !h.contains x) = true
  · rw [if_pos hc] at h1
    simp only [guard] at h1
    split_ifs at h1 with hg
    simp only [Except.ok.injEq] at h1
    subst h1
    have hd : ∀ x ∈ o.order, h.loc x = none := by
      intro x hx
      have := List.all_eq_true.1 hc x hx
      simpa [Layout.contains] using this
    obtain ⟨r1, r2, r3, r4, r5, r6, r7⟩ := reserve_spec hok.live o.size
    have hoin := ook.inside
    have hosz := ook.size
    refine ⟨(addUnion w.mem h o).1, by simp [hilt], rfl, rfl, ?_, ?_⟩
    · intro x hx t
      obtain ⟨p, hp⟩ := Option.isSome_iff_exists.1 (hok.fit.dom x hx)
      obtain ⟨ty, hty⟩ := Option.isSome_iff_exists.1 (by rw [← hok.fit.same]; exact hok.fit.dom x hx)
      have hno : x ∉ o.order := fun hx' => by rw [hd x hx'] at hp; simp at hp
      refine get_shift (d := 0) hok.fit ?_ ?_ ?_ t
      · show shiftLocs (mapInsertAll h.loc o.loc) o.order h.size x = _
        rw [shiftLocs_not_mem hno]
        simp [mapInsertAll, hp]
      · show mapInsertAll h.typ o.typ x = _
        simp [mapInsertAll, hty]
      · intro k hk
        refine (copy_out (reserve w.mem h o.size).2 (src := o.base)
          (dst := (reserve w.mem h o.size).1.base + h.size) (n := o.size)
          (a := (reserve w.mem h o.size).1.base + 0 + k) (by omega)).trans ?_
        rw [add_zero]
        exact r5 k hk
    · intro x hx t
      obtain ⟨p, hp⟩ := Option.isSome_iff_exists.1 (ook.fit.dom x hx)
      have hn := hd x hx
      have hn' : h.typ x = none := by
        have := hok.fit.same x; rw [hn] at this; simpa using this.symm
      refine get_shift (d := h.size) ook.fit ?_ ?_ ?_ t
      · show shiftLocs (mapInsertAll h.loc o.loc) o.order h.size x = _
        rw [shiftLocs_mem ook.fit.nodup hx]
        simp [mapInsertAll, hn, hp]
      · show mapInsertAll h.typ o.typ x = _
        simp [mapInsertAll, hn']
      · intro k hk
        refine (if_pos ⟨by omega, by omega⟩ :
          ((reserve w.mem h o.size).2.copy o.base ((reserve w.mem h o.size).1.base + h.size) o.size).cell
            ((reserve w.mem h o.size).1.base + h.size + k) = _).trans ?_
        rw [r4 _ (by omega)]
        congr 1; omega
  · rw [if_neg hc] at h1; simp at h1

/-- C05, the part that holds, for any reachable state: after `a = b` every name
reads through `a` as through `b`, provided the names `a` already had sit at the same
place with the same type in `b`. Missing: names of `a` that `b` stores elsewhere
(`C05_assign_wrong`) or does not have at all. -/
theorem C05_assign_any_partial (cell : Nat → K) (user : Nat) (before : List (WOp K))
    (w w' : World K) (h0 : runW (World.start cell user) before = .ok w) (i j : Nat) (h o : Obj)
    (hi : w.objs[i]? = some h) (hj : w.objs[j]? = some o)
    (hcompat : ∀ x, h.loc x = none ∨ (h.loc x = o.loc x ∧ h.typ x = o.typ x))
    (h1 : (WOp.assign i j).run w = .ok w') :
    ∃ r, w'.objs[i]? = some r ∧ r.order = o.order ∧
      ∀ x t, get w'.mem r x t = get w.mem o x t := by
  have inv := runW_inv (start_inv cell user) before h0
  have hok := inv.ok (List.mem_of_getElem? hi)
  have ook := inv.ok (List.mem_of_getElem? hj)
  have hilt : i < w.objs.length := by
    rw [List.getElem?_eq_some_iff] at hi; exact hi.1
  simp only [WOp.run, World.with, hj, World.upd, hi, assign] at h1
  by_cases hs : h.size = o.size
  · rw [if_neg (by simpa using hs)] at h1
    simp only [guard] at h1
    split_ifs at h1 with hg
    simp only [Except.ok.injEq] at h1
    subst h1
    refine ⟨{ h with toLayout := h.toLayout.copyMaps o.toLayout }, by simp [hilt], rfl, ?_⟩
    intro x t
    have hty : h.loc x = none → h.typ x = none := by
      intro hn; have := hok.fit.same x; rw [hn] at this; simpa using this.symm
    refine get_shift (d := 0) ook.fit ?_ ?_ ?_ t
    · show mapInsertAll h.loc o.loc x = _
      rcases hcompat x with hn | ⟨e1, _⟩
      · simp [mapInsertAll, hn]
      · simp only [mapInsertAll, ← e1]; cases h.loc x <;> simp
    · show mapInsertAll h.typ o.typ x = _
      rcases hcompat x with hn | ⟨_, e2⟩
      · simp [mapInsertAll, hty hn]
      · simp only [mapInsertAll, ← e2]; cases h.typ x <;> simp
    · intro k hk
      refine (if_pos ⟨by omega, by omega⟩ :
        (w.mem.copy o.base h.base h.size).cell (h.base + 0 + k) = _).trans ?_
      congr 1; omega
  · rw [if_pos (by simpa using hs)] at h1; simp at h1

end World

/-- Outside C06's hypothesis: the union of the history `a = 1` with the history
`b = 6, a = 5` reads `a` as 6, a value neither history held for `a`. -/
theorem C06_union_overlap :
    ∃ (s₁ s₂ : Obj × Mem Int),
      runOps (new ⟨fun _ => 0, 0⟩) [.add "a" .scalar, .write "a" .scalar [1]] = .ok s₁ ∧
      runOps (new s₁.2) [.add "b" .scalar, .add "a" .scalar, .write "b" .scalar [6],
        .write "a" .scalar [5]] = .ok s₂ ∧
      get (addUnion s₂.2 s₁.1 s₂.1).2 (addUnion s₂.2 s₁.1 s₂.1).1 "a" .scalar = .ok [6] :=
  ⟨_, _, rfl, rfl, rfl⟩

/-! ## split -/

theorem addAll_tiled (es : List Var) : ∀ {m m' : Mem K} {h r : Obj} {vs : List Var},
    Tiled h.toLayout vs → addAll m h es = .ok (r, m') → Tiled r.toLayout (vs ++ es) := by
  induction es with
  | nil =>
    intro m m' h r vs t hr
    simp only [addAll, Except.ok.injEq, Prod.mk.injEq] at hr
    obtain ⟨rfl, rfl⟩ := hr
    simpa using t
  | cons e es ih =>
    intro m m' h r vs t hr
    obtain ⟨name, ty, n⟩ := e
    simp only [addAll] at hr
    cases hadd : add m h name ty n with
    | error _ => rw [hadd] at hr; simp at hr
    | ok p =>
      obtain ⟨h1, m1⟩ := p
      rw [hadd] at hr
      unfold add at hadd
      cases hl : h.toLayout.add name ty n with
      | error e => rw [hl] at hadd; simp at hadd
      | ok l =>
        rw [hl] at hadd
        simp only [Except.ok.injEq, Prod.mk.injEq] at hadd
        obtain ⟨rfl, rfl⟩ := hadd
        obtain ⟨_, t1⟩ := t.add_inv hl
        have := ih (h := { (reserve m h n).1 with toLayout := l }) t1 hr
        simpa using this

theorem entries_ok {h : Layout} {vs : List Var} (t : Tiled h vs) : ∀ (ws : List Var),
    (∀ v ∈ ws, v ∈ vs ∧ v.2.1.size? = some v.2.2) → entries h (names ws) = .ok ws := by
  intro ws
  induction ws with
  | nil => intro _; rfl
  | cons v r ih =>
    intro hw
    rw [names_cons]
    simp only [entries]
    rw [entry_of_mem t (hw v (by simp)).1 (hw v (by simp)).2, ih (fun v hv => hw v (by simp [hv]))]

theorem checkPrefix_ok (a b : List String) : checkPrefix a (a ++ b) = .ok () := by
  induction a with
  | nil => rfl
  | cons x xs ih => simp [checkPrefix, ih]

/-- Result of `split` on a tiled layout. -/
theorem split_spec {m : Mem K} {h : Obj} {pre suf : List Var} (t : Tiled h.toLayout (pre ++ suf))
    (hs : ∀ v ∈ pre ++ suf, v.2.1.size? = some v.2.2) (l : Live m h) (after : Bool) :
    ∃ r, split m h (names pre) after = .ok r ∧
      r.1.order = names (if after then suf else pre) ∧ r.1.store = h.store ∧
      (∀ x ∈ names (if after then suf else pre), ∀ ty, get r.2 r.1 x ty = get m h x ty) ∧
      (∀ x, x ∉ names (if after then suf else pre) → ∀ ty, get r.2 r.1 x ty = .error .noSuchName) ∧
      (∀ x ty, get r.2 h x ty = get m h x ty) := by
  have hsz : Sized (pre ++ suf) := fun v hv => Or.inl (hs v hv)
  have hord : h.order = names pre ++ names suf := by rw [t.order, names_append]
  have hchk : checkPrefix (names pre) h.order = .ok () := by rw [hord]; exact checkPrefix_ok _ _
  unfold split
  simp only [hchk]
  set part := if after then suf else pre with hpart
  have hempty : ((names pre).length = h.order.length ∧ after = true ∨
      (names pre).length = 0 ∧ after = false) ↔ part = [] := by
    rw [hord, hpart]
    cases after <;> simp [names]
  by_cases he : part = []
  · rw [if_pos (hempty.2 he)]
    rw [he]
    cases hst : h.store with
    | true =>
      refine ⟨new m, by simp, rfl, rfl, by simp [names], ?_, ?_⟩
      · intro x _ ty; rfl
      · intro x ty; simp [get, new, Mem.alloc, Mem.slice]
    | false =>
      refine ⟨({ Layout.empty with storesize := 0, store := false, base := 0 }, m), by simp, rfl, rfl,
        by simp [names], ?_, ?_⟩
      · intro x _ ty; rfl
      · intro x ty; rfl
  · rw [if_neg (fun hc => he (hempty.1 hc))]
    have hnames : (if after = true then h.order.drop (names pre).length
        else h.order.take (names pre).length) = names part := by
      rw [hord, hpart]; cases after <;> simp
    rw [hnames]
    have hsub : ∀ v ∈ part, v ∈ pre ++ suf := by
      intro v hv
      rw [hpart] at hv
      cases after with
      | true => exact List.mem_append_right _ (by simpa using hv)
      | false => exact List.mem_append_left _ (by simpa using hv)
    rw [entries_ok t part (fun v hv => ⟨hsub v hv, hs v (hsub v hv)⟩)]
    simp only
    have hnd : (names part).Nodup := by
      have := t.nodup
      rw [names_append, List.nodup_append] at this
      rw [hpart]; cases after
      · exact this.1
      · exact this.2.1
    obtain ⟨⟨res, m1⟩, hadd⟩ := (addAll_ok_iff part (m := m)
      (h := { Layout.empty with storesize := 0, store := false, base := 0 }) (vs := [])
      tiled_empty).2 (by simpa using hnd)
    rw [hadd]
    have tres : Tiled res.toLayout part := by
      have := addAll_tiled part (h := { Layout.empty with storesize := 0, store := false, base := 0 })
        tiled_empty hadd
      simpa using this
    obtain ⟨rfl, hrs, hrf, _⟩ := addAll_view part
      (h := { Layout.empty with storesize := 0, store := false, base := 0 }) fit_empty
      (fun v hv => hs v (hsub v hv)) rfl hadd
    obtain ⟨first, rest, hfr⟩ : ∃ a b, part = a :: b := by
      cases hp : part with
      | nil => exact absurd hp he
      | cons a b => exact ⟨a, b, rfl⟩
    have hnm : names part = first.1 :: names rest := by rw [hfr, names_cons]
    simp only [hnm]
    -- offset of the part
    set off := if after then total pre else 0 with hoff
    have hstart : ∀ v ∈ part, ∃ p, startOf part v.1 = some p ∧
        startOf (pre ++ suf) v.1 = some (off + p) := by
      intro v hv
      obtain ⟨p, hp, _⟩ := startOf_le hnd hv
      refine ⟨p, hp, ?_⟩
      rw [startOf_append]
      rw [hpart] at hp hv
      cases hafter : after with
      | true =>
        rw [hafter] at hp hv
        simp only [if_true] at hp hv
        have hno : v.1 ∉ names pre := by
          have := t.nodup
          rw [names_append, List.nodup_append] at this
          intro hc
          exact this.2.2 v.1 hc v.1 (List.mem_map_of_mem hv) rfl
        simp [startOf_eq_none.2 hno, hp, hoff, hafter]
      | false =>
        rw [hafter] at hp hv
        simp only [Bool.false_eq_true, if_false] at hp hv
        simp [hp, hoff, hafter]
    obtain ⟨p0, hp0, hq0⟩ := hstart first (by rw [hfr]; simp)
    have hp00 : p0 = 0 := by
      rw [hfr] at hp0; simp [startOf] at hp0; exact hp0.symm
    subst hp00
    have hfirst : h.loc first.1 = some off := by rw [t.loc, hq0]; simp
    simp only [hfirst]
    have hin : off + total part ≤ h.size := by
      rw [t.size, total_append, hoff, hpart]; cases after <;> simp
    have hlive := l.inside
    have htres := tres.size
    have hread : ∀ (m' : Mem K) (r : Obj), Tiled r.toLayout part →
        (∀ k < total part, m'.cell (r.base + k) = m1.cell (h.base + off + k)) →
        ∀ x ∈ names part, ∀ ty, get m' r x ty = get m1 h x ty := by
      intro m' r tr hc x hx ty
      obtain ⟨v, hv, rfl⟩ := mem_of_name hx
      obtain ⟨p, hp, hq⟩ := hstart v hv
      obtain ⟨p', hp', hle⟩ := startOf_le hnd hv
      rw [hp] at hp'
      simp only [Option.some.injEq] at hp'
      subst hp'
      apply get_congr_var tr t hv (hsub v hv) hp hq _ (hsz v (hsub v hv)) ty
      intro k hk
      have := hc (p + k) (by omega)
      rw [show r.base + p + k = r.base + (p + k) by omega, this]
      congr 1; omega
    cases hst : h.store with
    | true =>
      simp only [if_true, makeStore, hrs, Bool.false_eq_true, if_false]
      refine ⟨_, rfl, ?_, rfl, ?_, ?_, ?_⟩
      · show res.order = _; rw [tres.order, hnm]
      · rw [← hnm]
        refine hread _ { res with store := true, storesize := res.size, base := m1.brk } tres ?_
        intro k hk
        refine (if_pos ⟨Nat.le_add_right _ _, by show m1.brk + k < m1.brk + res.size; omega⟩ :
          (Mem.copy { m1 with brk := m1.brk + res.size } (h.base + off) m1.brk res.size).cell (m1.brk + k) = _).trans ?_
        simp
      · intro x hx ty
        rw [← hnm] at hx
        exact get_missing (h := { res with store := true, storesize := res.size, base := m1.brk }) tres hx ty
      · intro x ty
        apply get_congr t t hsz
        intro k hk
        have := t.size
        exact copy_out { m1 with brk := m1.brk + res.size } (by simp only [Mem.alloc]; omega)
    | false =>
      simp only [Bool.false_eq_true, if_false, setData, hrs]
      refine ⟨_, rfl, ?_, rfl, ?_, ?_, ?_⟩
      · show res.order = _; rw [tres.order, hnm]
      · rw [← hnm]
        refine hread m1 { res with base := h.base + off, store := false } tres ?_
        intro k _; rfl
      · intro x hx ty
        rw [← hnm] at hx
        exact get_missing (h := { res with base := h.base + off, store := false }) tres hx ty
      · intro x ty; rfl

/-- C06. `split` of a reachable history (all variables typed) at any prefix of its
order: the first part has exactly the prefix, the second exactly the rest, in
order; both read the values of the original, and the original is unchanged. -/
theorem C06_split (m : Mem K) (ops : List (Op K)) (s : Obj × Mem K)
    (hrun : runOps (new m) ops = .ok s) (sep rest : List String)
    (hord : s.1.order = sep ++ rest) (hty : ∀ x ∈ s.1.order, s.1.typ x ≠ some .blank)
    (after : Bool) :
    ∃ r, split s.2 s.1 sep after = .ok r ∧ r.1.order = (if after then rest else sep) ∧
      (∀ x ∈ (if after then rest else sep), ∀ t, get r.2 r.1 x t = get s.2 s.1 x t) ∧
      (∀ x, x ∉ (if after then rest else sep) → ∀ t, get r.2 r.1 x t = .error .noSuchName) ∧
      (∀ x t, get r.2 s.1 x t = get s.2 s.1 x t) := by
  obtain ⟨vs, i, _⟩ := (inv_new m).run ops hrun
  have hsplit : ∃ pre suf, vs = pre ++ suf ∧ names pre = sep ∧ names suf = rest := by
    have h1 := i.tiled.order
    rw [hord] at h1
    unfold names at h1
    obtain ⟨a, b, h2, h3, h4⟩ := List.map_eq_append_iff.1 h1.symm
    exact ⟨a, b, h2, h3, h4⟩
  obtain ⟨pre, suf, rfl, rfl, rfl⟩ := hsplit
  have hs : ∀ v ∈ pre ++ suf, v.2.1.size? = some v.2.2 := by
    intro v hv
    rcases i.sized v hv with h1 | h1
    · exact h1
    · exfalso
      apply hty v.1 (by rw [i.tiled.order]; exact List.mem_map_of_mem hv)
      rw [i.tiled.typ, typeOf_mem i.tiled.nodup hv, h1]
  have hif : names (if after then suf else pre) = if after then names suf else names pre := by
    cases after <;> rfl
  obtain ⟨r, h1, h2, _, h4, h5, h6⟩ := split_spec i.tiled hs i.live after
  rw [hif] at h2 h4 h5
  exact ⟨r, h1, h2, h4, h5, h6⟩

/-- C06. `split` refuses a list that is not a prefix of the order. -/
theorem C06_split_refused (m : Mem K) (h : Obj) (pre : List String) (x y : String)
    (sep rest : List String) (hord : h.order = pre ++ y :: rest) (hxy : x ≠ y) (after : Bool) :
    split m h (pre ++ x :: sep) after = .error .notContiguous := by
  have : checkPrefix (pre ++ x :: sep) (pre ++ y :: rest) = .error .notContiguous := by
    clear hord
    induction pre with
    | nil => simp [checkPrefix, hxy]
    | cons a l ih => simpa [checkPrefix] using ih
  unfold split
  rw [hord, this]

/-- Non-vacuity for C06. -/
example : ∃ s : Obj × Mem Int,
    runOps (new ⟨fun _ => 0, 0⟩)
      [.add "a" .scalar, .add "b" .symmetric, .add "c" .scalar, .write "a" .scalar [7],
       .write "b" .symmetric [1, 2, 3, 4, 5, 6], .write "c" .scalar [9]] = .ok s ∧
    s.1.order = ["a"] ++ ["b", "c"] ∧ (∀ x ∈ s.1.order, s.1.typ x ≠ some .blank) ∧
    ["c", "a"].Nodup ∧ (∀ x ∈ ["c", "a"], x ∈ s.1.order) :=
  ⟨_, rfl, rfl, by decide, by decide, by decide⟩

end Neml.Hist
