import Verif.Props.HistoryLayout

/-!
# Helper lemmas: reading, writing and the derived-history operations
-/

namespace Neml.Hist

variable {K : Type}

/-- Every variable has the size of its type (blank variables any size). -/
def Sized (vs : List Var) : Prop := ∀ v ∈ vs, v.2.1.size? = some v.2.2 ∨ v.2.1 = .blank

/-- A live owning object whose maps describe `vs`. -/
structure Good (m : Mem K) (h : Obj) (vs : List Var) : Prop where
  live : Live m h
  tiled : Tiled h.toLayout vs
  sized : Sized vs

theorem get_tiled {m : Mem K} {h : Obj} {vs : List Var} (t : Tiled h.toLayout vs) {v : Var}
    (hv : v ∈ vs) (hs : v.2.1.size? = some v.2.2) {p : Nat} (hp : startOf vs v.1 = some p) :
    get m h v.1 v.2.1 = .ok (m.slice (h.base + p) v.2.2) := by
  unfold get
  rw [t.loc, t.typ, hp, typeOf_mem t.nodup hv]
  simp [hs]

theorem get_missing {m : Mem K} {h : Obj} {vs : List Var} (t : Tiled h.toLayout vs) {x : String}
    (hx : x ∉ names vs) (ty : STy) : get m h x ty = .error .noSuchName := by
  unfold get
  rw [t.loc, startOf_eq_none.2 hx]

theorem get_wrong {m : Mem K} {h : Obj} {vs : List Var} (t : Tiled h.toLayout vs) {v : Var}
    (hv : v ∈ vs) {ty : STy} (hty : v.2.1 ≠ ty) : get m h v.1 ty = .error .wrongType := by
  obtain ⟨p, hp, _⟩ := startOf_le t.nodup hv
  unfold get
  rw [t.loc, t.typ, hp, typeOf_mem t.nodup hv]
  simp [hty]

theorem mem_of_name {vs : List Var} {x : String} (hx : x ∈ names vs) : ∃ v ∈ vs, v.1 = x := by
  simpa [names] using hx

theorem mem_unique {vs : List Var} (hn : (names vs).Nodup) {v w : Var} (hv : v ∈ vs) (hw : w ∈ vs)
    (h : v.1 = w.1) : v = w := by
  induction vs with
  | nil => simp at hv
  | cons u r ih =>
    simp only [names_cons, List.nodup_cons] at hn
    rcases List.mem_cons.1 hv with hv' | hv' <;> rcases List.mem_cons.1 hw with hw' | hw'
    · rw [hv', hw']
    · exfalso; apply hn.1; rw [← hv', h]; exact List.mem_map_of_mem hw'
    · exfalso; apply hn.1; rw [← hw', ← h]; exact List.mem_map_of_mem hv'
    · exact ih hn.2 hv' hw'

/-- A successful read gives the block of the variable. -/
theorem get_ok {m : Mem K} {h : Obj} {vs : List Var} (t : Tiled h.toLayout vs) (hs : Sized vs)
    {x : String} {ty : STy} {r : List K} (hg : get m h x ty = .ok r) :
    ∃ v ∈ vs, v.1 = x ∧ v.2.1 = ty ∧ v.2.1.size? = some v.2.2 ∧
      ∃ p, startOf vs x = some p ∧ r = m.slice (h.base + p) v.2.2 := by
  by_cases hx : x ∈ names vs
  · obtain ⟨v, hv, rfl⟩ := mem_of_name hx
    by_cases hty : v.2.1 = ty
    · subst hty
      obtain ⟨p, hp, _⟩ := startOf_le t.nodup hv
      rcases hs v hv with h1 | h1
      · rw [get_tiled t hv h1 hp] at hg
        simp only [Except.ok.injEq] at hg
        exact ⟨v, hv, rfl, rfl, h1, p, hp, hg.symm⟩
      · unfold get at hg
        rw [t.loc, t.typ, hp, typeOf_mem t.nodup hv] at hg
        simp [h1, STy.size?] at hg
    · rw [get_wrong t hv hty] at hg; simp at hg
  · rw [get_missing t hx] at hg; simp at hg

/-- A successful write puts the value in the block of the variable. -/
theorem set_ok {m m' : Mem K} {h : Obj} {vs : List Var} (t : Tiled h.toLayout vs) (hs : Sized vs)
    {x : String} {ty : STy} {val : List K} (hg : set m h x ty val = .ok m') :
    ∃ v ∈ vs, v.1 = x ∧ v.2.1 = ty ∧ v.2.1.size? = some v.2.2 ∧ v.2.2 = val.length ∧
      ∃ p, startOf vs x = some p ∧ m' = m.put (h.base + p) val := by
  by_cases hx : x ∈ names vs
  · obtain ⟨v, hv, rfl⟩ := mem_of_name hx
    obtain ⟨p, hp, _⟩ := startOf_le t.nodup hv
    unfold set at hg
    rw [t.loc, t.typ, hp, typeOf_mem t.nodup hv] at hg
    by_cases hty : v.2.1 = ty
    · subst hty
      by_cases hsz : v.2.1.size? = some val.length
      · simp only [hsz, if_true, Except.ok.injEq] at hg
        rcases hs v hv with h1 | h1
        · rw [hsz] at h1
          exact ⟨v, hv, rfl, rfl, by rw [hsz, h1], by simpa using h1.symm, p, hp, hg.symm⟩
        · rw [h1] at hsz; simp [STy.size?] at hsz
      · simp [hsz] at hg
    · simp [hty] at hg
  · unfold set at hg
    rw [t.loc, startOf_eq_none.2 hx] at hg
    simp at hg

/-- Reading the variable just written. -/
theorem get_set_same {m m' : Mem K} {h : Obj} {vs : List Var} (t : Tiled h.toLayout vs)
    (hs : Sized vs) {x : String} {ty : STy} {val : List K} (hg : set m h x ty val = .ok m') :
    get m' h x ty = .ok val := by
  obtain ⟨v, hv, rfl, rfl, hsz, hlen, p, hp, rfl⟩ := set_ok t hs hg
  rw [get_tiled t hv hsz hp, hlen, slice_put_same]

/-- Reading another variable after a write. -/
theorem get_set_other {m m' : Mem K} {h : Obj} {vs : List Var} (t : Tiled h.toLayout vs)
    (hs : Sized vs) {x y : String} {ty ty' : STy} {val : List K}
    (hg : set m h x ty val = .ok m') (hxy : y ≠ x) :
    get m' h y ty' = get m h y ty' := by
  obtain ⟨v, hv, rfl, rfl, hsz, hlen, p, hp, rfl⟩ := set_ok t hs hg
  by_cases hy : y ∈ names vs
  · obtain ⟨w, hw, rfl⟩ := mem_of_name hy
    by_cases hty : w.2.1 = ty'
    · subst hty
      obtain ⟨q, hq, _⟩ := startOf_le t.nodup hw
      rcases hs w hw with h1 | h1
      · rw [get_tiled t hw h1 hq, get_tiled t hw h1 hq]
        rw [slice_put_other]
        have := startOf_disjoint t.nodup hv hw (Ne.symm hxy) hp hq
        omega
      · unfold get
        rw [t.loc, t.typ, hq, typeOf_mem t.nodup hw]
        simp [h1, STy.size?]
    · rw [get_wrong t hw hty, get_wrong t hw hty]
  · rw [get_missing t hy, get_missing t hy]

/-- A write keeps the memory layout and every address outside the object. -/
theorem set_frame {m m' : Mem K} {h : Obj} {vs : List Var} (t : Tiled h.toLayout vs)
    (hs : Sized vs) {x : String} {ty : STy} {val : List K} (hg : set m h x ty val = .ok m') :
    m'.brk = m.brk ∧ ∀ a, (a < h.base ∨ h.base + h.size ≤ a) → m'.cell a = m.cell a := by
  obtain ⟨v, hv, rfl, rfl, hsz, hlen, p, hp, rfl⟩ := set_ok t hs hg
  refine ⟨rfl, ?_⟩
  intro a ha
  obtain ⟨p', hp', hle⟩ := startOf_le t.nodup hv
  rw [hp] at hp'
  obtain rfl : p = p' := by simpa using hp'
  have := t.size
  simp only [Mem.put]
  rw [if_neg (by omega)]

/-- Reads agree when the two objects have the same maps and the same contents. -/
theorem get_congr {m m' : Mem K} {h h' : Obj} {vs : List Var} (t : Tiled h.toLayout vs)
    (t' : Tiled h'.toLayout vs) (hs : Sized vs)
    (hc : ∀ i, i < total vs → m.cell (h.base + i) = m'.cell (h'.base + i)) (x : String) (ty : STy) :
    get m h x ty = get m' h' x ty := by
  by_cases hx : x ∈ names vs
  · obtain ⟨v, hv, rfl⟩ := mem_of_name hx
    by_cases hty : v.2.1 = ty
    · subst hty
      obtain ⟨q, hq, hle⟩ := startOf_le t.nodup hv
      rcases hs v hv with h1 | h1
      · rw [get_tiled t hv h1 hq, get_tiled t' hv h1 hq]
        congr 1
        apply slice_congr
        intro i hi
        have := hc (q + i) (by omega)
        simpa [Nat.add_assoc] using this
      · unfold get
        rw [t.loc, t.typ, t'.loc, t'.typ, hq, typeOf_mem t.nodup hv]
        simp [h1, STy.size?]
    · rw [get_wrong t hv hty, get_wrong t' hv hty]
  · rw [get_missing t hx, get_missing t' hx]

/-- Reads of a variable that sits, with the same contents, in two objects of
possibly different layouts agree. -/
theorem get_congr_var {m m' : Mem K} {h h' : Obj} {vs ws : List Var} (t : Tiled h.toLayout vs)
    (t' : Tiled h'.toLayout ws) {v : Var} (hv : v ∈ vs) (hw : v ∈ ws)
    {p q : Nat} (hp : startOf vs v.1 = some p) (hq : startOf ws v.1 = some q)
    (hc : ∀ i, i < v.2.2 → m.cell (h.base + p + i) = m'.cell (h'.base + q + i))
    (hs : v.2.1.size? = some v.2.2 ∨ v.2.1 = .blank) (ty : STy) :
    get m h v.1 ty = get m' h' v.1 ty := by
  by_cases hty : v.2.1 = ty
  · subst hty
    rcases hs with h1 | h1
    · rw [get_tiled t hv h1 hp, get_tiled t' hw h1 hq]
      congr 1
      exact slice_congr hc
    · unfold get
      rw [t.loc, t.typ, t'.loc, t'.typ, hp, hq, typeOf_mem t.nodup hv, typeOf_mem t'.nodup hw]
      simp [h1, STy.size?]
  · rw [get_wrong t hv hty, get_wrong t' hw hty]

/-! ## subset -/

theorem entry_of_mem {h : Layout} {vs : List Var} (t : Tiled h vs) {v : Var} (hv : v ∈ vs)
    (hs : v.2.1.size? = some v.2.2) : entry h v.1 = .ok v := by
  unfold entry
  rw [t.typ, typeOf_mem t.nodup hv]
  simp [hs]

theorem entry_ok {h : Layout} {vs : List Var} (t : Tiled h vs) (hs : Sized vs) {x : String}
    {e : Var} (he : entry h x = .ok e) : e ∈ vs ∧ e.1 = x ∧ e.2.1.size? = some e.2.2 := by
  unfold entry at he
  rw [t.typ] at he
  cases hty : typeOf vs x with
  | none => rw [hty] at he; simp at he
  | some ty =>
    rw [hty] at he
    simp only at he
    cases hsz : ty.size? with
    | none => rw [hsz] at he; simp at he
    | some n =>
      rw [hsz] at he
      simp only [Except.ok.injEq] at he
      have hx : x ∈ names vs := by
        by_contra hc; rw [typeOf_eq_none.2 hc] at hty; simp at hty
      obtain ⟨v, hv, rfl⟩ := mem_of_name hx
      rw [typeOf_mem t.nodup hv] at hty
      have hty' : v.2.1 = ty := by simpa using hty
      rcases hs v hv with h1 | h1
      · rw [hty', hsz] at h1
        have : n = v.2.2 := by simpa using h1
        have hev : e = v := by
          rw [← he, this, ← hty']
        rw [hev]
        exact ⟨hv, rfl, by rw [hty', hsz, this]⟩
      · rw [← hty', h1] at hsz; simp [STy.size?] at hsz

/-- State of the subset loop: the result so far `acc` holds the variables `done`,
each with the contents it has in the source, in memory newer than `m0`. -/
structure SubInv (m0 m : Mem K) (h acc : Obj) (vs done : List Var) : Prop where
  live : Live m acc
  store : acc.store = true
  tiled : Tiled acc.toLayout done
  fresh : m0.brk ≤ acc.base
  grow : m0.brk ≤ m.brk
  frame : ∀ a, a < m0.brk → m.cell a = m0.cell a
  sub : ∀ v ∈ done, v ∈ vs ∧ v.2.1.size? = some v.2.2
  data : ∀ v ∈ done, ∀ p q, startOf vs v.1 = some p → startOf done v.1 = some q →
    ∀ i, i < v.2.2 → m.cell (acc.base + q + i) = m0.cell (h.base + p + i)

theorem subsetLoop_spec {m0 : Mem K} {h : Obj} {vs : List Var} (t : Tiled h.toLayout vs)
    (hs : Sized vs) (hin : h.base + h.size ≤ m0.brk) :
    ∀ (vars : List String) {m : Mem K} {acc : Obj} {done : List Var}
      (_ : SubInv m0 m h acc vs done) {r : Obj} {m' : Mem K}
      (_ : subsetLoop m h acc vars = .ok (r, m')),
      ∃ rest, names rest = vars ∧ SubInv m0 m' h r vs (done ++ rest) := by
  intro vars
  induction vars with
  | nil =>
    intro m acc done inv r m' hr
    simp only [subsetLoop, Except.ok.injEq, Prod.mk.injEq] at hr
    obtain ⟨rfl, rfl⟩ := hr
    exact ⟨[], rfl, by simpa using inv⟩
  | cons x xs ih =>
    intro m acc done inv r m' hr
    simp only [subsetLoop] at hr
    cases hloc : h.loc x with
    | none => rw [hloc] at hr; simp at hr
    | some p =>
      rw [hloc] at hr
      simp only at hr
      cases he : entry h.toLayout x with
      | error e => rw [he] at hr; simp at hr
      | ok e =>
        rw [he] at hr
        obtain ⟨x', ty, n⟩ := e
        obtain ⟨hev, hex, hesz⟩ := entry_ok t hs he
        simp only at hex hesz hr
        subst hex
        cases hadd : add m acc x' ty n with
        | error e => rw [hadd] at hr; simp at hr
        | ok pr =>
          obtain ⟨acc', m1⟩ := pr
          rw [hadd] at hr
          simp only at hr
          obtain ⟨hf, t1, l1, s1, b1, c1, d1, e1⟩ := add_spec inv.live inv.store inv.tiled hadd
          have hq : acc'.loc x' = some (total done) := by
            rw [t1.loc, startOf_append, startOf_eq_none.2 hf]; simp [startOf]
          rw [hq] at hr
          simp only at hr
          have hfresh : m0.brk ≤ acc'.base := by
            have := inv.fresh; have := inv.grow; omega
          have hsz1 : acc'.size = total done + n := by
            rw [t1.size, total_append]; simp [total]
          have hpp : startOf vs x' = some p := by rw [← t.loc, hloc]
          have hple : p + n ≤ h.size := by
            obtain ⟨p', hp', hle⟩ := startOf_le t.nodup hev
            simp only at hp' hle
            rw [hpp] at hp'
            obtain rfl : p = p' := by simpa using hp'
            rw [t.size]; exact hle
          have hinv' : SubInv m0 (m1.copy (h.base + p) (acc'.base + total done) n) h acc' vs
              (done ++ [(x', ty, n)]) := by
            constructor
            · exact ⟨l1.inside, l1.room⟩
            · exact s1
            · exact t1
            · exact hfresh
            · have := inv.grow; show m0.brk ≤ m1.brk; omega
            · intro a ha
              simp only [Mem.copy]
              rw [if_neg (by omega), c1 a (by have := inv.grow; omega), inv.frame a ha]
            · intro v hv
              rcases List.mem_append.1 hv with hv | hv
              · exact inv.sub v hv
              · simp only [List.mem_singleton] at hv
                subst hv
                exact ⟨hev, hesz⟩
            · intro v hv p1 q1 hp1 hq1 i hi
              rcases List.mem_append.1 hv with hv | hv
              · obtain ⟨q2, hq2, hle2⟩ := startOf_le inv.tiled.nodup hv
                rw [startOf_append, hq2] at hq1
                obtain rfl : q2 = q1 := by simpa using hq1
                have hd := inv.data v hv p1 q2 hp1 hq2 i hi
                simp only [Mem.copy]
                rw [if_neg (by omega)]
                rw [← hd]
                have := d1 (q2 + i) (by rw [inv.tiled.size]; omega)
                simpa [Nat.add_assoc] using this
              · simp only [List.mem_singleton] at hv
                subst hv
                simp only at hp1 hq1 hi
                rw [startOf_append, startOf_eq_none.2 hf] at hq1
                simp only [startOf, if_true, Option.map_some, Option.some.injEq, add_zero] at hq1
                rw [hpp] at hp1
                obtain rfl : p = p1 := by simpa using hp1
                subst hq1
                simp only [Mem.copy]
                rw [if_pos ⟨by omega, by omega⟩]
                rw [c1 _ (by have := inv.grow; omega), inv.frame _ (by omega)]
                congr 1; omega
          obtain ⟨rest, hrest, hfin⟩ := ih hinv' hr
          refine ⟨(x', ty, n) :: rest, by rw [names_cons, hrest], ?_⟩
          simpa using hfin

/-- What a successful `subset` gives. -/
theorem subset_spec {m m' : Mem K} {h r : Obj} {vs : List Var} (t : Tiled h.toLayout vs)
    (hs : Sized vs) (hl : Live m h) {vars : List String} (hr : subset m h vars = .ok (r, m')) :
    ∃ rest, names rest = vars ∧ SubInv m m' h r vs rest := by
  unfold subset at hr
  have hinit : SubInv m (new m).2 h (new m).1 vs [] := by
    constructor
    · exact new_live m
    · rfl
    · exact tiled_empty
    · simp [new, Mem.alloc]
    · simp [new, Mem.alloc]
    · intro a _; rfl
    · simp
    · simp
  obtain ⟨rest, h1, h2⟩ := subsetLoop_spec t hs hl.inside vars hinit hr
  exact ⟨rest, h1, by simpa using h2⟩

/-- `subset` succeeds for distinct names of typed variables. -/
theorem subset_total {h : Obj} {vs : List Var} (t : Tiled h.toLayout vs)
    (hs : Sized vs) :
    ∀ (vars : List String) {m : Mem K} {acc : Obj} {done : List Var} (_ : Tiled acc.toLayout done)
      (_ : (names done ++ vars).Nodup) (_ : ∀ x ∈ vars, ∃ v ∈ vs, v.1 = x ∧ v.2.1 ≠ .blank),
      ∃ r, subsetLoop m h acc vars = .ok r := by
  intro vars
  induction vars with
  | nil => intro m acc done _ _ _; exact ⟨_, rfl⟩
  | cons x xs ih =>
    intro m acc done td hn hv
    obtain ⟨v, hvm, rfl, hb⟩ := hv x (by simp)
    have hsz : v.2.1.size? = some v.2.2 := (hs v hvm).resolve_right hb
    obtain ⟨p, hp, _⟩ := startOf_le t.nodup hvm
    have hf : v.1 ∉ names done := by
      intro hc
      rw [List.nodup_append] at hn
      exact absurd rfl (hn.2.2 v.1 hc v.1 (by simp))
    obtain ⟨l, h1, h2⟩ := td.add (ty := v.2.1) (n := v.2.2) hf
    have hadd : add m acc v.1 v.2.1 v.2.2 =
        .ok ({ (reserve m acc v.2.2).1 with toLayout := l }, (reserve m acc v.2.2).2) := by
      unfold add; rw [h1]
    have hq : l.loc v.1 = some (total done) := by
      rw [h2.loc, startOf_append, startOf_eq_none.2 hf]; simp [startOf]
    simp only [subsetLoop]
    rw [t.loc, hp, entry_of_mem t hvm hsz]
    simp only [hadd, hq]
    apply ih (done := done ++ [(v.1, v.2.1, v.2.2)]) h2
    · rw [names_append]
      simpa [names] using hn
    · intro y hy; exact hv y (by simp [hy])

end Neml.Hist
