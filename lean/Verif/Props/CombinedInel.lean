import Verif.Model.CombinedInel
import Verif.Model.Slip
import Mathlib.Tactic.Linarith
import Mathlib.Tactic.Ring
import Mathlib.Tactic.NormNum
import Mathlib.Tactic.Positivity
import Mathlib.Algebra.Order.BigOperators.Group.List

/-!
# C174: inelastic crystal models in combination

Specification: the variables of a combination are those of its parts, one after the other; a rate, or a derivative of a rate,
of variable `a` by variable `b` is the one of the part that has `a`; the derivative of the plastic strain rate is the sum over the
parts.
-/

namespace Neml.CombinedInel

variable {N V : Type} [DecidableEq N]

/-! ## Lists of entries -/

theorem fold_data {α M : Type} [DecidableEq M] (f : α → Flat M V) (ps : List α) (a : Flat M V) :
    (ps.foldl (fun h p => h.union (f p)) a).data = a.data ++ ps.flatMap fun p => (f p).data := by
  induction ps generalizing a with
  | nil => simp
  | cons p ps ih =>
    rw [List.foldl_cons, ih, List.flatMap_cons, ← List.append_assoc]
    rfl

/-- The rates of the variables, read by position, are `f` and `fS` of the variables in order. -/
def Part.Lists (p : Part N V) (f : N → ℝ) (fS : N → V) : Prop :=
  p.rate.data.length = p.vars.length ∧ p.rateS.data.length = p.vars.length ∧
    ∀ i (h : i < p.vars.length), readRate p i = (some (f p.vars[i]), some (fS p.vars[i]))

theorem lists_iff (p : Part N V) (f : N → ℝ) (fS : N → V) :
    p.Lists f fS ↔ p.rate.data = p.vars.map f ∧ p.rateS.data = p.vars.map fS := by
  constructor
  · rintro ⟨h1, h2, h3⟩
    constructor
    · refine List.ext_getElem (by simpa using h1) fun i h h' => ?_
      have hi : i < p.vars.length := by simpa using h'
      have := congrArg Prod.fst (h3 i hi)
      simp only [readRate, Flat.raw, List.getElem?_eq_getElem h, Option.some.injEq] at this
      simpa using this
    · refine List.ext_getElem (by simpa using h2) fun i h h' => ?_
      have hi : i < p.vars.length := by simpa using h'
      have := congrArg Prod.snd (h3 i hi)
      simp only [readRate, Flat.raw, List.getElem?_eq_getElem h, Option.some.injEq] at this
      simpa using this
  · rintro ⟨h1, h2⟩
    refine ⟨by simp [h1], by simp [h2], fun i hi => ?_⟩
    simp [readRate, Flat.raw, h1, h2, hi]

/-- C174: the rates of the variables and their derivatives by the stress are right for every combination, also of combinations,
if they are right for the parts. -/
theorem C174_rates (ps : List (Part N V)) (f : N → ℝ) (fS : N → V) (h : ∀ p ∈ ps, p.Lists f fS) :
    (combined ps).Lists f fS := by
  rw [lists_iff]
  have h' := fun p hp => (lists_iff p f fS).mp (h p hp)
  simp only [combined]
  rw [fold_data, fold_data]
  simp only [Flat.empty, List.nil_append]
  clear h
  induction ps with
  | nil => simp
  | cons p ps ih =>
    have i := ih fun q hq => h' q (List.mem_cons_of_mem _ hq)
    have j := h' p List.mem_cons_self
    simp [i.1, i.2, j.1, j.2]

/-- C174: the models themselves list their rates. -/
theorem C174_rates_models (vars : List N) (rate : N → ℝ) (rateS : N → V) (rateH : N × N → ℝ) (dpH : N → V) (s A n : ℝ)
    (f : N → ℝ) (fS : N → V) : (asaro vars rate rateS rateH dpH s).Lists rate rateS ∧ (none' : Part N V).Lists f fS ∧
      (powerLaw A n : Part N V).Lists f fS := by
  refine ⟨(lists_iff _ _ _).mpr ⟨rfl, rfl⟩, (lists_iff _ _ _).mpr ⟨rfl, rfl⟩, (lists_iff _ _ _).mpr ⟨rfl, rfl⟩⟩

/-! ## Places -/

theorem shift_apply {M : Type} [DecidableEq M] (loc : M → Option ℕ) (names : List M) (off : ℕ) (x : M) :
    shift loc names off x = if x ∈ names then some ((loc x).getD 0 + off * names.count x) else loc x := by
  induction names generalizing loc with
  | nil => simp [shift]
  | cons v l ih =>
    have e : shift loc (v :: l) off = shift (fun x => if x = v then some ((loc x).getD 0 + off) else loc x) l off := rfl
    rw [e, ih]
    by_cases hv : x = v
    · subst hv
      by_cases hl : x ∈ l
      · simp [hl]; ring
      · simp [hl, List.count_eq_zero_of_not_mem hl]
    · have : (v == x) = false := by simpa using fun h => hv h.symm
      simp [hv, List.count_cons, this]

theorem union_empty {M : Type} [DecidableEq M] (a : Flat M V) : a.union .empty = a := by
  cases a with
  | mk o l d =>
    simp only [Flat.union, Flat.empty, shift, List.append_nil, List.foldl_nil]
    congr 1
    funext x
    cases l x <;> rfl

theorem empty_union {M : Type} [DecidableEq M] (l : List M) (f : M → V) :
    (Flat.empty : Flat M V).union (.ofNames l f) = .ofNames l f := by
  simp only [Flat.union, Flat.empty, Flat.ofNames, List.nil_append, Flat.mk.injEq, true_and, and_true]
  funext x
  rw [shift_apply]
  by_cases h : x ∈ l <;> simp [h]

/-- A model without variables that adds nothing to any history: `NoInelasticity`, `PowerLawInelasticity` and combinations of
them. -/
def Part.Plain (p : Part N V) : Prop :=
  p.vars = [] ∧ p.rate = .empty ∧ p.rateS = .empty ∧ p.rateH = .empty ∧ ∀ all, p.dpH all = .empty

theorem fold_empty {α M : Type} [DecidableEq M] (f : α → Flat M V) (ps : List α) (h : ∀ p ∈ ps, f p = .empty) (a : Flat M V) :
    ps.foldl (fun h p => h.union (f p)) a = a := by
  induction ps generalizing a with
  | nil => rfl
  | cons p ps ih =>
    rw [List.foldl_cons, h p List.mem_cons_self, union_empty]
    exact ih (fun q hq => h q (List.mem_cons_of_mem _ hq)) a

theorem fold_one {α M : Type} [DecidableEq M] (f : α → Flat M V) (bs as : List α) (c : α) (hb : ∀ p ∈ bs, f p = .empty)
    (ha : ∀ p ∈ as, f p = .empty) (l : List M) (g : M → V) (hc : f c = .ofNames l g) :
    (bs ++ c :: as).foldl (fun (h : Flat M V) p => h.union (f p)) .empty = .ofNames l g := by
  rw [List.foldl_append, fold_empty f bs hb, List.foldl_cons, hc, empty_union, fold_empty f as ha]

/-- C174: models without variables stay so in combination. -/
theorem C174_plain (ps : List (Part N V)) (A n : ℝ) (h : ∀ p ∈ ps, p.Plain) :
    (combined ps).Plain ∧ (none' : Part N V).Plain ∧ (powerLaw A n : Part N V).Plain := by
  refine ⟨⟨?_, fold_empty _ _ (fun p hp => (h p hp).2.1) _, fold_empty _ _ (fun p hp => (h p hp).2.2.1) _,
    fold_empty _ _ (fun p hp => (h p hp).2.2.2.1) _, fun all => fold_empty _ _ (fun p hp => (h p hp).2.2.2.2 all) _⟩,
    ⟨rfl, rfl, rfl, rfl, fun _ => rfl⟩, ⟨rfl, rfl, rfl, rfl, fun _ => rfl⟩⟩
  simp only [combined, List.flatMap_eq_nil_iff]
  exact fun p hp => (h p hp).1

theorem vars_one (bs as : List (Part N V)) (c : Part N V) (hb : ∀ p ∈ bs, p.Plain) (ha : ∀ p ∈ as, p.Plain) :
    (combined (bs ++ c :: as)).vars = c.vars := by
  have e : ∀ l : List (Part N V), (∀ p ∈ l, p.Plain) → l.flatMap (fun p => p.vars) = [] := fun l h => by
    rw [List.flatMap_eq_nil_iff]
    exact fun p hp => (h p hp).1
  simp only [combined, List.flatMap_append, List.flatMap_cons, e bs hb, e as ha, List.nil_append, List.append_nil]

theorem pairs_index (l : List N) (k : List N) (i j : ℕ) (hi : i < l.length) (hj : j < k.length) :
    (l.flatMap fun a => k.map fun b => (a, b))[i * k.length + j]? = some (l[i], k[j]) := by
  induction l generalizing i with
  | nil => simp at hi
  | cons a l ih =>
    rw [List.flatMap_cons]
    cases i with
    | zero => rw [List.getElem?_append_left (by simpa using hj)]; simp [hj]
    | succ i =>
      rw [List.getElem?_append_right (by simp; nlinarith)]
      have : (i + 1) * k.length + j - (k.map fun b => (a, b)).length = i * k.length + j := by
        simp; rw [Nat.succ_mul]; omega
      rw [this, ih i (by simpa using hi)]
      simp

/-- C174, what holds: with one slip model among models without variables, wherever it stands, the derivative of every rate by
every variable is read at its place, and the derivative of the plastic strain rate by every variable is that of the slip model.
Missing: combinations with a second slip model, where both are wrong (see below). -/
theorem C174_single_partial (bs as : List (Part N V)) (hb : ∀ p ∈ bs, p.Plain) (ha : ∀ p ∈ as, p.Plain) (vars : List N)
    (rate : N → ℝ) (rateS : N → V) (rateH : N × N → ℝ) (dpH : N → V) (s : ℝ) :
    let p := combined (bs ++ asaro vars rate rateS rateH dpH s :: as)
    (∀ i j (hi : i < vars.length) (hj : j < vars.length), readRateH p i j = some (rateH (vars[i], vars[j]))) ∧
      ∀ x ∈ vars, readDpH p x = some (dpH x) := by
  intro p
  have hv : p.vars = vars := vars_one bs as _ hb ha
  have h1 : p.rateH = .ofNames (vars.flatMap fun a => vars.map fun b => (a, b)) rateH :=
    fold_one (fun q : Part N V => q.rateH) bs as _ (fun q hq => (hb q hq).2.2.2.1) (fun q hq => (ha q hq).2.2.2.1) _ _ rfl
  have h2 : p.dpH p.vars = .ofNames p.vars dpH :=
    fold_one (fun q : Part N V => q.dpH p.vars) bs as _ (fun q hq => (hb q hq).2.2.2.2 _) (fun q hq => (ha q hq).2.2.2.2 _) _ _ rfl
  constructor
  · intro i j hi hj
    rw [readRateH, h1, hv, Flat.raw]
    simp [Flat.ofNames, pairs_index vars vars i j hi hj]
  · intro x hx
    rw [readDpH, h2, hv]
    simp [Flat.get, Flat.ofNames, hx]

/-! ## Two slip models -/

theorem squares_le (l : List ℕ) : (l.map fun a => a * a).sum ≤ l.sum * l.sum := by
  induction l with
  | nil => simp
  | cons a l ih => simp only [List.map_cons, List.sum_cons]; nlinarith [Nat.zero_le (a * l.sum)]

theorem squares_lt (l : List ℕ) (h : 2 ≤ (l.filter (0 < ·)).length) : (l.map fun a => a * a).sum < l.sum * l.sum := by
  induction l with
  | nil => simp at h
  | cons a l ih =>
    simp only [List.map_cons, List.sum_cons]
    by_cases ha : 0 < a
    · have : 0 < l.sum := by
        rw [List.filter_cons_of_pos (by simpa using ha)] at h
        simp only [List.length_cons] at h
        obtain ⟨b, hb⟩ := List.exists_mem_of_length_pos (l := l.filter (0 < ·)) (by omega)
        have hb' := List.mem_filter.mp hb
        exact lt_of_lt_of_le (by simpa using hb'.2) (List.single_le_sum (by simp) b hb'.1)
      have := squares_le l
      nlinarith
    · have ha' : a = 0 := by omega
      subst ha'
      simpa using ih (by simpa using h)

/-- C174, what is not so: as soon as two parts have variables, the derivatives of the rates by the variables are fewer than the
crystal model reads. The last one, of the last rate by the last variable, is read beyond the end. -/
theorem C174_square_disagreement (ps : List (Part N V)) (h : ∀ p ∈ ps, p.rateH.data.length = p.vars.length * p.vars.length)
    (h2 : 2 ≤ (ps.filter fun p => 0 < p.vars.length).length) :
    let n := (combined ps).vars.length
    0 < n ∧ readRateH (combined ps) (n - 1) (n - 1) = none := by
  intro n
  have hn : n = (ps.map fun p => p.vars.length).sum := by
    show ((ps.flatMap fun p => p.vars)).length = _
    rw [List.length_flatMap]
  have hd : (combined ps).rateH.data.length = ((ps.map fun p => p.vars.length).map fun a => a * a).sum := by
    show (ps.foldl (fun (h : Flat (N × N) ℝ) p => h.union p.rateH) .empty).data.length = _
    rw [fold_data]
    simp only [Flat.empty, List.nil_append, List.length_flatMap, List.map_map]
    congr 1
    exact List.map_congr_left fun p hp => by simpa using h p hp
  have hlt := squares_lt (ps.map fun p => p.vars.length) (by
    rw [List.filter_map, List.length_map]
    exact h2)
  rw [← hd, ← hn] at hlt
  have hpos : 0 < n := by
    rcases Nat.eq_zero_or_pos n with h0 | h0
    · rw [h0] at hlt; simp at hlt
    · exact h0
  refine ⟨hpos, ?_⟩
  rw [readRateH, Flat.raw, List.getElem?_eq_none]
  have e : (n - 1) * n + (n - 1) + 1 = n * n := by
    obtain ⟨k, hk⟩ : ∃ k, n = k + 1 := ⟨n - 1, by omega⟩
    rw [hk]; simp; ring
  show _ ≤ (n - 1) * n + (n - 1)
  omega

/-- Places after `k` unions of histories with the same names: how often the number of names is added. -/
def tri : ℕ → ℕ
  | 0 => 0
  | k + 1 => tri k + k

theorem tri_ge : ∀ k, 3 ≤ k → k ≤ tri k
  | 3, _ => by decide
  | k + 4, _ => by
    have := tri_ge (k + 3) (by omega)
    have e : tri (k + 4) = tri (k + 3) + (k + 3) := rfl
    omega

theorem same_names (all : List N) (hnd : all.Nodup) (fs : List (N → V)) (h : fs ≠ []) :
    let a := fs.foldl (fun (h : Flat N V) f => h.union (.ofNames all f)) .empty
    a.data = fs.flatMap (fun f => all.map f) ∧ ∀ x ∈ all, a.loc x = some (all.idxOf x + all.length * tri fs.length) := by
  intro a
  have hd : a.data = fs.flatMap (fun f => all.map f) := by
    show (fs.foldl (fun (h : Flat N V) f => h.union (.ofNames all f)) .empty).data = _
    rw [fold_data (fun f => Flat.ofNames all f)]
    rfl
  refine ⟨hd, ?_⟩
  clear hd
  show ∀ x ∈ all, (fs.foldl (fun (h : Flat N V) f => h.union (.ofNames all f)) .empty).loc x = _
  induction fs using List.reverseRecOn with
  | nil => exact absurd rfl h
  | append_singleton fs f ih =>
    intro x hx
    rw [List.foldl_append, List.foldl_cons, List.foldl_nil]
    have hc : all.count x = 1 := List.count_eq_one_of_mem hnd hx
    by_cases hf : fs = []
    · subst hf
      rw [List.foldl_nil, empty_union]
      simp [Flat.ofNames, hx, tri]
    · have hl := ih hf x hx
      have hdl : (fs.foldl (fun (h : Flat N V) f => h.union (Flat.ofNames all f)) .empty).data.length = all.length * fs.length := by
        rw [fold_data (fun f => Flat.ofNames all f)]
        simp [Flat.empty, Flat.ofNames, List.length_flatMap, mul_comm]
      have e : (((fs.foldl (fun (h : Flat N V) f => h.union (Flat.ofNames all f)) .empty).union (.ofNames all f)).loc x) =
          shift (fun y => ((fs.foldl (fun (h : Flat N V) f => h.union (Flat.ofNames all f)) .empty).loc y).orElse
            fun _ => (Flat.ofNames all f).loc y) all
            (fs.foldl (fun (h : Flat N V) f => h.union (Flat.ofNames all f)) .empty).data.length x := rfl
      rw [e, shift_apply, if_pos hx, hdl, hl, hc]
      simp [tri, mul_add, add_assoc]

/-- What the slip model of a rule returns, as one value. -/
structure Slip (N V : Type) where
  vars : List N
  rate : N → ℝ
  rateS : N → V
  rateH : N × N → ℝ
  dpH : N → V
  strength : ℝ

/-- The inelastic model of it. -/
def Slip.part (q : Slip N V) : Part N V := asaro q.vars q.rate q.rateS q.rateH q.dpH q.strength

theorem read_slips (qs : List (Slip N V)) (x : N) : readDpH (combined (qs.map Slip.part)) x =
    ((qs.map fun q => q.dpH).foldl (fun (h : Flat N V) f => h.union (.ofNames (qs.flatMap fun q => q.vars) f)) .empty).get x := by
  have hv : (combined (qs.map Slip.part)).vars = qs.flatMap fun q => q.vars := by
    simp [combined, List.flatMap_map, Slip.part, asaro]
  rw [readDpH, hv]
  simp only [combined, List.foldl_map]
  rfl

/-- C174, what is not so: with two slip models, the derivative of the plastic strain rate by a variable is that of the second
model alone: the part of the first is lost, and with it all derivatives by the variables of the first model, even if the second
has no variables at all. -/
theorem C174_second_disagreement (q1 q2 : Slip N V) (hnd : (q1.vars ++ q2.vars).Nodup) (x : N) (hx : x ∈ q1.vars ++ q2.vars) :
    readDpH (combined [q1.part, q2.part]) x = some (q2.dpH x) := by
  have := read_slips [q1, q2] x
  simp only [List.map_cons, List.map_nil, List.flatMap_cons, List.flatMap_nil, List.append_nil] at this
  rw [this]
  obtain ⟨h1, h2⟩ := same_names (q1.vars ++ q2.vars) hnd [q1.dpH, q2.dpH] (by simp)
  rw [Flat.get, h2 x hx, h1]
  have hi := List.idxOf_lt_length_of_mem hx
  set all := q1.vars ++ q2.vars with hall
  show ([q1.dpH, q2.dpH].flatMap fun f => all.map f)[all.idxOf x + all.length * 1]? = _
  rw [List.flatMap_cons, List.getElem?_append_right (by simp)]
  simp [hi]

/-- C174, what is not so: with three or more slip models the derivative of the plastic strain rate by any variable is read beyond
the end of the history. -/
theorem C174_third_disagreement (qs : List (Slip N V)) (h3 : 3 ≤ qs.length) (hnd : (qs.flatMap fun q => q.vars).Nodup) (x : N)
    (hx : x ∈ qs.flatMap fun q => q.vars) : readDpH (combined (qs.map Slip.part)) x = none := by
  rw [read_slips]
  obtain ⟨h1, h2⟩ := same_names _ hnd (qs.map fun q => q.dpH) (by
    intro h
    rw [List.map_eq_nil_iff] at h
    simp [h] at h3)
  rw [Flat.get, h2 x hx, h1]
  simp only [Option.bind_some, List.length_map]
  rw [List.getElem?_eq_none]
  have := tri_ge _ h3
  simp only [List.length_flatMap, List.length_map, List.map_map, Function.comp_def, List.map_const', List.sum_replicate,
    smul_eq_mul]
  have := Nat.mul_le_mul_left (qs.map fun q => q.vars.length).sum this
  rw [mul_comm qs.length]
  omega

/-! ## Strength -/

theorem strength_fold (ps : List (Part N V)) (m : ℝ) :
    let r := ps.foldl (fun m p => open Classical in if p.strength > m then p.strength else m) m
    m ≤ r ∧ (∀ p ∈ ps, p.strength ≤ r) ∧ (r = m ∨ ∃ p ∈ ps, r = p.strength) := by
  induction ps generalizing m with
  | nil => simp
  | cons p ps ih =>
    intro r
    obtain ⟨h1, h2, h3⟩ := ih (if p.strength > m then p.strength else m)
    have hm : m ≤ (if p.strength > m then p.strength else m) := by split_ifs with h <;> linarith
    have hp : p.strength ≤ (if p.strength > m then p.strength else m) := by split_ifs with h <;> linarith
    refine ⟨hm.trans h1, ?_, ?_⟩
    · intro q hq
      rcases List.mem_cons.mp hq with rfl | hq
      · exact hp.trans h1
      · exact h2 q hq
    · rcases h3 with h3 | ⟨q, hq, h3⟩
      · by_cases h : p.strength > m
        · exact Or.inr ⟨p, List.mem_cons_self, h3.trans (if_pos h)⟩
        · exact Or.inl (h3.trans (if_neg h))
      · exact Or.inr ⟨q, List.mem_cons_of_mem _ hq, h3⟩

/-- C174: the strength of a combination is the largest of the strengths of its parts, or zero if none is positive. -/
theorem C174_strength (ps : List (Part N V)) : 0 ≤ (combined ps).strength ∧ (∀ p ∈ ps, p.strength ≤ (combined ps).strength) ∧
    ((combined ps).strength = 0 ∨ ∃ p ∈ ps, (combined ps).strength = p.strength) := strength_fold ps 0

/-- C174: the strength of the power law is the equivalent stress at which it flows at the rate one. -/
theorem C174_power_strength (A n : ℝ) (hA : 0 < A) (hn : n ≠ 0) :
    0 < (powerLaw A n : Part N V).strength ∧ A * (powerLaw A n : Part N V).strength ^ n = 1 := by
  show 0 < A ^ (-1 / n) ∧ A * (A ^ (-1 / n)) ^ n = 1
  refine ⟨Real.rpow_pos_of_pos hA _, ?_⟩
  rw [← Real.rpow_mul hA.le, div_mul_cancel₀ _ hn, Real.rpow_neg_one, mul_inv_cancel₀ hA.ne']

theorem sum_between {α : Type} (l : List α) (f : α → ℝ) (a b : ℝ) (h : ∀ x ∈ l, a ≤ f x ∧ f x ≤ b) :
    a * l.length ≤ (l.map f).sum ∧ (l.map f).sum ≤ b * l.length := by
  induction l with
  | nil => simp
  | cons x l ih =>
    have i := ih fun y hy => h y (List.mem_cons_of_mem _ hy)
    have j := h x List.mem_cons_self
    simp only [List.map_cons, List.sum_cons, List.length_cons, Nat.cast_add, Nat.cast_one]
    constructor <;> linarith

/-- C174: the strength of a slip rule lies between the smallest and the largest strength of its slip systems; it is not a number
exactly if the rule has no strengths or the lattice no systems. -/
theorem C174_slip_strength {m : ℕ} (r : Neml.Slip.Rule N m) (c : Neml.Slip.Crys) (h : N → ℝ) (a b : ℝ)
    (hab : ∀ k, ∀ p ∈ c.systems, a ≤ (r.hard k).tau p.1 p.2 h ∧ (r.hard k).tau p.1 p.2 h ≤ b) :
    (r.strength c h = none ↔ m = 0 ∨ c.systems = []) ∧ ∀ s, r.strength c h = some s → a ≤ s ∧ s ≤ b := by
  have hn : ((List.finRange m).map fun _ => (c.systems.map fun _ => (1 : ℝ)).sum).sum = m * c.systems.length := by simp
  unfold Neml.Slip.Rule.strength
  simp only [hn]
  constructor
  · split_ifs with h0
    · simpa [List.length_eq_zero_iff] using h0
    · simpa [List.length_eq_zero_iff] using h0
  · intro s
    split_ifs with h0
    · simp
    · intro hs
      have hs := Option.some.inj hs
      have hpos : (0 : ℝ) < m * c.systems.length := lt_of_le_of_ne (by positivity) (Ne.symm h0)
      have := sum_between (List.finRange m) (fun k => (c.systems.map fun p => (r.hard k).tau p.1 p.2 h).sum)
        (a * c.systems.length) (b * c.systems.length) fun k _ => sum_between c.systems _ a b (hab k)
      rw [List.length_finRange] at this
      rw [← hs, le_div_iff₀ hpos, div_le_iff₀ hpos]
      constructor <;> linarith [this.1, this.2]

/-! ## Examples -/

/-- A slip model with one variable, whose plastic strain rate changes with it. -/
def one (x : String) (d : ℝ) : Slip String ℝ := ⟨[x], fun _ => 1, fun _ => 2, fun _ => 3, fun y => if y = x then d else 0, 5⟩

example : readDpH (combined [powerLaw 2 3, (one "a" 7).part]) "a" = some 7 := by
  have := (C174_single_partial [powerLaw 2 3] [] (by
    intro p hp
    rw [List.mem_singleton.mp hp]
    exact (C174_plain [] 2 3 (by simp)).2.2) (by simp) ["a"] (fun _ => 1) (fun _ => (2 : ℝ)) (fun _ => 3)
    (fun y => if y = "a" then 7 else 0) 5).2 "a" (by simp)
  rw [if_pos rfl] at this
  exact this

example : readDpH (combined [(one "a" 7).part, (one "b" 8).part]) "a" = some 0 := by
  rw [C174_second_disagreement _ _ (by simp [one]) _ (by simp [one])]
  simp [one]

example : readRateH (combined [(one "a" 7).part, (one "b" 8).part]) 1 1 = none :=
  (C174_square_disagreement [(one "a" 7).part, (one "b" 8).part] (by simp [one, Slip.part, asaro, Flat.ofNames])
    (by simp [one, Slip.part, asaro])).2

example : (combined [(powerLaw 1 3 : Part String ℝ), (one "a" 7).part]).strength = 5 := by
  rcases (C174_strength [(powerLaw 1 3 : Part String ℝ), (one "a" 7).part]) with ⟨-, h2, h3⟩
  have h5 := h2 (one "a" 7).part (by simp)
  have e5 : (one "a" 7).part.strength = 5 := rfl
  have e1 : (powerLaw 1 3 : Part String ℝ).strength = 1 := by simp [powerLaw]
  rw [e5] at h5
  rcases h3 with h3 | ⟨p, hp, h3⟩
  · linarith
  · rcases List.mem_cons.mp hp with rfl | hp
    · linarith
    · rw [List.mem_singleton.mp hp, e5] at h3
      exact h3

end Neml.CombinedInel
