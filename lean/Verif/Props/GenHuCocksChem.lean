import Verif.Model.GenHuCocks
import Verif.Props.HuCocksChem

/-!
# C149 and C150: building the generalized precipitation model, its chemistry and switch

Specifications: `Sys.Proper`, amounts summed over the precipitates that hold a species, signs.
-/

namespace Neml.GenHuCocks

variable {ns np : Nat}

/-- What a user means by a list of precipitates: species have different names, each precipitate lists a species at most
once and gives a concentration exactly for the species it lists. -/
structure Sys.Proper (m : Sys ns np) : Prop where
  inj : Function.Injective m.comp
  nodup : ∀ i, (m.prec i).sp.Nodup
  has : ∀ i s, ((m.prec i).cp (m.comp s)).isNone ↔ s ∉ (m.prec i).sp

/-! ## C149 -/

theorem firstOf_some {comp : Fin ns → String} (hi : Function.Injective comp) {n : String} {s : Fin ns} :
    firstOf comp n = some s ↔ comp s = n := by
  constructor
  · intro h
    simpa using List.find?_some h
  · rintro rfl
    rw [firstOf]
    cases h : (List.finRange ns).find? fun t => comp t = comp s with
    | none => exact absurd (List.find?_eq_none.mp h s (List.mem_finRange s)) (by simp)
    | some l => exact congrArg some (hi (by simpa using List.find?_some h))

theorem firstOf_isSome {comp : Fin ns → String} {n : String} : (firstOf comp n).isSome ↔ ∃ s, comp s = n := by
  rw [firstOf, List.find?_isSome]
  simp

/-- The loop over the names of a precipitate. -/
theorem gather {comp : Fin ns → String} (l : List String) (sp : List (Fin ns)) :
    l.foldlM (fun acc n => (firstOf comp n).map fun s => acc ++ [s]) sp =
      (l.mapM (firstOf comp)).map (sp ++ ·) := by
  induction l generalizing sp with
  | nil => simp
  | cons n l ih =>
    rw [List.foldlM_cons, List.mapM_cons]
    cases h : firstOf comp n with
    | none => simp
    | some s =>
      simp only [Option.map_some, Option.bind_eq_bind, Option.bind_some, ih]
      cases h2 : l.mapM (firstOf comp) with
      | none => simp
      | some t => simp

theorem mapM_isSome {comp : Fin ns → String} (l : List String) :
    (l.mapM (firstOf comp)).isSome ↔ ∀ n ∈ l, ∃ s, comp s = n := by
  induction l with
  | nil => simp
  | cons n l ih =>
    rw [List.mapM_cons]
    cases h : firstOf comp n with
    | none =>
      have : ¬ ∃ s, comp s = n := by rw [← firstOf_isSome, h]; simp
      simp [this]
    | some s =>
      have : ∃ s, comp s = n := by rw [← firstOf_isSome, h]; simp
      cases h2 : l.mapM (firstOf comp) with
      | none =>
        rw [h2] at ih
        simp only [Option.isSome_none, Bool.false_eq_true, false_iff] at ih
        simp [ih]
      | some t =>
        rw [h2] at ih
        simp only [Option.isSome_some, true_iff] at ih
        simp only [List.mem_cons, forall_eq_or_imp, this, true_and]
        simpa using ih

theorem mapM_names {comp : Fin ns → String} (l : List String) (t : List (Fin ns)) (h : l.mapM (firstOf comp) = some t) :
    t.map comp = l := by
  induction l generalizing t with
  | nil => simp at h; simp [← h]
  | cons n l ih =>
    rw [List.mapM_cons] at h
    cases h1 : firstOf comp n with
    | none => rw [h1] at h; simp at h
    | some s =>
      cases h2 : l.mapM (firstOf comp) with
      | none => rw [h1, h2] at h; simp at h
      | some u =>
        rw [h1, h2] at h
        have h : s :: u = t := by simpa using h
        rw [← h, List.map_cons, ih u h2]
        have : comp s = n := by simpa using List.find?_some h1
        rw [this]

theorem lookup_none {l : List String} {v : List ℝ} (hl : l.length = v.length) (n : String) :
    ((l.zip v).lookup n).isNone ↔ n ∉ l := by
  induction l generalizing v with
  | nil => simp
  | cons a l ih =>
    cases v with
    | nil => simp at hl
    | cons x v =>
      rw [List.zip_cons_cons, List.lookup_cons]
      by_cases h : n = a
      · simp [h]
      · have : (n == a) = false := by simpa using h
        rw [this]
        simp only [ih (by simpa using hl), List.mem_cons, not_or, h, not_false_eq_true, true_and]

/-- C149: a model is built exactly when every species and rate limiting species named is one of its species. -/
theorem C149_build (comp : Fin ns → String) (ps : Fin np → Raw ns) :
    (build comp ps).isSome ↔
      ∀ i, (∀ n ∈ (ps i).names, ∃ s, comp s = n) ∧ ∃ s, comp s = (ps i).rateName := by
  have h : ∀ i, (initPrec comp (ps i)).isSome ↔
      (∀ n ∈ (ps i).names, ∃ s, comp s = n) ∧ ∃ s, comp s = (ps i).rateName := by
    intro i
    rw [initPrec, gather, ← mapM_isSome, ← firstOf_isSome]
    cases (ps i).names.mapM (firstOf comp) <;> cases firstOf comp (ps i).rateName <;> simp
  simp only [← h]
  rw [build]
  split_ifs with hh
  · simpa using hh
  · simpa using hh

/-- C149: a model built from fresh precipitates is proper. Each precipitate knows exactly the species it names and its
rate limiting species. -/
theorem C149_proper (comp : Fin ns → String) (ps : Fin np → Raw ns) {qs : Fin np → Prec ns} (hb : build comp ps = some qs)
    (hi : Function.Injective comp) (hf : ∀ i, (ps i).sp = []) (hn : ∀ i, (ps i).names.Nodup)
    (hl : ∀ i, (ps i).names.length = (ps i).cps.length) (c0 ceq : Fin ns → ℝ) (kb Na R T eps : ℝ) :
    (⟨comp, c0, ceq, qs, kb, Na, R, T, eps⟩ : Sys ns np).Proper ∧
      ∀ i, (qs i).sp.map comp = (ps i).names ∧ comp (qs i).rate = (ps i).rateName ∧ (qs i).k = (ps i).k := by
  have h : ∀ i, initPrec comp (ps i) = some (qs i) := by
    intro i
    rw [build] at hb
    split_ifs at hb with hh
    rw [← Option.some.inj hb]
    exact (Option.some_get (hh i)).symm
  have key : ∀ i, (qs i).sp.map comp = (ps i).names ∧ comp (qs i).rate = (ps i).rateName ∧ (qs i).k = (ps i).k ∧
      (qs i).names = (ps i).names ∧ (qs i).cps = (ps i).cps := by
    intro i
    have := h i
    rw [initPrec, gather, hf i] at this
    cases h1 : (ps i).names.mapM (firstOf comp) with
    | none => rw [h1] at this; simp at this
    | some t =>
      cases h2 : firstOf comp (ps i).rateName with
      | none => rw [h1, h2] at this; simp at this
      | some s =>
        rw [h1, h2] at this
        have this : (⟨(ps i).names, (ps i).cps, t, s, (ps i).k⟩ : Prec ns) = qs i := by simpa using this
        rw [← this]
        exact ⟨mapM_names _ _ h1, (firstOf_some hi).mp h2, rfl, rfl, rfl⟩
  refine ⟨⟨hi, fun i => ?_, fun i s => ?_⟩, fun i => ⟨(key i).1, (key i).2.1, (key i).2.2.1⟩⟩
  · exact List.Nodup.of_map comp (by rw [(key i).1]; exact hn i)
  · show ((qs i).cp (comp s)).isNone ↔ s ∉ (qs i).sp
    rw [Prec.cp, (key i).2.2.2.1, (key i).2.2.2.2, lookup_none (hl i), ← (key i).1]
    simp only [List.mem_map, not_exists, not_and]
    exact ⟨fun h hs => h s hs rfl, fun h t ht e => h (hi e ▸ ht)⟩

/-! ## Amounts -/

/-- The amount of a species in the precipitates. -/
noncomputable def Sys.inside (m : Sys ns np) (h : Hist np) (s : Fin ns) : ℝ :=
  ∑ i, if s ∈ (m.prec i).sp then m.f h i * m.cpAt i s else 0

/-- The volume of the precipitates that hold a species. -/
noncomputable def Sys.room (m : Sys ns np) (h : Hist np) (s : Fin ns) : ℝ :=
  ∑ i, if s ∈ (m.prec i).sp then m.f h i else 0

theorem inner_left (m : Sys ns np) (same : Fin ns → Fin ns → Bool) (ss : Fin ns)
    (hs : ∀ s, same s ss = true → m.comp s = m.comp ss) (h : Hist np) (i : Fin np) (l : List (Fin ns)) (acc : ℝ × ℝ) :
    l.foldl (fun acc s => if same s ss then (acc.1 - m.f h i * m.cpAt i s, acc.2 - m.f h i) else acc) acc =
      (acc.1 - l.countP (same · ss) * (m.f h i * m.cpAt i ss), acc.2 - l.countP (same · ss) * m.f h i) := by
  induction l generalizing acc with
  | nil => simp
  | cons s l ih =>
    rw [List.foldl_cons, ih, List.countP_cons]
    by_cases hc : same s ss = true
    · have : m.cpAt i s = m.cpAt i ss := by rw [Sys.cpAt, Sys.cpAt, hs s hc]
      simp only [hc, if_true, this]
      push_cast
      ext <;> simp <;> ring
    · simp [hc]

theorem outer_left {α : Type} (l : List α) (x y : α → ℝ) (acc : ℝ × ℝ) :
    l.foldl (fun acc i => (acc.1 - x i, acc.2 - y i)) acc = (acc.1 - (l.map x).sum, acc.2 - (l.map y).sum) := by
  induction l generalizing acc with
  | nil => simp
  | cons i l ih =>
    rw [List.foldl_cons, ih]
    ext <;> simp <;> ring

theorem left_eq (m : Sys ns np) (same : Fin ns → Fin ns → Bool) (ss : Fin ns)
    (hs : ∀ s, same s ss = true → m.comp s = m.comp ss) (h : Hist np) :
    m.left same h ss = (m.c0 ss - ∑ i, (m.prec i).sp.countP (same · ss) * (m.f h i * m.cpAt i ss),
      1 - ∑ i, (m.prec i).sp.countP (same · ss) * m.f h i) := by
  rw [Sys.left]
  simp only [inner_left m same ss hs h]
  rw [outer_left]
  simp only [← List.ofFn_eq_map, List.sum_ofFn]

theorem countP_mem {l : List (Fin ns)} (hl : l.Nodup) (s : Fin ns) :
    (l.countP (fun a => decide (a = s)) : ℝ) = if s ∈ l then 1 else 0 := by
  have e : l.countP (fun a => decide (a = s)) = l.count s := by
    rw [List.count]
    congr
  rw [e, List.Nodup.count hl]
  split_ifs <;> simp

theorem left_ptr {m : Sys ns np} (hp : m.Proper) (h : Hist np) (s : Fin ns) :
    m.left (fun a b => decide (a = b)) h s = (m.c0 s - m.inside h s, 1 - m.room h s) := by
  rw [left_eq m _ s (fun t ht => by rw [of_decide_eq_true ht])]
  simp only [Sys.inside, Sys.room, countP_mem (hp.nodup _), ite_mul, one_mul, zero_mul]

theorem left_name {m : Sys ns np} (hp : m.Proper) (h : Hist np) (s : Fin ns) :
    m.left (fun a b => decide (m.comp a = m.comp b)) h s = (m.c0 s - m.inside h s, 1 - m.room h s) := by
  rw [← left_ptr hp]
  congr
  funext a b
  simp only [hp.inj.eq_iff]

theorem c_eq {m : Sys ns np} (hp : m.Proper) (h : Hist np) (s : Fin ns) :
    m.c h s = max ((m.c0 s - m.inside h s) / (1 - m.room h s)) m.eps := by
  rw [Sys.c, left_ptr hp]
  show (if _ > _ then _ else _) = _
  split_ifs with hc
  · exact (max_eq_left hc.le).symm
  · exact (max_eq_right (not_lt.mp hc)).symm

/-! ## C150 -/

/-- C150: the concentration never falls below the floor. Above it, the amount of a species in the precipitates and in
the volume outside the precipitates that hold it is the initial one. (Missing: the matrix is smaller than that volume,
see `C150_mass_disagreement`.) -/
theorem C150_mass_partial {m : Sys ns np} (hp : m.Proper) (h : Hist np) (s : Fin ns) :
    m.eps ≤ m.c h s ∧ (m.room h s ≠ 1 → m.eps < m.c h s →
      m.inside h s + (1 - m.room h s) * m.c h s = m.c0 s) := by
  rw [c_eq hp]
  refine ⟨le_max_right _ _, fun hr hc => ?_⟩
  have hx : 1 - m.room h s ≠ 0 := sub_ne_zero.mpr hr.symm
  rcases max_choice ((m.c0 s - m.inside h s) / (1 - m.room h s)) m.eps with e | e
  · rw [e]
    field_simp
    ring
  · rw [e] at hc
    exact absurd hc (lt_irrefl _)

/-- C150, the code disagrees: the amounts in all precipitates and in the matrix between them add up to the initial one
exactly while precipitates without the species fill no volume. -/
theorem C150_mass_disagreement {m : Sys ns np} (hp : m.Proper) (he : 0 ≤ m.eps) (h : Hist np) (s : Fin ns)
    (hr : m.room h s ≠ 1) (hc : m.eps < m.c h s) :
    m.inside h s + (1 - ∑ i, m.f h i) * m.c h s = m.c0 s ↔ (∑ i, if s ∈ (m.prec i).sp then 0 else m.f h i) = 0 := by
  have e := (C150_mass_partial hp h s).2 hr hc
  have hsum : ∑ i, m.f h i = m.room h s + ∑ i, if s ∈ (m.prec i).sp then 0 else m.f h i := by
    rw [Sys.room, ← Finset.sum_add_distrib]
    refine Finset.sum_congr rfl fun i _ => ?_
    split_ifs <;> simp
  rw [hsum]
  have hpos : 0 < m.c h s := he.trans_lt hc
  constructor
  · intro h'
    have : (∑ i, if s ∈ (m.prec i).sp then 0 else m.f h i) * m.c h s = 0 := by linarith
    exact (mul_eq_zero.mp this).resolve_right hpos.ne'
  · intro h'
    rw [h', add_zero, e]

theorem loop_spec (m : Sys ns np) (h : Hist np) (j : Fin np) (l : List (Fin ns)) (v d : ℝ) :
    v ≤ (m.switchLoop h j l (v, d)).1 ∧ (∀ s ∈ l, m.xi h s ≤ (m.switchLoop h j l (v, d)).1) ∧
    (m.switchLoop h j l (v, d) = (v, d) ∨ ∃ s ∈ l, v < m.xi h s ∧
      m.switchLoop h j l (v, d) = (m.xi h s, m.dc h s j / (m.ceq s - m.c0 s))) := by
  induction l generalizing v d with
  | nil => exact ⟨le_rfl, by simp, Or.inl rfl⟩
  | cons i l ih =>
    simp only [Sys.switchLoop, List.foldl_cons]
    by_cases hv : m.xi h i > v
    · simp only [hv, if_true]
      obtain ⟨h1, h2, h3⟩ := ih (m.xi h i) (m.dc h i j / (m.ceq i - m.c0 i))
      refine ⟨hv.le.trans h1, ?_, Or.inr ?_⟩
      · intro s hs
        rcases List.mem_cons.mp hs with rfl | hs
        · exact h1
        · exact h2 s hs
      · rcases h3 with h3 | ⟨s, hs, hlt, e⟩
        · exact ⟨i, List.mem_cons_self, hv, h3⟩
        · exact ⟨s, List.mem_cons_of_mem _ hs, lt_trans hv hlt, e⟩
    · simp only [hv, if_false]
      obtain ⟨h1, h2, h3⟩ := ih v d
      refine ⟨h1, ?_, ?_⟩
      · intro s hs
        rcases List.mem_cons.mp hs with rfl | hs
        · exact (not_lt.mp hv).trans h1
        · exact h2 s hs
      · rcases h3 with h3 | ⟨s, hs, hlt, e⟩
        · exact Or.inl h3
        · exact Or.inr ⟨s, List.mem_cons_of_mem _ hs, hlt, e⟩

/-- C150: the switch is the progress of the most advanced species of the precipitate, cut off at zero and one. It does
not depend on the precipitate by which it is differentiated. -/
theorem C150_switch (m : Sys ns np) (h : Hist np) (i j : Fin np) :
    0 ≤ (m.switch h i j).1 ∧ (m.switch h i j).1 ≤ 1 ∧ (∀ s ∈ (m.prec i).sp, min 1 (m.xi h s) ≤ (m.switch h i j).1) ∧
    ((m.switch h i j).1 = 0 ∨ ∃ s ∈ (m.prec i).sp, (m.switch h i j).1 = min 1 (m.xi h s)) := by
  obtain ⟨h1, h2, h3⟩ := loop_spec m h j (m.prec i).sp 0 0
  simp only [Sys.switch]
  by_cases hc : (m.switchLoop h j (m.prec i).sp (0, 0)).1 > 1
  · rw [if_pos hc]
    refine ⟨zero_le_one, le_rfl, fun i _ => min_le_left _ _, Or.inr ?_⟩
    rcases h3 with h3 | ⟨s, hs, _, e⟩
    · rw [h3] at hc; exact absurd hc (by norm_num)
    · rw [e] at hc
      exact ⟨s, hs, (min_eq_left (le_of_lt hc)).symm⟩
  · rw [if_neg hc]
    refine ⟨h1, not_lt.mp hc, fun s hs => (min_le_right _ _).trans (h2 s hs), ?_⟩
    rcases h3 with h3 | ⟨s, hs, _, e⟩
    · left; rw [h3]
    · right
      refine ⟨s, hs, ?_⟩
      rw [e] at hc ⊢
      exact (min_eq_right (not_lt.mp hc)).symm

theorem switch_val (m : Sys ns np) (h : Hist np) (i j j' : Fin np) : (m.switch h i j).1 = (m.switch h i j').1 := by
  have key : ∀ a b, (m.switch h i a).1 ≤ (m.switch h i b).1 := by
    intro a b
    obtain ⟨h1, _, h3, _⟩ := C150_switch m h i b
    rcases (C150_switch m h i a).2.2.2 with e | ⟨s, hs, e⟩
    · rw [e]; exact h1
    · rw [e]; exact h3 s hs
  exact le_antisymm (key _ _) (key _ _)

/-- C150: growth alone while no species of the precipitate has fallen below its initial concentration; ripening alone
exactly when one has come down to equilibrium. -/
theorem C150_regimes (m : Sys ns np) (h : Hist np) (i : Fin np) (ho : ∀ s, m.ceq s < m.c0 s) :
    ((m.switch h i i).1 = 0 ↔ ∀ s ∈ (m.prec i).sp, m.c0 s ≤ m.c h s) ∧
    ((m.switch h i i).1 = 1 ↔ ∃ s ∈ (m.prec i).sp, m.c h s ≤ m.ceq s) := by
  obtain ⟨h1, h2, h3, h4⟩ := C150_switch m h i i
  have hone : ∀ s, 1 ≤ m.xi h s ↔ m.c h s ≤ m.ceq s := fun s => by
    rw [Sys.xi, one_le_div_of_neg (by linarith [ho s])]
    constructor <;> intro h <;> linarith
  have hzero : ∀ s, m.xi h s ≤ 0 ↔ m.c0 s ≤ m.c h s := fun s => by
    have := ho s
    rw [Sys.xi]
    constructor
    · intro h'
      by_contra hc
      have := div_pos_of_neg_of_neg (show m.c h s - m.c0 s < 0 by linarith) (show m.ceq s - m.c0 s < 0 by linarith)
      linarith
    · intro h'
      exact div_nonpos_of_nonneg_of_nonpos (by linarith) (by linarith)
  refine ⟨⟨fun e s hs => (hzero s).mp ?_, fun e => ?_⟩, ⟨fun e => ?_, fun ⟨s, hs, e⟩ => ?_⟩⟩
  · have := h3 s hs
    rw [e] at this
    exact (min_le_iff.mp this).resolve_left (by norm_num)
  · rcases h4 with h4 | ⟨s, hs, h4⟩
    · exact h4
    · refine le_antisymm ?_ h1
      rw [h4]
      exact (min_le_right _ _).trans ((hzero s).mpr (e s hs))
  · rcases h4 with h4 | ⟨s, hs, h4⟩
    · rw [h4] at e; exact absurd e (by norm_num)
    · refine ⟨s, hs, (hone s).mp ?_⟩
      rw [e] at h4
      rw [h4]
      exact min_le_right _ _
  · refine le_antisymm h2 ?_
    have := h3 s hs
    rwa [min_eq_left ((hone s).mpr e)] at this

theorem foldl_logs (m : Sys ns np) (h : Hist np) (l : List (Fin ns)) (a : ℝ) (hc : ∀ s, 0 < m.c h s) (he : ∀ s, 0 < m.ceq s) :
    l.foldl (fun g s => g + -Real.log (m.c h s / m.ceq s)) a =
      a - Real.log ((l.map (m.c h)).prod / (l.map m.ceq).prod) := by
  induction l generalizing a with
  | nil => simp
  | cons s l ih =>
    have h1 : 0 < (l.map (m.c h)).prod := List.prod_pos fun x hx => by
      obtain ⟨t, _, rfl⟩ := List.mem_map.mp hx
      exact hc t
    have h2 : 0 < (l.map m.ceq).prod := List.prod_pos fun x hx => by
      obtain ⟨t, _, rfl⟩ := List.mem_map.mp hx
      exact he t
    rw [List.foldl_cons, ih, List.map_cons, List.map_cons, List.prod_cons, List.prod_cons, mul_div_mul_comm,
      Real.log_mul (div_pos (hc s) (he s)).ne' (div_pos h1 h2).ne']
    ring

/-- C150: precipitation is driven (`Gv < 0`) exactly while the product of the concentrations of the species of the
precipitate is above the product at equilibrium. The critical radius is positive then. -/
theorem C150_force (m : Sys ns np) (h : Hist np) (i : Fin np) (hc : ∀ s, 0 < m.c h s) (he : ∀ s, 0 < m.ceq s)
    (hk : 0 < m.kb * m.T) (hv : 0 < m.vmol i) (hx : 0 < (m.prec i).k.chi) :
    (m.Gv h i < 0 ↔ ((m.prec i).sp.map m.ceq).prod < ((m.prec i).sp.map (m.c h)).prod) ∧
    (m.Gv h i < 0 ↔ 0 < m.rc h i) := by
  have h1 : 0 < ((m.prec i).sp.map (m.c h)).prod := List.prod_pos fun x hx => by
    obtain ⟨t, _, rfl⟩ := List.mem_map.mp hx
    exact hc t
  have h2 : 0 < ((m.prec i).sp.map m.ceq).prod := List.prod_pos fun x hx => by
    obtain ⟨t, _, rfl⟩ := List.mem_map.mp hx
    exact he t
  have hq : 0 < m.kb * m.T / m.vmol i := div_pos hk hv
  constructor
  · rw [Sys.Gv, foldl_logs m h _ 0 hc he, zero_sub, neg_mul, neg_lt_zero, mul_pos_iff_of_pos_right hq,
      Real.log_pos_iff (div_pos h1 h2).le, one_lt_div h2]
  · rw [Sys.rc]
    constructor
    · intro h
      exact div_pos_of_neg_of_neg (by linarith) h
    · intro h'
      by_contra hg
      have : -2 * (m.prec i).k.chi / m.Gv h i ≤ 0 := div_nonpos_of_nonpos_of_nonneg (by linarith) (not_lt.mp hg)
      linarith

/-! ## Sharing precipitates -/

/-- The model after its precipitates were handed to another model with the same species. -/
def Sys.shared (m : Sys ns np) (qs : Fin np → Prec ns) : Sys ns np := { m with prec := qs }

/-- C149, the code disagrees: a second model built from the same precipitates enters the species a second time. The
concentrations (of both models) then count every precipitate twice: they stay the same only if the precipitates hold
the initial concentration. -/
theorem C149_shared_disagreement {m : Sys ns np} (hp : m.Proper) (hsp : ∀ i, (m.prec i).sp.map m.comp = (m.prec i).names)
    {qs : Fin np → Prec ns}
    (hb : build m.comp (fun i => (m.prec i).again (m.comp (m.prec i).rate)) = some qs) :
    (∀ i, (qs i).sp = (m.prec i).sp ++ (m.prec i).sp) ∧
    ∀ h s, m.room h s ≠ 1 → 2 * m.room h s ≠ 1 →
      let l := m.left (fun a b => decide (a = b)) h s
      let l' := (m.shared qs).left (fun a b => decide (a = b)) h s
      (l'.1 / l'.2 = l.1 / l.2 ↔ m.inside h s = m.c0 s * m.room h s) := by
  have hq : ∀ i, qs i = ⟨(m.prec i).names, (m.prec i).cps, (m.prec i).sp ++ (m.prec i).sp, (m.prec i).rate, (m.prec i).k⟩ := by
    intro i
    have h : initPrec m.comp ((m.prec i).again (m.comp (m.prec i).rate)) = some (qs i) := by
      rw [build] at hb
      split_ifs at hb with hh
      rw [← Option.some.inj hb]
      exact (Option.some_get (hh i)).symm
    have hm : ∀ l : List (Fin ns), (l.map m.comp).mapM (firstOf m.comp) = some l := by
      intro l
      induction l with
      | nil => rfl
      | cons s l ih => rw [List.map_cons, List.mapM_cons, ih, (firstOf_some hp.inj).mpr rfl]; rfl
    rw [initPrec, gather] at h
    simp only [Prec.again] at h
    rw [← hsp i, hm, (firstOf_some hp.inj).mpr rfl] at h
    simp only [Option.map_some, Option.bind_some, Option.some.injEq] at h
    rw [← h, hsp i]
  refine ⟨fun i => by rw [hq i], fun h s h1 h2 => ?_⟩
  have hl : (m.shared qs).left (fun a b => decide (a = b)) h s = (m.c0 s - 2 * m.inside h s, 1 - 2 * m.room h s) := by
    rw [left_eq _ _ s (fun t ht => by rw [of_decide_eq_true ht]), Sys.inside, Sys.room, Finset.mul_sum, Finset.mul_sum]
    have e : ∀ i, (((m.shared qs).prec i).sp.countP (fun a => decide (a = s)) : ℝ) = 2 * if s ∈ (m.prec i).sp then 1 else 0 := by
      intro i
      show ((qs i).sp.countP _ : ℝ) = _
      rw [hq i, List.countP_append]
      push_cast
      rw [countP_mem (hp.nodup i)]
      ring
    have ef : ∀ i, (m.shared qs).f h i = m.f h i := by
      intro i
      simp only [Sys.f, Sys.r, Sys.N, Sys.shared, hq i]
    have ec : ∀ i, (m.shared qs).cpAt i s = m.cpAt i s := by
      intro i
      simp only [Sys.cpAt, Prec.cp, Sys.shared, hq i]
    simp only [e, ef, ec, mul_assoc, ite_mul, one_mul, zero_mul]
    rfl
  intro l l'
  have el : l = (m.c0 s - m.inside h s, 1 - m.room h s) := left_ptr hp h s
  have el' : l' = (m.c0 s - 2 * m.inside h s, 1 - 2 * m.room h s) := hl
  rw [el, el']
  show (m.c0 s - 2 * m.inside h s) / (1 - 2 * m.room h s) = (m.c0 s - m.inside h s) / (1 - m.room h s) ↔ _
  rw [div_eq_div_iff (sub_ne_zero.mpr h2.symm) (sub_ne_zero.mpr h1.symm)]
  constructor
  · intro e; linarith
  · intro e; rw [e]; ring

/-! ## A steel with two precipitates: the carbide holds carbon and chromium, the other phase chromium only -/

/-- Constants for the examples. -/
def plain : Consts := ⟨1, 1, 1, 0, 1, 1, 1, 1, 1, 1, 1⟩

/-- Precipitates as constructed. -/
def duoRaw : Fin 2 → Raw 2 := ![⟨["C", "Cr"], [1, 1], "C", [], plain⟩, ⟨["Cr"], [1], "Cr", [], plain⟩]

/-- Precipitates as built. -/
def duoPrec : Fin 2 → Prec 2 := ![⟨["C", "Cr"], [1, 1], [0, 1], 0, plain⟩, ⟨["Cr"], [1], [1], 1, plain⟩]

/-- Names of the species. -/
def duoComp : Fin 2 → String := ![ "C", "Cr"]

/-- The steel. -/
noncomputable def duo : Sys 2 2 := ⟨duoComp, fun _ => 1 / 2, fun _ => 1 / 10, duoPrec, 1, 1, 1, 1, 1 / 1000⟩

/-- Each precipitate fills a tenth of the volume. -/
noncomputable def tenth : Hist 2 := fun _ => ![1, 3 / (40 * Real.pi)]

theorem duo_build : build duoComp duoRaw = some duoPrec := by
  have e0 : firstOf duoComp "C" = some 0 := by decide +kernel
  have e1 : firstOf duoComp "Cr" = some 1 := by decide +kernel
  have h : ∀ i, initPrec duoComp (duoRaw i) = some (duoPrec i) := by
    intro i
    fin_cases i <;> simp [initPrec, duoRaw, duoPrec, e0, e1]
  rw [build, dif_pos fun i => by rw [h i]; rfl]
  congr
  funext i
  simp [h i]

theorem duo_proper : duo.Proper :=
  (C149_proper duoComp duoRaw duo_build (by decide) (by intro i; fin_cases i <;> rfl)
    (by intro i; fin_cases i <;> simp [duoRaw]) (by intro i; fin_cases i <;> rfl) (fun _ => 1 / 2) (fun _ => 1 / 10)
      1 1 1 1 (1 / 1000)).1

theorem duo_f (i : Fin 2) : duo.f tenth i = 1 / 10 := by
  have : duo.r tenth i = 1 ∧ duo.N tenth i = 3 / (40 * Real.pi) := by
    fin_cases i <;> simp [Sys.r, Sys.N, duo, duoPrec, plain, tenth]
  rw [Sys.f, this.1, this.2]
  have := Real.pi_ne_zero
  field_simp
  norm_num

theorem duo_mem : (0 : Fin 2) ∈ (duo.prec 0).sp ∧ (1 : Fin 2) ∈ (duo.prec 0).sp ∧ (0 : Fin 2) ∉ (duo.prec 1).sp ∧
    (1 : Fin 2) ∈ (duo.prec 1).sp := by
  simp [duo, duoPrec]

theorem duo_room : duo.room tenth 0 = 1 / 10 ∧ duo.room tenth 1 = 1 / 5 := by
  obtain ⟨a, b, c, d⟩ := duo_mem
  constructor
  · rw [Sys.room, Fin.sum_univ_two, if_pos a, if_neg c, duo_f]
    norm_num
  · rw [Sys.room, Fin.sum_univ_two, if_pos b, if_pos d, duo_f, duo_f]
    norm_num

theorem duo_cp : duo.cpAt 0 0 = 1 ∧ duo.cpAt 0 1 = 1 ∧ duo.cpAt 1 1 = 1 := by
  simp [Sys.cpAt, Prec.cp, duo, duoPrec, duoComp, List.lookup]

theorem duo_inside : duo.inside tenth 0 = 1 / 10 ∧ duo.inside tenth 1 = 1 / 5 := by
  obtain ⟨a, b, c, d⟩ := duo_mem
  obtain ⟨e, f, g⟩ := duo_cp
  constructor
  · rw [Sys.inside, Fin.sum_univ_two, if_pos a, if_neg c, duo_f, e]
    norm_num
  · rw [Sys.inside, Fin.sum_univ_two, if_pos b, if_pos d, duo_f, duo_f, f, g]
    norm_num

theorem duo_ratio : (duo.c0 0 - duo.inside tenth 0) / (1 - duo.room tenth 0) = 4 / 9 ∧
    (duo.c0 1 - duo.inside tenth 1) / (1 - duo.room tenth 1) = 3 / 8 := by
  rw [duo_inside.1, duo_inside.2, duo_room.1, duo_room.2]
  simp only [duo]
  norm_num

theorem duo_c : duo.c tenth 0 = 4 / 9 ∧ duo.c tenth 1 = 3 / 8 := by
  rw [c_eq duo_proper, c_eq duo_proper, duo_ratio.1, duo_ratio.2]
  simp only [duo]
  constructor <;> exact max_eq_left (by norm_num)

/-- C149_build: the steel is accepted; a misspelt species is not. -/
example : (build duoComp duoRaw).isSome ∧
    ¬ (build duoComp (fun _ : Fin 1 => ⟨["Mo"], [1], "C", [], plain⟩)).isSome := by
  refine ⟨by rw [duo_build]; rfl, fun h => ?_⟩
  obtain ⟨s, hs⟩ := ((C149_build _ _).mp h 0).1 "Mo" (by simp)
  fin_cases s <;> simp [duoComp] at hs

/-- C150_mass_partial: chromium, in both phases, is conserved. -/
example : duo.inside tenth 1 + (1 - duo.room tenth 1) * duo.c tenth 1 = 1 / 2 :=
  (C150_mass_partial duo_proper tenth 1).2 (by rw [duo_room.2]; norm_num) (by rw [duo_c.2]; norm_num [duo])

/-- C150_mass_disagreement: carbon, in one phase, is not. -/
example : duo.inside tenth 0 + (1 - ∑ i, duo.f tenth i) * duo.c tenth 0 ≠ duo.c0 0 := by
  rw [Ne, C150_mass_disagreement duo_proper (by norm_num [duo]) tenth 0 (by rw [duo_room.1]; norm_num)
    (by rw [duo_c.1]; norm_num [duo])]
  obtain ⟨a, b, c, d⟩ := duo_mem
  rw [Fin.sum_univ_two, if_pos a, if_neg c, duo_f]
  norm_num

/-- C150_regimes: the carbide neither grows alone nor ripens alone. -/
example : (duo.switch tenth 0 0).1 ≠ 0 ∧ (duo.switch tenth 0 0).1 ≠ 1 := by
  obtain ⟨h0, h1⟩ := C150_regimes duo tenth 0 (fun _ => by norm_num [duo])
  obtain ⟨a, b, c, d⟩ := duo_mem
  refine ⟨fun h => ?_, fun h => ?_⟩
  · have := h0.mp h 0 a
    rw [duo_c.1] at this
    norm_num [duo] at this
  · obtain ⟨s, _, hs⟩ := h1.mp h
    fin_cases s
    · have : duo.c tenth 0 ≤ duo.ceq 0 := hs
      rw [duo_c.1] at this
      norm_num [duo] at this
    · have : duo.c tenth 1 ≤ duo.ceq 1 := hs
      rw [duo_c.2] at this
      norm_num [duo] at this

theorem duo_pos (s : Fin 2) : 0 < duo.c tenth s := by
  have : ∀ s : Fin 2, s = 0 ∨ s = 1 := by decide
  rcases this s with rfl | rfl
  · rw [duo_c.1]; norm_num
  · rw [duo_c.2]; norm_num

/-- C150_force: the steel is supersaturated, the driving force is negative. -/
theorem duo_G : duo.Gv tenth 0 < 0 ∧ duo.Gv tenth 1 < 0 := by
  constructor
  · rw [(C150_force duo tenth 0 duo_pos (fun _ => by norm_num [duo]) (by norm_num [duo])
      (by norm_num [Sys.vmol, duo, duoPrec, plain]) (by norm_num [duo, duoPrec, plain])).1]
    have e : (duo.prec 0).sp = [0, 1] := rfl
    rw [e]
    simp only [List.map_cons, List.map_nil, List.prod_cons, List.prod_nil, duo_c.1, duo_c.2]
    norm_num [duo]
  · rw [(C150_force duo tenth 1 duo_pos (fun _ => by norm_num [duo]) (by norm_num [duo])
      (by norm_num [Sys.vmol, duo, duoPrec, plain]) (by norm_num [duo, duoPrec, plain])).1]
    have e : (duo.prec 1).sp = [1] := rfl
    rw [e]
    simp only [List.map_cons, List.map_nil, List.prod_cons, List.prod_nil, duo_c.2]
    norm_num [duo]

/-- C149_shared_disagreement: handing the precipitates to a second model changes the carbon in solution. -/
example : ∃ qs, build duo.comp (fun i => (duo.prec i).again (duo.comp (duo.prec i).rate)) = some qs ∧
    let l := duo.left (fun a b => decide (a = b)) tenth 0
    let l' := (duo.shared qs).left (fun a b => decide (a = b)) tenth 0
    l'.1 / l'.2 ≠ l.1 / l.2 := by
  have hs : (build duo.comp (fun i => (duo.prec i).again (duo.comp (duo.prec i).rate))).isSome := by
    rw [C149_build]
    intro i
    fin_cases i
    · refine ⟨fun n hn => ?_, 0, rfl⟩
      have : n = "C" ∨ n = "Cr" := by simpa [Prec.again, duo, duoPrec] using hn
      rcases this with rfl | rfl
      · exact ⟨0, rfl⟩
      · exact ⟨1, rfl⟩
    · refine ⟨fun n hn => ?_, 1, rfl⟩
      have : n = "Cr" := by simpa [Prec.again, duo, duoPrec] using hn
      exact ⟨1, this.symm⟩
  obtain ⟨qs, hq⟩ := Option.isSome_iff_exists.mp hs
  refine ⟨qs, hq, ?_⟩
  have := (C149_shared_disagreement duo_proper (by intro i; fin_cases i <;> rfl) hq).2 tenth 0
    (by rw [duo_room.1]; norm_num) (by rw [duo_room.1]; norm_num)
  intro l l' h
  have e := this.mp h
  rw [duo_inside.1, duo_room.1] at e
  norm_num [duo] at e

end Neml.GenHuCocks
