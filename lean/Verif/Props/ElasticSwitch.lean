import Verif.Model.ElasticSwitch
import Verif.Model.Damage
import Mathlib.Tactic.Linarith
import Mathlib.Tactic.Ring
import Mathlib.Tactic.NormNum

/-!
# C175: changing the elastic model of a material model

Specification: an update of a model calls the elastic models of the model itself, of its parts, of their parts and so on
(`Uses`). After the change all of them are the new one, and no other object has changed.
-/

namespace Neml.ElasticSwitch

variable {E : Type}

/-- The objects whose elastic model an update of object `i` may call. -/
inductive Uses (h : Heap E) : ℕ → ℕ → Prop
  | self (i : ℕ) : Uses h i i
  | part {i j k : ℕ} : j ∈ (h i).parts → Uses h j k → Uses h i k

/-- Objects are made after their parts. -/
def Made (h : Heap E) : Prop := ∀ i, ∀ j ∈ (h i).parts, j < i

/-- The objects the new elastic model is handed to. -/
inductive Told (h : Heap E) : ℕ → ℕ → Prop
  | self (i : ℕ) : Told h i i
  | part {i j k : ℕ} : j ∈ (h i).visits → Told h j k → Told h i k

theorem visits_sub (o : Obj E) : ∀ j ∈ o.visits, j ∈ o.parts := by
  intro j hj
  unfold Obj.visits at hj
  split at hj
  · simp at hj
  · exact hj
  · exact hj
  · simp at hj
  · exact hj
  · exact List.mem_of_mem_take hj
  · simp at hj

/-- Two memories with the same objects but for the elastic models. -/
def SameShape (h g : Heap E) : Prop := ∀ i, (g i).kind = (h i).kind ∧ (g i).parts = (h i).parts ∧ (g i).param = (h i).param

theorem SameShape.visits {h g : Heap E} (s : SameShape h g) (i : ℕ) : (g i).visits = (h i).visits := by
  unfold Obj.visits
  rw [(s i).1, (s i).2.1]

theorem SameShape.told {h g : Heap E} (s : SameShape h g) (i k : ℕ) : Told g i k ↔ Told h i k := by
  constructor
  · intro t
    induction t with
    | self i => exact .self i
    | part hj _ ih => exact .part (s.visits _ ▸ hj) ih
  · intro t
    induction t with
    | self i => exact .self i
    | part hj _ ih => exact .part ((s.visits _).symm ▸ hj) ih

theorem SameShape.made {h g : Heap E} (s : SameShape h g) (m : Made h) : Made g := by
  intro i j hj
  rw [(s i).2.1] at hj
  exact m i j hj

open Classical in
/-- What `set_elastic_model` should do to memory. -/
noncomputable def told (h : Heap E) (is : List ℕ) (e : E) : Heap E :=
  fun k => if ∃ i ∈ is, Told h i k then { h k with elastic := e } else h k

theorem told_shape (h : Heap E) (is : List ℕ) (e : E) : SameShape h (told h is e) := by
  intro k
  unfold told
  split_ifs <;> exact ⟨rfl, rfl, rfl⟩

open Classical in
theorem told_append (h : Heap E) (is js : List ℕ) (e : E) : told (told h is e) js e = told h (is ++ js) e := by
  funext k
  have s := told_shape h is e
  by_cases h1 : ∃ i ∈ is, Told h i k
  · have e1 : told h is e k = { h k with elastic := e } := if_pos h1
    have e2 : told h (is ++ js) e k = { h k with elastic := e } := if_pos (by
      obtain ⟨i, hi, t⟩ := h1
      exact ⟨i, List.mem_append_left _ hi, t⟩)
    rw [e2]
    show (if ∃ i ∈ js, Told (told h is e) i k then _ else _) = _
    split_ifs <;> rw [e1]
  · have e1 : told h is e k = h k := if_neg h1
    show (if ∃ i ∈ js, Told (told h is e) i k then _ else _) = if ∃ i ∈ is ++ js, Told h i k then _ else _
    rw [e1]
    refine if_congr ?_ rfl rfl
    constructor
    · rintro ⟨i, hi, t⟩
      exact ⟨i, List.mem_append_right _ hi, (s.told i k).mp t⟩
    · rintro ⟨i, hi, t⟩
      rcases List.mem_append.mp hi with hi | hi
      · exact absurd ⟨i, hi, t⟩ h1
      · exact ⟨i, hi, (s.told i k).mpr t⟩

open Classical in
theorem fuel_enough (e : E) (fuel : ℕ) : ∀ (h : Heap E) (i : ℕ), Made h → i < fuel →
    setElasticFuel e fuel h i = told h [i] e := by
  induction fuel with
  | zero => intro h i _ hi; omega
  | succ fuel ih =>
    intro h i m hi
    have fold : ∀ (l : List ℕ) (g : Heap E), Made g → (∀ j ∈ l, j < fuel) →
        l.foldl (setElasticFuel e fuel) g = told g l e := by
      intro l
      induction l with
      | nil => intro g _ _; funext k; simp [told]
      | cons j l ihl =>
        intro g mg hl
        rw [List.foldl_cons, ih g j mg (hl j List.mem_cons_self),
          ihl _ ((told_shape g [j] e).made mg) fun x hx => hl x (List.mem_cons_of_mem _ hx), told_append]
        rfl
    have s : SameShape h (Function.update h i { h i with elastic := e }) := by
      intro k
      by_cases hk : k = i
      · subst hk; simp
      · simp [Function.update_of_ne hk]
    show (h i).visits.foldl (setElasticFuel e fuel) (Function.update h i { h i with elastic := e }) = _
    rw [fold _ _ (s.made m) fun j hj => lt_of_lt_of_le (m i j (visits_sub _ j hj)) (Nat.lt_succ_iff.mp hi)]
    funext k
    by_cases hk : k = i
    · subst hk
      have e1 : told h [k] e k = { h k with elastic := e } := if_pos ⟨k, by simp, .self k⟩
      rw [e1]
      show (if _ then _ else _) = _
      split_ifs <;> simp
    · show (if ∃ j ∈ (h i).visits, Told _ j k then _ else _) = if ∃ j ∈ [i], Told h j k then _ else _
      rw [Function.update_of_ne hk]
      refine if_congr ?_ rfl rfl
      constructor
      · rintro ⟨j, hj, t⟩
        exact ⟨i, by simp, .part hj ((s.told j k).mp t)⟩
      · rintro ⟨j, hj, t⟩
        rw [List.mem_singleton.mp hj] at t
        cases t with
        | self => exact absurd rfl hk
        | part hj t => exact ⟨_, hj, (s.told _ k).mpr t⟩

theorem set_eq (h : Heap E) (m : Made h) (i : ℕ) (e : E) : setElastic h i e = told h [i] e :=
  fuel_enough e (i + 1) h i m (Nat.lt_succ_self i)

theorem told_uses (h : Heap E) (i k : ℕ) (t : Told h i k) : Uses h i k := by
  induction t with
  | self i => exact .self i
  | part hj _ ih => exact .part (visits_sub _ _ hj) ih

/-- C175: objects the model does not use keep everything, and of those it uses only the elastic model may change. -/
theorem C175_frame (h : Heap E) (m : Made h) (i : ℕ) (e : E) :
    (∀ k, ¬ Uses h i k → setElastic h i e k = h k) ∧ SameShape h (setElastic h i e) ∧
      ∀ k, elastic (setElastic h i e) k = e ∨ setElastic h i e k = h k := by
  rw [set_eq h m]
  refine ⟨fun k hk => if_neg ?_, told_shape h [i] e, fun k => ?_⟩
  · rintro ⟨j, hj, t⟩
    rw [List.mem_singleton.mp hj] at t
    exact hk (told_uses h i k t)
  · unfold elastic told
    split_ifs
    · exact Or.inl rfl
    · exact Or.inr rfl

/-- C175: the model itself reports and uses the new elastic model at once. -/
theorem C175_own (h : Heap E) (m : Made h) (i : ℕ) (e : E) : elastic (setElastic h i e) i = e := by
  rw [set_eq h m]
  have : told h [i] e i = { h i with elastic := e } := if_pos ⟨i, by simp, .self i⟩
  rw [elastic, this]

/-- The classes that hand the new model to all their parts. -/
def Forwards (o : Obj E) : Prop := o.kind ≠ .damaged ∧ (o.parts ≠ [] → o.kind ≠ .simple ∧ o.kind ≠ .flowRule ∧ o.kind ≠ .damage)

theorem forwards_visits (o : Obj E) (f : Forwards o) : o.visits = o.parts := by
  obtain ⟨f1, f2⟩ := f
  unfold Obj.visits
  by_cases hp : o.parts = []
  · split <;> simp [hp]
  · have := f2 hp
    split <;> rename_i hk <;> first | rfl | (exfalso; simp_all)

/-- C175, what holds: if no model with damage is in use, an update after the change calls the new elastic model only, however the
model is put together. Missing: models with damage (see below). -/
theorem C175_all_partial (h : Heap E) (m : Made h) (i : ℕ) (e : E) (f : ∀ k, Uses h i k → Forwards (h k)) :
    ∀ k, Uses h i k → elastic (setElastic h i e) k = e := by
  intro k hu
  rw [set_eq h m]
  have t : Told h i k := by
    induction hu with
    | self i => exact .self i
    | part hj hu ih =>
      exact .part (by rw [forwards_visits _ (f _ (.self _))]; exact hj) (ih fun k hk => f k (.part hj hk))
  have : told h [i] e k = { h k with elastic := e } := if_pos ⟨i, by simp, t⟩
  rw [elastic, this]

/-- C175: changing twice is changing once, to the last. -/
theorem C175_last (h : Heap E) (m : Made h) (i : ℕ) (e f : E) : setElastic (setElastic h i e) i f = setElastic h i f := by
  rw [set_eq _ ((C175_frame h m i e).2.1.made m), set_eq h m, set_eq h m]
  have s := told_shape h [i] e
  funext k
  have iff : (∃ j ∈ [i], Told (told h [i] e) j k) ↔ ∃ j ∈ [i], Told h j k := by
    simp only [List.mem_singleton, exists_eq_left]
    exact s.told i k
  by_cases hk : ∃ j ∈ [i], Told h j k
  · have e1 : told (told h [i] e) [i] f k = { told h [i] e k with elastic := f } := if_pos (iff.mpr hk)
    have e2 : told h [i] e k = { h k with elastic := e } := if_pos hk
    have e3 : told h [i] f k = { h k with elastic := f } := if_pos hk
    rw [e1, e2, e3]
  · have e1 : told (told h [i] e) [i] f k = told h [i] e k := if_neg fun c => hk (iff.mp c)
    have e2 : told h [i] e k = h k := if_neg hk
    have e3 : told h [i] f k = h k := if_neg hk
    rw [e1, e2, e3]

theorem told_of_parts (h : Heap E) (i k : ℕ) (t : Told h i k) (hne : k ≠ i) : ∃ j ∈ (h i).visits, Told h j k := by
  cases t with
  | self => exact absurd rfl hne
  | part hj t => exact ⟨_, hj, t⟩

theorem uses_le (h : Heap E) (m : Made h) (i k : ℕ) (u : Uses h i k) : k ≤ i := by
  induction u with
  | self i => exact le_rfl
  | part hj _ ih => exact ih.trans (m _ _ hj).le

/-- C175, what is not so: a model with damage uses the elastic model of its damage rule, and this one is not changed. -/
theorem C175_damage_disagreement (h : Heap E) (m : Made h) (i b d : ℕ) (hk : (h i).kind = .damaged) (hp : (h i).parts = [b, d])
    (hb : ¬ Uses h b d) (e : E) (he : e ≠ elastic h d) :
    Uses h i d ∧ elastic (setElastic h i e) d = elastic h d ∧ elastic (setElastic h i e) d ≠ e := by
  have hd : d < i := m i d (by simp [hp])
  have : setElastic h i e d = h d := by
    rw [set_eq h m]
    refine if_neg ?_
    rintro ⟨j, hj, t⟩
    rw [List.mem_singleton.mp hj] at t
    obtain ⟨j, hj, t⟩ := told_of_parts h i d t hd.ne
    simp only [Obj.visits, hk, hp, List.take_succ_cons, List.take_zero, List.mem_singleton] at hj
    subst hj
    exact hb (told_uses h j d t)
  have e1 : elastic (setElastic h i e) d = elastic h d := congrArg Obj.elastic this
  exact ⟨.part (by simp [hp]) (.self d), e1, by rw [e1]; exact he.symm⟩

/-- C175, what it means for the damage: with the compliance of its own elastic model, an elastic step has no inelastic strain
increment; with the compliance `S` left over from before the change it has one as soon as the two elastic strains differ, so an
elastic step damages. -/
theorem C175_elastic_step_damages {ι : Type} [Fintype ι] (S S' : Matrix ι ι ℝ) (s1 s0 e1 e0 : ι → ℝ)
    (hel : (fun i => e1 i - e0 i) = S'.mulVec fun i => s1 i - s0 i) :
    Damage.dep S' s1 s0 e1 e0 = 0 ∧
      (S.mulVec (fun i => s1 i - s0 i) ≠ S'.mulVec (fun i => s1 i - s0 i) → 0 < Damage.dep S s1 s0 e1 e0) := by
  have key : ∀ a b : ι → ℝ, a ⬝ᵥ a + b ⬝ᵥ b - 2 * (a ⬝ᵥ b) = ∑ i, (a i - b i) ^ 2 := by
    intro a b
    simp only [dotProduct, Finset.mul_sum, ← Finset.sum_add_distrib, ← Finset.sum_sub_distrib]
    exact Finset.sum_congr rfl fun i _ => by ring
  constructor
  · unfold Damage.dep
    simp only [hel, key]
    simp
  · intro hne
    unfold Damage.dep
    simp only [hel, key]
    have hpos : 0 < ∑ i, ((S'.mulVec fun i => s1 i - s0 i) i - (S.mulVec fun i => s1 i - s0 i) i) ^ 2 := by
      obtain ⟨i, hi⟩ := Function.ne_iff.mp hne
      refine Finset.sum_pos' (fun i _ => sq_nonneg _) ⟨i, Finset.mem_univ i, ?_⟩
      exact lt_of_le_of_ne (sq_nonneg _) (Ne.symm (pow_ne_zero 2 (sub_ne_zero.mpr (Ne.symm hi))))
    rw [if_neg (by linarith)]
    exact Real.sqrt_pos.mpr (by linarith)

/-- C175, what is not so: what is written out for the model still has the elastic model it was made with. -/
theorem C175_saved_disagreement (h : Heap E) (m : Made h) (i : ℕ) (e : E) (he : e ≠ savedElastic h i) :
    elastic (setElastic h i e) i = e ∧ savedElastic (setElastic h i e) i = savedElastic h i ∧
      savedElastic (setElastic h i e) i ≠ elastic (setElastic h i e) i := by
  have h1 := C175_own h m i e
  have h2 : savedElastic (setElastic h i e) i = savedElastic h i := ((C175_frame h m i e).2.1 i).2.2
  exact ⟨h1, h2, by rw [h1, h2]; exact he.symm⟩

/-- C175, what is not so: two models that share a part. Changing one changes the part of the other, which itself keeps the old
elastic model. -/
theorem C175_shared_disagreement (h : Heap E) (m : Made h) (i j b : ℕ) (hi : (h i).visits = [b]) (hj : b ∈ (h j).parts)
    (hij : i < j) (e : E) (he : e ≠ elastic h j) :
    Uses h j b ∧ elastic (setElastic h i e) b = e ∧ elastic (setElastic h i e) j = elastic h j ∧ elastic h j ≠ e := by
  refine ⟨.part hj (.self b), ?_, ?_, he.symm⟩
  · rw [set_eq h m]
    have : told h [i] e b = { h b with elastic := e } := if_pos ⟨i, by simp, .part (by simp [hi]) (.self b)⟩
    rw [elastic, this]
  · refine congrArg Obj.elastic ((C175_frame h m i e).1 j fun u => ?_)
    exact absurd (uses_le h m i j u) (by omega)

/-! ## Examples -/

/-- Objects 0, 1: simple models; 2: creep and plasticity on 1; 3: a damage rule; 4: a model with damage on 2; 5: another on 2;
6: a regime model on 0 and 2. All made with the elastic model 1. -/
def memory : Heap ℕ
  | 2 => ⟨.creepPlasticity, [1], 1, 1⟩
  | 3 => ⟨.damage, [], 1, 1⟩
  | 4 => ⟨.damaged, [2, 3], 1, 1⟩
  | 5 => ⟨.creepPlasticity, [2], 1, 1⟩
  | 6 => ⟨.regime, [0, 2], 1, 1⟩
  | _ => ⟨.simple, [], 1, 1⟩

theorem memory_made : Made memory := by
  intro i j hj
  unfold memory at hj
  split at hj <;> simp at hj <;> omega

example : elastic (setElastic memory 6 2) 1 = 2 ∧ elastic (setElastic memory 6 2) 0 = 2 := by decide

example : elastic (setElastic memory 6 2) 2 = 2 := by
  refine C175_all_partial memory memory_made 6 2 ?_ 2 (.part (by decide : 2 ∈ (memory 6).parts) (.self 2))
  intro k hk
  have h6 : (memory 6).parts = [0, 2] := rfl
  have h2 : (memory 2).parts = [1] := rfl
  have h1 : (memory 1).parts = [] := rfl
  have h0 : (memory 0).parts = [] := rfl
  have : k = 6 ∨ k = 0 ∨ k = 2 ∨ k = 1 := by
    cases hk with
    | self => simp
    | part hj t =>
      rw [h6] at hj
      simp only [List.mem_cons, List.not_mem_nil, or_false] at hj
      rcases hj with rfl | rfl
      · cases t with
        | self => simp
        | part hj _ => rw [h0] at hj; simp at hj
      · cases t with
        | self => simp
        | part hj t =>
          rw [h2, List.mem_singleton] at hj
          subst hj
          cases t with
          | self => simp
          | part hj _ => rw [h1] at hj; simp at hj
  rcases this with rfl | rfl | rfl | rfl <;> exact ⟨by decide, by decide⟩

example : elastic (setElastic memory 4 2) 3 ≠ 2 := by
  refine (C175_damage_disagreement memory memory_made 4 2 3 rfl rfl ?_ 2 (by decide)).2.2
  intro u
  exact absurd (uses_le memory memory_made 2 3 u) (by omega)

example : elastic (setElastic memory 4 2) 2 = 2 ∧ elastic (setElastic memory 4 2) 5 ≠ 2 := by
  have := C175_shared_disagreement memory memory_made 4 5 2 rfl (by decide) (by omega) 2 (by decide)
  exact ⟨this.2.1, by rw [this.2.2.1]; exact this.2.2.2⟩

example : 0 < Damage.dep (1 : Matrix (Fin 1) (Fin 1) ℝ) (fun _ => 5) (fun _ => 3) (fun _ => 4) (fun _ => 0) := by
  refine (C175_elastic_step_damages 1 (Matrix.of fun _ _ => 2 : Matrix (Fin 1) (Fin 1) ℝ) _ _ _ _ ?_).2 ?_
  · funext i
    simp [Matrix.mulVec, dotProduct]; norm_num
  · intro h
    have := congrFun h 0
    simp [Matrix.mulVec, dotProduct] at this
    norm_num at this

end Neml.ElasticSwitch
