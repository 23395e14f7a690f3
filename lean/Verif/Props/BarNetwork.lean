import Verif.Model.BarNetwork
import Verif.Props.Uniaxial
import Verif.Props.Driver

/-!
# C69: bar networks balance forces

Statements about what the network records after a step has been accepted: forces, displacements, strains and energy;
and about how a call of `solve` is made up of accepted steps. -/

namespace Neml.BarNetwork

open Matrix Neml.PySolve Neml.Uniaxial Neml.Driver

variable {H : Type} {n : Nat}

/-- The incidence of an edge with a node: one at its second end, minus one at its first. -/
def inc (e : Edge H n) (v : Fin n) : ℝ := (if e.j = v then 1 else 0) - (if e.i = v then 1 else 0)

/-! ## The assembly -/

theorem free_nodup (net : Net H n) : net.free.Nodup := (List.nodup_finRange n).filter _

theorem free_get (net : Net H n) (k : Fin net.free.length) : net.dbc (net.free.get k) = none := by
  have h := List.get_mem net.free k
  have : net.free.get k ∈ (List.finRange n).filter fun v => (net.dbc v).isNone := h
  rw [List.mem_filter] at this
  simpa using this.2

theorem mem_free (net : Net H n) (v : Fin n) : v ∈ net.free ↔ net.dbc v = none := by
  simp [Net.free]

theorem pos_eq (net : Net H n) (v : Fin n) (k : Fin net.free.length) :
    net.pos v = some k ↔ v = net.free.get k := by
  unfold Net.pos
  constructor
  · intro h
    split_ifs at h with hm
    cases h
    simp
  · rintro rfl
    rw [dif_pos (List.get_mem _ _)]
    congr 1
    refine (free_nodup net).injective_get ?_
    simp

theorem pos_free (net : Net H n) (k : Fin net.free.length) : net.pos (net.free.get k) = some k :=
  (pos_eq net _ k).2 rfl

theorem pos_fixed (net : Net H n) (v : Fin n) : net.pos v = none ↔ net.dbc v ≠ none := by
  unfold Net.pos
  rw [ne_eq, ← mem_free net v]
  split_ifs with h <;> simp [h]

theorem value_free (net : Net H n) (d : Fin net.free.length → ℝ) (t : ℝ) (k : Fin net.free.length) :
    net.value d t (net.free.get k) = d k := by
  unfold Net.value
  rw [pos_free]

theorem value_fixed (net : Net H n) (d : Fin net.free.length → ℝ) (t : ℝ) (v : Fin n) (f : ℝ → ℝ)
    (h : net.dbc v = some f) : net.value d t v = f t := by
  unfold Net.value
  rw [(pos_fixed net v).2 (by simp [h]), h]

theorem addAt_apply {m : Nat} (R : Fin m → ℝ) (i k : Fin m) (x : ℝ) : addAt R i x k = R k + if i = k then x else 0 := by
  unfold addAt
  by_cases h : i = k
  · subst h; simp
  · rw [Function.update_of_ne (Ne.symm h), if_neg h, add_zero]

theorem addAt2_apply {m : Nat} (J : Matrix (Fin m) (Fin m) ℝ) (i j k l : Fin m) (x : ℝ) :
    addAt2 J i j x k l = J k l + if i = k then (if j = l then x else 0) else 0 := by
  unfold addAt2
  rw [of_apply]
  by_cases h : i = k <;> by_cases h' : j = l <;> simp [h, h', eq_comm]
  all_goals intro h1 h2; first | exact absurd h1.symm h | exact absurd h2.symm h'

theorem addCol_apply (net : Net H n) (e : Edge H n) (i k l : Fin net.free.length) (bi bj : Bool) (A : ℝ)
    (J : Matrix (Fin net.free.length) (Fin net.free.length) ℝ) :
    net.addCol e i bi A J bj k l =
      J k l + if i = k then (if e.node bj = net.free.get l then sign bi * sign bj * A else 0) else 0 := by
  unfold Net.addCol
  cases h : net.pos (e.node bj) with
  | none =>
    have : e.node bj ≠ net.free.get l := fun e => by rw [← pos_eq, h] at e; cases e
    rw [if_neg this, ite_self, add_zero]
  | some j =>
    have hj := (pos_eq net _ _).1 h
    simp only [addAt2_apply, hj, (free_nodup net).injective_get.eq_iff]

theorem addEnd_fst (net : Net H n) (e : Edge H n) (f A : ℝ)
    (p : (Fin net.free.length → ℝ) × Matrix (Fin net.free.length) (Fin net.free.length) ℝ) (bi : Bool)
    (k : Fin net.free.length) :
    (net.addEnd e f A p bi).1 k = p.1 k + if e.node bi = net.free.get k then sign bi * f else 0 := by
  unfold Net.addEnd
  cases h : net.pos (e.node bi) with
  | none =>
    have : e.node bi ≠ net.free.get k := fun e => by rw [← pos_eq, h] at e; cases e
    rw [if_neg this, add_zero]
  | some j =>
    have hj := (pos_eq net _ _).1 h
    simp only [addAt_apply, hj, (free_nodup net).injective_get.eq_iff]

theorem addEnd_snd (net : Net H n) (e : Edge H n) (f A : ℝ)
    (p : (Fin net.free.length → ℝ) × Matrix (Fin net.free.length) (Fin net.free.length) ℝ) (bi : Bool)
    (k l : Fin net.free.length) :
    (net.addEnd e f A p bi).2 k l =
      p.2 k l + if e.node bi = net.free.get k then sign bi * A * inc e (net.free.get l) else 0 := by
  unfold Net.addEnd
  cases h : net.pos (e.node bi) with
  | none =>
    have : e.node bi ≠ net.free.get k := fun e => by rw [← pos_eq, h] at e; cases e
    rw [if_neg this, add_zero]
  | some j =>
    have hj := (pos_eq net _ _).1 h
    simp only [List.foldl_cons, List.foldl_nil, addCol_apply, hj, (free_nodup net).injective_get.eq_iff]
    simp only [inc, Edge.node]
    by_cases h1 : j = k <;> by_cases h2 : e.i = net.free.get l <;> by_cases h3 : e.j = net.free.get l <;>
      simp only [h1, h2, h3, if_true, if_false, sign] <;> ring

theorem addBar_fst (net : Net H n) (e : Edge H n) (f A : ℝ)
    (p : (Fin net.free.length → ℝ) × Matrix (Fin net.free.length) (Fin net.free.length) ℝ) (k : Fin net.free.length) :
    (net.addBar e f A p).1 k = p.1 k + inc e (net.free.get k) * f := by
  unfold Net.addBar
  simp only [List.foldl_cons, List.foldl_nil, addEnd_fst, sign, inc, Edge.node]
  by_cases h2 : e.i = net.free.get k <;> by_cases h3 : e.j = net.free.get k <;>
    simp only [h2, h3, if_true, if_false] <;> ring

theorem addBar_snd (net : Net H n) (e : Edge H n) (f A : ℝ)
    (p : (Fin net.free.length → ℝ) × Matrix (Fin net.free.length) (Fin net.free.length) ℝ) (k l : Fin net.free.length) :
    (net.addBar e f A p).2 k l = p.2 k l + A * inc e (net.free.get k) * inc e (net.free.get l) := by
  unfold Net.addBar
  simp only [List.foldl_cons, List.foldl_nil, addEnd_snd, sign, Edge.node]
  rw [show inc e (net.free.get k) = (if e.j = net.free.get k then 1 else 0) - (if e.i = net.free.get k then 1 else 0)
    from rfl]
  by_cases h2 : e.i = net.free.get k <;> by_cases h3 : e.j = net.free.get k <;>
    simp only [h2, h3, if_true, if_false] <;> ring

/-- The trial of one bar for the displacements `w` of the nodes. -/
noncomputable def trial (e : Edge H n) (w : Fin n → ℝ) (t1 t0 : ℝ) : Option (ℝ × ℝ × Bar H) :=
  e.bar.updateForce (w e.j - w e.i) t1 t0

theorem assemble_of (net : Net H n) (d : Fin net.free.length → ℝ) (t1 : ℝ) (g : Edge H n → ℝ × ℝ × Bar H)
    (es : List (Edge H n)) (h : ∀ e ∈ es, trial e (net.value d t1) t1 net.time.last = some (g e))
    (p : (Fin net.free.length → ℝ) × Matrix (Fin net.free.length) (Fin net.free.length) ℝ) :
    net.assemble d t1 es p =
      some ((fun k => p.1 k + (es.map fun e => inc e (net.free.get k) * (g e).1).sum,
        of fun k l => p.2 k l +
          (es.map fun e => (g e).2.1 * inc e (net.free.get k) * inc e (net.free.get l)).sum),
        es.map fun e => { e with bar := (g e).2.2 }) := by
  induction es generalizing p with
  | nil =>
    rw [Net.assemble]
    simp only [List.map_nil, List.sum_nil, add_zero]
    rfl
  | cons e es ih =>
    rw [Net.assemble]
    have hd : [false, true].foldl (fun x b => x + sign b * net.value d t1 (e.node b)) 0 =
        net.value d t1 e.j - net.value d t1 e.i := by
      simp only [List.foldl_cons, List.foldl_nil, sign, Edge.node]; ring
    have he := h e (List.mem_cons_self ..)
    simp only [trial] at he
    simp only [hd, he]
    rw [ih (fun e' he' => h e' (List.mem_cons_of_mem _ he'))]
    simp only [List.map_cons, List.sum_cons, addBar_fst, addBar_snd, add_assoc]

theorem assemble_some (net : Net H n) (d : Fin net.free.length → ℝ) (t1 : ℝ) (es : List (Edge H n))
    (p : (Fin net.free.length → ℝ) × Matrix (Fin net.free.length) (Fin net.free.length) ℝ) (r)
    (h : net.assemble d t1 es p = some r) :
    ∀ e ∈ es, ∃ y, trial e (net.value d t1) t1 net.time.last = some y := by
  induction es generalizing p r with
  | nil => intro e he; cases he
  | cons e es ih =>
    rw [Net.assemble] at h
    have hd : [false, true].foldl (fun x b => x + sign b * net.value d t1 (e.node b)) 0 =
        net.value d t1 e.j - net.value d t1 e.i := by
      simp only [List.foldl_cons, List.foldl_nil, sign, Edge.node]; ring
    rw [hd] at h
    split at h
    · cases h
    · rename_i f A b e1
      split at h
      · cases h
      · rename_i q es' e2
        intro e' he'
        rcases List.mem_cons.1 he' with rfl | he'
        · exact ⟨_, e1⟩
        · exact ih _ _ e2 e' he'

/-- The external force on a node. -/
def Net.applied (net : Net H n) (t : ℝ) (v : Fin n) : ℝ := (net.fbc v).elim 0 fun f => f t

theorem external_eq (net : Net H n) (t1 : ℝ) (k : Fin net.free.length) :
    net.external t1 k = -net.applied t1 (net.free.get k) := by
  unfold Net.external Net.applied
  cases net.fbc (net.free.get k) with
  | none => simp
  | some f => simp

/-- What an evaluation of the residual computes. -/
theorem rj_spec (net : Net H n) (dt : ℝ) (es : List (Edge H n)) (d R : Fin net.free.length → ℝ)
    (J : Matrix (Fin net.free.length) (Fin net.free.length) ℝ) (es' : List (Edge H n))
    (h : net.rj dt es d = some (R, J, es')) :
    ∃ g : Edge H n → ℝ × ℝ × Bar H,
      (∀ e ∈ es, trial e (net.value d (net.time.last + dt)) (net.time.last + dt) net.time.last = some (g e)) ∧
      (∀ k, R k = (es.map fun e => inc e (net.free.get k) * (g e).1).sum -
        net.applied (net.time.last + dt) (net.free.get k)) ∧
      (∀ k l, J k l = (es.map fun e => (g e).2.1 * inc e (net.free.get k) * inc e (net.free.get l)).sum) ∧
      es' = es.map fun e => { e with bar := (g e).2.2 } := by
  unfold Net.rj at h
  rw [Option.map_eq_some_iff] at h
  obtain ⟨r, hr, e⟩ := h
  have hs := assemble_some _ _ _ _ _ _ hr
  classical
  let g : Edge H n → ℝ × ℝ × Bar H := fun e =>
    (trial e (net.value d (net.time.last + dt)) (net.time.last + dt) net.time.last).getD (0, 0, e.bar)
  have hg : ∀ e ∈ es, trial e (net.value d (net.time.last + dt)) (net.time.last + dt) net.time.last = some (g e) := by
    intro e he
    obtain ⟨y, hy⟩ := hs e he
    simp only [g, hy, Option.getD_some]
  rw [assemble_of net d _ g es hg] at hr
  cases hr
  simp only [Prod.mk.injEq] at e
  obtain ⟨rfl, rfl, rfl⟩ := e
  refine ⟨g, hg, fun k => ?_, fun k l => ?_, rfl⟩
  · simp only [external_eq]; ring
  · simp

theorem rj_of (net : Net H n) (dt : ℝ) (es : List (Edge H n)) (d : Fin net.free.length → ℝ)
    (g : Edge H n → ℝ × ℝ × Bar H)
    (hg : ∀ e ∈ es, trial e (net.value d (net.time.last + dt)) (net.time.last + dt) net.time.last = some (g e)) :
    net.rj dt es d = some (fun k => (es.map fun e => inc e (net.free.get k) * (g e).1).sum -
        net.applied (net.time.last + dt) (net.free.get k),
      of fun k l => (es.map fun e => (g e).2.1 * inc e (net.free.get k) * inc e (net.free.get l)).sum,
      es.map fun e => { e with bar := (g e).2.2 }) := by
  unfold Net.rj
  rw [assemble_of net d _ g es hg]
  simp only [Option.map_some, Option.some.injEq, Prod.mk.injEq, Matrix.zero_apply, zero_add, and_true]
  funext k
  rw [external_eq]; ring

theorem forceSum_eq (es : List (Edge H n)) (v : Fin n) :
    forceSum es v = (es.map fun e => inc e v * (e.bar.stressN * e.bar.A)).sum := by
  unfold forceSum
  suffices h : ∀ (F : ℝ), es.foldl (fun F e => [false, true].foldl (fun F b =>
      if e.node b = v then F + sign b * e.bar.stressN * e.bar.A else F) F) F =
      F + (es.map fun e => inc e v * (e.bar.stressN * e.bar.A)).sum by rw [h, zero_add]
  induction es with
  | nil => intro F; simp
  | cons e es ih =>
    intro F
    rw [List.foldl_cons, ih, List.map_cons, List.sum_cons]
    rw [← add_assoc]
    congr 1
    simp only [List.foldl_cons, List.foldl_nil, Edge.node, sign, inc]
    by_cases h2 : e.i = v <;> by_cases h3 : e.j = v <;> simp only [h2, h3, if_true, if_false] <;> ring

theorem energySum_eq (es : List (Edge H n)) :
    energySum es = (es.map fun e => e.bar.energyN * (e.bar.A * e.bar.l)).sum := by
  unfold energySum
  suffices h : ∀ (F : ℝ), es.foldl (fun x e => x + e.bar.energyN * e.bar.A * e.bar.l) F =
      F + (es.map fun e => e.bar.energyN * (e.bar.A * e.bar.l)).sum by rw [h, zero_add]
  induction es with
  | nil => intro F; simp
  | cons e es ih =>
    intro F
    rw [List.foldl_cons, ih, List.map_cons, List.sum_cons]
    ring

end Neml.BarNetwork
