import Verif.Model.Layout
import Mathlib.Data.List.Perm.Basic

/-!
# C28: reported state layout against the layout the update uses
-/

namespace Neml.Layout

variable {K : Type} [Zero K]

/-- No creep-plasticity model anywhere in the path the state takes. -/
def NoCreepPlastic : Tree K → Prop
  | .leaf _ => True
  | .creepPlastic _ => False
  | .damage _ b => NoCreepPlastic b
  | .km m _ => NoCreepPlastic m

/-- Names and sizes of a list of variables. -/
def shape (vs : List (Var K)) : List (String × Nat) := vs.map (fun v => (v.name, v.init.length))

omit [Zero K] in
theorem shape_append (a b : List (Var K)) : shape (a ++ b) = shape a ++ shape b := by
  simp [shape]

theorem shape_zeroed (h : List (Var K)) : shape (zeroed h) = shape h := by
  simp [shape, zeroed]

theorem any_zeroed {h : List (Var K)} (hh : h.any (fun v => v.name = "small_stress") = true) :
    (zeroed h).any (fun v => v.name = "small_stress") = true := by
  simpa [zeroed] using hh

omit [Zero K] in
theorem flat_length (vs : List (Var K)) : (flat vs).length = ((shape vs).map Prod.snd).sum := by
  simp only [flat, shape, List.length_flatMap, List.map_map]
  rfl

theorem populateState_static (m : Tree K) (h : List (Var K))
    (hh : h.any (fun v => v.name = "small_stress") = true) (hm : NoCreepPlastic m) :
    shape (populateState m h) = shape h ++ shape (used m) := by
  match m, hm with
  | .leaf vars, _ => exact shape_append _ _
  | .damage d0 b, hm =>
    simp only [populateState, used]
    rw [populateState_static b _ (by simp [hh]) hm, shape_append, List.append_assoc]
    rfl
  | .km m _, hm =>
    simp only [populateState, populateStatic, any_zeroed hh, if_true, used]
    rw [populateState_static m _ (any_zeroed hh) hm, shape_zeroed]

/-- C28 without creep-plasticity: what is reported, in names, order and sizes, is what the update
addresses. Missing: trees that contain a creep-plasticity model, for which it is false
(`C28_creep_plastic_mismatch`). -/
theorem C28_layout_partial (m : Tree K) (hm : NoCreepPlastic m) :
    shape (reported m) = shape (usedStore m) := by
  unfold reported
  rw [populateState_static m _ (by simp [populateStatic]) hm]
  simp [populateStatic, usedStore, shape]

/-- A damaged regime model whose members have two variables. -/
example : NoCreepPlastic (.damage (1 / 100 : Rat)
    (.km (.leaf [⟨"alpha", [0]⟩, ⟨"backstress", [0, 0, 0, 0, 0, 0]⟩]) [.leaf []])) := trivial

/-- A regime model somewhere in the path the state takes. -/
def HasRegime : Tree K → Prop
  | .leaf _ => False
  | .creepPlastic p => HasRegime p
  | .damage _ b => HasRegime b
  | .km _ _ => True

/-- No damage model with a nonzero initial damage around a regime model. -/
def KeepsDamage : Tree K → Prop
  | .leaf _ => True
  | .creepPlastic p => KeepsDamage p
  | .damage d0 b => (d0 = 0 ∨ ¬ HasRegime b) ∧ KeepsDamage b
  | .km m _ => KeepsDamage m

theorem zeroed_zero {h : List (Var K)} (hz : ∀ v ∈ h, v.init = List.replicate v.init.length 0) :
    zeroed h = h := by
  unfold zeroed
  conv_rhs => rw [← List.map_id h]
  refine List.map_congr_left fun v hv => ?_
  obtain ⟨n, i⟩ := v
  exact congrArg (Var.mk n) (hz _ hv).symm

theorem populateState_initial (m : Tree K) (h : List (Var K))
    (hh : h.any (fun v => v.name = "small_stress") = true) (hm : NoCreepPlastic m)
    (hk : KeepsDamage m)
    (hz : HasRegime m → ∀ v ∈ h, v.init = List.replicate v.init.length 0) :
    populateState m h = h ++ used m := by
  match m, hm with
  | .leaf vars, _ => rfl
  | .damage d0 b, hm =>
    simp only [populateState, used]
    rw [populateState_initial b _ (by simp [hh]) hm hk.2, List.append_assoc, List.singleton_append]
    intro hr v hv
    rcases List.mem_append.1 hv with hv | hv
    · exact hz hr v hv
    · obtain rfl := List.mem_singleton.1 hv
      rcases hk.1 with h0 | h0
      · subst h0; rfl
      · exact absurd hr h0
  | .km m _, hm =>
    simp only [populateState, populateStatic, any_zeroed hh, if_true, used]
    rw [zeroed_zero (hz trivial)]
    exact populateState_initial m h hh hm hk (fun _ => hz trivial)

/-- C28, initial values: without creep-plasticity, and unless a damage model with a nonzero initial
damage stands around a regime model, the initial values reported are those the parts of the model
ask for, in the places the update addresses. Missing: see `C28_creep_plastic_initial` and
`C28_regime_initial`, where it is false. -/
theorem C28_initial_partial (m : Tree K) (hm : NoCreepPlastic m) (hk : KeepsDamage m) :
    reported m = usedStore m := by
  unfold reported
  rw [populateState_initial m _ (by simp [populateStatic]) hm hk (by simp [populateStatic])]
  simp [populateStatic, usedStore]

/-- A damage model with initial damage 1/100 whose base is a plain model with initial value 5, and a
regime model inside a damage model that starts from zero. -/
example : KeepsDamage (.damage (1 / 100 : Rat) (.leaf [⟨"alpha", [5]⟩])) ∧
    KeepsDamage (.damage (0 : Rat) (.km (.leaf [⟨"alpha", [5]⟩]) [])) := by
  simp [KeepsDamage, HasRegime]

/-- C28, failure: a damage model around a regime model starts from zero damage whatever initial
damage it asks for, because the regime model sets everything to zero after it. (The work damage
model asks for a nonzero one, include/damage.h:654.) -/
theorem C28_regime_initial (d0 : K) (hd : d0 ≠ 0) (vars : List (Var K)) (ms) :
    let m := Tree.damage d0 (.km (.leaf vars) ms)
    ((flat (reported m)).drop (nstatic m)).take 1 = [0] ∧
      ((flat (usedStore m)).drop (nstatic m)).take 1 = [d0] ∧
      (flat (reported m)).drop (nstatic m) ≠ (flat (usedStore m)).drop (nstatic m) := by
  refine ⟨?_, ?_, ?_⟩ <;>
    simp [reported, populateState, populateStatic, zeroed, flat, nstatic, usedStore, used,
      List.replicate, Ne.symm hd]

theorem populateState_perm (m : Tree K) (h : List (Var K))
    (hh : h.any (fun v => v.name = "small_stress") = true) :
    (shape (populateState m h)).Perm (shape (h ++ used m)) := by
  match m with
  | .leaf vars => exact List.Perm.refl _
  | .creepPlastic pl =>
    simp only [populateState, used]
    rw [shape_append]
    refine ((populateState_perm pl h hh).append_right _).trans ?_
    rw [shape_append, shape_append, List.append_assoc]
    exact List.Perm.append_left _ List.perm_append_comm
  | .damage d0 b =>
    simp only [populateState, used]
    refine (populateState_perm b _ (by simp [hh])).trans ?_
    rw [List.append_assoc, List.singleton_append]
  | .km m _ =>
    simp only [populateState, populateStatic, any_zeroed hh, if_true, used]
    refine (populateState_perm m _ (any_zeroed hh)).trans ?_
    rw [shape_append, shape_append, shape_zeroed]

/-- C28, every tree: the reported variables are a rearrangement of the used ones, so the storage a
caller allocates always has the size the update addresses. -/
theorem C28_layout_perm (m : Tree K) : (shape (reported m)).Perm (shape (usedStore m)) := by
  unfold reported
  refine (populateState_perm m _ (by simp [populateStatic])).trans ?_
  simp [populateStatic, usedStore]

theorem C28_store_size (m : Tree K) : nstore m = (flat (usedStore m)).length := by
  unfold nstore
  rw [flat_length, flat_length]
  exact ((C28_layout_perm m).map _).sum_nat

/-- C28, failure: creep-plasticity reports the plastic model's variables before its own strain but
uses them after it. For every plastic model with a variable of another name the two lists differ. -/
theorem C28_creep_plastic_mismatch (v : Var K) (vs : List (Var K)) (hv : v.name ≠ "plastic_strain") :
    reported (.creepPlastic (.leaf (v :: vs))) ≠ usedStore (.creepPlastic (.leaf (v :: vs))) := by
  simp only [reported, populateState, populateStatic, usedStore, used]
  intro h
  simp only [List.any_nil, Bool.false_eq_true, if_false, List.nil_append, List.singleton_append,
    List.cons_append, List.cons.injEq, true_and] at h
  exact hv (congrArg Var.name h.1)

/-- The consequence for a plastic model with a non-zero initial value: at the start of a
calculation the update takes that value for an elastic-plastic strain and starts the plastic model
from zero. -/
theorem C28_creep_plastic_initial (x : K) (hx : x ≠ 0) :
    let m := Tree.creepPlastic (.leaf [⟨"alpha", [x]⟩])
    ((flat (reported m)).drop (nstatic m)).take 6 = [x, 0, 0, 0, 0, 0] ∧
      ((flat (reported m)).drop (nstatic m)).drop 6 = [0] ∧
      (flat (usedStore m)).drop (nstatic m) = [0, 0, 0, 0, 0, 0, x] := by
  refine ⟨?_, ?_, ?_⟩ <;>
    simp [reported, populateState, populateStatic, flat, nstatic, usedStore, used,
      List.replicate]

/-- C28, failure: a regime model counts the stress slot as part of its state. -/
theorem C28_km_nstate (m : Tree K) (ms) :
    nstate (.km m ms) = nstore m ∧ nstore (.km m ms) = nstore m := by
  constructor
  · rfl
  · simp [nstore, reported, populateState, populateStatic, zeroed]

/-- So a creep-plasticity model around a regime model reads `nstate` numbers from offset 6 of a state
array that is six numbers too short (models.cxx:1253-1264). -/
theorem C28_creep_km_overrun (m : Tree K) (ms) :
    let cp := Tree.creepPlastic (.km m ms)
    nstatic cp + 6 + nstate (.km m ms) = nstore cp + 6 := by
  have h1 := (C28_km_nstate m ms).1
  have h2 : nstore (Tree.creepPlastic (.km m ms)) = nstore m + 6 := by
    simp [nstore, reported, populateState, populateStatic, zeroed, flat]
  have h3 : nstatic (Tree.creepPlastic (.km m ms)) = 6 := by simp [nstatic, flat, populateStatic]
  simp only [h1, h2, h3]
  omega

/-- Where no regime model is inside, the plastic member's state fits exactly. -/
theorem C28_creep_fits (vars : List (Var K)) :
    let cp := Tree.creepPlastic (.leaf vars)
    nstatic cp + 6 + nstate (.leaf vars) = nstore cp := by
  simp only [nstatic, nstate, nstore, reported, populateState, populateStatic, flat,
    List.any_nil, Bool.false_eq_true, if_false, List.nil_append, List.flatMap_append,
    List.length_append, List.flatMap_cons, List.flatMap_nil, List.append_nil, List.length_replicate]
  omega

end Neml.Layout
