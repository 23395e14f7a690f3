import Verif.Model.Damage
import Verif.Props.Mandel
import Mathlib.Algebra.BigOperators.Field
import Mathlib.Tactic.Linarith
import Mathlib.Tactic.Positivity
import Mathlib.Tactic.FieldSimp
import Mathlib.Tactic.NormNum

/-!
# C31 to C34: damaged stress, element killing, accumulation, stress measures

Specifications: the undamaged run of the base model for C31, a list of arbitrary later updates for
C32, the sum of the members' increments and monotone damage for C33, the plain mathematical formula
of each measure for C34.
-/

namespace Neml.Damage

open Matrix Neml.SmallStrain Neml.Mandel

section Frame

variable {ι : Type} [Fintype ι] [DecidableEq ι] {H : Type}

/-- The nonlinear solver solved the equations exactly: the residual is zero. -/
def Solves (base : Model ℝ ι H) (dm : Rule ι)
    (solve : (e1 e0 s0 : ι → ℝ) → (w0 : ℝ) → H → (u0 p0 : ℝ) → Option (ι ⊕ Unit → ℝ)) : Prop :=
  ∀ e1 e0 s0 w0 h0 u0 p0 x, solve e1 e0 s0 w0 h0 u0 p0 = some x →
    ∃ J, damRJ base dm e1 e0 s0 w0 h0 u0 p0 x = some (0, J)

/-! ## C31 -/

/-- What a converged step with damage is: the base model's update from the undamaged start stress,
its stress times `1 - w`, and a damage that solves the damage rule at the undamaged stress. The
energies are those of the base update. -/
def IsDamagedStep (base : Model ℝ ι H) (dm : Rule ι) (inv : Matrix ι ι ℝ → Option (Matrix ι ι ℝ))
    (e1 e0 s0 : ι → ℝ) (h0 : ℝ × H) (u0 p0 : ℝ) (r : Update ℝ ι (ℝ × H)) : Prop :=
  ∃ up, base e1 e0 (fun i => s0 i / (1 - h0.1)) h0.2 u0 p0 = some up ∧
    r.s = (1 - r.h.1) • up.s ∧ r.h.2 = up.h ∧ r.u = up.u ∧ r.p = up.p ∧
    r.h.1 = dm.damage r.h.1 h0.1 e1 e0 (fun i => r.s i / (1 - r.h.1))
      (fun i => s0 i / (1 - h0.1)) ∧
    damTangent dm inv e1 e0 r.s s0 r.h.1 h0.1 up.A = some r.A

/-- C31, one step: every successful update is a killed update (only with killing on and the old or
new damage over the threshold) or the base stress times `1 - w`. -/
theorem C31_step (op : Options ι) (base : Model ℝ ι H) (dm : Rule ι) (solve) (inv)
    (hs : Solves base dm solve) (e1 e0 s0 : ι → ℝ) (h0 : ℝ × H) (u0 p0 : ℝ) (r)
    (h : damUpdate op base dm solve inv e1 e0 s0 h0 u0 p0 = some r) :
    (op.ekill = true ∧ r = ekillUpdate op e1 h0 u0 p0) ∨
      (IsDamagedStep base dm inv e1 e0 s0 h0 u0 p0 r ∧ (op.ekill = true → r.h.1 < op.dkill)) := by
  unfold damUpdate at h
  by_cases hk : op.ekill = true ∧ op.dkill ≤ h0.1
  · rw [if_pos hk] at h
    exact Or.inl ⟨hk.1, (Option.some.inj h).symm⟩
  rw [if_neg hk] at h
  rcases hx : solve e1 e0 s0 h0.1 h0.2 u0 p0 with _ | x <;> simp only [hx] at h
  · cases h
  rcases hp : base e1 e0 (effective h0.1 s0) h0.2 u0 p0 with _ | up <;> simp only [hp] at h
  · cases h
  by_cases hk' : op.ekill = true ∧ op.dkill ≤ x (Sum.inr ())
  · rw [if_pos hk'] at h
    exact Or.inl ⟨hk'.1, (Option.some.inj h).symm⟩
  rw [if_neg hk'] at h
  rcases ht : damTangent dm inv e1 e0 (fun i => (1 - x (Sum.inr ())) * up.s i) s0
      (x (Sum.inr ())) h0.1 up.A with _ | A <;> simp only [ht] at h
  · cases h
  cases h
  right
  refine ⟨⟨up, hp, rfl, rfl, rfl, rfl, ?_, ht⟩, fun he => ?_⟩
  · obtain ⟨J, hJ⟩ := hs _ _ _ _ _ _ _ _ hx
    simp only [damRJ, hp] at hJ
    have hJ1 := congrArg Prod.fst (Option.some.inj hJ)
    have hw := congrFun hJ1 (Sum.inr ())
    simp only [Sum.elim_inr, Pi.zero_apply] at hw
    have hst : (fun i => x (Sum.inl i)) = fun i => (1 - x (Sum.inr ())) * up.s i := by
      funext i
      have := congrFun hJ1 (Sum.inl i)
      simp only [Sum.elim_inl, Pi.zero_apply] at this
      exact sub_eq_zero.mp this
    rw [hst] at hw
    exact sub_eq_zero.mp hw
  · by_contra hc
    exact hk' ⟨he, not_lt.mp hc⟩

/-- Results of a model through a list of strains. -/
def run {G : Type} (m : Model ℝ ι G) : (e0 s0 : ι → ℝ) → G → (u0 p0 : ℝ) → List (ι → ℝ) →
    Option (List (Update ℝ ι G))
  | _, _, _, _, _, [] => some []
  | e0, s0, h0, u0, p0, e1 :: es =>
    match m e1 e0 s0 h0 u0 p0 with
    | none => none
    | some r => (run m e1 r.s r.h r.u r.p es).map (r :: ·)

/-- A damaged result belongs to an undamaged one. -/
def Scaled (r : Update ℝ ι (ℝ × H)) (b : Update ℝ ι H) : Prop :=
  r.s = (1 - r.h.1) • b.s ∧ r.h.2 = b.h ∧ r.u = b.u ∧ r.p = b.p

/-- C31, whole paths: without killing, as long as the damage is not one, the results along any
strain path are the results of the base model alone on the same path from the undamaged start
stress, the stresses scaled by `1 - w`. -/
theorem C31_path (op : Options ι) (hop : op.ekill = false) (base : Model ℝ ι H) (dm : Rule ι)
    (solve) (inv) (hs : Solves base dm solve) (es : List (ι → ℝ)) (e0 s0 : ι → ℝ) (h0 : ℝ × H)
    (u0 p0 : ℝ) (rs) (h : run (damUpdate op base dm solve inv) e0 s0 h0 u0 p0 es = some rs)
    (hw : ∀ r ∈ rs, r.h.1 ≠ 1) :
    ∃ bs, run base e0 (fun i => s0 i / (1 - h0.1)) h0.2 u0 p0 es = some bs ∧
      List.Forall₂ Scaled rs bs := by
  induction es generalizing e0 s0 h0 u0 p0 rs with
  | nil =>
    simp only [run, Option.some.injEq] at h
    subst h
    exact ⟨[], rfl, List.Forall₂.nil⟩
  | cons e1 es ih =>
    simp only [run] at h
    rcases hr : damUpdate op base dm solve inv e1 e0 s0 h0 u0 p0 with _ | r <;>
      simp only [hr] at h
    · cases h
    obtain ⟨rs', hrs', rfl⟩ := Option.map_eq_some_iff.mp h
    rcases C31_step op base dm solve inv hs _ _ _ _ _ _ _ hr with ⟨hk, -⟩ | ⟨⟨up, a1, a2, a3, a4, a5, -⟩, -⟩
    · rw [hop] at hk; cases hk
    have hne : (1 : ℝ) - r.h.1 ≠ 0 := sub_ne_zero.mpr (Ne.symm (hw r (List.mem_cons_self ..)))
    have heff : (fun i => r.s i / (1 - r.h.1)) = up.s := by
      funext i
      rw [a2, Pi.smul_apply, smul_eq_mul, mul_div_cancel_left₀ _ hne]
    obtain ⟨bs, hb, hf⟩ := ih e1 r.s r.h r.u r.p rs' hrs' fun r' hr' =>
      hw r' (List.mem_cons_of_mem _ hr')
    refine ⟨up :: bs, ?_, List.Forall₂.cons ⟨a2, a3, a4, a5⟩ hf⟩
    rw [heff, a3, a4, a5] at hb
    simp only [run, a1, hb, Option.map_some]

/-! ## C32 -/

/-- A killed result: damage one, the reduced elastic stress of the end strain, base history kept,
stored energy moved to the dissipated work. -/
def IsKilled (op : Options ι) (e1 : ι → ℝ) (h0 : ℝ × H) (u0 p0 : ℝ) (r : Update ℝ ι (ℝ × H)) :
    Prop :=
  r.h = (1, h0.2) ∧ (∀ i, r.s i = (op.C *ᵥ e1) i / op.sfact) ∧
    (∀ i j, r.A i j = op.C i j / op.sfact) ∧ r.u + r.p = u0 + p0 ∧ r.u ≤ 0 ∧ p0 ≤ r.p

theorem ekillUpdate_killed (op : Options ι) (e1 : ι → ℝ) (h0 : ℝ × H) (u0 p0 : ℝ) :
    IsKilled op e1 h0 u0 p0 (ekillUpdate op e1 h0 u0 p0) := by
  have hs : ∀ i, ((of fun i j => op.C i j / op.sfact) *ᵥ e1) i = (op.C *ᵥ e1) i / op.sfact := by
    intro i
    simp only [mulVec, dotProduct, of_apply, Finset.sum_div]
    exact Finset.sum_congr rfl fun j _ => by ring
  unfold ekillUpdate
  split_ifs with h
  · exact ⟨rfl, hs, fun _ _ => rfl, by ring, le_refl _, by linarith⟩
  · exact ⟨rfl, hs, fun _ _ => rfl, rfl, not_lt.mp h, le_refl _⟩

/-- C32, reaching the threshold: with killing on, if the damage the solver found (or the old damage)
is at the threshold, the update is a killed update. -/
theorem C32_kill (op : Options ι) (hop : op.ekill = true) (base : Model ℝ ι H) (dm : Rule ι)
    (solve) (inv) (e1 e0 s0 : ι → ℝ) (h0 : ℝ × H) (u0 p0 : ℝ) (r)
    (h : damUpdate op base dm solve inv e1 e0 s0 h0 u0 p0 = some r)
    (hd : op.dkill ≤ h0.1 ∨ ∃ x, solve e1 e0 s0 h0.1 h0.2 u0 p0 = some x ∧
      op.dkill ≤ x (Sum.inr ())) :
    IsKilled op e1 h0 u0 p0 r := by
  have key : r = ekillUpdate op e1 h0 u0 p0 := by
    unfold damUpdate at h
    by_cases hk : op.ekill = true ∧ op.dkill ≤ h0.1
    · rw [if_pos hk] at h
      exact (Option.some.inj h).symm
    rw [if_neg hk] at h
    rcases hd with hd | ⟨x, hx, hd⟩
    · exact absurd ⟨hop, hd⟩ hk
    simp only [hx] at h
    rcases hp : base e1 e0 (effective h0.1 s0) h0.2 u0 p0 with _ | up <;> simp only [hp] at h
    · cases h
    rw [if_pos ⟨hop, hd⟩] at h
    exact (Option.some.inj h).symm
  rw [key]
  exact ekillUpdate_killed ..

/-- The inputs of one later update: end and start strain, start stress, energy, work. -/
abbrev Input (ι : Type) := (ι → ℝ) × (ι → ℝ) × (ι → ℝ) × ℝ × ℝ

/-- Later updates, each starting from the history the one before returned; strains, stresses and
energies are arbitrary. -/
def histories (m : Model ℝ ι (ℝ × H)) : ℝ × H → List (Input ι) →
    Option (List (Input ι × Update ℝ ι (ℝ × H)))
  | _, [] => some []
  | h0, a :: as =>
    match m a.1 a.2.1 a.2.2.1 h0 a.2.2.2.1 a.2.2.2.2 with
    | none => none
    | some r => (histories m r.h as).map ((a, r) :: ·)

/-- C32: with killing on and a threshold of at most one, from a point whose damage has reached the
threshold every later sequence of updates succeeds and each of them reports damage one and the
reduced elastic stress. -/
theorem C32_stays_killed (op : Options ι) (hop : op.ekill = true) (hd : op.dkill ≤ 1)
    (base : Model ℝ ι H) (dm : Rule ι) (solve) (inv) (h0 : ℝ × H) (hk : op.dkill ≤ h0.1)
    (as : List (Input ι)) :
    ∃ rs, histories (damUpdate op base dm solve inv) h0 as = some rs ∧ rs.map Prod.fst = as ∧
      ∀ ar ∈ rs, IsKilled op ar.1.1 (1, h0.2) ar.1.2.2.2.1 ar.1.2.2.2.2 ar.2 := by
  induction as generalizing h0 with
  | nil => exact ⟨[], rfl, rfl, fun _ h => by cases h⟩
  | cons a as ih =>
    have hu : damUpdate op base dm solve inv a.1 a.2.1 a.2.2.1 h0 a.2.2.2.1 a.2.2.2.2 =
        some (ekillUpdate op a.1 h0 a.2.2.2.1 a.2.2.2.2) := if_pos ⟨hop, hk⟩
    have hh : (ekillUpdate op a.1 h0 a.2.2.2.1 a.2.2.2.2).h = (1, h0.2) :=
      (ekillUpdate_killed ..).1
    obtain ⟨rs, h1, h2, h3⟩ := ih (1, h0.2) hd
    refine ⟨(a, ekillUpdate op a.1 h0 a.2.2.2.1 a.2.2.2.2) :: rs, ?_, ?_, ?_⟩
    · simp only [histories, hu, hh, h1, Option.map_some]
    · simp only [List.map_cons, h2]
    · intro ar har
      rcases List.mem_cons.mp har with rfl | har
      · exact ekillUpdate_killed op a.1 h0 a.2.2.2.1 a.2.2.2.2
      · exact h3 ar har

/-- C32, deletion: a killed point is reported as deletable exactly when the threshold is below one. -/
theorem C32_deletable (op : Options ι) (e1 : ι → ℝ) (h0 : ℝ × H) (u0 p0 : ℝ)
    (r : Update ℝ ι (ℝ × H)) (h : IsKilled op e1 h0 u0 p0 r) :
    shouldDelete op r.h ↔ op.dkill < 1 := by
  rw [shouldDelete, getDamage, h.1]

/-- Disagreement for C32: with the threshold at one a killed point is never reported as deletable. -/
theorem C32_not_deletable_at_one (op : Options ι) (hd : op.dkill = 1) (e1 : ι → ℝ) (h0 : ℝ × H)
    (u0 p0 : ℝ) : ¬ shouldDelete op (ekillUpdate op e1 h0 u0 p0).h := by
  rw [C32_deletable op e1 h0 u0 p0 _ (ekillUpdate_killed ..), hd]
  exact lt_irrefl _

/-- Disagreement for C32: with a threshold above one (the code does not check it) a killed point
does not stay killed; the next update goes to the damaged branch, with `1 - w = 0`. -/
theorem C32_threshold_above_one (op : Options ι) (hd : 1 < op.dkill)
    (base : Model ℝ ι H) (dm : Rule ι) (solve) (inv) (e e1 s0 : ι → ℝ) (h0 : ℝ × H)
    (u0 p0 u1 p1 : ℝ)
    (hsol : solve e1 e s0 1 h0.2 u1 p1 = none) :
    damUpdate op base dm solve inv e1 e s0 (ekillUpdate op e h0 u0 p0).h u1 p1 = none := by
  rw [(ekillUpdate_killed op e h0 u0 p0).1]
  have hk : ¬(op.ekill = true ∧ op.dkill ≤ 1) := fun h => absurd h.2 (not_le.mpr hd)
  simp only [damUpdate, if_neg hk, hsol]

/-! ## C33 -/

/-- A damage rule that never heals on its admissible damages `P`. -/
def NeverHeals (P : ℝ → Prop) (m : Rule ι) : Prop :=
  ∀ d1 d0 e1 e0 s1 s0, P d1 → d0 ≤ m.damage d1 d0 e1 e0 s1 s0

/-- C33, sum: the increment of combined damage is the sum of the members' increments. -/
theorem C33_combined (ms : List (Rule ι)) (d1 d0 : ℝ) (e1 e0 s1 s0 : ι → ℝ) :
    (combined ms).damage d1 d0 e1 e0 s1 s0 - d0 =
      (ms.map fun m => m.damage d1 d0 e1 e0 s1 s0 - d0).sum := by
  have : ∀ a, ms.foldl (fun acc m => acc + (m.damage d1 d0 e1 e0 s1 s0 - d0)) a - a =
      (ms.map fun m => m.damage d1 d0 e1 e0 s1 s0 - d0).sum := by
    induction ms with
    | nil => intro a; simp
    | cons m ms ih =>
      intro a
      rw [List.foldl_cons, List.map_cons, List.sum_cons, ← ih]
      ring
  exact this d0

/-- C33, rates: a rule with a non-negative rate never heals over a non-negative time step. -/
theorem C33_rate (P : ℝ → Prop) (dt : ℝ) (hdt : 0 ≤ dt) (rate dd de ds)
    (hr : ∀ d e s, P d → 0 ≤ rate d e s) :
    NeverHeals P (rateRule (ι := ι) dt rate dd de ds) := by
  intro d1 d0 e1 e0 s1 s0 hP
  have := mul_nonneg (hr d1 e1 s1 hP) hdt
  simp only [rateRule]
  linarith

/-- C33, combination: combined rules never heal if the members never do, however deeply nested. -/
theorem C33_combined_never_heals (P : ℝ → Prop) (ms : List (Rule ι))
    (h : ∀ m ∈ ms, NeverHeals P m) : NeverHeals P (combined ms) := by
  intro d1 d0 e1 e0 s1 s0 hP
  have hc := C33_combined ms d1 d0 e1 e0 s1 s0
  have : 0 ≤ (ms.map fun m => m.damage d1 d0 e1 e0 s1 s0 - d0).sum := by
    refine List.sum_nonneg fun x hx => ?_
    obtain ⟨m, hm, rfl⟩ := List.mem_map.mp hx
    have := h m hm d1 d0 e1 e0 s1 s0 hP
    linarith
  linarith

theorem dep_nonneg (S : Matrix ι ι ℝ) (s1 s0 e1 e0 : ι → ℝ) : 0 ≤ dep S s1 s0 e1 e0 := by
  unfold dep
  dsimp only
  split_ifs
  · exact le_refl _
  · exact Real.sqrt_nonneg _

/-- C33, strain driven rules: with a non-negative factor they never heal. -/
theorem C33_standard (P : ℝ → Prop) (S : Matrix ι ι ℝ) (f df_dd df_ds)
    (hf : ∀ s d, P d → 0 ≤ f s d) : NeverHeals P (standardRule S f df_dd df_ds) := by
  intro d1 d0 e1 e0 s1 s0 hP
  have := mul_nonneg (hf s1 d1 hP) (dep_nonneg S s1 s0 e1 e0)
  simp only [standardRule]
  linarith

/-- C33, work damage: with positive exponent, scale and critical work it never heals. -/
theorem C33_work (q : WorkParams ι) (hn : 0 < q.n) (hsc : 0 < q.scale) (hdt : 0 ≤ q.dt)
    (hW : ∀ x, 0 < q.Wcrit x) : NeverHeals (fun _ => True) (workRule q) := by
  intro d1 d0 e1 e0 s1 s0 _
  simp only [workRule]
  split_ifs with h1 h2
  · exact le_refl _
  · exact le_refl _
  · have hwr : 0 ≤ workrate q e1 e0 s1 s0 |d1| d0 := by
      unfold workrate
      dsimp only
      split_ifs
      · exact le_refl _
      · positivity
    have hp : 0 ≤ |d1| ^ ((q.n - 1) / q.n) := Real.rpow_nonneg (abs_nonneg _) _
    have := hW (workrate q e1 e0 s1 s0 |d1| d0 / q.scale)
    have : 0 ≤ q.n * |d1| ^ ((q.n - 1) / q.n) * workrate q e1 e0 s1 s0 |d1| d0 * q.dt /
      q.Wcrit (workrate q e1 e0 s1 s0 |d1| d0 / q.scale) / q.scale := by positivity
    linarith

/-- C33, whole paths: if the rule never heals on the damages `P` and every reported damage is in
`P`, the reported damages along any strain path are non-decreasing from the start value (killed
points report one, which needs a start value of at most one). -/
theorem C33_path (P : ℝ → Prop) (hP1 : ∀ d, P d → d ≤ 1) (op : Options ι) (base : Model ℝ ι H)
    (dm : Rule ι) (hdm : NeverHeals P dm) (solve) (inv) (hs : Solves base dm solve)
    (es : List (ι → ℝ)) (e0 s0 : ι → ℝ) (h0 : ℝ × H) (hh : h0.1 ≤ 1) (u0 p0 : ℝ) (rs)
    (h : run (damUpdate op base dm solve inv) e0 s0 h0 u0 p0 es = some rs)
    (hw : ∀ r ∈ rs, r.h.1 ≠ 1 → P r.h.1) :
    List.IsChain (· ≤ ·) (h0.1 :: rs.map fun r => getDamage r.h) := by
  induction es generalizing e0 s0 h0 u0 p0 rs with
  | nil =>
    simp only [run, Option.some.injEq] at h
    subst h
    exact List.isChain_singleton _
  | cons e1 es ih =>
    simp only [run] at h
    rcases hr : damUpdate op base dm solve inv e1 e0 s0 h0 u0 p0 with _ | r <;>
      simp only [hr] at h
    · cases h
    obtain ⟨rs', hrs', rfl⟩ := Option.map_eq_some_iff.mp h
    have hle1 : r.h.1 ≤ 1 := by
      by_cases h1 : r.h.1 = 1
      · exact h1.le
      · exact hP1 _ (hw r (List.mem_cons_self ..) h1)
    have ih' := ih e1 r.s r.h hle1 r.u r.p rs' hrs' fun r' hr' => hw r' (List.mem_cons_of_mem _ hr')
    rw [List.map_cons, List.isChain_cons_cons]
    refine ⟨?_, ih'⟩
    by_cases h1 : r.h.1 = 1
    · rw [getDamage, h1]; exact hh
    rcases C31_step op base dm solve inv hs _ _ _ _ _ _ _ hr with ⟨-, hk⟩ | ⟨⟨up, -, -, -, -, -, a6, -⟩, -⟩
    · refine absurd ?_ h1
      rw [hk, (ekillUpdate_killed op e1 h0 u0 p0).1]
    · rw [getDamage, a6]
      exact hdm _ _ _ _ _ _ (hw r (List.mem_cons_self ..) h1)

/-- Disagreement for C33: combined damage does not pass on the members' initial damage, so work
damage inside a combination starts at zero, and zero damage solves its equation for every strain
and stress: it never starts. On its own the same rule starts at its `eps`. -/
theorem C33_combined_work_never_starts (q : WorkParams ι) (e1 e0 s1 s0 : ι → ℝ) :
    (combined [workRule q]).init = 0 ∧ (workRule q).init = q.eps ∧
      (combined [workRule q]).damage 0 0 e1 e0 s1 s0 = 0 := by
  refine ⟨rfl, rfl, ?_⟩
  simp [combined, workRule]

end Frame

/-! ## C34 -/

/-- Adding a pressure `p` to a stress. -/
def addPressure (s : Fin 6 → ℝ) (p : ℝ) : Fin 6 → ℝ := ![s 0 + p, s 1 + p, s 2 + p, s 3, s 4, s 5]

/-- C34: the von Mises stress is non-negative. -/
theorem C34_vonMises_nonneg (s : Fin 6 → ℝ) : 0 ≤ vonMises.eff s := Real.sqrt_nonneg _

/-- C34: the von Mises stress does not change under added pressure. -/
theorem C34_vonMises_pressure (s : Fin 6 → ℝ) (p : ℝ) :
    vonMises.eff (addPressure s p) = vonMises.eff s := by
  simp only [vonMises, se, addPressure]
  congr 1
  simp

/-- C34: the von Mises stress is positively homogeneous (and even). -/
theorem C34_vonMises_homogeneous (s : Fin 6 → ℝ) (c : ℝ) :
    vonMises.eff (c • s) = |c| * vonMises.eff s := by
  simp only [vonMises, se]
  rw [← Real.sqrt_sq_eq_abs, ← Real.sqrt_mul (sq_nonneg c)]
  congr 1
  simp only [Pi.smul_apply, smul_eq_mul]
  ring

/-- C34: the von Mises stress is the root of three halves of the squared length of the deviator. -/
theorem C34_vonMises_deviator (s : Fin 6 → ℝ) :
    vonMises.eff s = √(3 / 2 * (devVec s ⬝ᵥ devVec s)) := by
  simp only [vonMises, se]
  congr 1
  simp [devVec, dotProduct, Fin.sum_univ_succ]
  ring

/-- C34: the von Mises stress is zero exactly for pure pressure. -/
theorem C34_vonMises_zero (s : Fin 6 → ℝ) :
    vonMises.eff s = 0 ↔ ∃ p, s = ![p, p, p, 0, 0, 0] := by
  constructor
  · intro h
    have h' : ((s 0 - s 1) ^ 2 + (s 1 - s 2) ^ 2 + (s 2 - s 0) ^ 2 +
      3 * (s 3 ^ 2 + s 4 ^ 2 + s 5 ^ 2)) / 2 ≤ 0 := Real.sqrt_eq_zero'.mp h
    have h01 : s 0 - s 1 = 0 := by
      apply pow_eq_zero_iff (two_ne_zero) |>.mp
      nlinarith [sq_nonneg (s 0 - s 1), sq_nonneg (s 1 - s 2), sq_nonneg (s 2 - s 0),
        sq_nonneg (s 3), sq_nonneg (s 4), sq_nonneg (s 5)]
    have h12 : s 1 - s 2 = 0 := by
      apply pow_eq_zero_iff (two_ne_zero) |>.mp
      nlinarith [sq_nonneg (s 0 - s 1), sq_nonneg (s 1 - s 2), sq_nonneg (s 2 - s 0),
        sq_nonneg (s 3), sq_nonneg (s 4), sq_nonneg (s 5)]
    have h3 : s 3 = 0 := by
      apply pow_eq_zero_iff (two_ne_zero) |>.mp
      nlinarith [sq_nonneg (s 0 - s 1), sq_nonneg (s 1 - s 2), sq_nonneg (s 2 - s 0),
        sq_nonneg (s 3), sq_nonneg (s 4), sq_nonneg (s 5)]
    have h4 : s 4 = 0 := by
      apply pow_eq_zero_iff (two_ne_zero) |>.mp
      nlinarith [sq_nonneg (s 0 - s 1), sq_nonneg (s 1 - s 2), sq_nonneg (s 2 - s 0),
        sq_nonneg (s 3), sq_nonneg (s 4), sq_nonneg (s 5)]
    have h5 : s 5 = 0 := by
      apply pow_eq_zero_iff (two_ne_zero) |>.mp
      nlinarith [sq_nonneg (s 0 - s 1), sq_nonneg (s 1 - s 2), sq_nonneg (s 2 - s 0),
        sq_nonneg (s 3), sq_nonneg (s 4), sq_nonneg (s 5)]
    refine ⟨s 0, ?_⟩
    ext i
    fin_cases i <;> simp <;> linarith
  · rintro ⟨p, rfl⟩
    simp [vonMises, se]

/-- C34: the mean stress shifts by an added pressure and is linear. -/
theorem C34_mean (s t : Fin 6 → ℝ) (p c : ℝ) :
    mean.eff (addPressure s p) = mean.eff s + p ∧ mean.eff (c • s + t) = c * mean.eff s + mean.eff t := by
  constructor
  · simp [mean, addPressure]; ring
  · simp [mean]; ring

/-- The square sum under Huddleston's root is the squared length of the stress. -/
theorem huddleston_ss (s : Fin 6 → ℝ) : -3 * I2 (devVec s) + I2 s = s ⬝ᵥ s := by
  have h := r2_sq
  simp [I2, devVec, usym, Matrix.mul_apply, Fin.sum_univ_succ, dotProduct, div_r2]
  grind

theorem huddleston_se (s : Fin 6 → ℝ) : √(-3 * I2 (devVec s)) = se s := by
  have h := r2_sq
  rw [se]
  congr 1
  simp [I2, devVec, usym, Matrix.mul_apply, Fin.sum_univ_succ, div_r2]
  grind

/-- C34: Huddleston's measure is the von Mises stress times the exponential of the normalized
triaxiality, and non-negative. -/
theorem C34_huddleston (b : ℝ) (s : Fin 6 → ℝ) (hs : s ≠ 0) :
    (huddleston b).eff s =
      vonMises.eff s * Real.exp (b * ((s 0 + s 1 + s 2) / √(s ⬝ᵥ s) - 1)) ∧
      0 ≤ (huddleston b).eff s := by
  have h0 : √(s ⬝ᵥ s) ≠ 0 := by
    have hnn : 0 ≤ s ⬝ᵥ s := Finset.sum_nonneg fun i _ => mul_self_nonneg (s i)
    rw [Ne, Real.sqrt_eq_zero hnn]
    intro h
    refine hs (funext fun i => ?_)
    have := (Finset.sum_eq_zero_iff_of_nonneg fun i _ => mul_self_nonneg (s i)).mp h i
      (Finset.mem_univ i)
    exact mul_self_eq_zero.mp this
  have e : (huddleston b).eff s =
      vonMises.eff s * Real.exp (b * ((s 0 + s 1 + s 2) / √(s ⬝ᵥ s) - 1)) := by
    simp only [huddleston, huddleston_ss, huddleston_se, if_neg h0, I1, vonMises]
  exact ⟨e, by rw [e]; exact mul_nonneg (C34_vonMises_nonneg s) (Real.exp_pos _).le⟩

/-- C34: on pure tension of any size Huddleston's measure is the tension. -/
theorem C34_huddleston_tension (b p : ℝ) (hp : 0 < p) :
    (huddleston b).eff ![p, 0, 0, 0, 0, 0] = p := by
  have hne : (![p, 0, 0, 0, 0, 0] : Fin 6 → ℝ) ≠ 0 := by
    intro h
    have := congrFun h 0
    simp at this
    exact hp.ne' this
  rw [(C34_huddleston b _ hne).1]
  have h1 : (![p, 0, 0, 0, 0, 0] : Fin 6 → ℝ) ⬝ᵥ ![p, 0, 0, 0, 0, 0] = p ^ 2 := by
    simp [dotProduct, Fin.sum_univ_succ, sq]
  have h2 : vonMises.eff ![p, 0, 0, 0, 0, 0] = p := by
    simp only [vonMises, se]
    simp
    exact Real.sqrt_sq hp.le
  rw [h1, h2, Real.sqrt_sq hp.le]
  simp [hp.ne']

/-- Value part of the scan: the largest seen. -/
theorem selectMax_spec (ms : List Measure) (s : Fin 6 → ℝ) :
    (ms = [] ∧ selectMax ms s = none) ∨
      ∃ (i : Nat) (v : ℝ) (m : Measure), selectMax ms s = some (i, v) ∧ ms[i]? = some m ∧ m.eff s = v ∧
        (∀ m' ∈ ms, m'.eff s ≤ v) ∧ ∀ j m', j < i → ms[j]? = some m' → m'.eff s < v := by
  induction ms using List.reverseRecOn with
  | nil => exact Or.inl ⟨rfl, rfl⟩
  | append_singleton ms a ih =>
    right
    have hstep : selectMax (ms ++ [a]) s =
        match selectMax ms s with
        | none => some (ms.length, a.eff s)
        | some (i, v) => if a.eff s > v then some (ms.length, a.eff s) else some (i, v) := by
      simp only [selectMax, List.zipIdx_append, List.foldl_append, List.zipIdx_cons,
        List.zipIdx_nil, List.foldl_cons, List.foldl_nil, zero_add]
      rfl
    rcases ih with ⟨rfl, hn⟩ | ⟨i, v, m, h1, h2, h3, h4, h5⟩
    · refine ⟨0, a.eff s, a, by rw [hstep, hn]; rfl, rfl, rfl, ?_, fun j m' hj => absurd hj (Nat.not_lt_zero _)⟩
      intro m' hm'
      simp only [List.nil_append, List.mem_singleton] at hm'
      rw [hm']
    · by_cases hgt : a.eff s > v
      · refine ⟨ms.length, a.eff s, a, by rw [hstep, h1]; simp [hgt], by simp, rfl, ?_, ?_⟩
        · intro m' hm'
          rcases List.mem_append.mp hm' with hm' | hm'
          · exact (h4 m' hm').trans hgt.le
          · rw [List.mem_singleton.mp hm']
        · intro j m' hj hm'
          rw [List.getElem?_append_left hj] at hm'
          exact (h4 m' (List.mem_of_getElem? hm')).trans_lt hgt
      · have hi : i < ms.length := by
          by_contra hc
          rw [List.getElem?_eq_none (not_lt.mp hc)] at h2
          cases h2
        refine ⟨i, v, m, by rw [hstep, h1]; simp [hgt], by rw [List.getElem?_append_left hi]; exact h2, h3, ?_, ?_⟩
        · intro m' hm'
          rcases List.mem_append.mp hm' with hm' | hm'
          · exact h4 m' hm'
          · rw [List.mem_singleton.mp hm']; exact not_lt.mp hgt
        · intro j m' hj hm'
          rw [List.getElem?_append_left (hj.trans hi)] at hm'
          exact h5 j m' hj hm'

/-- C34: the maximum of several measures returns the value and derivative of a member, the first of
those with the largest value; it answers for every non-empty list. -/
theorem C34_max (ms : List Measure) (hne : ms ≠ []) (s : Fin 6 → ℝ) :
    ∃ (i : Nat) (m : Measure), ms[i]? = some m ∧ maxSeveral ms s = some (m.eff s, m.deff s) ∧
      (∀ m' ∈ ms, m'.eff s ≤ m.eff s) ∧ ∀ (j : Nat) (m' : Measure), j < i → ms[j]? = some m' → m'.eff s < m.eff s := by
  rcases selectMax_spec ms s with ⟨h, -⟩ | ⟨i, v, m, h1, h2, h3, h4, h5⟩
  · exact absurd h hne
  · subst h3
    exact ⟨i, m, h2, by simp [maxSeveral, h1, h2], h4, h5⟩

/-- C34: the weighted sum is refused for lists of different lengths and otherwise returns the
weighted sum of values and derivatives. -/
theorem C34_sum (ms : List Measure) (ws : List ℝ) :
    (ms.length ≠ ws.length → sumSeveral ms ws = none) ∧
    (ms.length = ws.length → ∃ m, sumSeveral ms ws = some m ∧ ∀ s,
      m.eff s = ((ms.zip ws).map fun mw => mw.2 * mw.1.eff s).sum ∧
      ∀ i, m.deff s i = ((ms.zip ws).map fun mw => mw.2 * mw.1.deff s i).sum) := by
  refine ⟨fun h => if_neg h, fun h => ⟨_, if_pos h, fun s => ⟨?_, fun i => ?_⟩⟩⟩
  · have : ∀ (l : List (Measure × ℝ)) a, l.foldl (fun acc mw => acc + mw.2 * mw.1.eff s) a =
        a + (l.map fun mw => mw.2 * mw.1.eff s).sum := by
      intro l
      induction l with
      | nil => intro a; simp
      | cons x l ih => intro a; rw [List.foldl_cons, ih, List.map_cons, List.sum_cons]; ring
    exact (this _ _).trans (zero_add _)
  · have : ∀ (l : List (Measure × ℝ)) (a : Fin 6 → ℝ),
        l.foldl (fun acc mw => fun i => acc i + mw.2 * mw.1.deff s i) a i =
        a i + (l.map fun mw => mw.2 * mw.1.deff s i).sum := by
      intro l
      induction l with
      | nil => intro a; simp
      | cons x l ih => intro a; rw [List.foldl_cons, ih, List.map_cons, List.sum_cons]; ring
    exact (this _ _).trans (zero_add _)

/-- C33: classical creep damage never heals below damage one. -/
theorem C33_classical (A xi phi dt : ℝ) (hA : 0 < A) (hdt : 0 ≤ dt) :
    NeverHeals (fun d => d < 1) (classicalCreep A xi phi dt) :=
  C33_rate _ dt hdt _ _ _ _ fun d _ s hd =>
    mul_nonneg (Real.rpow_nonneg (div_nonneg (C34_vonMises_nonneg s) hA.le) _)
      (Real.rpow_nonneg (by linarith) _)

/-- C33: modular creep damage never heals below damage one, over a non-negative measure. -/
theorem C33_modular (m : Measure) (hm : ∀ s, 0 ≤ m.eff s) (A xi phi dt : ℝ) (hA : 0 < A)
    (hdt : 0 ≤ dt) : NeverHeals (fun d => d < 1) (modularCreep m A xi phi dt) :=
  C33_rate _ dt hdt _ _ _ _ fun d _ s hd =>
    mul_nonneg (Real.rpow_nonneg (div_nonneg (hm s) hA.le) _) (Real.rpow_nonneg (by linarith) _)

/-- C33: Larson-Miller damage never heals when rupture times are positive. -/
theorem C33_larsonMiller (m : Measure) (tR dtR : ℝ → ℝ) (ht : ∀ x, 0 < tR x) (dt : ℝ)
    (hdt : 0 ≤ dt) : NeverHeals (fun _ => True) (larsonMiller m tR dtR dt) :=
  C33_rate _ dt hdt _ _ _ _ fun d _ s _ => by
    split_ifs
    · exact le_refl _
    · exact (one_div_pos.mpr (ht _)).le

/-- C33: power law damage never heals for a non-negative prefactor. -/
theorem C33_powerLaw (S : Matrix (Fin 6) (Fin 6) ℝ) (A a : ℝ) (hA : 0 ≤ A) :
    NeverHeals (fun _ => True) (powerLaw S A a) :=
  C33_standard _ S _ _ _ fun s _ _ =>
    mul_nonneg hA (Real.rpow_nonneg (C34_vonMises_nonneg s) _)

/-- C33: exponential work damage never heals for a positive reference work. -/
theorem C33_expWork (S : Matrix (Fin 6) (Fin 6) ℝ) (W0 k0 af : ℝ) (hW : 0 < W0) :
    NeverHeals (fun _ => True) (expWork S W0 k0 af) :=
  C33_standard _ S _ _ _ fun s d _ => by
    split_ifs with h
    · exact le_refl _
    · exact mul_nonneg (div_nonneg (Real.rpow_nonneg (not_lt.mp h) _) hW.le)
        (C34_vonMises_nonneg s)

/-! ## A material meeting the hypotheses -/

/-- A spring of stiffness 2 with its stored energy. -/
noncomputable def spring : Model ℝ (Fin 1) Unit :=
  fun e1 e0 s0 h u p => some ⟨(2 : ℝ) • e1, h, (2 : ℝ) • 1,
    u + ((2 : ℝ) • e1 + s0) ⬝ᵥ (e1 - e0) / 2, p⟩

/-- Damage grows by a quarter in every step. -/
noncomputable def quarter : Rule (Fin 1) :=
  rateRule 1 (fun _ _ _ => 1 / 4) (fun _ _ _ => 0) (fun _ _ _ => 0) (fun _ _ _ => 0)

/-- The exact solution of the damaged spring. -/
noncomputable def quarterSolve (e1 _e0 _s0 : Fin 1 → ℝ) (w0 : ℝ) (_ : Unit) (_ _ : ℝ) :
    Option (Fin 1 ⊕ Unit → ℝ) :=
  some (Sum.elim (fun i => (1 - (1 / 4 * 1 + w0)) * (2 * e1 i)) fun _ => 1 / 4 * 1 + w0)

theorem quarter_solves : Solves spring quarter quarterSolve := by
  intro e1 e0 s0 w0 h0 u0 p0 x hx
  cases hx
  refine ⟨_, by
    simp only [damRJ, spring]
    refine congrArg some (Prod.ext ?_ rfl)
    funext a
    rcases a with i | _
    · simp
    · simp [quarter, rateRule]⟩

/-- Killing off: two steps. -/
noncomputable def noKill : Options (Fin 1) := ⟨false, 1 / 2, 10, (2 : ℝ) • 1⟩

/-- Killing on at one half. -/
noncomputable def halfKill : Options (Fin 1) := ⟨true, 1 / 2, 10, (2 : ℝ) • 1⟩

theorem quarter_tangent (e1 e0 s1 s0 : Fin 1 → ℝ) (w1 w0 : ℝ) (A) :
    ∃ M, damTangent quarter (fun _ => some 1) e1 e0 s1 s0 w1 w0 A = some M := ⟨_, rfl⟩

theorem quarter_step (e1 e0 s0 : Fin 1 → ℝ) (h0 : ℝ × Unit) (u0 p0 : ℝ) :
    ∃ r, damUpdate noKill spring quarter quarterSolve (fun _ => some 1) e1 e0 s0 h0 u0 p0 =
      some r ∧ r.h.1 = 1 / 4 * 1 + h0.1 := by
  refine ⟨_, if_neg (by simp [noKill]), rfl⟩

/-- Two steps of the damaged spring succeed with damage one quarter and one half. -/
theorem quarter_run : ∃ rs, run (damUpdate noKill spring quarter quarterSolve (fun _ => some 1))
    0 0 (0, ()) 0 0 [![1], ![3]] = some rs ∧ rs.map (fun r => r.h.1) = [1 / 4, 1 / 2] := by
  obtain ⟨r, h1, h2⟩ := quarter_step ![1] 0 0 (0, ()) 0 0
  obtain ⟨r', h1', h2'⟩ := quarter_step ![3] ![1] r.s r.h r.u r.p
  refine ⟨[r, r'], by simp only [run, h1, h1', Option.map_some], ?_⟩
  simp only [List.map_cons, List.map_nil, h2', h2]
  norm_num

example : ∃ rs bs, run (damUpdate noKill spring quarter quarterSolve (fun _ => some 1))
      0 0 (0, ()) 0 0 [![1], ![3]] = some rs ∧
      run spring 0 (fun i => (0 : Fin 1 → ℝ) i / (1 - 0)) () 0 0 [![1], ![3]] = some bs ∧
      List.Forall₂ Scaled rs bs := by
  obtain ⟨rs, h, hw⟩ := quarter_run
  obtain ⟨bs, hb, hf⟩ := C31_path noKill rfl spring quarter _ _ quarter_solves _ _ _ _ _ _ rs h (by
    intro r hr
    have : r.h.1 ∈ rs.map (fun r => r.h.1) := List.mem_map_of_mem hr
    rw [hw] at this
    simp only [List.mem_cons, List.not_mem_nil, or_false] at this
    rcases this with h | h <;> rw [h] <;> norm_num)
  exact ⟨rs, bs, h, hb, hf⟩

/-- The damages of that run are non-decreasing by the general theorem. -/
example : ∃ rs, run (damUpdate noKill spring quarter quarterSolve (fun _ => some 1))
      0 0 (0, ()) 0 0 [![1], ![3]] = some rs ∧
      List.IsChain (· ≤ ·) ((0 : ℝ) :: rs.map fun r => getDamage r.h) := by
  obtain ⟨rs, h, hw⟩ := quarter_run
  refine ⟨rs, h, C33_path (fun d => d ≤ 1) (fun _ h => h) noKill spring quarter
    (C33_rate _ 1 zero_le_one _ _ _ _ fun _ _ _ _ => by norm_num) _ _ quarter_solves _ _ _ _
    (by norm_num) _ _ rs h fun r hr _ => ?_⟩
  have : r.h.1 ∈ rs.map (fun r => r.h.1) := List.mem_map_of_mem hr
  rw [hw] at this
  simp only [List.mem_cons, List.not_mem_nil, or_false] at this
  rcases this with h | h <;> rw [h] <;> norm_num

/-- With killing on, the second step is killed and the point stays killed in any later sequence. -/
example (as : List (Input (Fin 1))) :
    ∃ r rs, damUpdate halfKill spring quarter quarterSolve (fun _ => some 1) ![3] ![1] ![3 / 2]
      (1 / 4, ()) 1 0 = some r ∧ IsKilled halfKill ![3] (1 / 4, ()) 1 0 r ∧ shouldDelete halfKill r.h ∧
      histories (damUpdate halfKill spring quarter quarterSolve (fun _ => some 1)) r.h as = some rs ∧
      ∀ ar ∈ rs, IsKilled halfKill ar.1.1 (1, ()) ar.1.2.2.2.1 ar.1.2.2.2.2 ar.2 := by
  have h1 : ∃ r, damUpdate halfKill spring quarter quarterSolve (fun _ => some 1) ![3] ![1] ![3 / 2]
      (1 / 4, ()) 1 0 = some r := by
    simp only [damUpdate, halfKill, quarterSolve, spring, Sum.elim_inr]
    rw [if_neg (by norm_num)]
    rw [if_pos (by norm_num)]
    exact ⟨_, rfl⟩
  obtain ⟨r, hr⟩ := h1
  have hk := C32_kill halfKill rfl spring quarter _ _ _ _ _ _ _ _ r hr
    (Or.inr ⟨_, rfl, by simp only [halfKill, Sum.elim_inr]; norm_num⟩)
  have hd1 : halfKill.dkill ≤ 1 := by norm_num [halfKill]
  obtain ⟨rs, a1, -, a3⟩ := C32_stays_killed halfKill rfl hd1 spring quarter quarterSolve
    (fun _ => some 1) r.h (by rw [hk.1]; exact hd1) as
  refine ⟨r, rs, hr, hk, (C32_deletable _ _ _ _ _ _ hk).mpr (by norm_num [halfKill]), a1, ?_⟩
  rw [hk.1] at a3
  exact a3

/-- Disagreement for C31: the energy reported is that of the undamaged stress. Stretching the
damaged spring from zero to one reports stress `3/2` but energy `1`, not the work `3/4` the
reported stress does. -/
theorem C31_energy_disagrees : ∃ r,
    damUpdate noKill spring quarter quarterSolve (fun _ => some 1) ![1] 0 0 (0, ()) 0 0 = some r ∧
    r.s 0 = 3 / 2 ∧ r.u = 1 ∧ r.p = 0 ∧ (r.s + 0) ⬝ᵥ (![1] - 0) / 2 = 3 / 4 := by
  refine ⟨_, if_neg (by simp [noKill]), ?_, ?_, rfl, ?_⟩
  · simp; norm_num
  · simp [dotProduct, effective]
  · simp [dotProduct]; norm_num

example : vonMises.eff (addPressure ![3, 0, 0, 0, 0, 0] 7) = vonMises.eff ![3, 0, 0, 0, 0, 0] :=
  C34_vonMises_pressure _ _

/-- Maximum of mean and von Mises stress on tension: the von Mises stress, second in the list. -/
example : ∃ (i : Nat) (m : Measure), [mean, vonMises][i]? = some m ∧
    maxSeveral [mean, vonMises] ![3, 0, 0, 0, 0, 0] =
      some (m.eff ![3, 0, 0, 0, 0, 0], m.deff ![3, 0, 0, 0, 0, 0]) := by
  obtain ⟨i, m, h1, h2, -⟩ := C34_max [mean, vonMises] (by simp) ![3, 0, 0, 0, 0, 0]
  exact ⟨i, m, h1, h2⟩

end Neml.Damage
