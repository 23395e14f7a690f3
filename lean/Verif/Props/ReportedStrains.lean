import Verif.Model.ReportedStrains
import Verif.Model.CrystalDamage
import Verif.Props.SmallStrain
import Verif.Props.Damage
import Mathlib.LinearAlgebra.Matrix.NonsingularInverse
import Mathlib.Tactic.Module

/-!
# C210: taking the reported elastic strain off removes the stress

The specification is an experiment: take the strain a material reports as elastic off its strain and update
the material once more. The stress must vanish and nothing inelastic may happen. It does for plasticity at
constant temperature and for damaged crystals. A small strain model with scalar damage keeps the
fraction `w` of its stress, because it reports the strain of an undamaged material under the damaged stress.
-/

namespace Neml.SmallStrain

open Matrix

section General

variable {K : Type} [Field K] {ι κ : Type} [Fintype ι] [DecidableEq ι] [Fintype κ] [DecidableEq κ]

theorem stiff_report (el : Elastic K ι) (T : K) (hCS : el.C T * el.S T = 1) (s : ι → K) :
    el.C T *ᵥ report el T s = s := by
  rw [report, mulVec_mulVec, hCS, one_mulVec]

/-- An elastic step that takes the reported strain off ends at zero stress, and no other elastic step at the
same temperature does. -/
theorem C210_elastic {H P τ : Type} [Fintype P] [DecidableEq P] (m : Integrator K ι H P τ)
    (x : Substep.Point K (ι → K) (ι → K) H) (e1 : ι → K) (t1 : K)
    (hCS : m.el.C x.T * m.el.S x.T = 1)
    (h : m.elasticStep (m.setup x e1 x.T t1) x e1 x.T t1) :
    ∃ r, updateStep m x e1 x.T t1 = some r ∧ r.h = x.h ∧
      (r.s = 0 ↔ e1 = x.e - report m.el x.T x.s) := by
  obtain ⟨r, h1, h2, h3, -⟩ := updateStep_elastic m x e1 x.T t1 h
  refine ⟨r, h1, h3, ?_⟩
  rw [h2]
  have hs := stiff_report m.el x.T hCS x.s
  have hSC : m.el.S x.T * m.el.C x.T = 1 := mul_eq_one_comm.mp hCS
  constructor
  · intro hz
    have h4 : m.el.C x.T *ᵥ (e1 - x.e + report m.el x.T x.s) = 0 := by
      rw [mulVec_add, hs, hz]
    have h5 := congrArg (m.el.S x.T *ᵥ ·) h4
    simp only [mulVec_mulVec, hSC, one_mulVec, mulVec_zero] at h5
    have : e1 - (x.e - report m.el x.T x.s) = 0 := by rw [← h5]; abel
    exact sub_eq_zero.mp this
  · intro he
    rw [he, sub_sub_cancel_left, mulVec_neg, hs, neg_add_cancel]

variable [LinearOrder K] [IsStrictOrderedRing K]

/-- C210, rate independent plasticity: from any state whose surface contains zero stress, whatever the
solver does, taking the reported strain off leaves no stress, the same history and the same inelastic work, and
gives the energy of a spring back. -/
theorem C210_plastic (el : Elastic K ι) (fl : RIFlow K ι κ) (solve inv)
    (x : Substep.Point K (ι → K) (ι → K) (κ → K)) (t1 : K) (hCS : el.C x.T * el.S x.T = 1)
    (hin : fl.f 0 x.h x.T ≤ 0) :
    ∃ r, updateStep (rateIndependent el fl solve inv) x (x.e - report el x.T x.s) x.T t1 = some r ∧
      r.s = 0 ∧ r.h = x.h ∧ r.p = x.p ∧ r.u = x.u - x.s ⬝ᵥ report el x.T x.s / 2 := by
  have htr : (riTrial el x (x.e - report el x.T x.s) x.T).str = 0 := by
    show el.C x.T *ᵥ ((x.e - report el x.T x.s) - (x.e - el.S x.T *ᵥ x.s)) = 0
    rw [show (x.e - report el x.T x.s) - (x.e - el.S x.T *ᵥ x.s) = 0 by rw [report]; abel, mulVec_zero]
  obtain ⟨r, h1, h2, h3, h4⟩ := updateStep_elastic (rateIndependent el fl solve inv) x
    (x.e - report el x.T x.s) x.T t1 (by
      show fl.f (riTrial el x (x.e - report el x.T x.s) x.T).str x.h x.T ≤ 0
      rw [htr]; exact hin)
  have hz : el.C x.T *ᵥ (x.e - report el x.T x.s - x.e) + x.s = 0 := by
    rw [sub_sub_cancel_left, mulVec_neg, stiff_report el x.T hCS, neg_add_cancel]
  have h4' : (r.u, r.p) = ripWork el (x.e - el.S x.T *ᵥ x.s) x (x.e - report el x.T x.s) x.T
      (el.C x.T *ᵥ (x.e - report el x.T x.s - x.e) + x.s) := h4
  rw [hz] at h4'
  refine ⟨r, h1, h2.trans hz, h3, ?_, ?_⟩
  · have := congrArg Prod.snd h4'
    simp only [ripWork, mulVec_zero, Pi.zero_apply] at this
    rw [this]
    have h0 : (fun i => (x.e - report el x.T x.s) i - 0 - (x.e - el.S x.T *ᵥ x.s) i) = 0 := by
      funext i; simp [report]
    rw [h0, dotProduct_zero, zero_div, add_zero]
  · have := congrArg Prod.fst h4'
    simp only [ripWork, Pi.zero_apply, zero_add] at this
    rw [this, sub_sub_cancel_left]
    show x.u + x.s ⬝ᵥ (-report el x.T x.s) / 2 = _
    rw [dotProduct_neg, neg_div, sub_eq_add_neg]

/-- C210, perfect plasticity. -/
theorem C210_perfect (el : Elastic K ι) (sf : PPSurface K ι) (ys : K → K) (solve inv)
    (x : Substep.Point K (ι → K) (ι → K) Unit) (t1 : K) (hCS : el.C x.T * el.S x.T = 1)
    (hin : sf.f 0 (-ys x.T) x.T ≤ 0) :
    ∃ r, updateStep (perfectPlasticity el sf ys solve inv) x (x.e - report el x.T x.s) x.T t1 = some r ∧
      r.s = 0 := by
  have hz : el.C x.T *ᵥ (x.e - report el x.T x.s - x.e) + x.s = 0 := by
    rw [sub_sub_cancel_left, mulVec_neg, stiff_report el x.T hCS, neg_add_cancel]
  obtain ⟨r, h1, h2, -, -⟩ := updateStep_elastic (perfectPlasticity el sf ys solve inv) x
    (x.e - report el x.T x.s) x.T t1 (by
      show sf.f (ppTrial el ys x (x.e - report el x.T x.s) x.T).str (-ys x.T) x.T ≤ 0
      have : (ppTrial el ys x (x.e - report el x.T x.s) x.T).str = 0 := by
        rw [← hz]; funext i; simp [ppTrial, add_comm]
      rw [this]; exact hin)
  exact ⟨r, h1, h2.trans hz⟩

/-- C210, models with rates: taken off in no time the reported strain removes the stress. -/
theorem C210_instant (el : Elastic K ι) (fl : GenFlow K ι κ) (eps : K) (heps : 0 < eps) (solve inv)
    (x : Substep.Point K (ι → K) (ι → K) (κ → K)) (hCS : el.C x.T * el.S x.T = 1) :
    ∃ r, updateStep (generalIntegrator el fl eps solve inv) x (x.e - report el x.T x.s) x.T x.t = some r ∧
      r.s = 0 ∧ r.h = x.h := by
  obtain ⟨r, h1, h2, h3⟩ := C210_elastic (generalIntegrator el fl eps solve inv) x
    (x.e - report el x.T x.s) x.t hCS (by show x.t - x.t < eps; rw [sub_self]; exact heps)
  exact ⟨r, h1, h3.mpr rfl, h2⟩

/-- The strain that is not reported as elastic changes along the flow only, and not at all in elastic steps. The
temperature is constant (for elastic steps with a change of temperature see C24). -/
theorem C210_rest (el : Elastic K ι) (fl : RIFlow K ι κ) (solve inv)
    (hsolve : ∀ ts z J, solve ts = some (z, J) → riR fl ts z = 0)
    (x : Substep.Point K (ι → K) (ι → K) (κ → K)) (e1 : ι → K) (t1 : K) (hCS : el.C x.T * el.S x.T = 1)
    (r) (hr : updateStep (rateIndependent el fl solve inv) x e1 x.T t1 = some r) :
    ∃ c : K, e1 - report el x.T r.s = (x.e - report el x.T x.s) + c • fl.g r.s r.h x.T ∧
      (fl.f (el.C x.T *ᵥ (e1 - (x.e - report el x.T x.s))) x.h x.T ≤ 0 → c = 0) := by
  have hSC : el.S x.T * el.C x.T = 1 := mul_eq_one_comm.mp hCS
  by_cases hel : fl.f (el.C x.T *ᵥ (e1 - (x.e - report el x.T x.s))) x.h x.T ≤ 0
  · obtain ⟨r', h1, h2, -, -⟩ := updateStep_elastic (rateIndependent el fl solve inv) x e1 x.T t1 hel
    rw [hr] at h1
    cases h1
    refine ⟨0, ?_, fun _ => rfl⟩
    have h2' : r.s = el.C x.T *ᵥ (e1 - x.e) + x.s := h2
    rw [h2', report, report, mulVec_add, mulVec_mulVec, hSC, one_mulVec, zero_smul]
    abel
  · obtain ⟨z, J, hz, -, hi, -, -⟩ := updateStep_plastic (rateIndependent el fl solve inv) x e1 x.T t1 hel r hr
    have hR := hsolve _ _ _ hz
    refine ⟨z (.inr (.inr ())), ?_, fun h => absurd h hel⟩
    have hs : r.s = fun i => z (.inl i) := congrArg Prod.fst hi
    have hh : r.h = fun i => z (.inr (.inl i)) := congrArg Prod.snd hi
    have hst : r.s = el.C x.T *ᵥ (e1 - (x.e - report el x.T x.s) - z (.inr (.inr ())) • fl.g r.s r.h x.T) := by
      funext i
      have := congrFun hR (.inl i)
      simp only [riR, Sum.elim_inl, Pi.zero_apply] at this
      rw [hs, hh]
      refine (sub_eq_zero.mp this).trans ?_
      refine congrFun (congrArg (el.C x.T *ᵥ ·) ?_) i
      funext j
      show e1 j - (x.e - el.S x.T *ᵥ x.s) j - _ * _ = e1 j - (x.e - report el x.T x.s) j - _ * _
      rw [report, mul_comm]
      rfl
    have h2 : report el x.T r.s =
        e1 - (x.e - report el x.T x.s) - z (.inr (.inr ())) • fl.g r.s r.h x.T := by
      conv_lhs => rw [hst]
      rw [report, mulVec_mulVec, hSC, one_mulVec]
    rw [h2]
    abel

end General

/-! ### A bar that yields at the stress one -/

/-- Stiffness two. -/
def barEl : Elastic ℚ (Fin 1) := ⟨fun _ => (2 : ℚ) • 1, fun _ => (1 / 2 : ℚ) • 1⟩

theorem barEl_inverse (T : ℚ) : barEl.C T * barEl.S T = 1 := by simp [barEl]

/-- Perfect plasticity in tension. -/
def barFlow : RIFlow ℚ (Fin 1) (Fin 1) where
  f s _ _ := s 0 - 1
  df_ds _ _ _ := 1
  df_da _ _ _ := 0
  g _ _ _ := 1
  dg_ds _ _ _ := 0
  dg_da _ _ _ := 0
  h _ _ _ := 0
  dh_ds _ _ _ := 0
  dh_da _ _ _ := 0

/-- The exact solution. -/
def barSolve (ts : RITrial ℚ (Fin 1) (Fin 1)) :
    Option ((RIx (Fin 1) (Fin 1) → ℚ) × Matrix (RIx (Fin 1) (Fin 1)) (RIx (Fin 1) (Fin 1)) ℚ) :=
  if ts.C = (2 : ℚ) • 1 then
    some (Sum.elim 1 (Sum.elim ts.h fun _ => ts.e1 0 - ts.ep 0 - 1 / 2), 1)
  else none

theorem barSolve_exact (ts z J) (h : barSolve ts = some (z, J)) : riR barFlow ts z = 0 := by
  unfold barSolve at h
  split at h
  · rename_i hC
    cases h
    funext a
    rcases a with i | i | i
    · fin_cases i
      simp [riR, barFlow, hC, smul_mulVec]
    · simp [riR, barFlow]
    · simp [riR, barFlow]
  · cases h

/-- A start at the strain three: the stress one, so the strain two and a half is plastic. -/
def barStart : Substep.Point ℚ (Fin 1 → ℚ) (Fin 1 → ℚ) (Fin 1 → ℚ) := ⟨![3], 0, 0, ![1], 0, 7, 5⟩

/-- The bar reports the strain one half. Without it there is no stress. -/
example : ∃ r, updateStep (rateIndependent barEl barFlow barSolve some) barStart ![5 / 2] 0 1 = some r ∧
    r.s = 0 ∧ r.p = 5 ∧ r.u = 7 - 1 / 4 := by
  have he : (![5 / 2] : Fin 1 → ℚ) = barStart.e - report barEl barStart.T barStart.s := by
    funext i; fin_cases i; norm_num [barStart, report, barEl, smul_mulVec]
  rw [he]
  obtain ⟨r, h1, h2, -, h3, h4⟩ := C210_plastic barEl barFlow barSolve some barStart 1 (barEl_inverse _)
    (by norm_num [barFlow])
  refine ⟨r, h1, h2, h3, h4.trans ?_⟩
  norm_num [barStart, report, barEl, smul_mulVec]

/-- Stretched to four, the bar yields: the premises of `C210_rest` hold for a step with plastic flow. -/
example : ∃ r, updateStep (rateIndependent barEl barFlow barSolve some) barStart ![4] barStart.T 1 = some r ∧
    r.s = 1 ∧ ∃ c : ℚ, ![4] - report barEl barStart.T r.s = (![3] - report barEl barStart.T ![1]) + c • 1 := by
  have hne : ¬ (rateIndependent barEl barFlow barSolve some).elasticStep
      ((rateIndependent barEl barFlow barSolve some).setup barStart ![4] barStart.T 1) barStart ![4]
      barStart.T 1 := by
    norm_num [rateIndependent, riTrial, barFlow, barEl, barStart, smul_mulVec]
  have hr : ∃ r, updateStep (rateIndependent barEl barFlow barSolve some) barStart ![4] barStart.T 1 = some r ∧
      r.s = 1 := by
    unfold updateStep
    simp only
    rw [if_neg hne]
    have hs : (rateIndependent barEl barFlow barSolve some).solve
        ((rateIndependent barEl barFlow barSolve some).setup barStart ![4] barStart.T 1) =
        some ((Sum.elim (1 : Fin 1 → ℚ) (Sum.elim (riTrial barEl barStart ![4] barStart.T).h fun _ =>
          (riTrial barEl barStart ![4] barStart.T).e1 0 - (riTrial barEl barStart ![4] barStart.T).ep 0 - 1 / 2) :
          RIx (Fin 1) (Fin 1) → ℚ), 1) :=
      if_pos rfl
    rw [hs]
    exact ⟨_, rfl, rfl⟩
  obtain ⟨r, hr, hs⟩ := hr
  obtain ⟨c, hc, -⟩ := C210_rest barEl barFlow barSolve some barSolve_exact barStart ![4] 1 (barEl_inverse _) r hr
  exact ⟨r, hr, hs, c, hc⟩

end Neml.SmallStrain

namespace Neml.CrystalDamage

open Matrix Neml.Kinematics

/-- C210, crystals with damage: the projected stress is divided by the projection, so the increment that takes the
reported strain off ends at zero stress. -/
theorem C210_crystal {N D : Type} (k : DKin N D) (s : Fin 6 → ℝ) (h : N ⊕ D → ℝ) (dt : ℝ) (hdt : dt ≠ 0)
    (hCS : k.C * k.S = 1) (hP : IsUnit (k.P s h).det) :
    s + k.increment s (-(dt⁻¹ • k.elastic s h)) dt h = 0 := by
  rw [DKin.increment, smul_neg, smul_smul, mul_inv_cancel₀ hdt, one_smul, DKin.elastic, mulVec_neg, mulVec_mulVec,
    hCS, one_mulVec, mulVec_neg, mulVec_mulVec, Matrix.mul_nonsing_inv _ hP, one_mulVec, add_neg_cancel]

/-- A projection to a half, a stiffness of two: the premises hold. -/
example (inel : Inel Unit) (dmg : Dmg Unit Unit) (hd : ∀ s h, dmg.proj s h = (1 / 2 : ℝ) • 1) (s : Fin 6 → ℝ)
    (h : Unit ⊕ Unit → ℝ) :
    s + (⟨(2 : ℝ) • 1, (1 / 2 : ℝ) • 1, inel, dmg⟩ : DKin Unit Unit).increment s
      (-((3 : ℝ)⁻¹ • (⟨(2 : ℝ) • 1, (1 / 2 : ℝ) • 1, inel, dmg⟩ : DKin Unit Unit).elastic s h)) 3 h = 0 :=
  C210_crystal _ s h 3 (by norm_num) (by simp) (by simp [DKin.P, hd])

end Neml.CrystalDamage

namespace Neml.Damage

open Matrix Neml.SmallStrain

variable {ι : Type} [Fintype ι] [DecidableEq ι] {H : Type}

/-- What is assumed of a step with damage that takes the strain `d` off: the solver solves, the material below the
damage unloads elastically, the damage rule adds no damage, nothing is killed. -/
structure Unloads (op : Options ι) (base : Model ℝ ι H) (dm : Rule ι)
    (solve : (e1 e0 s0 : ι → ℝ) → (w0 : ℝ) → H → (u0 p0 : ℝ) → Option (ι ⊕ Unit → ℝ))
    (C : Matrix ι ι ℝ) (d e0 s0 : ι → ℝ) (h0 : ℝ × H) (u0 p0 : ℝ) : Prop where
  solves : Solves base dm solve
  kill : op.ekill = false
  base : ∀ up, base (e0 - d) e0 (effective h0.1 s0) h0.2 u0 p0 = some up →
    up.s = C *ᵥ (e0 - d - e0) + effective h0.1 s0
  rule : ∀ w s s', dm.damage w h0.1 (e0 - d) e0 s s' = h0.1

theorem Unloads.stress {op : Options ι} {base : Model ℝ ι H} {dm : Rule ι} {solve} {C : Matrix ι ι ℝ}
    {d e0 s0 : ι → ℝ} {h0 : ℝ × H} {u0 p0 : ℝ} (hu : Unloads op base dm solve C d e0 s0 h0 u0 p0) (inv)
    (hw : h0.1 ≠ 1) (r) (hr : damUpdate op base dm solve inv (e0 - d) e0 s0 h0 u0 p0 = some r) :
    r.h.1 = h0.1 ∧ r.s = s0 - (1 - h0.1) • (C *ᵥ d) := by
  rcases C31_step op base dm solve inv hu.solves _ _ _ _ _ _ _ hr with ⟨h, -⟩ | ⟨⟨up, h1, h2, -, -, -, h3, -⟩, -⟩
  · rw [hu.kill] at h; cases h
  · have hw' : r.h.1 = h0.1 := h3.trans (hu.rule _ _ _)
    refine ⟨hw', ?_⟩
    rw [h2, hw', hu.base up h1, sub_sub_cancel_left, mulVec_neg, smul_add, smul_neg, neg_add_eq_sub]
    congr 1
    funext i
    show (1 - h0.1) * (s0 i / (1 - h0.1)) = s0 i
    rw [mul_div_cancel₀]
    exact sub_ne_zero.mpr hw.symm

/-- C210, scalar damage: taking the reported strain off leaves the fraction `w` of the stress. -/
theorem C210_damage_left (op : Options ι) (base : Model ℝ ι H) (dm : Rule ι) (solve inv) (el : Elastic ℝ ι)
    (T : ℝ) (hCS : el.C T * el.S T = 1) (e0 s0 : ι → ℝ) (h0 : ℝ × H) (u0 p0 : ℝ) (hw : h0.1 ≠ 1)
    (hu : Unloads op base dm solve (el.C T) (report el T s0) e0 s0 h0 u0 p0) (r)
    (hr : damUpdate op base dm solve inv (e0 - report el T s0) e0 s0 h0 u0 p0 = some r) :
    r.s = getDamage h0 • s0 := by
  rw [(hu.stress inv hw r hr).2, stiff_report el T hCS, getDamage, sub_smul, one_smul, sub_sub_cancel]

/-- The report for the undamaged stress `s / (1 - w)` would be right. -/
theorem C210_damage_effective (op : Options ι) (base : Model ℝ ι H) (dm : Rule ι) (solve inv) (el : Elastic ℝ ι)
    (T : ℝ) (hCS : el.C T * el.S T = 1) (e0 s0 : ι → ℝ) (h0 : ℝ × H) (u0 p0 : ℝ) (hw : h0.1 ≠ 1)
    (hu : Unloads op base dm solve (el.C T) (report el T fun i => s0 i / (1 - h0.1)) e0 s0 h0 u0 p0) (r)
    (hr : damUpdate op base dm solve inv (e0 - report el T fun i => s0 i / (1 - h0.1)) e0 s0 h0 u0 p0 = some r) :
    r.s = 0 := by
  rw [(hu.stress inv hw r hr).2, stiff_report el T hCS]
  funext i
  show s0 i - (1 - h0.1) * (s0 i / (1 - h0.1)) = 0
  rw [mul_div_cancel₀ _ (sub_ne_zero.mpr hw.symm), sub_self]

/-- After any step with damage the model reports `1 - w` times what the material below the damage reports. -/
theorem C210_damage_report (op : Options ι) (base : Model ℝ ι H) (dm : Rule ι) (solve inv) (el : Elastic ℝ ι)
    (T : ℝ) (hs : Solves base dm solve) (hk : op.ekill = false) (e1 e0 s0 : ι → ℝ) (h0 : ℝ × H) (u0 p0 : ℝ)
    (r) (hr : damUpdate op base dm solve inv e1 e0 s0 h0 u0 p0 = some r) :
    ∃ up, base e1 e0 (fun i => s0 i / (1 - h0.1)) h0.2 u0 p0 = some up ∧
      report el T r.s = (1 - getDamage r.h) • report el T up.s := by
  rcases C31_step op base dm solve inv hs _ _ _ _ _ _ _ hr with ⟨h, -⟩ | ⟨⟨up, h1, h2, -⟩, -⟩
  · rw [hk] at h; cases h
  · exact ⟨up, h1, by rw [h2, report, report, mulVec_smul, getDamage]⟩

/-! ### The damaged spring -/

/-- A rate rule over a step without duration. -/
noncomputable def still : Rule (Fin 1) :=
  rateRule 0 (fun _ _ _ => 1 / 4) (fun _ _ _ => 0) (fun _ _ _ => 0) (fun _ _ _ => 0)

/-- The exact solution for the damaged spring. -/
noncomputable def stillSolve (e1 _e0 _s0 : Fin 1 → ℝ) (w0 : ℝ) (_ : Unit) (_ _ : ℝ) :
    Option (Fin 1 ⊕ Unit → ℝ) :=
  some (Sum.elim (fun i => (1 - w0) * (2 * e1 i)) fun _ => w0)

/-- The stiffness of the spring. -/
noncomputable def springEl : Elastic ℝ (Fin 1) := ⟨fun _ => (2 : ℝ) • 1, fun _ => (1 / 2 : ℝ) • 1⟩

theorem springEl_inverse (T : ℝ) : springEl.C T * springEl.S T = 1 := by
  simp [springEl]

theorem still_solves : Solves spring still stillSolve := by
  intro e1 e0 s0 w0 h0 u0 p0 x hx
  cases hx
  refine ⟨_, by
    simp only [damRJ, spring]
    refine congrArg some (Prod.ext ?_ rfl)
    funext a
    rcases a with i | _
    · simp
    · simp [still, rateRule]⟩

/-- The spring stretched by one and damaged by half carries the stress one. -/
theorem still_unloads (d : Fin 1 → ℝ) :
    Unloads noKill spring still stillSolve (springEl.C 0) d ![1] ![1] (1 / 2, ()) 0 0 where
  solves := still_solves
  kill := rfl
  base up h := by
    cases h
    funext i
    fin_cases i
    simp [springEl, effective, smul_mulVec]
    norm_num
    ring
  rule w s s' := by simp [still, rateRule]

/-- C210 fails with damage: the spring has the stress one at the strain one, reports the elastic strain one half,
and still carries stress when this strain is taken off, although no damage was added. -/
theorem C210_damage_disagreement :
    (∃ r0, damUpdate noKill spring still stillSolve (fun _ => some 1) ![1] 0 0 (1 / 2, ()) 0 0 = some r0 ∧
      r0.s = ![1] ∧ report springEl 0 r0.s = ![1 / 2]) ∧
    ∃ r, damUpdate noKill spring still stillSolve (fun _ => some 1) (![1] - report springEl 0 ![1]) ![1] ![1]
      (1 / 2, ()) 0 0 = some r ∧ r.h.1 = 1 / 2 ∧ r.s = ![1 / 2] := by
  refine ⟨⟨_, if_neg (by simp [noKill]), ?_, ?_⟩, ?_⟩
  · funext i; fin_cases i; norm_num
  · funext i; fin_cases i; norm_num [report, springEl, smul_mulVec]
  · refine ⟨_, if_neg (by simp [noKill]), rfl, ?_⟩
    have := C210_damage_left noKill spring still stillSolve (fun _ => some 1) springEl 0 (springEl_inverse 0) ![1]
      ![1] (1 / 2, ()) 0 0 (by norm_num) (still_unloads _) _ (if_neg (by simp [noKill]))
    refine this.trans ?_
    funext i; fin_cases i; norm_num [getDamage]

/-- The right strain removes the stress of the same spring. -/
example : ∃ r, damUpdate noKill spring still stillSolve (fun _ => some 1)
    (![1] - report springEl 0 fun i => ![1] i / (1 - 1 / 2)) ![1] ![1] (1 / 2, ()) 0 0 = some r ∧ r.s = 0 :=
  ⟨_, if_neg (by simp [noKill]), C210_damage_effective noKill spring still stillSolve (fun _ => some 1) springEl 0
    (springEl_inverse 0) ![1] ![1] (1 / 2, ()) 0 0 (by norm_num) (still_unloads _) _ (if_neg (by simp [noKill]))⟩

end Neml.Damage
