import Verif.Model.HuCocks
import Mathlib.Analysis.Calculus.Deriv.Pow
import Mathlib.Analysis.Calculus.Deriv.Inv
import Mathlib.Analysis.Calculus.MeanValue
import Mathlib.Analysis.SpecialFunctions.Pow.Deriv
import Mathlib.Tactic.FieldSimp
import Mathlib.Tactic.LinearCombination
import Mathlib.Tactic.Positivity

/-!
# C143 and C145: chemistry and conservation laws of precipitation

Specifications: `Balance`, `Conserved` and statements about signs.
-/

namespace Neml.HuCocks

open Filter Topology

/-- Every atom of a species is either in the precipitate, whose concentration is `cp`, or in the matrix. -/
def Balance (c0 cp f c : ℝ) : Prop := f * cp + (1 - f) * c = c0

/-- The usual situation: the matrix holds more of each species than at equilibrium, the precipitate more than the
matrix. -/
structure Chem.Ordered (p : Chem) : Prop where
  ceq : ∀ i, 0 < p.ceq i
  over : ∀ i, p.ceq i < p.c0 i
  rich : ∀ i, p.c0 i < p.cp i

/-! ## C143 -/

/-- C143: the concentration is the one that conserves the species, and no other is. -/
theorem C143_mass (p : Chem) {f : ℝ} (hf : f ≠ 1) (i : Fin p.ns) (x : ℝ) :
    Balance (p.c0 i) (p.cp i) f x ↔ x = p.c f i := by
  have h : (1 - f) ≠ 0 := sub_ne_zero.mpr hf.symm
  rw [Balance, Chem.c, eq_div_iff h]
  constructor <;> intro e <;> linarith

theorem xi_eq (p : Chem) {f : ℝ} (hf : f ≠ 1) (i : Fin p.ns) :
    p.xi f i = f * (p.c0 i - p.cp i) / ((1 - f) * (p.ceq i - p.c0 i)) := by
  have h : (1 - f) ≠ 0 := sub_ne_zero.mpr hf.symm
  rw [Chem.xi, Chem.c]
  by_cases h2 : p.ceq i - p.c0 i = 0
  · rw [h2]; simp
  · field_simp
    ring

theorem loop_val (p : Chem) (f : ℝ) (l : List (Fin p.ns)) (v d d' : ℝ) :
    (p.sfnLoop f l (v, d)).1 = (p.sfnLoop f l (v, d')).1 := by
  induction l generalizing v d d' with
  | nil => rfl
  | cons i l ih =>
    simp only [Chem.sfnLoop, List.foldl_cons]
    by_cases h : v < p.xi f i
    · simp only [h, if_true]
    · simp only [h, if_false]; exact ih v d d'

/-- The value of the switch does not depend on what the uninitialised variable holds. -/
theorem sfn_val (p : Chem) (j j' f : ℝ) : (p.sfn j f).1 = (p.sfn j' f).1 := by
  have h := loop_val p f (List.finRange p.ns) 0 j j'
  simp only [Chem.sfn]
  rw [h]
  split_ifs <;> simp_all

theorem loop_spec (p : Chem) (f : ℝ) (l : List (Fin p.ns)) (v d : ℝ) :
    v ≤ (p.sfnLoop f l (v, d)).1 ∧ (∀ i ∈ l, p.xi f i ≤ (p.sfnLoop f l (v, d)).1) ∧
    (p.sfnLoop f l (v, d) = (v, d) ∨ ∃ i ∈ l, v < p.xi f i ∧
      p.sfnLoop f l (v, d) = (p.xi f i, p.dc f i / (p.ceq i - p.c0 i))) := by
  induction l generalizing v d with
  | nil => exact ⟨le_rfl, by simp, Or.inl rfl⟩
  | cons i l ih =>
    simp only [Chem.sfnLoop, List.foldl_cons]
    by_cases h : v < p.xi f i
    · simp only [h, if_true]
      obtain ⟨h1, h2, h3⟩ := ih (p.xi f i) (p.dc f i / (p.ceq i - p.c0 i))
      refine ⟨h.le.trans h1, ?_, Or.inr ?_⟩
      · intro j hj
        rcases List.mem_cons.mp hj with rfl | hj
        · exact h1
        · exact h2 j hj
      · rcases h3 with h3 | ⟨j, hj, hlt, e⟩
        · exact ⟨i, List.mem_cons_self, h, h3⟩
        · exact ⟨j, List.mem_cons_of_mem _ hj, h.trans hlt, e⟩
    · simp only [h, if_false]
      obtain ⟨h1, h2, h3⟩ := ih v d
      refine ⟨h1, ?_, ?_⟩
      · intro j hj
        rcases List.mem_cons.mp hj with rfl | hj
        · exact (not_lt.mp h).trans h1
        · exact h2 j hj
      · rcases h3 with h3 | ⟨j, hj, hlt, e⟩
        · exact Or.inl h3
        · exact Or.inr ⟨j, List.mem_cons_of_mem _ hj, hlt, e⟩

/-- C143: the switch is the progress of the most advanced species, cut off at zero and one. -/
theorem C143_switch (p : Chem) (junk f : ℝ) :
    0 ≤ (p.sfn junk f).1 ∧ (p.sfn junk f).1 ≤ 1 ∧ (∀ i, min 1 (p.xi f i) ≤ (p.sfn junk f).1) ∧
    ((p.sfn junk f).1 = 0 ∨ ∃ i, (p.sfn junk f).1 = min 1 (p.xi f i)) := by
  obtain ⟨h1, h2, h3⟩ := loop_spec p f (List.finRange p.ns) 0 junk
  simp only [Chem.sfn]
  rw [if_neg (not_lt.mpr h1)]
  by_cases hc : 1 < (p.sfnLoop f (List.finRange p.ns) (0, junk)).1
  · rw [if_pos hc]
    refine ⟨zero_le_one, le_rfl, fun i => min_le_left _ _, Or.inr ?_⟩
    rcases h3 with h3 | ⟨i, _, _, e⟩
    · rw [h3] at hc; exact absurd hc (by norm_num)
    · rw [e] at hc
      exact ⟨i, (min_eq_left hc.le).symm⟩
  · rw [if_neg hc]
    refine ⟨h1, not_lt.mp hc, fun i => (min_le_right _ _).trans (h2 i (List.mem_finRange i)), ?_⟩
    rcases h3 with h3 | ⟨i, _, _, e⟩
    · left; rw [h3]
    · right
      refine ⟨i, ?_⟩
      rw [e] at hc ⊢
      exact (min_eq_right (not_lt.mp hc)).symm

/-- C143: pure nucleation exactly without precipitate, pure ripening exactly when a species has come down to its
equilibrium concentration. -/
theorem C143_regimes (p : Chem) (ho : p.Ordered) (hn : 0 < p.ns) (junk : ℝ) {f : ℝ} (hf : f < 1) :
    ((p.sfn junk f).1 = 0 ↔ f ≤ 0) ∧ ((p.sfn junk f).1 = 1 ↔ ∃ i, p.c f i ≤ p.ceq i) := by
  obtain ⟨h1, h2, h3, h4⟩ := C143_switch p junk f
  have h1f : 0 < 1 - f := by linarith
  have hx : ∀ i, p.xi f i = f * ((p.cp i - p.c0 i) / ((1 - f) * (p.c0 i - p.ceq i))) := fun i => by
    have a := ho.over i
    have : p.c0 i - p.ceq i ≠ 0 := by linarith
    have : p.ceq i - p.c0 i ≠ 0 := by intro h; apply this; linarith
    rw [xi_eq p hf.ne]
    field_simp
    ring
  have hk : ∀ i, 0 < (p.cp i - p.c0 i) / ((1 - f) * (p.c0 i - p.ceq i)) := fun i =>
    div_pos (by linarith [ho.rich i]) (mul_pos h1f (by linarith [ho.over i]))
  have hone : ∀ i, 1 ≤ p.xi f i ↔ p.c f i ≤ p.ceq i := fun i => by
    have a := ho.over i
    rw [Chem.xi, one_le_div_of_neg (by linarith)]
    constructor <;> intro h <;> linarith
  refine ⟨⟨fun h => ?_, fun h => ?_⟩, ⟨fun h => ?_, fun ⟨i, h⟩ => ?_⟩⟩
  · by_contra hp
    have := h3 ⟨0, hn⟩
    rw [h] at this
    rcases min_le_iff.mp this with h | h
    · linarith
    · rw [hx] at h
      have := mul_pos (not_le.mp hp) (hk ⟨0, hn⟩)
      linarith
  · rcases h4 with h4 | ⟨i, h4⟩
    · exact h4
    · refine le_antisymm ?_ h1
      rw [h4]
      refine (min_le_right _ _).trans ?_
      rw [hx]
      exact mul_nonpos_of_nonpos_of_nonneg h (hk i).le
  · rcases h4 with h4 | ⟨i, h4⟩
    · rw [h4] at h; exact absurd h (by norm_num)
    · refine ⟨i, (hone i).mp ?_⟩
      rw [h] at h4
      rw [h4]
      exact min_le_right _ _
  · refine le_antisymm h2 ?_
    have := h3 i
    rwa [min_eq_left ((hone i).mpr h)] at this

theorem foldl_prod {n : Nat} (g : Fin n → ℝ) : ((List.finRange n).map g).foldl (· * ·) 1 = ∏ i, g i := by
  rw [← List.prod_eq_foldl, ← List.ofFn_eq_map, List.prod_ofFn]

theorem foldl_sum {n : Nat} (g : Fin n → ℝ) : ((List.finRange n).map g).foldl (· + ·) 0 = ∑ i, g i := by
  rw [← List.sum_eq_foldl, ← List.ofFn_eq_map, List.sum_ofFn]

/-- C143: the driving force is the sum over the species, and precipitation is driven (`Gv < 0`) exactly while the
product of the concentrations is above the product at equilibrium. The critical radius is positive then. -/
theorem C143_force (p : Chem) {f : ℝ} (hc : ∀ i, 0 < p.c f i) (he : ∀ i, 0 < p.ceq i) (hk : 0 < p.kb * p.T)
    (hv : 0 < p.vm) (hx : 0 < p.chi) :
    p.Gv f = -(p.kb * p.T / p.vm * ∑ i, Real.log (p.c f i / p.ceq i)) ∧
    (p.Gv f < 0 ↔ ∏ i, p.ceq i < ∏ i, p.c f i) ∧ (p.Gv f < 0 ↔ 0 < p.rc f) := by
  have hce : p.cEff f = ∏ i, p.c f i := foldl_prod _
  have hee : p.ceqEff = ∏ i, p.ceq i := foldl_prod _
  have e : p.Gv f = -(p.kb * p.T / p.vm * Real.log ((∏ i, p.c f i) / ∏ i, p.ceq i)) := by
    rw [Chem.Gv, hce, hee]; ring
  have hq : 0 < p.kb * p.T / p.vm := div_pos hk hv
  have hp1 : 0 < ∏ i, p.ceq i := Finset.prod_pos fun i _ => he i
  have hp2 : 0 < ∏ i, p.c f i := Finset.prod_pos fun i _ => hc i
  refine ⟨?_, ?_, ?_⟩
  · rw [e, ← Finset.prod_div_distrib, Real.log_prod]
    exact fun i _ => (div_pos (hc i) (he i)).ne'
  · rw [e, neg_lt_zero, mul_pos_iff_of_pos_left hq, Real.log_pos_iff (div_pos hp2 hp1).le, one_lt_div hp1]
  · rw [Chem.rc]
    constructor
    · intro h
      exact div_pos_of_neg_of_neg (by linarith) h
    · intro h
      by_contra hg
      have : -2 * p.chi / p.Gv f ≤ 0 := div_nonpos_of_nonpos_of_nonneg (by linarith) (not_lt.mp hg)
      linarith

/-! ## C145 -/

/-- The volume of spheres of radius `r` and number density `N`. -/
noncomputable def spheres (r N : ℝ) : ℝ := 4 * Real.pi / 3 * r ^ 3 * N

/-- C145: along every solution of the rate equations over a time interval the volume fraction stays the volume of the
spheres, if it was so at the start. -/
theorem C145_volume (p : Chem) (hs : p.fs ≠ 0) (hr : p.rs ≠ 0) (hN : p.Ns ≠ 0) (h : ℝ → Fin 3 → ℝ) {t1 : ℝ}
    (hd : ∀ t ∈ Set.Icc 0 t1, ∀ k, HasDerivAt (fun t => h t k) (p.rates (h t) k) t)
    (h0 : h 0 0 * p.fs = spheres (h 0 1 * p.rs) (h 0 2 * p.Ns)) {t : ℝ} (ht : t ∈ Set.Icc 0 t1) :
    h t 0 * p.fs = spheres (h t 1 * p.rs) (h t 2 * p.Ns) := by
  have key : ∀ t ∈ Set.Icc 0 t1,
      HasDerivAt (fun t => h t 0 * p.fs - spheres (h t 1 * p.rs) (h t 2 * p.Ns)) 0 t := by
    intro t ht
    have d0 := (hd t ht 0).mul_const p.fs
    have d1 := (hd t ht 1).mul_const p.rs
    have d2 := (hd t ht 2).mul_const p.Ns
    have d3 := ((d1.fun_pow 3).const_mul (4 * Real.pi / 3)).mul d2
    refine (d0.sub d3).congr_deriv ?_
    have e0 : p.rates (h t) 0 * p.fs = p.fRate (h t 0 * p.fs) (h t 1 * p.rs) (h t 2 * p.Ns) := div_mul_cancel₀ _ hs
    have e1 : p.rates (h t) 1 * p.rs = p.rRate (h t 0 * p.fs) (h t 1 * p.rs) (h t 2 * p.Ns) := div_mul_cancel₀ _ hr
    have e2 : p.rates (h t) 2 * p.Ns = p.NRate (h t 0 * p.fs) (h t 1 * p.rs) (h t 2 * p.Ns) := div_mul_cancel₀ _ hN
    rw [e0, e1, e2, Chem.fRate]
    push_cast
    ring
  have hc := constant_of_has_deriv_right_zero (fun x hx => (key x hx).continuousAt.continuousWithinAt)
    (fun x hx => (key x ⟨hx.1, hx.2.le⟩).hasDerivWithinAt) t ht
  linarith

/-- C145: the initial history has the volume of the spheres if the parameters do. -/
theorem C145_initial (p : Chem) (hs : p.fs ≠ 0) (hr : p.rs ≠ 0) (hN : p.Ns ≠ 0)
    (h : p.fInit = spheres p.rInit p.NInit) :
    p.init 0 * p.fs = spheres (p.init 1 * p.rs) (p.init 2 * p.Ns) := by
  simp only [Chem.init, Matrix.cons_val_zero, Matrix.cons_val_one, Matrix.cons_val]
  rw [div_mul_cancel₀ _ hs, div_mul_cancel₀ _ hr, div_mul_cancel₀ _ hN, h]

/-- C145: pure ripening conserves the precipitate: the volume fraction rests, the cube of the radius grows at the
rate `K`, and the number falls so that the volume of the spheres rests. -/
theorem C145_ripening (p : Chem) {f r N : ℝ} (h1 : (p.sfn 0 f).1 = 1) (hr : 0 < r) (hN : 0 < N) (hK : 0 < p.K f) :
    p.fRate f r N = 0 ∧ 3 * r ^ 2 * p.rRate f r N = p.K f ∧ 0 < p.rRate f r N ∧ p.NRate f r N < 0 ∧
    p.NRate f r N * r ^ 3 + N * (3 * r ^ 2 * p.rRate f r N) = 0 := by
  have hr' : p.rRate f r N = p.K f / (3 * r ^ 2) := by rw [Chem.rRate, h1, Chem.rRip]; ring
  have hN' : p.NRate f r N = -(3 * N / r * (p.K f / (3 * r ^ 2))) := by
    rw [Chem.NRate, h1, Chem.NRip, Chem.rRip]; ring
  have e : p.NRate f r N * r ^ 3 + N * (3 * r ^ 2 * p.rRate f r N) = 0 := by
    rw [hr', hN']
    field_simp
    ring
  refine ⟨?_, ?_, ?_, ?_, e⟩
  · rw [Chem.fRate]
    have : p.NRate f r N * r ^ 3 + N * 3 * r ^ 2 * p.rRate f r N = 0 := by linarith
    rw [this, mul_zero]
  · rw [hr']; field_simp
  · rw [hr']; positivity
  · rw [hN', neg_lt_zero]; positivity

/-- C145: nucleation only adds precipitates, and the growth of the radius stops where the matrix is at equilibrium
and no precipitates form. -/
theorem C145_nucleation (p : Chem) {f : ℝ} (hc : 0 < p.c f p.rate) (hv : 0 < p.vm) (hD : 0 < p.D0) (hN : 0 < p.N0)
    (ha : p.am ≠ 0) (hx : 0 < p.chi) (hk : 0 < p.kb * p.T) : 0 < p.NNuc f := by
  rw [Chem.NNuc, Chem.ZB, Chem.D]
  have h1 : 0 < Real.sqrt (p.chi / (p.kb * p.T)) := Real.sqrt_pos.mpr (div_pos hx hk)
  have h2 : 0 < p.am ^ 4 := by positivity
  positivity

/-! ## A concrete case -/

/-- One species with concentration 1/5, equilibrium at 1/10, precipitate of the pure species. -/
noncomputable def steel : Chem where
  ns := 1
  c0 _ := 1 / 5
  cp _ := 1
  ceq _ := 1 / 10
  rate := 0
  am := 1
  N0 := 1
  Vm := 1
  chi := 1
  D0 := 1
  Q0 := 0
  Cf := 45 / 4
  kb := 1
  R := 1
  Na := 1
  w := 1
  T := 1
  fs := 1 / 10
  rs := 2
  Ns := 3
  fInit := 0
  rInit := 1
  NInit := 0

theorem steel_ceq (i : Fin steel.ns) : steel.ceq i = 1 / 10 := rfl

theorem steel_ordered : steel.Ordered :=
  ⟨fun _ => show (0 : ℝ) < 1 / 10 by norm_num, fun _ => show (1 / 10 : ℝ) < 1 / 5 by norm_num,
    fun _ => show (1 / 5 : ℝ) < 1 by norm_num⟩

theorem steel_c (f : ℝ) (i : Fin steel.ns) : steel.c f i = (1 / 5 - f) / (1 - f) := by simp [Chem.c, steel]

example : Balance (1 / 5) 1 (1 / 10) (steel.c (1 / 10) steel.rate) :=
  (C143_mass steel (by norm_num) steel.rate _).mpr rfl

theorem steel_ripe : (steel.sfn 0 (1 / 9)).1 = 1 :=
  (C143_regimes steel steel_ordered Nat.one_pos 0 (by norm_num)).2.mpr ⟨steel.rate, by rw [steel_c, steel_ceq]; norm_num⟩

example : (steel.sfn 0 (1 / 10)).1 ≠ 0 ∧ (steel.sfn 0 (1 / 10)).1 ≠ 1 := by
  obtain ⟨h1, h2⟩ := C143_regimes steel steel_ordered Nat.one_pos 0 (f := 1 / 10) (by norm_num)
  refine ⟨fun h => absurd (h1.mp h) (by norm_num), fun h => ?_⟩
  obtain ⟨i, hi⟩ := h2.mp h
  rw [steel_c, steel_ceq] at hi
  norm_num at hi

example : steel.Gv (1 / 10) < 0 :=
  (C143_force steel (fun i => by rw [steel_c]; norm_num) steel_ordered.ceq (by norm_num [steel])
    (by norm_num [steel, Chem.vm]) (by norm_num [steel])).2.1.mpr (Finset.prod_lt_prod_of_nonempty
      (fun i _ => steel_ordered.ceq i) (fun i _ => by rw [steel_c, steel_ceq]; norm_num) ⟨(0 : Fin 1), Finset.mem_univ _⟩)

theorem steel_K : steel.K (1 / 9) = 1 := by
  have hD : steel.D = 1 := by simp [Chem.D, steel]
  rw [Chem.K, hD, steel_c]
  norm_num [steel]

example : steel.fRate (1 / 9) 2 3 = 0 :=
  (C145_ripening steel steel_ripe (by norm_num) (by norm_num) (by rw [steel_K]; norm_num)).1

/-- A solution of the rate equations: ripening of an equilibrated alloy. -/
noncomputable def coarsening (t : ℝ) : Fin 3 → ℝ :=
  ![(1 / 9) / (1 / 10), (1 + t) ^ (1 / 3 : ℝ) / 2, 1 / (12 * Real.pi) * (1 + t)⁻¹ / 3]

theorem coarsening_solves {t : ℝ} (ht : 0 ≤ t) (k : Fin 3) :
    HasDerivAt (fun t => coarsening t k) (steel.rates (coarsening t) k) t := by
  have hp : 0 < 1 + t := by linarith
  set r := (1 + t) ^ (1 / 3 : ℝ) with hr
  have hr0 : 0 < r := Real.rpow_pos_of_pos hp _
  have hr3 : r ^ 3 = 1 + t := by
    rw [hr, ← Real.rpow_natCast, ← Real.rpow_mul hp.le]
    norm_num
  have hpi := Real.pi_pos
  have e0 : coarsening t 0 * steel.fs = 1 / 9 := by norm_num [coarsening, steel]
  have e1 : coarsening t 1 * steel.rs = r := by
    simp only [coarsening, steel, Matrix.cons_val_one, Matrix.cons_val_zero, ← hr]
    ring
  have e2 : coarsening t 2 * steel.Ns = 1 / (12 * Real.pi) * (1 + t)⁻¹ := by
    simp only [coarsening, steel, Matrix.cons_val]
    ring
  have hN : 0 < 1 / (12 * Real.pi) * (1 + t)⁻¹ := by positivity
  obtain ⟨h1, h2, -, -, h3⟩ := C145_ripening steel (r := r) (N := 1 / (12 * Real.pi) * (1 + t)⁻¹) steel_ripe hr0 hN
    (by rw [steel_K]; norm_num)
  rw [steel_K] at h2
  fin_cases k
  · simp only [Chem.rates, e0, e1, e2, h1, Fin.zero_eta, Matrix.cons_val_zero, zero_div]
    exact hasDerivAt_const t _
  · simp only [Chem.rates, e0, e1, e2, Fin.mk_one, Matrix.cons_val_one, Matrix.cons_val_zero]
    have hd := ((((hasDerivAt_id t).const_add 1).rpow_const (p := (1 / 3 : ℝ)) (Or.inl hp.ne')).div_const 2)
    refine hd.congr_deriv ?_
    have e : (1 + t) ^ ((1 / 3 : ℝ) - 1) = r / (1 + t) := by rw [Real.rpow_sub_one hp.ne']
    simp only [id, e]
    rw [← hr3]
    have : steel.rRate (1 / 9) r (1 / (12 * Real.pi) * (1 + t)⁻¹) = 1 / (3 * r ^ 2) := by
      rw [eq_div_iff (by positivity)]
      linarith
    rw [hr3, this, ← hr3]
    simp only [steel]
    field_simp
  · simp only [Chem.rates, e0, e1, e2, Fin.reduceFinMk, Matrix.cons_val]
    have hd := (((((hasDerivAt_id t).const_add 1).inv hp.ne').const_mul (1 / (12 * Real.pi))).div_const 3)
    refine hd.congr_deriv ?_
    rw [h2, hr3] at h3
    have : steel.NRate (1 / 9) r (1 / (12 * Real.pi) * (1 + t)⁻¹) = -(1 / (12 * Real.pi) * (1 + t)⁻¹) / (1 + t) := by
      rw [eq_div_iff hp.ne']
      linarith
    rw [this]
    simp only [steel, id]
    field_simp

example {t : ℝ} (ht : 0 ≤ t) : (1 / 9 : ℝ) = spheres (coarsening t 1 * 2) (coarsening t 2 * 3) := by
  have h := C145_volume steel (t := t) (t1 := t) (by norm_num [steel]) (by norm_num [steel]) (by norm_num [steel]) coarsening
    (fun s hs k => coarsening_solves hs.1 k) (by
      simp only [coarsening, steel, spheres, Matrix.cons_val_zero, Matrix.cons_val_one, Matrix.cons_val, add_zero,
        Real.one_rpow]
      have := Real.pi_pos
      field_simp
      norm_num) ⟨ht, le_rfl⟩
  have e0 : coarsening t 0 * steel.fs = 1 / 9 := by norm_num [coarsening, steel]
  rw [e0] at h
  exact h

example : 0 < steel.NNuc (1 / 10) :=
  C145_nucleation steel (by rw [steel_c]; norm_num) (by norm_num [steel, Chem.vm]) (by norm_num [steel])
    (by norm_num [steel]) (by norm_num [steel]) (by norm_num [steel]) (by norm_num [steel])

end Neml.HuCocks
