import Verif.Props.GenHuCocksDeriv
import Verif.Props.HuCocksHard

/-!
# C152, C153: evolution and hardening of the generalized precipitation model

Specification of C152: the law of coarsening, total volume and solute fixed, the cube of the radius linear in time.
Specifications of C153: `Hard.TauRight`, `Hard.RateRight`.
-/

namespace Neml.GenHuCocks

open Filter Topology Matrix
open Neml.Damage (Moves)
open Neml.Slip

variable {ns np : Nat} {m : Sys ns np}

/-! ## C152 -/

/-- C152: the initial history gives the initial radius and number density. -/
theorem C152_initial (m : Sys ns np) (i : Fin np) (hr : (m.prec i).k.rs ≠ 0) (hN : (m.prec i).k.Ns ≠ 0) :
    m.r m.init i = (m.prec i).k.rInit ∧ m.N m.init i = (m.prec i).k.NInit := by
  simp only [Sys.r, Sys.N, Sys.init, Matrix.cons_val_zero, Matrix.cons_val_one]
  exact ⟨div_mul_cancel₀ _ hr, div_mul_cancel₀ _ hN⟩

/-- C152: precipitates form during growth: their number rises. -/
theorem C152_nucleation (m : Sys ns np) (h : Hist np) (i : Fin np) (hc : 0 < m.c h (m.prec i).rate)
    (hN : 0 < (m.prec i).k.N0) (hv : 0 < m.vmol i) (hD : 0 < (m.prec i).k.D0) (ha : (m.prec i).k.am ≠ 0)
    (hx : 0 < (m.prec i).k.chi) (hk : 0 < m.kb) (hT : 0 < m.T) : 0 < m.NGrow h i := by
  have : 0 < m.D i := mul_pos hD (Real.exp_pos _)
  have h4 : 0 < (m.prec i).k.am ^ 4 := by positivity
  rw [Sys.NGrow, Sys.Zbeta]
  positivity

theorem volume_ripening (m : Sys ns np) (h : Hist np) (i : Fin np) (hr : m.r h i ≠ 0) :
    m.f_r h i * m.rRip h i + m.f_N h i * m.NRip h i = 0 := by
  rw [Sys.f_r, Sys.f_N, Sys.NRip]
  field_simp
  ring

variable {y : ℝ → Hist np} {t0 : ℝ}

/-- C152: along the rate equations the volume of a precipitate changes by growth only, weighted by what the switch leaves
to growth. -/
theorem C152_volume (i : Fin np) (hy : ∀ k, HasDerivAt (fun t => y t i k) (m.rate (y t0) i k) t0) (hr : m.r (y t0) i ≠ 0)
    (hs : (m.prec i).k.rs ≠ 0) (hn : (m.prec i).k.Ns ≠ 0) : HasDerivAt (fun t => m.f (y t) i)
      ((1 - (m.switch (y t0) i i).1) * (m.f_r (y t0) i * m.rGrow (y t0) i + m.f_N (y t0) i * m.NGrow (y t0) i)) t0 := by
  have dr := (hy 0).mul_const (m.prec i).k.rs
  have dn := (hy 1).mul_const (m.prec i).k.Ns
  have := ((dr.fun_pow 3).const_mul (4 / 3 * Real.pi)).fun_mul dn
  refine this.congr_deriv ?_
  have e0 : m.rate (y t0) i 0 * (m.prec i).k.rs = (1 - (m.switch (y t0) i i).1) * m.rGrow (y t0) i +
      (m.switch (y t0) i i).1 * m.rRip (y t0) i := div_mul_cancel₀ _ hs
  have e1 : m.rate (y t0) i 1 * (m.prec i).k.Ns = (1 - (m.switch (y t0) i i).1) * m.NGrow (y t0) i +
      (m.switch (y t0) i i).1 * m.NRip (y t0) i := div_mul_cancel₀ _ hn
  have e2 : y t0 i 0 * (m.prec i).k.rs = m.r (y t0) i := rfl
  have e3 : y t0 i 1 * (m.prec i).k.Ns = m.N (y t0) i := rfl
  rw [e0, e1, e2, e3]
  have hv := volume_ripening m (y t0) i hr
  rw [Sys.f_r, Sys.f_N] at hv ⊢
  push_cast
  linear_combination (m.switch (y t0) i i).1 * hv

theorem frozen {g : ℝ → ℝ} {a b : ℝ} (hg : ∀ t ∈ Set.Icc a b, HasDerivAt g 0 t) {t : ℝ} (ht : t ∈ Set.Icc a b) : g t = g a :=
  constant_of_has_deriv_right_zero (fun t ht => (hg t ht).continuousAt.continuousWithinAt)
    (fun t ht => (hg t (Set.Ico_subset_Icc_self ht)).hasDerivWithinAt) t ht

/-- C152: coarsening. While every precipitate ripens (each has a species at or below its equilibrium concentration), the
volume fractions and all concentrations stay what they are, the cube of each radius grows linearly in time, and the number
densities fall to keep the volumes. -/
theorem C152_coarsening {a b : ℝ} (ho : ∀ s, m.ceq s < m.c0 s) (hs : ∀ i, (m.prec i).k.rs ≠ 0) (hn : ∀ i, (m.prec i).k.Ns ≠ 0)
    (hy : ∀ t ∈ Set.Icc a b, ∀ i k, HasDerivAt (fun t => y t i k) (m.rate (y t) i k) t)
    (hr : ∀ t ∈ Set.Icc a b, ∀ i, m.r (y t) i ≠ 0)
    (hrip : ∀ t ∈ Set.Icc a b, ∀ i, ∃ s ∈ (m.prec i).sp, m.c (y t) s ≤ m.ceq s) {t : ℝ} (ht : t ∈ Set.Icc a b) :
    (∀ i, m.f (y t) i = m.f (y a) i) ∧ (∀ s, m.c (y t) s = m.c (y a) s) ∧
    (∀ i, m.r (y t) i ^ 3 = m.r (y a) i ^ 3 + m.M (y a) i * (t - a)) ∧
    ∀ i, m.N (y t) i = m.N (y a) i * m.r (y a) i ^ 3 / m.r (y t) i ^ 3 := by
  have hsw : ∀ t ∈ Set.Icc a b, ∀ i, (m.switch (y t) i i).1 = 1 := fun t ht i =>
    (C150_regimes m (y t) i ho).2.mpr (hrip t ht i)
  have hf : ∀ t ∈ Set.Icc a b, ∀ i, m.f (y t) i = m.f (y a) i := by
    intro t ht i
    refine frozen (g := fun t => m.f (y t) i) (fun u hu => ?_) ht
    refine (C152_volume i (hy u hu i) (hr u hu i) (hs i) (hn i)).congr_deriv ?_
    rw [hsw u hu i]
    ring
  have hleft : ∀ (same : Fin ns → Fin ns → Bool), ∀ t ∈ Set.Icc a b, ∀ s, m.left same (y t) s = m.left same (y a) s := by
    intro same t ht s
    simp only [Sys.left, hf t ht]
  have hc : ∀ t ∈ Set.Icc a b, ∀ s, m.c (y t) s = m.c (y a) s := by
    intro t ht s
    simp only [Sys.c, hleft _ t ht]
  have hM : ∀ t ∈ Set.Icc a b, ∀ i, m.M (y t) i = m.M (y a) i := by
    intro t ht i
    rw [Sys.M, Sys.M, hc t ht]
  refine ⟨hf t ht, hc t ht, fun i => ?_, fun i => ?_⟩
  · have := frozen (g := fun t => m.r (y t) i ^ 3 - m.M (y a) i * (t - a)) (a := a) (b := b) (fun u hu => ?_) ht
    · simp only [sub_self, mul_zero, sub_zero] at this
      linarith
    · have dr := (hy u hu i 0).mul_const (m.prec i).k.rs
      have := (dr.fun_pow 3).fun_sub (((hasDerivAt_id u).sub_const a).const_mul (m.M (y a) i))
      refine this.congr_deriv ?_
      have e0 : m.rate (y u) i 0 * (m.prec i).k.rs = (1 - (m.switch (y u) i i).1) * m.rGrow (y u) i +
          (m.switch (y u) i i).1 * m.rRip (y u) i := div_mul_cancel₀ _ (hs i)
      have e2 : y u i 0 * (m.prec i).k.rs = m.r (y u) i := rfl
      have := hr u hu i
      rw [e0, e2, hsw u hu i, Sys.rRip, hM u hu i]
      push_cast
      field_simp
      ring
  · have e := hf t ht i
    rw [Sys.f, Sys.f] at e
    have h3 := pow_ne_zero 3 (hr t ht i)
    rw [eq_div_iff h3]
    have hp : (4 / 3 * Real.pi : ℝ) ≠ 0 := by positivity
    apply mul_left_cancel₀ hp
    linear_combination e

/-! ## C153 -/

variable {N : Type} [DecidableEq N] [Fintype N]

/-- All variables have different names. -/
def Named (d : Hard N) (name : Fin np → Fin 2 → N) : Prop :=
  (∀ i k j l, name i k = name j l → i = j ∧ k = l) ∧ ∀ i k, d.own (name i k) = false

theorem find_name {name : Fin np → Fin 2 → N} {a : N} {p : Fin np × Fin 2} (h : find name a = some p) : name p.1 p.2 = a := by
  simpa using List.find?_some h

theorem find_absent {name : Fin np → Fin 2 → N} {a : N} (h : find name a = none) (i : Fin np) (k : Fin 2) : name i k ≠ a := by
  have := List.find?_eq_none.mp h (i, k) (by simp)
  simpa using this

theorem find_own {d : Hard N} {name : Fin np → Fin 2 → N} (hn : Named d name) (i : Fin np) (k : Fin 2) :
    find name (name i k) = some (i, k) := by
  cases h : find name (name i k) with
  | none => exact absurd rfl (find_absent h i k)
  | some p =>
    obtain ⟨e1, e2⟩ := hn.1 _ _ _ _ (find_name h)
    rw [← e1, ← e2]

/-- Entries for the variables of the precipitates and for those of another model. -/
def joined (name : Fin np → Fin 2 → N) (X : Fin np → Fin 2 → ℝ) (D : N → ℝ) : N → ℝ := fun a =>
  match find name a with
  | some (i, k) => X i k
  | none => D a

theorem joined_dot {d : Hard N} {name : Fin np → Fin 2 → N} (hn : Named d name) (X : Fin np → Fin 2 → ℝ) (D v : N → ℝ)
    (hD : ∀ i k, D (name i k) = 0) : joined name X D ⬝ᵥ v = ∑ i, ∑ k, X i k * v (name i k) + D ⬝ᵥ v := by
  have e : joined name X D = (∑ i, ∑ k, Pi.single (name i k) (X i k)) + D := by
    funext a
    rw [Pi.add_apply, Finset.sum_apply, joined]
    simp only [Finset.sum_apply]
    cases h : find name a with
    | none =>
      rw [Finset.sum_eq_zero fun i _ => Finset.sum_eq_zero fun k _ =>
        Pi.single_eq_of_ne (find_absent h i k).symm _, zero_add]
    | some p =>
      obtain ⟨i, k⟩ := p
      have ha : name i k = a := find_name h
      rw [Finset.sum_eq_single i, Finset.sum_eq_single k]
      · rw [← ha, hD, add_zero, Pi.single_eq_same]
      · intro l _ hl
        exact Pi.single_eq_of_ne (fun e => hl (hn.1 _ _ _ _ (e.symm.trans ha.symm)).2) _
      · simp
      · intro j _ hj
        exact Finset.sum_eq_zero fun l _ => Pi.single_eq_of_ne (fun e => hj (hn.1 _ _ _ _ (e.symm.trans ha.symm)).1) _
      · simp
  rw [e, add_dotProduct, sum_dotProduct]
  congr 1
  refine Finset.sum_congr rfl fun i _ => ?_
  rw [sum_dotProduct]
  exact Finset.sum_congr rfl fun k _ => by rw [single_dotProduct]

theorem finRange_fold {n : Nat} (x : Fin n → ℝ) : (List.finRange n).foldl (fun r i => r + x i) 0 = ∑ i, x i := by
  rw [HuCocks.foldl_add, HuCocks.finRange_sum, zero_add]

/-- Volume weighted molecular volumes of the precipitates with a species. -/
noncomputable def Sys.bulk (m : Sys ns np) (h : Hist np) (s : Fin ns) : ℝ :=
  ∑ i, if s ∈ (m.prec i).sp then m.f h i * m.vmol i else 0

theorem inner_held (m : Sys ns np) (same : Fin ns → Fin ns → Bool) (ss : Fin ns) (h : Hist np) (i : Fin np)
    (l : List (Fin ns)) (acc : ℝ × ℝ) :
    l.foldl (fun acc s => if same s ss then (acc.1 + m.f h i * (m.prec i).k.Vm / m.Na, acc.2 + m.f h i) else acc) acc =
      (acc.1 + l.countP (same · ss) * (m.f h i * m.vmol i), acc.2 + l.countP (same · ss) * m.f h i) := by
  induction l generalizing acc with
  | nil => simp
  | cons s l ih =>
    rw [List.foldl_cons, ih, List.countP_cons]
    by_cases hc : same s ss = true
    · rw [if_pos hc, if_pos hc]
      push_cast
      rw [Sys.vmol]
      refine Prod.ext ?_ ?_ <;> simp only <;> ring
    · rw [if_neg hc, if_neg hc]
      simp

theorem outer_held {α : Type} (l : List α) (x y : α → ℝ) (acc : ℝ × ℝ) :
    l.foldl (fun acc i => (acc.1 + x i, acc.2 + y i)) acc = (acc.1 + (l.map x).sum, acc.2 + (l.map y).sum) := by
  induction l generalizing acc with
  | nil => simp
  | cons i l ih =>
    rw [List.foldl_cons, ih]
    simp only [List.map_cons, List.sum_cons]
    refine Prod.ext ?_ ?_ <;> simp only <;> ring

theorem held_eq (m : Sys ns np) (same : Fin ns → Fin ns → Bool) (ss : Fin ns) (h : Hist np) :
    m.held same h ss = (∑ i, (m.prec i).sp.countP (same · ss) * (m.f h i * m.vmol i),
      ∑ i, (m.prec i).sp.countP (same · ss) * m.f h i) := by
  rw [Sys.held]
  simp only [inner_held m same ss, outer_held, zero_add, HuCocks.finRange_sum]

theorem held_ptr (hp : m.Proper) (h : Hist np) (s : Fin ns) :
    m.held (fun a b => decide (a = b)) h s = (m.bulk h s, m.room h s) := by
  rw [held_eq]
  simp only [countP_mem (hp.nodup _), Sys.bulk, Sys.room, ite_mul, one_mul, zero_mul]

theorem held_name (hp : m.Proper) (h : Hist np) (s : Fin ns) :
    m.held (fun a b => decide (m.comp a = m.comp b)) h s = (m.bulk h s, m.room h s) := by
  rw [← held_ptr hp]
  congr
  funext a b
  simp [hp.inj.eq_iff]

variable {y' : Hist np}

theorem bulk_deriv (hy : Runs y y' t0) (s : Fin ns) : HasDerivAt (fun t => m.bulk (y t) s)
    (∑ j, (if s ∈ (m.prec j).sp then m.vmol j else 0) * m.fdot (y t0) y' j) t0 := by
  simp only [Sys.bulk]
  refine HasDerivAt.fun_sum fun j _ => ?_
  split_ifs
  · refine ((C151_fraction hy j).mul_const (m.vmol j)).congr_deriv ?_
    ring
  · rw [zero_mul]
    exact hasDerivAt_const _ _

/-- C153: the molecular volume of a species in solution, a mean over the precipitates that hold it, has the reported
derivatives. -/
theorem C153_molecular (hp : m.Proper) (hy : Runs y y' t0) {s : Fin ns} (hs : m.room (y t0) s ≠ 0) :
    HasDerivAt (fun t => m.vm (y t) s) (∑ j, m.dvm (y t0) s j * m.fdot (y t0) y' j) t0 := by
  have e : ∀ t, m.vm (y t) s = m.bulk (y t) s / m.room (y t) s := fun t => by
    rw [Sys.vm, held_ptr hp]
  simp only [e]
  refine ((bulk_deriv (m := m) hy s).fun_div (room_deriv (m := m) hy s) hs).congr_deriv ?_
  have ed : ∀ j, m.dvm (y t0) s j = 1 / m.room (y t0) s * (if s ∈ (m.prec j).sp then m.vmol j else 0) +
      -(m.bulk (y t0) s / m.room (y t0) s / m.room (y t0) s) * (if s ∈ (m.prec j).sp then 1 else 0) := by
    intro j
    have ha : ((m.prec j).sp.any fun a => m.comp a = m.comp s) = true ↔ s ∈ (m.prec j).sp := by
      simp [hp.inj.eq_iff]
    rw [Sys.dvm, held_name hp]
    by_cases h : s ∈ (m.prec j).sp
    · rw [if_pos (ha.mpr h), if_pos h, if_pos h, Sys.vmol]
      ring
    · rw [if_neg (fun e => h (ha.mp e)), if_neg h, if_neg h]
      ring
  simp only [ed]
  rw [sum_two]
  field_simp
  ring

/-- The molecular volume lies between those of the precipitates. -/
theorem C153_mean (hp : m.Proper) (h : Hist np) (s : Fin ns) (hf : ∀ i, 0 ≤ m.f h i) (hr : 0 < m.room h s) {lo hi : ℝ}
    (hb : ∀ i, s ∈ (m.prec i).sp → lo ≤ m.vmol i ∧ m.vmol i ≤ hi) : lo ≤ m.vm h s ∧ m.vm h s ≤ hi := by
  have e : m.vm h s = m.bulk h s / m.room h s := by rw [Sys.vm, held_ptr hp]
  rw [e, le_div_iff₀ hr, div_le_iff₀ hr]
  constructor
  · rw [Sys.room, Sys.bulk, Finset.mul_sum]
    refine Finset.sum_le_sum fun i _ => ?_
    split_ifs with hc
    · rw [mul_comm]
      exact mul_le_mul_of_nonneg_left (hb i hc).1 (hf i)
    · simp
  · rw [Sys.room, Sys.bulk, Finset.mul_sum]
    refine Finset.sum_le_sum fun i _ => ?_
    split_ifs with hc
    · rw [mul_comm hi]
      exact mul_le_mul_of_nonneg_left (hb i hc).2 (hf i)
    · simp

theorem density_deriv (hp : m.Proper) (hy : Runs y y' t0) (hs : ∀ s, m.Solid (y t0) s) (hr : ∀ s, m.room (y t0) s ≠ 0)
    (hv : ∀ s, m.vm (y t0) s ≠ 0) :
    HasDerivAt (fun t => m.density (y t)) (∑ j, m.ddensity (y t0) j * m.fdot (y t0) y' j) t0 := by
  simp only [Sys.density, Sys.ddensity, finRange_fold]
  refine (HasDerivAt.fun_sum fun s _ => (C151_concentration hp hy (hs s)).fun_div (C153_molecular hp hy (hr s))
    (hv s)).congr_deriv ?_
  simp only [Finset.sum_mul]
  rw [Finset.sum_comm (s := Finset.univ (α := Fin np))]
  refine Finset.sum_congr rfl fun s _ => ?_
  have e : ∀ j, m.dc (y t0) s j / m.vm (y t0) s - m.c (y t0) s / m.vm (y t0) s / m.vm (y t0) s * m.dvm (y t0) s j =
      1 / m.vm (y t0) s * m.dc (y t0) s j + -(m.c (y t0) s / m.vm (y t0) s / m.vm (y t0) s) * m.dvm (y t0) s j :=
    fun j => by ring
  simp only [e]
  rw [sum_two, ← Finset.sum_mul]
  have := hv s
  field_simp
  ring

theorem areal_deriv (hy : Runs y y' t0) : HasDerivAt (fun t => m.areal (y t))
    (∑ j, (m.areal_r (y t0) j * (y' j 0 * (m.prec j).k.rs) + m.areal_N (y t0) j * (y' j 1 * (m.prec j).k.Ns))) t0 := by
  simp only [Sys.areal, finRange_fold]
  refine HasDerivAt.fun_sum fun j _ => ?_
  refine (((r_deriv (m := m) hy j).const_mul 2).fun_mul (N_deriv hy j)).congr_deriv ?_
  rw [Sys.areal_r, Sys.areal_N]
  ring

/-- States at which the combined strength is smooth: precipitates, strength and solute are there, no species leaves the
solution, and every species is held by some precipitate. -/
structure Smooth (d : Hard N) (m : Sys ns np) (x : Hist np) (ap G b : ℝ) (g i : Nat) (h : N → ℝ) : Prop where
  areal : 0 < m.areal x
  strength : d.tau g i h ≠ 0 ∨ ap * G * b ≠ 0
  density : 0 < m.density x * b
  solid : ∀ s, m.Solid x s
  room : ∀ s, m.room x s ≠ 0
  vm : ∀ s, m.vm x s ≠ 0

/-- C153: the combined strength has the reported derivative by every variable. -/
theorem C153_strength {d : Hard N} {name : Fin np → Fin 2 → N} {ap ac b G : ℝ} {g i : Nat} {h : N → ℝ} (hp : m.Proper)
    (hn : Named d name) (hd : d.TauRight g i h) (hs : Smooth d m (histOf name h) ap G b g i h) :
    (hardening d m name ap ac b G).TauRight g i h := by
  constructor
  · intro y y' t0 hy ey
    have dd := hd.1 y y' t0 hy ey
    have hR : Runs (fun t => histOf name (y t)) (histOf name y') t0 := fun i k => hy (name i k)
    have e0 : histOf name (y t0) = histOf name h := by rw [ey]
    have da := areal_deriv (m := m) hR
    have ds := density_deriv (m := m) hp hR (by rw [e0]; exact hs.solid) (by rw [e0]; exact hs.room)
      (by rw [e0]; exact hs.vm)
    simp only [e0] at da ds
    have hA := hs.areal
    have hsb := hs.density
    set x := histOf name h with hx
    set A := m.areal x with hAdef
    set C := m.density x with hCdef
    have hT0 : d.tau g i (y t0) = d.tau g i h := by rw [ey]
    set T := d.tau g i h
    have hpos : 0 < T * T + ap * G * b * √A * (ap * G * b * √A) := by
      have h1 : 0 < √A := Real.sqrt_pos.mpr hA
      rcases hs.strength with e | e
      · have := mul_self_pos.mpr e
        have := mul_self_nonneg (ap * G * b * √A)
        linarith
      · have := mul_self_pos.mpr (mul_ne_zero e h1.ne')
        have := mul_self_nonneg T
        linarith
    have dp := (da.sqrt (by rw [e0]; exact hA.ne')).const_mul (ap * G * b)
    have dq := ((dd.fun_mul dd).fun_add (dp.fun_mul dp)).sqrt (by rw [hT0, e0]; exact hpos.ne')
    have dc := ((ds.mul_const b).sqrt (by rw [e0]; exact hsb.ne')).const_mul (ac * G * b)
    refine (dq.fun_add dc).congr_deriv ?_
    rw [hT0, e0, ← hAdef, ← hCdef]
    have hj : (hardening d m name ap ac b G).dtau g i h = joined name (fun j => ![
        (1 / 2 * (ac * G * b * √(C * b)) / C * m.ddensity x j * m.f_r x j +
          1 / 2 * (ap * G * b * √A) * (ap * G * b * √A) / √(ap * G * b * √A * (ap * G * b * √A) + T * T) / A *
            m.areal_r x j) * (m.prec j).k.rs,
        (1 / 2 * (ac * G * b * √(C * b)) / C * m.ddensity x j * m.f_N x j +
          1 / 2 * (ap * G * b * √A) * (ap * G * b * √A) / √(ap * G * b * √A * (ap * G * b * √A) + T * T) / A *
            m.areal_N x j) * (m.prec j).k.Ns])
        ((T / √(ap * G * b * √A * (ap * G * b * √A) + T * T)) • d.dtau g i h) := rfl
    rw [hj, joined_dot hn _ _ _ (fun j k => by
      rw [Pi.smul_apply, hd.2 _ (hn.2 j k), smul_zero]), smul_dotProduct, smul_eq_mul,
      add_comm (ap * G * b * √A * (ap * G * b * √A))]
    have e1 : ∑ j, ∑ k, (![
        (1 / 2 * (ac * G * b * √(C * b)) / C * m.ddensity x j * m.f_r x j +
          1 / 2 * (ap * G * b * √A) * (ap * G * b * √A) / √(T * T + ap * G * b * √A * (ap * G * b * √A)) / A *
            m.areal_r x j) * (m.prec j).k.rs,
        (1 / 2 * (ac * G * b * √(C * b)) / C * m.ddensity x j * m.f_N x j +
          1 / 2 * (ap * G * b * √A) * (ap * G * b * √A) / √(T * T + ap * G * b * √A * (ap * G * b * √A)) / A *
            m.areal_N x j) * (m.prec j).k.Ns] : Fin 2 → ℝ) k * y' (name j k) =
        1 / 2 * (ac * G * b * √(C * b)) / C * ∑ j, m.ddensity x j * m.fdot x (histOf name y') j +
        1 / 2 * (ap * G * b * √A) * (ap * G * b * √A) / √(T * T + ap * G * b * √A * (ap * G * b * √A)) / A *
          ∑ j, (m.areal_r x j * (histOf name y' j 0 * (m.prec j).k.rs) +
            m.areal_N x j * (histOf name y' j 1 * (m.prec j).k.Ns)) := by
      rw [Finset.mul_sum, Finset.mul_sum, ← Finset.sum_add_distrib]
      refine Finset.sum_congr rfl fun j _ => ?_
      rw [Fin.sum_univ_two]
      simp only [Matrix.cons_val_zero, Matrix.cons_val_one, Sys.fdot, histOf]
      ring
    rw [e1]
    generalize ∑ j, m.ddensity x j * m.fdot x (histOf name y') j = X1
    generalize ∑ j, (m.areal_r x j * (histOf name y' j 0 * (m.prec j).k.rs) +
      m.areal_N x j * (histOf name y' j 1 * (m.prec j).k.Ns)) = X2
    generalize hR : √(T * T + ap * G * b * √A * (ap * G * b * √A)) = R
    have hR0 : R ≠ 0 := by rw [← hR]; exact (Real.sqrt_pos.mpr hpos).ne'
    have hSS : √(C * b) * √(C * b) = C * b := Real.mul_self_sqrt hsb.le
    have hC0 : C ≠ 0 := fun e => by rw [e, zero_mul] at hsb; exact lt_irrefl _ hsb
    generalize hS : √(C * b) = S at hSS ⊢
    have hS0 : S ≠ 0 := by rw [← hS]; exact (Real.sqrt_pos.mpr hsb).ne'
    have hBB : √A * √A = A := Real.mul_self_sqrt hA.le
    generalize hB : √A = B at hBB ⊢
    have hB0 : B ≠ 0 := by rw [← hB]; exact (Real.sqrt_pos.mpr hA).ne'
    have hb : X1 * b / (2 * S) = 1 / 2 * S / C * X1 := by
      field_simp
      linear_combination -X1 * hSS
    have hm : ac * G * b * (X1 * b / (2 * S)) = 1 / 2 * (ac * G * b * S) / C * X1 := by
      rw [hb]
      ring
    rw [hm, ← hBB]
    field_simp
    ring
  · intro a ha
    have h1 : d.own a = false := by
      cases e : d.own a with
      | false => rfl
      | true => simp [hardening, e] at ha
    have h2 : find name a = none := by
      cases e : find name a with
      | none => rfl
      | some q => simp [hardening, e] at ha
    simp only [hardening, h2, hd.2 a h1, mul_zero]

/-- C153: all rates have the reported derivatives, provided those of the parts have and the dislocation model reports
derivatives by every variable, as `spacing` does (`spacing_covers`). -/
theorem C153_rate {c : Crys} {d : Hard N} {name : Fin np → Fin 2 → N} {ap ac b G : ℝ} {h : N → ℝ}
    {R : Nat → Nat → ℝ} {dS : Nat → Nat → Fin 6 → ℝ} {dH : Nat → Nat → N → ℝ}
    (hn : Named d name) (hd : d.RateRight c R dS dH h) (hc : HuCocks.Hard.Covers d R dH h)
    (hq : ∀ i k, m.JacRight (histOf name h) i k) : (hardening d m name ap ac b G).RateRight c R dS dH h := by
  intro Rt x' y y' t0 hy ey hR hdR a ha
  cases hf : find name a with
  | some qk =>
    obtain ⟨i, k⟩ := qk
    have hj := hq i k (fun t => histOf name (y t)) (histOf name y') t0 (by rw [ey]) fun i k => hy (name i k)
    have e1 : (fun t => (hardening d m name ap ac b G).rate (Rt t) (y t) a) = fun t => m.rate (histOf name (y t)) i k := by
      funext t
      simp only [hardening, hf]
    have e2 : (hardening d m name ap ac b G).rateS R dS h a = 0 := by
      simp only [hardening, hf]
    have e3 : (fun b' => if (hardening d m name ap ac b G).own b' then
        (hardening d m name ap ac b G).rateH R dH h a b'
        else (hardening d m name ap ac b G).rateX R dH h a b') =
        joined name (m.jac (histOf name h) i k) 0 := by
      funext b'
      rw [joined]
      cases hi : find name b' with
      | none => simp only [hardening, hf, hi, ite_self, Pi.zero_apply]
      | some p =>
        have ho : (hardening d m name ap ac b G).own b' = true := by simp [hardening, hi]
        rw [if_pos ho]
        simp only [hardening, hf, hi]
    rw [e1, e2, e3, zero_dotProduct, zero_add, joined_dot hn _ _ _ (by simp), zero_dotProduct, add_zero]
    exact hj
  | none =>
    have ho : d.own a = true := by simpa [hardening, hf] using ha
    have e4 : (fun b' => if (hardening d m name ap ac b G).own b' then
        (hardening d m name ap ac b G).rateH R dH h a b'
        else (hardening d m name ap ac b G).rateX R dH h a b') =
        fun b' => if d.own b' then d.rateH R dH h a b' else d.rateX R dH h a b' := by
      funext b'
      simp only [hardening, hf]
      cases e : d.own b' with
      | true => simp
      | false => simp [hc a b' ho e]
    rw [e4]
    have := hd Rt x' y y' t0 hy ey hR hdR a ho
    simpa only [hardening, hf] using this

/-- C153: the combined strength is at least each part and at most their sum. -/
theorem C153_bounds {d : Hard N} {name : Fin np → Fin 2 → N} {ap ac b G : ℝ} {g i : Nat} {h : N → ℝ}
    (hd : 0 ≤ d.tau g i h) (hp : 0 ≤ ap * G * b) :
    let tau := (hardening d m name ap ac b G).tau g i h
    let tp := ap * G * b * √(m.areal (histOf name h))
    let tc := ac * G * b * √(m.density (histOf name h) * b)
    d.tau g i h + tc ≤ tau ∧ tp + tc ≤ tau ∧ tau ≤ d.tau g i h + tp + tc ∧
      (tau - tc) ^ 2 = d.tau g i h ^ 2 + tp ^ 2 := by
  intro tau tp tc
  have h2 : 0 ≤ tp := mul_nonneg hp (Real.sqrt_nonneg _)
  have ht : tau = √(d.tau g i h * d.tau g i h + tp * tp) + tc := rfl
  have e1 : d.tau g i h ≤ √(d.tau g i h * d.tau g i h + tp * tp) := Real.le_sqrt_of_sq_le (by nlinarith)
  have e2 : tp ≤ √(d.tau g i h * d.tau g i h + tp * tp) := Real.le_sqrt_of_sq_le (by nlinarith)
  have e3 : √(d.tau g i h * d.tau g i h + tp * tp) ≤ d.tau g i h + tp :=
    Real.sqrt_le_iff.mpr ⟨by linarith, by nlinarith⟩
  have e4 : √(d.tau g i h * d.tau g i h + tp * tp) ^ 2 = d.tau g i h * d.tau g i h + tp * tp :=
    Real.sq_sqrt (by nlinarith)
  refine ⟨by linarith, by linarith, by linarith, ?_⟩
  rw [ht, add_sub_cancel_right, e4]
  ring

/-! ## Cases -/

/-- A steel whose carbide has taken all the carbon. -/
noncomputable def ripe : Sys 1 1 :=
  ⟨fun _ => "C", fun _ => 1 / 2, fun _ => 1 / 5, fun _ => ⟨["C"], [1], [0], 0, plain⟩, 1, 1, 1, 1, 9 / 80⟩

theorem ripe_proper : ripe.Proper where
  inj a b _ := Subsingleton.elim a b
  nodup i := by simp [ripe]
  has i s := by
    have : s = 0 := Subsingleton.elim _ _
    subst this
    simp [ripe, Prec.cp, List.lookup]

/-- Its history: the radius grows with the cube root of time. -/
noncomputable def ripening (t : ℝ) : Hist 1 := fun _ => ![(1 + t / 10) ^ (1 / 3 : ℝ), 3 / (8 * Real.pi) / (1 + t / 10)]

theorem ripening_r (t : ℝ) : ripe.r (ripening t) 0 = (1 + t / 10) ^ (1 / 3 : ℝ) ∧
    ripe.N (ripening t) 0 = 3 / (8 * Real.pi) / (1 + t / 10) := by
  simp [Sys.r, Sys.N, ripe, plain, ripening]

theorem ripening_c {t : ℝ} (ht : 0 ≤ t) (s : Fin 1) : ripe.c (ripening t) s = 9 / 80 := by
  have hs : s = 0 := Subsingleton.elim _ _
  subst hs
  have hf : ripe.f (ripening t) 0 = 1 / 2 := by
    have h3 : ((1 + t / 10) ^ (1 / 3 : ℝ)) ^ 3 = 1 + t / 10 := by
      rw [← Real.rpow_natCast, ← Real.rpow_mul (by positivity)]
      norm_num
    rw [Sys.f, (ripening_r t).1, (ripening_r t).2, h3]
    have := Real.pi_ne_zero
    have : 1 + t / 10 ≠ 0 := by positivity
    field_simp
    norm_num
  have hm : (0 : Fin 1) ∈ (ripe.prec 0).sp := by simp [ripe]
  have hcp : ripe.cpAt 0 0 = 1 := by simp [Sys.cpAt, ripe, Prec.cp, List.lookup]
  have hin : ripe.inside (ripening t) 0 = 1 / 2 := by
    rw [Sys.inside, Fin.sum_univ_one, if_pos hm, hf, hcp]
    norm_num
  have hro : ripe.room (ripening t) 0 = 1 / 2 := by
    rw [Sys.room, Fin.sum_univ_one, if_pos hm, hf]
  rw [c_eq ripe_proper, hin, hro]
  refine (max_eq_right ?_).trans ?_ <;> norm_num [ripe]

/-- C152_coarsening: all hypotheses hold along this history, so the cube of the radius is linear in time. -/
example {t : ℝ} (ht : t ∈ Set.Icc (0 : ℝ) 1) : ripe.r (ripening t) 0 ^ 3 = 1 + 1 / 10 * t := by
  have all : ∀ i : Fin 1, i = 0 := fun i => Subsingleton.elim _ _
  have hM : ∀ {u : ℝ}, 0 ≤ u → ripe.M (ripening u) 0 = 1 / 10 := by
    intro u hu
    rw [Sys.M, ripening_c hu]
    norm_num [ripe, plain, Sys.D]
  have key := (C152_coarsening (m := ripe) (y := ripening) (a := 0) (b := 1) (fun _ => by norm_num [ripe])
    (fun _ => by norm_num [ripe, plain]) (fun _ => by norm_num [ripe, plain]) ?_ ?_ ?_ ht).2.2.1 0
  · rw [key, hM le_rfl, (ripening_r 0).1]
    norm_num
  · intro u hu i k
    rw [all i]
    have hb : 0 < 1 + u / 10 := by linarith [hu.1]
    have hsw : (ripe.switch (ripening u) 0 0).1 = 1 := by
      refine (C150_regimes ripe (ripening u) 0 fun _ => by norm_num [ripe]).2.mpr ⟨0, by simp [ripe], ?_⟩
      rw [ripening_c hu.1]
      norm_num [ripe]
    have d0 : HasDerivAt (fun t : ℝ => 1 + t / 10) (1 / 10) u := ((hasDerivAt_id u).div_const 10).const_add 1
    have hp : ∀ k : Fin 2, k = 0 ∨ k = 1 := by decide
    have hq : (1 + u / 10) ^ (1 / 3 : ℝ) ≠ 0 := (Real.rpow_pos_of_pos hb _).ne'
    have h3 : ((1 + u / 10) ^ (1 / 3 : ℝ)) ^ 3 = 1 + u / 10 := by
      rw [← Real.rpow_natCast, ← Real.rpow_mul hb.le]
      norm_num
    have hrr : ripe.rRip (ripening u) 0 = 1 / 10 / 3 / (1 + u / 10) ^ (1 / 3 : ℝ) / (1 + u / 10) ^ (1 / 3 : ℝ) := by
      rw [Sys.rRip, hM hu.1, (ripening_r u).1]
    rcases hp k with rfl | rfl
    · have e : ripe.rate (ripening u) 0 0 = ripe.rRip (ripening u) 0 := by
        have e1 : ripe.rate (ripening u) 0 0 = ((1 - (ripe.switch (ripening u) 0 0).1) * ripe.rGrow (ripening u) 0 +
          (ripe.switch (ripening u) 0 0).1 * ripe.rRip (ripening u) 0) / 1 := rfl
        rw [e1, hsw]
        ring
      rw [e, hrr]
      refine (d0.rpow_const (p := 1 / 3) (Or.inl hb.ne')).congr_deriv ?_
      have hx : (1 + u / 10) ^ (1 / 3 - 1 : ℝ) = (1 + u / 10) ^ (1 / 3 : ℝ) / (1 + u / 10) := Real.rpow_sub_one hb.ne' _
      rw [hx]
      generalize (1 + u / 10) ^ (1 / 3 : ℝ) = q at *
      rw [← h3]
      field_simp
    · have e : ripe.rate (ripening u) 0 1 = ripe.NRip (ripening u) 0 := by
        have e1 : ripe.rate (ripening u) 0 1 = ((1 - (ripe.switch (ripening u) 0 0).1) * ripe.NGrow (ripening u) 0 +
          (ripe.switch (ripening u) 0 0).1 * ripe.NRip (ripening u) 0) / 1 := rfl
        rw [e1, hsw]
        ring
      rw [e, Sys.NRip, hrr, (ripening_r u).1, (ripening_r u).2]
      refine ((hasDerivAt_const u (3 / (8 * Real.pi))).fun_div d0 hb.ne').congr_deriv ?_
      generalize (1 + u / 10) ^ (1 / 3 : ℝ) = q at *
      rw [← h3]
      have := Real.pi_ne_zero
      field_simp
      ring
  · intro u hu i
    rw [all i, (ripening_r u).1]
    exact (Real.rpow_pos_of_pos (by linarith [hu.1]) _).ne'
  · intro u hu i
    refine ⟨0, by simp [ripe], ?_⟩
    rw [ripening_c hu.1]
    norm_num [ripe]

/-- Spacing 0, then radius and number density of both precipitates of the steel. -/
def duoName : Fin 2 → Fin 2 → Fin 5 := ![![1, 2], ![3, 4]]

/-- The crystal of the case. -/
noncomputable def duoState : Fin 5 → ℝ := ![1, 1, 3 / (40 * Real.pi), 1, 3 / (40 * Real.pi)]

theorem duoState_hist : histOf duoName duoState = tenth := by
  funext i k
  fin_cases i <;> fin_cases k <;> rfl

theorem duo_named : Named (HuCocks.spacing single (fun _ => (0 : Fin 5)) 1 1 1 1 1 1 1) duoName := by
  refine ⟨by decide, fun i k => ?_⟩
  have hk : ∀ i k : Fin 2, (0 : Fin 5) ≠ duoName i k := by decide
  simp [HuCocks.spacing, ownOf, hk i k]

theorem duo_vm (s : Fin 2) : duo.vm tenth s = 1 := by
  have hv : ∀ i, duo.vmol i = 1 := by
    intro i
    fin_cases i <;> norm_num [Sys.vmol, duo, duoPrec, plain]
  have : ∀ s : Fin 2, s = 0 ∨ s = 1 := by decide
  have hr : 0 < duo.room tenth s := by
    rcases this s with rfl | rfl
    · rw [duo_room.1]; norm_num
    · rw [duo_room.2]; norm_num
  have := C153_mean duo_proper tenth s (fun i => by rw [duo_f]; norm_num) hr (lo := 1) (hi := 1)
    fun i _ => by rw [hv i]; exact ⟨le_rfl, le_rfl⟩
  exact le_antisymm this.2 this.1

theorem duo_smooth : Smooth (HuCocks.spacing single (fun _ => (0 : Fin 5)) 1 1 1 1 1 1 1) duo tenth 1 1 1 0 0 duoState where
  areal := by
    have h : ∀ i, duo.r tenth i = 1 ∧ duo.N tenth i = 3 / (40 * Real.pi) := by
      intro i
      fin_cases i <;> simp [Sys.r, Sys.N, duo, duoPrec, plain, tenth]
    rw [Sys.areal, finRange_fold, Fin.sum_univ_two, (h 0).1, (h 0).2, (h 1).1, (h 1).2]
    positivity
  strength := Or.inr (by norm_num)
  density := by
    rw [Sys.density, finRange_fold, Fin.sum_univ_two, duo_vm, duo_vm, duo_c.1, duo_c.2]
    norm_num
  solid := duo_solid
  room s := by
    have : ∀ s : Fin 2, s = 0 ∨ s = 1 := by decide
    rcases this s with rfl | rfl
    · rw [duo_room.1]; norm_num
    · rw [duo_room.2]; norm_num
  vm s := by rw [duo_vm]; exact one_ne_zero

/-- C153_strength: the hypotheses are met by dislocations with the two precipitates. -/
example : (hardening (HuCocks.spacing single (fun _ => (0 : Fin 5)) 1 1 1 1 1 1 1) duo duoName 1 1 1 1).TauRight 0 0
    duoState :=
  C153_strength duo_proper duo_named
    (HuCocks.C146_strength (by rw [single_total]; norm_num [Slip.single, Crys.flat]) _ one_ne_zero)
    (by rw [duoState_hist]; exact duo_smooth)

/-- C153_rate: the hypotheses are met while the precipitate grows. -/
example (R : Nat → Nat → ℝ) (dS : Nat → Nat → Fin 6 → ℝ) (dH : Nat → Nat → Fin 3 → ℝ)
    (hR : ∀ p ∈ single.systems, R p.1 p.2 ≠ 0) :
    (hardening (HuCocks.spacing single (fun _ => (0 : Fin 3)) 1 1 1 1 1 1 1) lean (fun _ => ![1, 2]) 1 1 1 1).RateRight
      single R dS dH ![1, 1, 3 / (40 * Real.pi)] := by
  have hv : Distinct single.ntotal (fun _ => (0 : Fin 3)) := by
    rw [single_total]
    intro i hi j hj _
    omega
  refine C153_rate ⟨by decide, fun i k => ?_⟩ (HuCocks.C146_rate hv R dS dH _ (fun p hp h => absurd h (hR p hp)) ?_)
    (HuCocks.spacing_covers hv _ _ _) fun i k => ?_
  · have hk : ∀ k : Fin 2, (0 : Fin 3) ≠ (![1, 2] : Fin 2 → Fin 3) k := by decide
    simp [HuCocks.spacing, ownOf, hk k]
  · intro i _
    exact one_ne_zero
  · have e : histOf (fun _ : Fin 1 => (![1, 2] : Fin 2 → Fin 3)) ![1, 1, 3 / (40 * Real.pi)] =
        (fun _ => ![1, 3 / (40 * Real.pi)] : Hist 1) := by
      funext i k
      fin_cases k <;> rfl
    have hi : i = 0 := Subsingleton.elim _ _
    rw [e, hi]
    exact lean_right k

end Neml.GenHuCocks
