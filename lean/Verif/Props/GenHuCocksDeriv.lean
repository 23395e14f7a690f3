import Verif.Props.GenHuCocksChem
import Verif.Props.HuCocksDeriv

/-!
# C151: derivatives of the generalized precipitation rates

Specification: the chain rule along every differentiable curve of the radii and number densities.
-/

namespace Neml.GenHuCocks

open Filter Topology

variable {ns np : Nat} {m : Sys ns np}

/-- A curve of histories with a derivative. -/
def Runs (y : ℝ → Hist np) (y' : Hist np) (t0 : ℝ) : Prop := ∀ i k, HasDerivAt (fun t => y t i k) (y' i k) t0

/-- The change of the volume fraction of a precipitate. -/
noncomputable def Sys.fdot (m : Sys ns np) (h y' : Hist np) (j : Fin np) : ℝ :=
  m.f_r h j * (y' j 0 * (m.prec j).k.rs) + m.f_N h j * (y' j 1 * (m.prec j).k.Ns)

theorem sum_two (a b : ℝ) (X Y fd : Fin np → ℝ) :
    ∑ j, (a * X j + b * Y j) * fd j = a * ∑ j, X j * fd j + b * ∑ j, Y j * fd j := by
  rw [Finset.mul_sum, Finset.mul_sum, ← Finset.sum_add_distrib]
  exact Finset.sum_congr rfl fun j _ => by ring

theorem sum_one (a : ℝ) (X fd : Fin np → ℝ) : ∑ j, (a * X j) * fd j = a * ∑ j, X j * fd j := by
  rw [Finset.mul_sum]
  exact Finset.sum_congr rfl fun j _ => by ring

variable {y : ℝ → Hist np} {y' : Hist np} {t0 : ℝ}

theorem r_deriv (hy : Runs y y' t0) (i : Fin np) : HasDerivAt (fun t => m.r (y t) i) (y' i 0 * (m.prec i).k.rs) t0 :=
  (hy i 0).mul_const _

theorem N_deriv (hy : Runs y y' t0) (i : Fin np) : HasDerivAt (fun t => m.N (y t) i) (y' i 1 * (m.prec i).k.Ns) t0 :=
  (hy i 1).mul_const _

/-- C151: the volume fraction has the reported derivatives. -/
theorem C151_fraction (hy : Runs y y' t0) (i : Fin np) : HasDerivAt (fun t => m.f (y t) i) (m.fdot (y t0) y' i) t0 := by
  refine ((((r_deriv (m := m) hy i).fun_pow 3).const_mul (4 / 3 * Real.pi)).fun_mul (N_deriv hy i)).congr_deriv ?_
  rw [Sys.fdot, Sys.f_r, Sys.f_N]
  push_cast
  ring

/-- Where a concentration is smooth. -/
def Sys.Solid (m : Sys ns np) (h : Hist np) (s : Fin ns) : Prop :=
  m.room h s ≠ 1 ∧ (m.c0 s - m.inside h s) / (1 - m.room h s) ≠ m.eps

theorem inside_deriv (hy : Runs y y' t0) (s : Fin ns) : HasDerivAt (fun t => m.inside (y t) s)
    (∑ j, (if s ∈ (m.prec j).sp then m.cpAt j s else 0) * m.fdot (y t0) y' j) t0 := by
  simp only [Sys.inside]
  refine HasDerivAt.fun_sum fun j _ => ?_
  split_ifs
  · refine ((C151_fraction hy j).mul_const (m.cpAt j s)).congr_deriv ?_
    ring
  · rw [zero_mul]
    exact hasDerivAt_const _ _

theorem room_deriv (hy : Runs y y' t0) (s : Fin ns) : HasDerivAt (fun t => m.room (y t) s)
    (∑ j, (if s ∈ (m.prec j).sp then 1 else 0) * m.fdot (y t0) y' j) t0 := by
  simp only [Sys.room]
  refine HasDerivAt.fun_sum fun j _ => ?_
  split_ifs
  · rw [one_mul]
    exact C151_fraction hy j
  · rw [zero_mul]
    exact hasDerivAt_const _ _

theorem dc_eq (hp : m.Proper) (h : Hist np) (s : Fin ns) (j : Fin np) :
    m.dc h s j = if (m.c0 s - m.inside h s) / (1 - m.room h s) > m.eps then
      -(1 / (1 - m.room h s)) * (if s ∈ (m.prec j).sp then m.cpAt j s else 0) +
      (m.c0 s - m.inside h s) / (1 - m.room h s) / (1 - m.room h s) * (if s ∈ (m.prec j).sp then 1 else 0) else 0 := by
  rw [Sys.dc, left_name hp]
  by_cases hs : s ∈ (m.prec j).sp
  · have : ¬ ((m.prec j).cp (m.comp s)).isNone = true := fun e => (hp.has j s).mp e hs
    rw [if_neg this, if_pos hs, if_pos hs]
    dsimp only
    split_ifs
    · ring
    · rfl
  · rw [if_pos ((hp.has j s).mpr hs), if_neg hs, if_neg hs]
    split_ifs <;> simp

/-- C151: the concentrations have the reported derivatives. -/
theorem C151_concentration (hp : m.Proper) (hy : Runs y y' t0) {s : Fin ns} (hs : m.Solid (y t0) s) :
    HasDerivAt (fun t => m.c (y t) s) (∑ j, m.dc (y t0) s j * m.fdot (y t0) y' j) t0 := by
  have hx : 1 - m.room (y t0) s ≠ 0 := sub_ne_zero.mpr hs.1.symm
  have hq := ((inside_deriv (m := m) hy s).const_sub (m.c0 s)).fun_div ((room_deriv (m := m) hy s).const_sub 1) hx
  simp only [c_eq hp]
  rcases lt_or_gt_of_ne hs.2 with hl | hl
  · have he : (fun t => max ((m.c0 s - m.inside (y t) s) / (1 - m.room (y t) s)) m.eps) =ᶠ[𝓝 t0] fun _ => m.eps := by
      filter_upwards [hq.continuousAt.eventually_lt continuousAt_const hl] with t ht
      exact max_eq_right ht.le
    refine ((hasDerivAt_const t0 m.eps).congr_of_eventuallyEq he).congr_deriv ?_
    symm
    refine Finset.sum_eq_zero fun j _ => ?_
    rw [dc_eq hp, if_neg (not_lt.mpr hl.le), zero_mul]
  · have he : (fun t => max ((m.c0 s - m.inside (y t) s) / (1 - m.room (y t) s)) m.eps) =ᶠ[𝓝 t0]
        fun t => (m.c0 s - m.inside (y t) s) / (1 - m.room (y t) s) := by
      filter_upwards [continuousAt_const.eventually_lt hq.continuousAt hl] with t ht
      exact max_eq_left ht.le
    refine (hq.congr_of_eventuallyEq he).congr_deriv ?_
    simp only [dc_eq hp, if_pos hl]
    rw [sum_two]
    field_simp
    ring

/-- Where the rates of a precipitate are numbers and smooth. -/
structure Sys.Good (m : Sys ns np) (h : Hist np) (i : Fin np) : Prop where
  r0 : m.r h i ≠ 0
  N0 : m.N h i ≠ 0
  solid : ∀ s ∈ (m.prec i).sp, m.Solid h s
  rate : m.Solid h (m.prec i).rate
  c : ∀ s ∈ (m.prec i).sp, m.c h s ≠ 0
  ceq : ∀ s ∈ (m.prec i).sp, m.ceq s ≠ 0
  G : m.Gv h i ≠ 0

theorem Gv_deriv (hp : m.Proper) (hy : Runs y y' t0) {i : Fin np} (hs : ∀ s ∈ (m.prec i).sp, m.Solid (y t0) s)
    (hc : ∀ s ∈ (m.prec i).sp, m.c (y t0) s ≠ 0) (he : ∀ s ∈ (m.prec i).sp, m.ceq s ≠ 0) :
    HasDerivAt (fun t => m.Gv (y t) i) (∑ j, m.dGv (y t0) i j * m.fdot (y t0) y' j) t0 := by
  have key : ∀ l : List (Fin ns), (∀ s ∈ l, s ∈ (m.prec i).sp) → ∀ (a : ℝ → ℝ) (b : Fin np → ℝ),
      HasDerivAt a (∑ j, b j * m.fdot (y t0) y' j) t0 →
      HasDerivAt (fun t => l.foldl (fun g s => g + -Real.log (m.c (y t) s / m.ceq s)) (a t))
        (∑ j, l.foldl (fun g s => g + -1 / m.c (y t0) s * m.dc (y t0) s j) (b j) * m.fdot (y t0) y' j) t0 := by
    intro l
    induction l with
    | nil => intro _ a b h; exact h
    | cons s l ih =>
      intro hl a b h
      simp only [List.foldl_cons]
      refine ih (fun s hs => hl s (List.mem_cons_of_mem _ hs)) _ _ ?_
      have hm := hl s List.mem_cons_self
      have d := (((C151_concentration hp hy (hs s hm)).div_const (m.ceq s)).log
        (div_ne_zero (hc s hm) (he s hm))).fun_neg
      refine (h.fun_add d).congr_deriv ?_
      have e : ∀ j, (b j + -1 / m.c (y t0) s * m.dc (y t0) s j) * m.fdot (y t0) y' j =
          (1 * b j + -1 / m.c (y t0) s * m.dc (y t0) s j) * m.fdot (y t0) y' j := fun j => by rw [one_mul]
      simp only [e]
      rw [sum_two]
      have h1 := hc s hm
      have h2 := he s hm
      field_simp
  have := (key (m.prec i).sp (fun _ h => h) (fun _ => 0) (fun _ => 0) (by simpa using hasDerivAt_const t0 (0 : ℝ))).mul_const
    (m.kb * m.T / m.vmol i)
  refine this.congr_deriv ?_
  simp only [Sys.dGv]
  rw [Finset.sum_mul]
  exact Finset.sum_congr rfl fun j _ => by ring

theorem NGrow_deriv (hp : m.Proper) (hy : Runs y y' t0) {i : Fin np} (hg : m.Good (y t0) i) :
    HasDerivAt (fun t => m.NGrow (y t) i) (∑ j, m.NGrow_f (y t0) i j * m.fdot (y t0) y' j) t0 := by
  have dG := Gv_deriv hp hy hg.solid hg.c hg.ceq
  have hG := hg.G
  have dGs := (hasDerivAt_const t0 (16 * Real.pi * (m.prec i).k.chi ^ 3 / 3)).fun_div (dG.fun_pow 2) (pow_ne_zero 2 hG)
  have dZ := (((C151_concentration hp hy hg.rate).const_mul (2 * m.vmol i * m.D i)).div_const
    ((m.prec i).k.am ^ 4)).mul_const (Real.sqrt ((m.prec i).k.chi / m.kb / m.T))
  have := (dZ.const_mul (m.prec i).k.N0).fun_mul ((dGs.fun_neg.div_const m.kb).div_const m.T).exp
  refine this.congr_deriv ?_
  have e : ∀ j, m.NGrow_f (y t0) i j = ((m.prec i).k.N0 * Real.exp (-m.Gs (y t0) i / m.kb / m.T) * m.zb i) *
      m.dc (y t0) (m.prec i).rate j + ((m.prec i).k.N0 * m.Zbeta (y t0) i * Real.exp (-m.Gs (y t0) i / m.kb / m.T) * -1 /
        m.kb / m.T * (-32 * Real.pi * (m.prec i).k.chi ^ 3 / 3 / m.Gv (y t0) i ^ 3)) * m.dGv (y t0) i j := fun j => rfl
  simp only [e]
  rw [sum_two]
  have e2 : 16 * Real.pi * (m.prec i).k.chi ^ 3 / 3 / m.Gv (y t0) i ^ 2 = m.Gs (y t0) i := rfl
  rw [e2, Sys.zb, Sys.Zbeta]
  generalize Real.exp (-m.Gs (y t0) i / m.kb / m.T) = E
  generalize Real.sqrt ((m.prec i).k.chi / m.kb / m.T) = q
  simp only [div_eq_mul_inv]
  generalize ((m.prec i).k.am ^ 4)⁻¹ = k3
  generalize m.kb⁻¹ = k1
  generalize m.T⁻¹ = k2
  push_cast
  field_simp
  ring

theorem rGrow_deriv (hp : m.Proper) (hy : Runs y y' t0) {i : Fin np} (hg : m.Good (y t0) i) :
    HasDerivAt (fun t => m.rGrow (y t) i) (∑ j, m.rGrow_f (y t0) i j * m.fdot (y t0) y' j +
      (-m.D i / m.r (y t0) i / m.r (y t0) i * (m.c (y t0) (m.prec i).rate - m.ceq (m.prec i).rate) /
        (m.cpAt i (m.prec i).rate - m.ceq (m.prec i).rate) - m.NGrow (y t0) i / m.N (y t0) i) * (y' i 0 * (m.prec i).k.rs) +
      (-m.NGrow (y t0) i / m.N (y t0) i / m.N (y t0) i * (m.rc (y t0) i - m.r (y t0) i)) * (y' i 1 * (m.prec i).k.Ns)) t0 := by
  have dG := Gv_deriv hp hy hg.solid hg.c hg.ceq
  have dN := NGrow_deriv hp hy hg
  have dr := r_deriv (m := m) hy i
  have dn := N_deriv (m := m) hy i
  have drc := (hasDerivAt_const t0 (-2 * (m.prec i).k.chi)).fun_div dG hg.G
  have a := ((((hasDerivAt_const t0 (m.D i)).fun_div dr hg.r0).fun_mul
    ((C151_concentration hp hy hg.rate).sub_const (m.ceq (m.prec i).rate))).div_const
      (m.cpAt i (m.prec i).rate - m.ceq (m.prec i).rate))
  have b := (dN.fun_div dn hg.N0).fun_mul (drc.fun_sub dr)
  refine (a.fun_add b).congr_deriv ?_
  have e : ∀ j, m.rGrow_f (y t0) i j = 1 * ((m.D i / m.r (y t0) i / (m.cpAt i (m.prec i).rate - m.ceq (m.prec i).rate)) *
      m.dc (y t0) (m.prec i).rate j +
      (m.NGrow (y t0) i / m.N (y t0) i * (2 * (m.prec i).k.chi / m.Gv (y t0) i / m.Gv (y t0) i)) * m.dGv (y t0) i j) +
      ((m.rc (y t0) i - m.r (y t0) i) / m.N (y t0) i) * m.NGrow_f (y t0) i j := by
    intro j
    simp only [Sys.rGrow_f]
    ring
  simp only [e]
  rw [sum_two, sum_two]
  have e2 : -2 * (m.prec i).k.chi / m.Gv (y t0) i = m.rc (y t0) i := rfl
  rw [e2]
  have h1 := hg.r0
  have h2 := hg.N0
  have h3 := hg.G
  rw [div_eq_mul_inv _ (m.cpAt i (m.prec i).rate - m.ceq (m.prec i).rate),
    div_eq_mul_inv _ (m.cpAt i (m.prec i).rate - m.ceq (m.prec i).rate),
    div_eq_mul_inv _ (m.cpAt i (m.prec i).rate - m.ceq (m.prec i).rate)]
  generalize (m.cpAt i (m.prec i).rate - m.ceq (m.prec i).rate)⁻¹ = X
  field_simp
  ring

theorem rRip_deriv (hp : m.Proper) (hy : Runs y y' t0) {i : Fin np} (hg : m.Good (y t0) i) :
    HasDerivAt (fun t => m.rRip (y t) i) (∑ j, m.rRip_f (y t0) i j * m.fdot (y t0) y' j +
      (-2 * m.M (y t0) i / 3 / m.r (y t0) i / m.r (y t0) i / m.r (y t0) i) * (y' i 0 * (m.prec i).k.rs)) t0 := by
  have dr := r_deriv (m := m) hy i
  have dM : HasDerivAt (fun t => m.M (y t) i) (m.mob i * ∑ j, m.dc (y t0) (m.prec i).rate j * m.fdot (y t0) y' j) t0 := by
    refine (((((C151_concentration hp hy hg.rate).const_mul
      ((m.prec i).k.Cf * 8 * (m.prec i).k.chi * (m.prec i).k.Vm * m.D i)).div_const 9).div_const m.R).div_const
        m.T).congr_deriv ?_
    rw [Sys.mob]
    ring
  refine (((dM.div_const 3).fun_div dr hg.r0).fun_div dr hg.r0).congr_deriv ?_
  have e : ∀ j, m.rRip_f (y t0) i j = (1 / 3 / m.r (y t0) i / m.r (y t0) i * m.mob i) * m.dc (y t0) (m.prec i).rate j :=
    fun j => rfl
  simp only [e]
  rw [sum_one]
  have h1 := hg.r0
  field_simp
  ring

theorem NRip_deriv (hp : m.Proper) (hy : Runs y y' t0) {i : Fin np} (hg : m.Good (y t0) i) :
    HasDerivAt (fun t => m.NRip (y t) i) (-3 * m.N (y t0) i / m.r (y t0) i * ∑ j, m.rRip_f (y t0) i j * m.fdot (y t0) y' j +
      (3 * m.N (y t0) i / m.r (y t0) i / m.r (y t0) i * m.rRip (y t0) i +
        -3 * m.N (y t0) i / m.r (y t0) i * (-2 * m.M (y t0) i / 3 / m.r (y t0) i / m.r (y t0) i / m.r (y t0) i)) *
          (y' i 0 * (m.prec i).k.rs) +
      (-3 / m.r (y t0) i * m.rRip (y t0) i) * (y' i 1 * (m.prec i).k.Ns)) t0 := by
  have dr := r_deriv (m := m) hy i
  have dn := N_deriv (m := m) hy i
  refine (((dn.const_mul (-3)).fun_div dr hg.r0).fun_mul (rRip_deriv hp hy hg)).congr_deriv ?_
  have h1 := hg.r0
  field_simp
  ring

theorem xi_deriv (hp : m.Proper) (hy : Runs y y' t0) {s : Fin ns} (hs : m.Solid (y t0) s) :
    HasDerivAt (fun t => m.xi (y t) s) (∑ j, m.dc (y t0) s j / (m.ceq s - m.c0 s) * m.fdot (y t0) y' j) t0 := by
  refine (((C151_concentration hp hy hs).sub_const (m.c0 s)).div_const (m.ceq s - m.c0 s)).congr_deriv ?_
  rw [Finset.sum_div]
  exact Finset.sum_congr rfl fun j _ => by ring

/-- The switch of a precipitate is smooth: no species has fallen yet, a single one leads, or one has arrived. -/
def Sys.Clear (m : Sys ns np) (h : Hist np) (i : Fin np) : Prop :=
  (∀ s ∈ (m.prec i).sp, m.xi h s < 0) ∨
  (∃ s ∈ (m.prec i).sp, 0 < m.xi h s ∧ m.xi h s < 1 ∧ ∀ a ∈ (m.prec i).sp, a ≠ s → m.xi h a < m.xi h s) ∨
  ∃ s ∈ (m.prec i).sp, 1 < m.xi h s

theorem switch_none {h : Hist np} {i j : Fin np} (hn : ∀ s ∈ (m.prec i).sp, m.xi h s < 0) : m.switch h i j = (0, 0) := by
  obtain ⟨a, b, c⟩ := loop_spec m h j (m.prec i).sp 0 0
  have e : m.switchLoop h j (m.prec i).sp (0, 0) = (0, 0) := by
    rcases c with c | ⟨s, hs, hlt, _⟩
    · exact c
    · exact absurd (hn s hs) (not_lt.mpr hlt.le)
  simp only [Sys.switch]
  rw [e]
  exact if_neg (by norm_num)

theorem switch_lead {h : Hist np} {i j : Fin np} {s : Fin ns} (hs : s ∈ (m.prec i).sp) (h0 : 0 < m.xi h s)
    (h1 : m.xi h s < 1) (hl : ∀ a ∈ (m.prec i).sp, a ≠ s → m.xi h a < m.xi h s) :
    m.switch h i j = (m.xi h s, m.dc h s j / (m.ceq s - m.c0 s)) := by
  obtain ⟨a, b, c⟩ := loop_spec m h j (m.prec i).sp 0 0
  have e : m.switchLoop h j (m.prec i).sp (0, 0) = (m.xi h s, m.dc h s j / (m.ceq s - m.c0 s)) := by
    rcases c with c | ⟨t, ht, _, c⟩
    · have := b s hs
      rw [c] at this
      exact absurd this (not_le.mpr h0)
    · by_cases hts : t = s
      · rw [c, hts]
      · have := b s hs
        rw [c] at this
        exact absurd (hl t ht hts) (not_lt.mpr this)
  simp only [Sys.switch]
  rw [e]
  exact if_neg (not_lt.mpr h1.le)

theorem switch_full {h : Hist np} {i j : Fin np} {s : Fin ns} (hs : s ∈ (m.prec i).sp) (h1 : 1 < m.xi h s) :
    m.switch h i j = (1, 0) := by
  obtain ⟨a, b, c⟩ := loop_spec m h j (m.prec i).sp 0 0
  simp only [Sys.switch]
  exact if_pos (h1.trans_le (b s hs))

theorem switch_deriv (hp : m.Proper) (hy : Runs y y' t0) {i : Fin np} (hs : ∀ s ∈ (m.prec i).sp, m.Solid (y t0) s)
    (hc : m.Clear (y t0) i) :
    HasDerivAt (fun t => (m.switch (y t) i i).1) (∑ j, (m.switch (y t0) i j).2 * m.fdot (y t0) y' j) t0 := by
  have ci : ∀ s ∈ (m.prec i).sp, ContinuousAt (fun t => m.xi (y t) s) t0 := fun s h => (xi_deriv hp hy (hs s h)).continuousAt
  rcases hc with hn | ⟨s, hm, h0, h1, hl⟩ | ⟨s, hm, h1⟩
  · have e : ∀ᶠ t in 𝓝 t0, ∀ s, s ∈ (m.prec i).sp → m.xi (y t) s < 0 := by
      rw [eventually_all]
      intro s
      by_cases h : s ∈ (m.prec i).sp
      · filter_upwards [(ci s h).eventually_lt continuousAt_const (hn s h)] with t ht _
        exact ht
      · exact Eventually.of_forall fun t h' => absurd h' h
    refine ((hasDerivAt_const t0 (0 : ℝ)).congr_of_eventuallyEq ?_).congr_deriv ?_
    · filter_upwards [e] with t ht
      rw [switch_none ht]
    · simp [switch_none hn]
  · refine ((xi_deriv hp hy (hs s hm)).congr_of_eventuallyEq ?_).congr_deriv ?_
    · have e3 : ∀ᶠ t in 𝓝 t0, ∀ a, a ∈ (m.prec i).sp → a ≠ s → m.xi (y t) a < m.xi (y t) s := by
        rw [eventually_all]
        intro a
        by_cases h : a ∈ (m.prec i).sp ∧ a ≠ s
        · filter_upwards [(ci a h.1).eventually_lt (ci s hm) (hl a h.1 h.2)] with t ht _ _
          exact ht
        · exact Eventually.of_forall fun t h1 h2 => absurd ⟨h1, h2⟩ h
      filter_upwards [continuousAt_const.eventually_lt (ci s hm) h0, (ci s hm).eventually_lt continuousAt_const h1, e3]
        with t a b c
      rw [switch_lead hm a b c]
    · simp only [switch_lead hm h0 h1 hl]
  · refine ((hasDerivAt_const t0 (1 : ℝ)).congr_of_eventuallyEq ?_).congr_deriv ?_
    · filter_upwards [continuousAt_const.eventually_lt (ci s hm) h1] with t ht
      rw [switch_full hm ht]
    · simp [switch_full hm h1]

/-- The part of the ripening rate of the number density that is counted twice in the reported derivative. -/
noncomputable def Sys.twice (m : Sys ns np) (h : Hist np) (i j : Fin np) : ℝ :=
  (m.switch h i i).1 * (-3 * m.N h i / m.r h i * m.rRip_f h i j * m.f_r h j) / (m.prec i).k.Ns * (m.prec j).k.rs

theorem switch_fst (m : Sys ns np) (h : Hist np) (i j : Fin np) : (m.switch h i j).1 = (m.switch h i i).1 := by
  have key : ∀ (l : List (Fin ns)) (a b : ℝ × ℝ), a.1 = b.1 → (m.switchLoop h j l a).1 = (m.switchLoop h i l b).1 := by
    intro l
    induction l with
    | nil => intro a b e; exact e
    | cons s l ih =>
      intro a b e
      simp only [Sys.switchLoop, List.foldl_cons] at ih ⊢
      refine ih _ _ ?_
      rw [e]
      split_ifs
      · rfl
      · exact e
  simp only [Sys.switch]
  rw [key _ _ (0, 0) rfl]
  split_ifs
  · rfl
  · exact key _ _ _ rfl

/-- C151: where the rates are smooth, every entry of the reported derivative of the rates is right, except that the
derivatives of the rate of a number density by the radii contain `twice` too much. -/
theorem C151_jacobian_partial (hp : m.Proper) (hy : Runs y y' t0) {i : Fin np} (hg : m.Good (y t0) i)
    (hc : m.Clear (y t0) i) (k : Fin 2) : HasDerivAt (fun t => m.rate (y t) i k)
      (∑ j, ∑ l, (m.jac (y t0) i k j l - (if k = 1 ∧ l = 0 then m.twice (y t0) i j else 0)) * y' j l) t0 := by
  have dS := switch_deriv hp hy hg.solid hc
  have dNG := NGrow_deriv hp hy hg
  have drG := rGrow_deriv hp hy hg
  have dNR := NRip_deriv hp hy hg
  have drR := rRip_deriv hp hy hg
  have pick : ∀ (a : ℝ) (z : Fin np → ℝ), ∑ j, (if i = j then a else 0) * z j = a * z i := by
    intro a z
    simp
  fin_cases k
  · have := (((dS.const_sub 1).fun_mul drG).fun_add (dS.fun_mul drR)).div_const (m.prec i).k.rs
    refine this.congr_deriv ?_
    have e : ∀ j, ∑ l, (m.jac (y t0) i 0 j l - (if (0 : Fin 2) = 1 ∧ l = 0 then m.twice (y t0) i j else 0)) * y' j l =
        ((1 - (m.switch (y t0) i i).1) * (m.rGrow_f (y t0) i j * m.fdot (y t0) y' j +
          (if i = j then -m.D i / m.r (y t0) i / m.r (y t0) i * (m.c (y t0) (m.prec i).rate - m.ceq (m.prec i).rate) /
            (m.cpAt i (m.prec i).rate - m.ceq (m.prec i).rate) - m.NGrow (y t0) i / m.N (y t0) i else 0) *
              (y' j 0 * (m.prec j).k.rs) +
          (if i = j then -m.NGrow (y t0) i / m.N (y t0) i / m.N (y t0) i * (m.rc (y t0) i - m.r (y t0) i) else 0) *
              (y' j 1 * (m.prec j).k.Ns)) +
        (m.switch (y t0) i i).1 * (m.rRip_f (y t0) i j * m.fdot (y t0) y' j +
          (if i = j then -2 * m.M (y t0) i / 3 / m.r (y t0) i / m.r (y t0) i / m.r (y t0) i else 0) *
              (y' j 0 * (m.prec j).k.rs)) +
        (m.rRip (y t0) i - m.rGrow (y t0) i) * ((m.switch (y t0) i j).2 * m.fdot (y t0) y' j)) / (m.prec i).k.rs := by
      intro j
      rw [Fin.sum_univ_two, if_neg (by simp), if_neg (by simp)]
      simp only [Sys.jac, Sys.dMixed, Sys.dGrow, Sys.dRip, Sys.scale, Sys.fdot, Matrix.cons_val_zero, Matrix.cons_val_one,
        switch_fst m (y t0) i j]
      ring
    refine Eq.trans ?_ (Finset.sum_congr rfl fun j _ => e j).symm
    rw [← Finset.sum_div]
    congr 1
    simp only [Finset.sum_add_distrib, ← Finset.mul_sum, pick]
    ring
  · have := (((dS.const_sub 1).fun_mul dNG).fun_add (dS.fun_mul dNR)).div_const (m.prec i).k.Ns
    refine this.congr_deriv ?_
    have e : ∀ j, ∑ l, (m.jac (y t0) i 1 j l - (if (1 : Fin 2) = 1 ∧ l = 0 then m.twice (y t0) i j else 0)) * y' j l =
        ((1 - (m.switch (y t0) i i).1) * (m.NGrow_f (y t0) i j * m.fdot (y t0) y' j) +
        (m.switch (y t0) i i).1 * (-3 * m.N (y t0) i / m.r (y t0) i * (m.rRip_f (y t0) i j * m.fdot (y t0) y' j) +
          (if i = j then 3 * m.N (y t0) i / m.r (y t0) i / m.r (y t0) i * m.rRip (y t0) i +
            -3 * m.N (y t0) i / m.r (y t0) i * (-2 * m.M (y t0) i / 3 / m.r (y t0) i / m.r (y t0) i / m.r (y t0) i) else 0) *
              (y' j 0 * (m.prec j).k.rs) +
          (if i = j then -3 / m.r (y t0) i * m.rRip (y t0) i else 0) * (y' j 1 * (m.prec j).k.Ns)) +
        (m.NRip (y t0) i - m.NGrow (y t0) i) * ((m.switch (y t0) i j).2 * m.fdot (y t0) y' j)) / (m.prec i).k.Ns := by
      intro j
      rw [Fin.sum_univ_two, if_pos ⟨rfl, rfl⟩, if_neg (by simp)]
      simp only [Sys.jac, Sys.dMixed, Sys.dGrow, Sys.dRip, Sys.scale, Sys.fdot, Sys.twice, Matrix.cons_val_zero,
        Matrix.cons_val_one, switch_fst m (y t0) i j]
      split_ifs <;> ring
    refine Eq.trans ?_ (Finset.sum_congr rfl fun j _ => e j).symm
    rw [← Finset.sum_div]
    congr 1
    simp only [Finset.sum_add_distrib, ← Finset.mul_sum, pick]
    ring

/-- The reported derivative is the derivative. -/
def Sys.JacRight (m : Sys ns np) (h : Hist np) (i : Fin np) (k : Fin 2) : Prop :=
  ∀ (y : ℝ → Hist np) (y' : Hist np) (t0 : ℝ), y t0 = h → Runs y y' t0 →
    HasDerivAt (fun t => m.rate (y t) i k) (∑ j, ∑ l, m.jac h i k j l * y' j l) t0

/-- C151: the rates of the radii have the reported derivatives. -/
theorem C151_radius (hp : m.Proper) {h : Hist np} {i : Fin np} (hg : m.Good h i) (hc : m.Clear h i) : m.JacRight h i 0 := by
  intro y y' t0 e hy
  subst e
  simpa using C151_jacobian_partial hp hy hg hc 0

/-- C151, what the code does: the derivatives of the rate of a number density are right exactly where the term counted
twice vanishes for every radius. -/
theorem C151_ripening_disagreement (hp : m.Proper) {h : Hist np} {i : Fin np} (hg : m.Good h i) (hc : m.Clear h i) :
    m.JacRight h i 1 ↔ ∀ j, m.twice h i j = 0 := by
  constructor
  · intro H j
    have hy : Runs (fun t : ℝ => fun a k => h a k + t * (if a = j ∧ k = 0 then 1 else 0))
        (fun a k => if a = j ∧ k = 0 then 1 else 0) 0 := by
      intro a k
      simpa using ((hasDerivAt_id (0 : ℝ)).mul_const (if a = j ∧ k = 0 then (1 : ℝ) else 0)).const_add (h a k)
    have e0 : (fun a k => h a k + 0 * (if a = j ∧ k = 0 then 1 else 0) : Hist np) = h := by
      funext a k
      simp
    have d1 := H _ _ 0 e0 hy
    have d2 := C151_jacobian_partial (m := m) hp hy (i := i) (by rw [e0]; exact hg) (by rw [e0]; exact hc) 1
    rw [e0] at d2
    have e := d1.unique d2
    simp only [sub_mul, Finset.sum_sub_distrib] at e
    have z : ∑ a, ∑ l : Fin 2, (if True ∧ l = 0 then m.twice h i a else 0) * (if a = j ∧ l = 0 then (1 : ℝ) else 0) =
        m.twice h i j := by
      simp [Fin.sum_univ_two]
    linarith [e, z]
  · intro H y y' t0 e hy
    subst e
    have := C151_jacobian_partial hp hy hg hc 1
    simpa [H] using this

/-- C151: before the first species has moved towards its equilibrium the whole derivative is right. -/
theorem C151_growth (hp : m.Proper) {h : Hist np} {i : Fin np} (hg : m.Good h i)
    (hn : ∀ s ∈ (m.prec i).sp, m.xi h s < 0) (k : Fin 2) : m.JacRight h i k := by
  have : ∀ k : Fin 2, k = 0 ∨ k = 1 := by decide
  rcases this k with rfl | rfl
  · exact C151_radius hp hg (Or.inl hn)
  · refine (C151_ripening_disagreement hp hg (Or.inl hn)).mpr fun j => ?_
    rw [Sys.twice, switch_none hn]
    simp

/-! ## The steel of the examples -/

theorem duo_solid (s : Fin 2) : duo.Solid tenth s := by
  have : ∀ s : Fin 2, s = 0 ∨ s = 1 := by decide
  rcases this s with rfl | rfl
  · exact ⟨by rw [duo_room.1]; norm_num, by rw [duo_ratio.1]; norm_num [duo]⟩
  · exact ⟨by rw [duo_room.2]; norm_num, by rw [duo_ratio.2]; norm_num [duo]⟩

theorem duo_good (i : Fin 2) : duo.Good tenth i := by
  have h : duo.r tenth i = 1 ∧ duo.N tenth i = 3 / (40 * Real.pi) := by
    fin_cases i <;> simp [Sys.r, Sys.N, duo, duoPrec, plain, tenth]
  refine ⟨by rw [h.1]; exact one_ne_zero, by rw [h.2]; positivity, fun s _ => duo_solid s, duo_solid _,
    fun s _ => (duo_pos s).ne', fun s _ => by norm_num [duo], ?_⟩
  have : ∀ s : Fin 2, s = 0 ∨ s = 1 := by decide
  rcases this i with rfl | rfl
  · exact duo_G.1.ne
  · exact duo_G.2.ne

theorem duo_xi : duo.xi tenth 0 = 5 / 36 ∧ duo.xi tenth 1 = 5 / 16 := by
  rw [Sys.xi, Sys.xi, duo_c.1, duo_c.2]
  norm_num [duo]

theorem duo_lead (a : Fin 2) (h : a ≠ 1) : duo.xi tenth a < duo.xi tenth 1 := by
  have : ∀ s : Fin 2, s = 0 ∨ s = 1 := by decide
  rcases this a with rfl | rfl
  · rw [duo_xi.1, duo_xi.2]; norm_num
  · exact absurd rfl h

theorem duo_clear (i : Fin 2) : duo.Clear tenth i := by
  refine Or.inr (Or.inl ⟨1, ?_, by rw [duo_xi.2]; norm_num, by rw [duo_xi.2]; norm_num, fun a _ h => duo_lead a h⟩)
  have : ∀ s : Fin 2, s = 0 ∨ s = 1 := by decide
  rcases this i with rfl | rfl
  · exact duo_mem.2.1
  · exact duo_mem.2.2.2

/-- C151_radius: the hypotheses are met while the steel is between growth and ripening. -/
example (i : Fin 2) : duo.JacRight tenth i 0 := C151_radius duo_proper (duo_good i) (duo_clear i)

/-- C151_ripening_disagreement: the derivative of the number density of the carbide is wrong there. -/
example : ¬ duo.JacRight tenth 0 1 := by
  rw [C151_ripening_disagreement duo_proper (duo_good 0) (duo_clear 0)]
  intro h
  have e := h 0
  have hm : duo.mob 0 = 8 / 9 := by
    norm_num [Sys.mob, Sys.D, duo, duoPrec, plain]
  have hr : duo.r tenth 0 = 1 := by simp [Sys.r, duo, duoPrec, plain, tenth]
  have hN : duo.N tenth 0 = 3 / (40 * Real.pi) := by simp [Sys.N, duo, duoPrec, plain, tenth]
  have hd : duo.dc tenth 0 0 = -50 / 81 := by
    rw [dc_eq duo_proper, if_pos duo_mem.1, if_pos duo_mem.1, duo_ratio.1, duo_room.1, duo_cp.1,
      if_pos (by norm_num [duo])]
    norm_num
  have hrate : (duo.prec 0).rate = 0 := rfl
  rw [Sys.twice, switch_lead duo_mem.2.1 (by rw [duo_xi.2]; norm_num) (by rw [duo_xi.2]; norm_num)
    fun a _ h => duo_lead a h, duo_xi.2, Sys.rRip_f, hrate, hd, hm, hr, hN, Sys.f_r, hr, hN] at e
  have hp := Real.pi_ne_zero
  have k1 : (duo.prec 0).k.Ns = 1 := rfl
  have k2 : (duo.prec 0).k.rs = 1 := rfl
  rw [k1, k2] at e
  field_simp at e
  norm_num at e

/-- A precipitate with less carbon than the matrix, so that carbon in solution rises above its initial value. -/
noncomputable def lean : Sys 1 1 :=
  ⟨fun _ => "C", fun _ => 1 / 2, fun _ => 1 / 10, fun _ => ⟨["C"], [1 / 4], [0], 0, plain⟩, 1, 1, 1, 1, 1 / 1000⟩

theorem lean_proper : lean.Proper where
  inj a b _ := Subsingleton.elim a b
  nodup i := by simp [lean]
  has i s := by
    have : s = 0 := Subsingleton.elim _ _
    subst this
    simp [lean, Prec.cp, List.lookup]

/-- C151_growth: the hypotheses are met by this steel. -/
theorem lean_right : ∀ k, lean.JacRight (fun _ => ![1, 3 / (40 * Real.pi)]) 0 k := by
  have hr : lean.r (fun _ => ![1, 3 / (40 * Real.pi)]) 0 = 1 := by simp [Sys.r, lean, plain]
  have hN : lean.N (fun _ => ![1, 3 / (40 * Real.pi)]) 0 = 3 / (40 * Real.pi) := by simp [Sys.N, lean, plain]
  have hf : lean.f (fun _ => ![1, 3 / (40 * Real.pi)]) 0 = 1 / 10 := by
    rw [Sys.f, hr, hN]
    have := Real.pi_ne_zero
    field_simp
    norm_num
  have hm : (0 : Fin 1) ∈ (lean.prec 0).sp := by simp [lean]
  have hcp : lean.cpAt 0 0 = 1 / 4 := by simp [Sys.cpAt, lean, Prec.cp, List.lookup]
  have hin : lean.inside (fun _ => ![1, 3 / (40 * Real.pi)]) 0 = 1 / 40 := by
    rw [Sys.inside, Fin.sum_univ_one, if_pos hm, hf, hcp]
    norm_num
  have hro : lean.room (fun _ => ![1, 3 / (40 * Real.pi)]) 0 = 1 / 10 := by
    rw [Sys.room, Fin.sum_univ_one, if_pos hm, hf]
  have hc : lean.c (fun _ => ![1, 3 / (40 * Real.pi)]) 0 = 19 / 36 := by
    rw [c_eq lean_proper, hin, hro]
    refine (max_eq_left ?_).trans ?_ <;> norm_num [lean]
  have hs : lean.Solid (fun _ => ![1, 3 / (40 * Real.pi)]) 0 := by
    refine ⟨by rw [hro]; norm_num, ?_⟩
    rw [hin, hro]
    norm_num [lean]
  have all : ∀ s : Fin 1, s = 0 := fun s => Subsingleton.elim _ _
  have hG : lean.Gv (fun _ => ![1, 3 / (40 * Real.pi)]) 0 < 0 := by
    rw [(C150_force lean _ 0 (fun s => by rw [all s, hc]; norm_num) (fun _ => by norm_num [lean]) (by norm_num [lean])
      (by norm_num [Sys.vmol, lean, plain]) (by norm_num [lean, plain])).1]
    have e : (lean.prec 0).sp = [0] := rfl
    rw [e]
    simp only [List.map_cons, List.map_nil, List.prod_cons, List.prod_nil, hc]
    norm_num [lean]
  refine C151_growth lean_proper ⟨by rw [hr]; exact one_ne_zero, by rw [hN]; positivity, fun s _ => all s ▸ hs, hs,
    fun s _ => by rw [all s, hc]; norm_num, fun s _ => by norm_num [lean], hG.ne⟩ fun s _ => ?_
  rw [all s, Sys.xi, hc]
  norm_num [lean]

end Neml.GenHuCocks
