import Verif.Props.HuCocksChem
import Verif.Props.SlipTangent
import Mathlib.Analysis.SpecialFunctions.Log.Deriv
import Mathlib.Analysis.SpecialFunctions.ExpDeriv
import Mathlib.Analysis.SpecialFunctions.Sqrt

/-!
# C144: the precipitation model reports the derivatives of its rates

Specification: the chain rule along every differentiable curve of the three variables.
-/

namespace Neml.HuCocks

open Filter Topology Matrix
open Neml.Damage (Moves)

/-- The switch is smooth at a volume fraction: a single species leads and is on its way, or one has arrived. -/
def Chem.Clear (p : Chem) (f : ℝ) : Prop :=
  (∃ i, 0 < p.xi f i ∧ p.xi f i < 1 ∧ ∀ j, j ≠ i → p.xi f j < p.xi f i) ∨ ∃ i, 1 < p.xi f i

/-- Where the rates are numbers and smooth. -/
structure Chem.Good (p : Chem) (f r N : ℝ) : Prop where
  f1 : f ≠ 1
  r0 : r ≠ 0
  N0 : N ≠ 0
  c : 0 < p.cEff f / p.ceqEff
  G : p.Gv f ≠ 0

variable {p : Chem} {f r N : ℝ → ℝ} {f' r' N' t0 : ℝ}

theorem c_deriv (hf : HasDerivAt f f' t0) (h1 : f t0 ≠ 1) (i : Fin p.ns) :
    HasDerivAt (fun t => p.c (f t) i) (p.dc (f t0) i * f') t0 := by
  have h : 1 - f t0 ≠ 0 := sub_ne_zero.mpr h1.symm
  have := (((hf.mul_const (p.cp i)).const_sub (p.c0 i)).fun_div (hf.const_sub 1) h)
  refine this.congr_deriv ?_
  rw [Chem.dc]
  field_simp
  ring

theorem cEff_eq (p : Chem) (f : ℝ) : p.cEff f = ∏ i, p.c f i := foldl_prod _

theorem dcEff_eq (p : Chem) (f : ℝ) : p.dcEff f = ∑ i, ∏ j, if i = j then p.dc f j else p.c f j := by
  rw [Chem.dcEff, foldl_sum]
  exact Finset.sum_congr rfl fun i _ => foldl_prod _

theorem cEff_deriv (hf : HasDerivAt f f' t0) (h1 : f t0 ≠ 1) :
    HasDerivAt (fun t => p.cEff (f t)) (p.dcEff (f t0) * f') t0 := by
  simp only [cEff_eq]
  have := HasDerivAt.fun_finset_prod (u := Finset.univ) (fun i _ => c_deriv (p := p) hf h1 i)
  refine this.congr_deriv ?_
  rw [dcEff_eq, Finset.sum_mul]
  refine Finset.sum_congr rfl fun i _ => ?_
  rw [← Finset.mul_prod_erase Finset.univ _ (Finset.mem_univ i), if_pos rfl, smul_eq_mul]
  have : ∏ j ∈ Finset.univ.erase i, (if i = j then p.dc (f t0) j else p.c (f t0) j) =
      ∏ j ∈ Finset.univ.erase i, p.c (f t0) j :=
    Finset.prod_congr rfl fun j hj => if_neg (Finset.ne_of_mem_erase hj).symm
  rw [this]
  ring

theorem Gv_deriv (hf : HasDerivAt f f' t0) (h1 : f t0 ≠ 1) (hc : 0 < p.cEff (f t0) / p.ceqEff) :
    HasDerivAt (fun t => p.Gv (f t)) (p.dG (f t0) * f') t0 := by
  have hne : p.ceqEff ≠ 0 := by
    rintro h
    rw [h, div_zero] at hc
    exact lt_irrefl _ hc
  have hce : p.cEff (f t0) ≠ 0 := by
    rintro h
    rw [h, zero_div] at hc
    exact lt_irrefl _ hc
  have := (((cEff_deriv (p := p) hf h1).div_const p.ceqEff).log hc.ne').const_mul (-p.kb * p.T / p.vm)
  refine this.congr_deriv ?_
  rw [Chem.dG]
  field_simp

theorem Gstar_deriv (hf : HasDerivAt f f' t0) (h1 : f t0 ≠ 1) (hc : 0 < p.cEff (f t0) / p.ceqEff)
    (hG : p.Gv (f t0) ≠ 0) : HasDerivAt (fun t => p.Gstar (f t)) (p.dGstar (f t0) * f') t0 := by
  have hg := Gv_deriv hf h1 hc
  have h3 : (3 : ℝ) * p.Gv (f t0) ^ 2 ≠ 0 := by positivity
  have := (((hasDerivAt_const t0 (16 * Real.pi * p.chi ^ 3)).fun_div ((hg.fun_pow 2).const_mul 3) h3).mul_const p.w)
  refine this.congr_deriv ?_
  rw [Chem.dGstar]
  field_simp
  ring

theorem ZB_deriv (hf : HasDerivAt f f' t0) (h1 : f t0 ≠ 1) :
    HasDerivAt (fun t => p.ZB (f t)) (p.dZB (f t0) * f') t0 := by
  have := ((((c_deriv (p := p) hf h1 p.rate).const_mul (2 * p.vm * p.D)).div_const (p.am ^ 4)).mul_const
    (Real.sqrt (p.chi / (p.kb * p.T))))
  refine this.congr_deriv ?_
  rw [Chem.dZB]
  ring

theorem NNuc_deriv (hf : HasDerivAt f f' t0) (h1 : f t0 ≠ 1) (hc : 0 < p.cEff (f t0) / p.ceqEff)
    (hG : p.Gv (f t0) ≠ 0) : HasDerivAt (fun t => p.NNuc (f t)) (p.NNuc_f (f t0) * f') t0 := by
  have := (((ZB_deriv (p := p) hf h1).const_mul p.N0).mul
    ((Gstar_deriv hf h1 hc hG).fun_neg.div_const (p.kb * p.T)).exp)
  refine this.congr_deriv ?_
  rw [Chem.NNuc_f]
  ring

theorem rc_deriv (hf : HasDerivAt f f' t0) (h1 : f t0 ≠ 1) (hc : 0 < p.cEff (f t0) / p.ceqEff)
    (hG : p.Gv (f t0) ≠ 0) : HasDerivAt (fun t => p.rc (f t)) (p.drc (f t0) * f') t0 := by
  have := (hasDerivAt_const t0 (-2 * p.chi)).fun_div (Gv_deriv hf h1 hc) hG
  refine this.congr_deriv ?_
  rw [Chem.drc]
  field_simp
  ring

theorem rNuc_deriv (hf : HasDerivAt f f' t0) (hr : HasDerivAt r r' t0) (hN : HasDerivAt N N' t0)
    (hg : p.Good (f t0) (r t0) (N t0)) :
    HasDerivAt (fun t => p.rNuc (f t) (r t) (N t)) (p.rNuc_f (f t0) (r t0) (N t0) * f' +
      p.rNuc_r (f t0) (r t0) (N t0) * r' + p.rNuc_N (f t0) (r t0) (N t0) * N') t0 := by
  have a := ((((hasDerivAt_const t0 p.D).fun_div hr hg.r0).mul
    ((c_deriv (p := p) hf hg.f1 p.rate).sub_const (p.ceq p.rate))).div_const (p.cp p.rate - p.ceq p.rate))
  have b := ((NNuc_deriv hf hg.f1 hg.c hg.G).fun_div hN hg.N0).fun_mul ((rc_deriv hf hg.f1 hg.c hg.G).fun_sub hr)
  refine (a.add b).congr_deriv ?_
  have h1 := hg.r0
  have h2 := hg.N0
  rw [Chem.rNuc_f, Chem.rNuc_r, Chem.rNuc_N]
  rw [div_eq_mul_inv _ (p.cp p.rate - p.ceq p.rate), div_eq_mul_inv _ (p.cp p.rate - p.ceq p.rate),
    div_eq_mul_inv _ (p.cp p.rate - p.ceq p.rate)]
  generalize (p.cp p.rate - p.ceq p.rate)⁻¹ = X
  field_simp
  ring

theorem rRip_deriv (hf : HasDerivAt f f' t0) (hr : HasDerivAt r r' t0) (h1 : f t0 ≠ 1) (h0 : r t0 ≠ 0) :
    HasDerivAt (fun t => p.rRip (f t) (r t)) (p.rRip_f (f t0) (r t0) * f' + p.rRip_r (f t0) (r t0) * r') t0 := by
  have hK : HasDerivAt (fun t => p.K (f t)) (p.dK (f t0) * f') t0 := by
    refine (((c_deriv (p := p) hf h1 p.rate).const_mul (p.Cf * 8 * p.chi * p.Vm * p.D)).div_const
      (9 * p.R * p.T)).congr_deriv ?_
    rw [Chem.dK]
    ring
  refine (hK.fun_div ((hr.fun_pow 2).const_mul 3) (by positivity)).congr_deriv ?_
  rw [Chem.rRip_f, Chem.rRip_r]
  field_simp
  ring

theorem NRip_deriv (hf : HasDerivAt f f' t0) (hr : HasDerivAt r r' t0) (hN : HasDerivAt N N' t0) (h1 : f t0 ≠ 1)
    (h0 : r t0 ≠ 0) :
    HasDerivAt (fun t => p.NRip (f t) (r t) (N t)) (p.NRip_f (f t0) (r t0) (N t0) * f' +
      p.NRip_r (f t0) (r t0) (N t0) * r' + p.NRip_N (f t0) (r t0) (N t0) * N') t0 := by
  have a := ((hN.const_mul (-3)).fun_div hr h0).mul (rRip_deriv (p := p) hf hr h1 h0)
  refine a.congr_deriv ?_
  rw [Chem.NRip_f, Chem.NRip_r, Chem.NRip_N]
  field_simp
  ring

theorem xi_deriv (hf : HasDerivAt f f' t0) (h1 : f t0 ≠ 1) (i : Fin p.ns) :
    HasDerivAt (fun t => p.xi (f t) i) (p.dc (f t0) i / (p.ceq i - p.c0 i) * f') t0 := by
  refine (((c_deriv (p := p) hf h1 i).sub_const (p.c0 i)).div_const (p.ceq i - p.c0 i)).congr_deriv ?_
  ring

/-- What the loop leaves when one species leads. -/
theorem sfn_lead {junk f : ℝ} {i : Fin p.ns} (h0 : 0 < p.xi f i) (h1 : p.xi f i < 1)
    (hl : ∀ j, j ≠ i → p.xi f j < p.xi f i) :
    p.sfn junk f = (p.xi f i, p.dc f i / (p.ceq i - p.c0 i)) := by
  obtain ⟨a, b, c⟩ := loop_spec p f (List.finRange p.ns) 0 junk
  have e : p.sfnLoop f (List.finRange p.ns) (0, junk) = (p.xi f i, p.dc f i / (p.ceq i - p.c0 i)) := by
    rcases c with c | ⟨j, _, _, c⟩
    · have := b i (List.mem_finRange i)
      rw [c] at this
      exact absurd this (not_le.mpr h0)
    · by_cases hj : j = i
      · rw [c, hj]
      · have := b i (List.mem_finRange i)
        rw [c] at this
        exact absurd (hl j hj) (not_lt.mpr this)
  simp only [Chem.sfn]
  rw [if_neg (not_lt.mpr a), e]
  exact if_neg (not_lt.mpr h1.le)

theorem sfn_full {junk f : ℝ} {i : Fin p.ns} (h : 1 < p.xi f i) : p.sfn junk f = (1, 0) := by
  obtain ⟨a, b, c⟩ := loop_spec p f (List.finRange p.ns) 0 junk
  simp only [Chem.sfn]
  rw [if_neg (not_lt.mpr a), if_pos (h.trans_le (b i (List.mem_finRange i)))]

theorem sfn_deriv (junk : ℝ) (hf : HasDerivAt f f' t0) (h1 : f t0 ≠ 1) (hc : p.Clear (f t0)) :
    HasDerivAt (fun t => (p.sfn 0 (f t)).1) ((p.sfn junk (f t0)).2 * f') t0 := by
  rcases hc with ⟨i, h0, hl1, hl⟩ | ⟨i, hi⟩
  · rw [sfn_lead h0 hl1 hl]
    refine (xi_deriv (p := p) hf h1 i).congr_of_eventuallyEq ?_
    have ci : ∀ j, ContinuousAt (fun t => p.xi (f t) j) t0 := fun j => (xi_deriv (p := p) hf h1 j).continuousAt
    have e1 := continuousAt_const.eventually_lt (ci i) h0
    have e2 := (ci i).eventually_lt continuousAt_const hl1
    have e3 : ∀ᶠ t in 𝓝 t0, ∀ j, j ≠ i → p.xi (f t) j < p.xi (f t) i := by
      rw [eventually_all]
      intro j
      by_cases hj : j = i
      · exact Eventually.of_forall fun t h => absurd hj h
      · filter_upwards [(ci j).eventually_lt (ci i) (hl j hj)] with t ht _
        exact ht
    filter_upwards [e1, e2, e3] with t a b c
    rw [sfn_lead a b c]
  · rw [sfn_full hi, zero_mul]
    refine (hasDerivAt_const t0 (1 : ℝ)).congr_of_eventuallyEq ?_
    filter_upwards [continuousAt_const.eventually_lt (xi_deriv (p := p) hf h1 i).continuousAt hi] with t ht
    rw [sfn_full ht]

theorem rRate_deriv (junk : ℝ) (hf : HasDerivAt f f' t0) (hr : HasDerivAt r r' t0) (hN : HasDerivAt N N' t0)
    (hg : p.Good (f t0) (r t0) (N t0))
    (hs : HasDerivAt (fun t => (p.sfn 0 (f t)).1) ((p.sfn junk (f t0)).2 * f') t0) :
    HasDerivAt (fun t => p.rRate (f t) (r t) (N t)) (p.rRate_f junk (f t0) (r t0) (N t0) * f' +
      p.rRate_r (f t0) (r t0) (N t0) * r' + p.rRate_N (f t0) (r t0) (N t0) * N') t0 := by
  have := ((hs.const_sub 1).mul (rNuc_deriv hf hr hN hg)).add (hs.mul (rRip_deriv (p := p) hf hr hg.f1 hg.r0))
  refine this.congr_deriv ?_
  rw [Chem.rRate_f, Chem.rRate_r, Chem.rRate_N, sfn_val p junk 0]
  ring

theorem NRate_deriv (junk : ℝ) (hf : HasDerivAt f f' t0) (hr : HasDerivAt r r' t0) (hN : HasDerivAt N N' t0)
    (hg : p.Good (f t0) (r t0) (N t0))
    (hs : HasDerivAt (fun t => (p.sfn 0 (f t)).1) ((p.sfn junk (f t0)).2 * f') t0) :
    HasDerivAt (fun t => p.NRate (f t) (r t) (N t)) (p.NRate_f junk (f t0) (r t0) (N t0) * f' +
      p.NRate_r (f t0) (r t0) (N t0) * r' + p.NRate_N (f t0) (r t0) (N t0) * N') t0 := by
  have := ((hs.const_sub 1).mul (NNuc_deriv hf hg.f1 hg.c hg.G)).add
    (hs.mul (NRip_deriv (p := p) hf hr hN hg.f1 hg.r0))
  refine this.congr_deriv ?_
  rw [Chem.NRate_f, Chem.NRate_r, Chem.NRate_N, sfn_val p junk 0]
  ring

theorem fRate_deriv (junk : ℝ) (hf : HasDerivAt f f' t0) (hr : HasDerivAt r r' t0) (hN : HasDerivAt N N' t0)
    (hg : p.Good (f t0) (r t0) (N t0))
    (hs : HasDerivAt (fun t => (p.sfn 0 (f t)).1) ((p.sfn junk (f t0)).2 * f') t0) :
    HasDerivAt (fun t => p.fRate (f t) (r t) (N t)) (p.fRate_f junk (f t0) (r t0) (N t0) * f' +
      p.fRate_r (f t0) (r t0) (N t0) * r' + p.fRate_N (f t0) (r t0) (N t0) * N') t0 := by
  have a := rRate_deriv junk hf hr hN hg hs
  have b := NRate_deriv junk hf hr hN hg hs
  have := ((b.fun_mul (hr.fun_pow 3)).fun_add (((hN.mul_const 3).fun_mul (hr.fun_pow 2)).fun_mul a)).const_mul
    (4 * Real.pi / 3)
  refine this.congr_deriv ?_
  rw [Chem.fRate_f, Chem.fRate_r, Chem.fRate_N]
  push_cast
  ring

/-- The chain rule for the three scaled rates along a curve. -/
def Chem.JacRight (p : Chem) (junk : ℝ) (h : Fin 3 → ℝ) : Prop :=
  ∀ (y : ℝ → Fin 3 → ℝ) (y' : Fin 3 → ℝ) (t0 : ℝ), Moves y y' t0 → y t0 = h → ∀ k,
    HasDerivAt (fun t => p.rates (y t) k) (p.jac junk h k ⬝ᵥ y') t0

theorem jac_right (p : Chem) (junk : ℝ) (h : Fin 3 → ℝ)
    (hg : p.Good (h 0 * p.fs) (h 1 * p.rs) (h 2 * p.Ns))
    (hs : ∀ (f : ℝ → ℝ) (f' t0 : ℝ), HasDerivAt f f' t0 → f t0 = h 0 * p.fs →
      HasDerivAt (fun t => (p.sfn 0 (f t)).1) ((p.sfn junk (f t0)).2 * f') t0) : p.JacRight junk h := by
  intro y y' t0 hy ey k
  subst ey
  have d0 := (hy 0).mul_const p.fs
  have d1 := (hy 1).mul_const p.rs
  have d2 := (hy 2).mul_const p.Ns
  have hs := hs _ _ _ d0 rfl
  fin_cases k
  · refine ((fRate_deriv junk d0 d1 d2 hg hs).div_const p.fs).congr_deriv ?_
    simp only [Chem.jac, dotProduct, Fin.sum_univ_three, Fin.zero_eta, Matrix.cons_val_zero, Matrix.cons_val_one,
      Matrix.cons_val]
    ring
  · refine ((rRate_deriv junk d0 d1 d2 hg hs).div_const p.rs).congr_deriv ?_
    simp only [Chem.jac, dotProduct, Fin.sum_univ_three, Fin.mk_one, Matrix.cons_val_zero, Matrix.cons_val_one,
      Matrix.cons_val]
    ring
  · refine ((NRate_deriv junk d0 d1 d2 hg hs).div_const p.Ns).congr_deriv ?_
    simp only [Chem.jac, dotProduct, Fin.sum_univ_three, Fin.reduceFinMk, Matrix.cons_val_zero, Matrix.cons_val_one,
      Matrix.cons_val]
    ring

/-- C144: the reported matrix is the derivative of the three scaled rates, wherever the rates are smooth numbers and
some precipitate has formed (missing: no precipitate, see `C144_junk_disagreement`). -/
theorem C144_jacobian_partial (p : Chem) (junk : ℝ) (h : Fin 3 → ℝ)
    (hg : p.Good (h 0 * p.fs) (h 1 * p.rs) (h 2 * p.Ns)) (hc : p.Clear (h 0 * p.fs)) : p.JacRight junk h :=
  jac_right p junk h hg fun f f' t0 hf e => sfn_deriv junk hf (by rw [e]; exact hg.f1) (by rw [e]; exact hc)

/-- Without precipitate the loop assigns nothing: the derivative of the switch is what the memory held. -/
theorem sfn_junk {junk f : ℝ} (h : ∀ i, p.xi f i ≤ 0) : p.sfn junk f = (0, junk) := by
  obtain ⟨a, b, c⟩ := loop_spec p f (List.finRange p.ns) 0 junk
  have e : p.sfnLoop f (List.finRange p.ns) (0, junk) = (0, junk) := by
    rcases c with c | ⟨j, _, hj, _⟩
    · exact c
    · exact absurd hj (not_lt.mpr (h j))
  simp only [Chem.sfn]
  rw [e]
  norm_num

/-- C144 is violated where no species has begun to precipitate, as for a volume fraction that an iterate of the solver
made negative: the matrix follows the content of an uninitialised variable and is right only if that happens to be
zero. -/
theorem C144_junk_disagreement (p : Chem) (hs : p.fs ≠ 0) (hr : p.rs ≠ 0) (junk : ℝ) (h : Fin 3 → ℝ)
    (hg : p.Good (h 0 * p.fs) (h 1 * p.rs) (h 2 * p.Ns)) (hx : ∀ i, p.xi (h 0 * p.fs) i < 0)
    (hne : p.rNuc (h 0 * p.fs) (h 1 * p.rs) (h 2 * p.Ns) ≠ p.rRip (h 0 * p.fs) (h 1 * p.rs)) :
    p.JacRight junk h ↔ junk = 0 := by
  have hzero : p.JacRight 0 h := by
    refine jac_right p 0 h hg fun f f' t0 hf e => ?_
    have h1 : f t0 ≠ 1 := by rw [e]; exact hg.f1
    rw [sfn_junk fun i => by rw [e]; exact (hx i).le, zero_mul]
    refine (hasDerivAt_const t0 (0 : ℝ)).congr_of_eventuallyEq ?_
    have : ∀ᶠ t in 𝓝 t0, ∀ i, p.xi (f t) i < 0 := by
      rw [eventually_all]
      intro i
      exact (xi_deriv (p := p) hf h1 i).continuousAt.eventually_lt continuousAt_const (by rw [e]; exact hx i)
    filter_upwards [this] with t ht
    rw [sfn_junk fun i => (ht i).le]
  refine ⟨fun hj => ?_, fun e => e ▸ hzero⟩
  have hm : Moves (fun t => h + t • (Pi.single 0 1 : Fin 3 → ℝ)) (Pi.single 0 1) 0 := fun k => by
    simpa using ((hasDerivAt_id (0 : ℝ)).mul_const ((Pi.single 0 1 : Fin 3 → ℝ) k)).const_add (h k)
  have e := (hj _ _ 0 hm (by simp) 1).unique (hzero _ _ 0 hm (by simp) 1)
  rw [dotProduct_single, dotProduct_single, mul_one, mul_one] at e
  simp only [Chem.jac, Matrix.cons_val_one, Matrix.cons_val_zero, Chem.rRate_f, sfn_junk fun i => (hx i).le] at e
  have e2 := mul_right_cancel₀ hs e
  rw [div_left_inj' hr] at e2
  have : junk * (p.rRip (h 0 * p.fs) (h 1 * p.rs) - p.rNuc (h 0 * p.fs) (h 1 * p.rs) (h 2 * p.Ns)) = 0 := by
    linear_combination e2
  rcases mul_eq_zero.mp this with h | h
  · exact h
  · exact absurd (sub_eq_zero.mp h).symm hne

/-! ## Concrete cases -/

theorem steel_cEff (f : ℝ) : steel.cEff f = (1 / 5 - f) / (1 - f) := by
  rw [cEff_eq]
  simp only [steel_c]
  exact Fin.prod_univ_one _

theorem steel_ceqEff : steel.ceqEff = 1 / 10 := by
  rw [Chem.ceqEff, foldl_prod]
  simp only [steel_ceq]
  exact Fin.prod_univ_one _

theorem steel_xi (f : ℝ) (i : Fin steel.ns) : steel.xi f i = ((1 / 5 - f) / (1 - f) - 1 / 5) / (1 / 10 - 1 / 5) := by
  rw [Chem.xi, steel_c]
  rfl

theorem steel_good {f r N : ℝ} (h0 : f < 1 / 9) (hr : r ≠ 0) (hN : N ≠ 0) : steel.Good f r N where
  f1 := by linarith
  r0 := hr
  N0 := hN
  c := by
    rw [steel_cEff, steel_ceqEff]
    exact div_pos (div_pos (by linarith) (by linarith)) (by norm_num)
  G := by
    have h : 1 < (1 / 5 - f) / (1 - f) / (1 / 10) := by
      rw [lt_div_iff₀ (by norm_num), lt_div_iff₀ (by linarith)]
      linarith
    rw [Chem.Gv, steel_cEff, steel_ceqEff]
    have := Real.log_pos h
    have hk : -steel.kb * steel.T / steel.vm = -1 := by norm_num [steel, Chem.vm]
    rw [hk]
    linarith

theorem steel_clear : steel.Clear (1 / 10) := by
  refine Or.inl ⟨steel.rate, ?_, ?_, fun j hj => absurd (Subsingleton.elim (α := Fin 1) j steel.rate) hj⟩ <;>
  · rw [steel_xi]
    norm_num

example : steel.JacRight 7 fun _ => 1 :=
  C144_jacobian_partial steel 7 (fun _ => 1)
    (by simp only [steel, one_mul]; exact steel_good (by norm_num) (by norm_num) (by norm_num))
    (by simp only [steel, one_mul]; exact steel_clear)

/-- An iterate with a small negative volume fraction. -/
example : ¬ steel.JacRight 1 ![-1, 45 / 19, 1] := by
  have hne : steel.rNuc (-1 * steel.fs) (45 / 19 * steel.rs) (1 * steel.Ns) ≠ steel.rRip (-1 * steel.fs) (45 / 19 * steel.rs) := by
    have hf : -1 * steel.fs = -1 / 10 := by norm_num [steel]
    rw [hf]
    have hD : steel.D = 1 := by simp [Chem.D, steel]
    have hG : steel.Gv (-1 / 10) = -Real.log (30 / 11) := by
      rw [Chem.Gv, steel_cEff, steel_ceqEff]
      norm_num [steel, Chem.vm]
    have hN : 0 < steel.NNuc (-1 / 10) := C145_nucleation steel (by rw [steel_c]; norm_num)
      (by norm_num [steel, Chem.vm]) (by norm_num [steel]) (by norm_num [steel]) (by norm_num [steel])
      (by norm_num [steel]) (by norm_num [steel])
    have hl : 19 / 30 ≤ Real.log (30 / 11) := by
      have := Real.one_sub_inv_le_log_of_pos (x := 30 / 11) (by norm_num)
      norm_num at this ⊢
      linarith
    have hrc : steel.rc (-1 / 10) ≤ 60 / 19 := by
      rw [Chem.rc, hG]
      have : -2 * steel.chi / -Real.log (30 / 11) = 2 / Real.log (30 / 11) := by norm_num [steel]
      rw [this, div_le_iff₀ (by linarith)]
      linarith
    have h1 : steel.rNuc (-1 / 10) (45 / 19 * steel.rs) (1 * steel.Ns) =
        361 / 8910 + steel.NNuc (-1 / 10) / 3 * (steel.rc (-1 / 10) - 90 / 19) := by
      have hcp : steel.cp steel.rate = 1 := rfl
      rw [Chem.rNuc, hD, steel_c, steel_ceq, hcp]
      norm_num [steel]
    have h2 : steel.rRip (-1 / 10) (45 / 19 * steel.rs) = 361 / 8910 := by
      rw [Chem.rRip, Chem.K, hD, steel_c]
      norm_num [steel]
    rw [h1, h2]
    have : steel.NNuc (-1 / 10) / 3 * (steel.rc (-1 / 10) - 90 / 19) < 0 :=
      mul_neg_of_pos_of_neg (by linarith) (by linarith)
    linarith
  refine fun h => one_ne_zero ((C144_junk_disagreement steel (by norm_num [steel]) (by norm_num [steel]) 1 _
    (steel_good (by norm_num [steel]) (by norm_num [steel]) (show (1 : ℝ) * 3 ≠ 0 by norm_num)) (fun i => ?_)
    hne).mp h)
  rw [steel_xi]
  norm_num [steel]

end Neml.HuCocks
