import Verif.Props.WalkerVars
import Verif.Props.WalkerSwitch
import Verif.Props.Creep

/-!
# The Walker flow rule: derivatives (C119)
-/

namespace Neml.Walker

open Matrix Neml.Flow Neml.Mandel Neml.SmallStrain Filter Topology

variable {n : Nat}

theorem Parts.TX_eq (a : Var n → ℝ) : Parts.TX a = fun j => ∑ i, a (.X i j) := by
  funext j
  have h : ∀ (l : List (Fin n)) (x : ℝ), l.foldl (fun x i => x + a (.X i j)) x = x + (l.map fun i => a (.X i j)).sum := by
    intro l
    induction l with
    | nil => simp
    | cons b l ih => intro x; simp [ih, add_assoc]
  rw [Parts.TX, h, zero_add, Fin.sum_univ_def]

/-- The effective deviator with its derivatives. -/
theorem eff_DV (s : Fin 6 → ℝ) (a : Var n → ℝ) :
    DV (fun s (a : Var n → ℝ) => Parts.eff s a) devProj
      (of fun i v => match v with
        | .X _ j => if i = j then -1 else 0
        | _ => 0) s a := by
  intro i
  have h1 := Neml.Creep.devVec_DV (κ := Var n) s a i
  have h2 := D1.sum Finset.univ (f := fun k (_ : Fin 6 → ℝ) (a : Var n → ℝ) => a (.X k i)) fun k _ =>
    D1.coord_a (s1 := s) (a1 := a) (Var.X k i)
  have e : (fun (s : Fin 6 → ℝ) (a : Var n → ℝ) => Parts.eff s a i) = fun s a => devVec s i - ∑ k, a (.X k i) := by
    funext s a
    simp [Parts.eff, Parts.TX_eq]
  rw [e]
  refine (h1.sub h2).congr ?_ ?_
  · simp
  · ext v
    cases v with
    | X k j =>
      simp only [Pi.sub_apply, Finset.sum_apply, Pi.single_apply, Var.X.injEq, of_apply]
      by_cases hij : i = j
      · subst hij
        simp
      · have : ∀ x : Fin n, ¬ (k = x ∧ j = i) := fun x h => hij h.2.symm
        simp [hij, this]
    | _ => simp [Finset.sum_apply]

theorem tr3_eff {s : Fin 6 → ℝ} {a : Var n → ℝ} (hX : ∀ i, tr3 (Parts.valX a i) = 0) : tr3 (Parts.eff s a) = 0 := by
  have h1 := tr3_devVec s
  have h2 : ∑ i, tr3 (Parts.valX a i) = 0 := Finset.sum_eq_zero fun i _ => hX i
  simp only [tr3, Parts.eff, Parts.TX_eq, Pi.sub_apply, Parts.valX, Finset.sum_add_distrib] at *
  linarith

/-- The flow direction with its derivatives. -/
theorem g_correct (s : Fin 6 → ℝ) (a : Var n → ℝ) (T : ℝ) (h : Parts.eff s a ≠ 0) :
    (Parts.g : Part (Fin 6) (Var n) (Fin 6)).CorrectAt s a T := by
  intro i
  refine (dirOf_DV (eff_DV s a) h i).congr rfl ?_
  ext v
  cases v with
  | X k j => simp [Parts.g, Matrix.mul_apply]
  | _ => simp [Parts.g, Matrix.mul_apply]

theorem devProj_vecMul {d : Fin 6 → ℝ} (hd : tr3 d = 0) : d ᵥ* devProj = d := by
  rw [← mulVec_transpose, devProj_symm, devProj_of_tr3 hd]

/-- For a deviatoric effective stress the derivative of the flow direction is symmetric. -/
theorem dDir_dev_transpose {d : Fin 6 → ℝ} (hd : tr3 d = 0) : (dDirOf d * devProj)ᵀ = dDirOf d * devProj := by
  unfold dDirOf
  split_ifs with h0
  · rw [Matrix.one_mul, devProj_symm]
  · have h1 : (fun i => d i / norm2 d) ᵥ* devProj = fun i => d i / norm2 d := by
      apply devProj_vecMul
      simp only [tr3] at *
      rw [← add_div, ← add_div, hd, zero_div]
    rw [smul_mul, Matrix.sub_mul, Matrix.one_mul, vecMulVec_mul, h1, transpose_smul, transpose_sub, devProj_symm,
      transpose_vecMulVec]

namespace Parts

variable (P : Parts n)

theorem Y_D1 (s : Fin 6 → ℝ) (a : Var n → ℝ) (T : ℝ) (hD : P.D.D0 T < a .D) (hx : 0 < P.D.Dxi T) :
    D1 (fun (_ : Fin 6 → ℝ) a => P.Y a T) 0
      (P.Dr a T ^ P.m T • Pi.single .R 1 +
        ((P.k T + a .R) * P.m T * P.Dr a T ^ (P.m T - 1) / P.D.Dxi T) • Pi.single .D 1) s a := by
  have hd : D1 (fun (_ : Fin 6 → ℝ) (a : Var n → ℝ) => 1 / P.D.Dxi T * (a .D - P.D.D0 T)) _ _ s a :=
    ((D1.coord_a Var.D).sub (D1.const (P.D.D0 T))).smul (1 / P.D.Dxi T)
  have hpos : 0 < 1 / P.D.Dxi T * (a .D - P.D.D0 T) := mul_pos (one_div_pos.mpr hx) (sub_pos.mpr hD)
  have hp := hd.scalar (φ := fun x => x ^ P.m T) (Real.hasDerivAt_rpow_const (Or.inl hpos.ne'))
  have hk : D1 (fun (_ : Fin 6 → ℝ) (a : Var n → ℝ) => P.k T + a .R) _ _ s a :=
    (D1.const (P.k T)).add (D1.coord_a Var.R)
  have hDr : P.Dr a T = 1 / P.D.Dxi T * (a .D - P.D.D0 T) := by
    rw [Dr, if_pos (sub_pos.mpr hD)]; ring
  refine (hd.congr_near hpos (fun s a h => ?_) (hk.mul hp)).congr ?_ ?_
  · have e : (a .D - P.D.D0 T) / P.D.Dxi T = 1 / P.D.Dxi T * (a .D - P.D.D0 T) := by ring
    simp only [Y, e, if_neg (not_lt.mpr (le_of_lt h))]
  · simp
  · rw [hDr]
    ext v
    simp only [Pi.add_apply, Pi.smul_apply, smul_eq_mul, Pi.sub_apply, Pi.zero_apply]
    ring

theorem over_D1 (s : Fin 6 → ℝ) (a : Var n → ℝ) (T : ℝ) (hD : P.D.D0 T < a .D) (hx : 0 < P.D.Dxi T) (h0 : a .D ≠ 0)
    (hd : eff s a ≠ 0) :
    ∃ da, D1 (fun s a => P.over s a T) ((√(3 / 2) / (a .D * norm2 (eff s a))) • (devProj *ᵥ eff s a)) da s a ∧
      da .alpha = 0 ∧ da .R = -(P.Dr a T ^ P.m T / a .D) ∧
      da .D = -(P.k T + a .R) * P.m T * P.Dr a T ^ (P.m T - 1) / (P.D.Dxi T * a .D) +
        -(√(3 / 2) * norm2 (eff s a) - (P.k T + a .R) * P.Dr a T ^ P.m T) / (a .D * a .D) ∧
      ∀ i j, da (.X i j) = -(√(3 / 2) / (a .D * norm2 (eff s a)) * eff s a j) := by
  have hn := norm2_DV (eff_DV s a) (norm2_pos hd)
  have H := ((hn.smul (√(3 / 2))).sub (P.Y_D1 s a T hD hx)).div (D1.coord_a Var.D) h0
  have hY : P.Y a T = (P.k T + a .R) * P.Dr a T ^ P.m T := by
    have hp : 0 < (a .D - P.D.D0 T) / P.D.Dxi T := div_pos (sub_pos.mpr hD) hx
    simp only [Y, Dr, if_neg (not_lt.mpr hp.le), if_pos (sub_pos.mpr hD)]
  have hnp := norm2_pos hd
  refine ⟨_, H.congr ?_ rfl, ?_, ?_, ?_, ?_⟩
  · rw [devProj_symm]
    ext i
    have e : (devProj *ᵥ fun i => eff s a i / norm2 (eff s a)) = (1 / norm2 (eff s a)) • (devProj *ᵥ eff s a) := by
      rw [← mulVec_smul]
      congr 1
      ext i
      simp only [Pi.smul_apply, smul_eq_mul]
      ring
    rw [e]
    simp only [Pi.sub_apply, Pi.smul_apply, smul_eq_mul, Pi.zero_apply]
    field_simp
    ring
  · simp [mulVec, dotProduct]
  · simp [mulVec, dotProduct]
    ring
  · rw [hY]
    simp [mulVec, dotProduct]
    field_simp
    ring
  · intro i j
    simp [mulVec, dotProduct]
    field_simp

/-- The scalar rate has the reported derivatives above the initial drag stress, away from the threshold. -/
theorem y_correct (s : Fin 6 → ℝ) (a : Var n → ℝ) (T : ℝ) (hD : P.D.D0 T < a .D) (hx : 0 < P.D.Dxi T) (h0 : a .D ≠ 0)
    (hd : eff s a ≠ 0) (ho : P.over s a T ≠ 0) (hs : P.soft.CorrectAt (a .alpha) T) :
    D1 (fun s a => P.y s a T) (P.dyds s a T) (P.dyda s a T) s a := by
  obtain ⟨da, H, h1, h2, h3, h4⟩ := P.over_D1 s a T hD hx h0 hd
  have hnp := norm2_pos hd
  have hpre : D1 (fun (_ : Fin 6 → ℝ) a => P.prefactor a T) 0
      ((P.eps0 T * P.soft.dphi (a .alpha) T * P.chi T) • Pi.single .alpha 1) s a := by
    have h := ((D1.coord_a (s1 := s) (a1 := a) Var.alpha).scalar (φ := fun x => P.soft.phi x T) hs).smul
      (P.eps0 T * P.chi T)
    have e : (fun (_ : Fin 6 → ℝ) a => P.prefactor a T) =
        fun _ a => P.eps0 T * P.chi T * P.soft.phi (a .alpha) T := by
      funext _ a
      simp only [prefactor]
      ring
    rw [e]
    refine h.congr (by simp) ?_
    ext v
    simp only [Pi.smul_apply, smul_eq_mul]
    ring
  have hflow : D1 (fun s a => P.flow s a T) (P.dflow s a T • ((√(3 / 2) / (a .D * norm2 (eff s a))) • (devProj *ᵥ eff s a)))
      (P.dflow s a T • da) s a := by
    rcases lt_or_gt_of_ne ho with hneg | hpos
    · refine ((H.smul (-1)).congr_near (by linarith) (fun s a h => ?_) (D1.const 0)).congr ?_ ?_
      · have : P.over s a T ≤ 0 := by linarith
        simp [flow, this]
      · simp [dflow, hneg.le]
      · simp [dflow, hneg.le]
    · refine (H.congr_near hpos (fun s a h => ?_)
        (H.scalar (φ := fun x => x ^ P.pow T) (Real.hasDerivAt_rpow_const (Or.inl hpos.ne')))).congr ?_ ?_
      · simp only [flow, if_neg (not_le.mpr h), abs_of_pos h]
      · simp only [dflow, if_neg (not_le.mpr hpos), abs_of_pos hpos]
      · simp only [dflow, if_neg (not_le.mpr hpos), abs_of_pos hpos]
  refine (hpre.mul hflow).congr ?_ ?_
  · simp only [dyds, if_neg hnp.ne']
    ext i
    simp only [Pi.add_apply, Pi.smul_apply, smul_eq_mul, Pi.zero_apply]
    ring
  · ext v
    simp only [Pi.add_apply, Pi.smul_apply, smul_eq_mul, Pi.single_apply]
    cases v with
    | alpha => simp [dyda, h1]; ring
    | R => simp [dyda, h2]; ring
    | D => simp [dyda, h3]; ring
    | X i j => simp [dyda, h4, hnp.ne']; ring

/-- Chain rule for the rate of a variable. -/
theorem state_D1 {η : Type} [Fintype η] [DecidableEq η] (r : Rate η) (val : (Var n → ℝ) → η → ℝ)
    (J : Matrix η (Var n) ℝ) (s : Fin 6 → ℝ) (a : Var n → ℝ) (T : ℝ)
    (hy : D1 (fun s a => P.y s a T) (P.dyds s a T) (P.dyda s a T) s a)
    (hg : (Parts.g : Part (Fin 6) (Var n) (Fin 6)).CorrectAt s a T)
    (hv : DV (fun (_ : Fin 6 → ℝ) a => val a) 0 J s a) (hr : r.CorrectAt (P.state s a T (val a))) (i : η) :
    let st := P.state s a T (val a)
    D1 (fun s a => r.v (P.state s a T (val a)) i)
      (r.ds st i + r.dadot st i • P.dyds s a T + r.dg st i ᵥ* g.ds s a T)
      (r.da st i • Pi.single .alpha 1 + r.dadot st i • P.dyda s a T + r.dD st i • Pi.single .D 1 +
        r.dg st i ᵥ* g.da s a T + r.dh st i ᵥ* J) s a := by
  intro st
  have hS : DV (fun s (a : Var n → ℝ) => Sum.elim s (g.v s a T)) (of (Sum.elim (fun i => Pi.single i 1) (g.ds s a T)))
      (of (Sum.elim (fun _ => 0) (g.da s a T))) s a := by
    rintro (j | j)
    · exact D1.coord_s j
    · exact hg j
  have hA : DV (fun s a => Sum.elim ![a .alpha, P.y s a T, a .D] (val a))
      (of (Sum.elim ![0, P.dyds s a T, 0] fun _ => 0))
      (of (Sum.elim ![Pi.single .alpha 1, P.dyda s a T, Pi.single .D 1] J)) s a := by
    rintro (j | j)
    · fin_cases j
      · exact D1.coord_a Var.alpha
      · exact hy
      · exact D1.coord_a Var.D
    · exact hv j
  have hri : D1 (fun sg ah => r.v (VState.ofArgs sg ah T) i) (Sum.elim (r.ds st i) (r.dg st i))
      (Sum.elim ![r.da st i, r.dadot st i, r.dD st i] (r.dh st i))
      ((fun s (a : Var n → ℝ) => Sum.elim s (g.v s a T)) s a)
      ((fun s a => Sum.elim ![a .alpha, P.y s a T, a .D] (val a)) s a) := hr i
  have H := D1.comp hri hS hA
  refine D1.congr (f := fun s a => r.v (P.state s a T (val a)) i) H ?_ ?_
  · ext j
    simp only [Pi.add_apply, vecMul, dotProduct, Fintype.sum_sum_type, Fin.sum_univ_three]
    change (∑ x, r.ds st i x * Pi.single (M := fun _ => ℝ) x 1 j + ∑ x, r.dg st i x * g.ds s a T x j) +
      ((r.da st i * 0 + r.dadot st i * P.dyds s a T j + r.dD st i * 0) + ∑ x, r.dh st i x * 0) = _
    simp [Pi.single_apply]
    ring
  · ext v
    simp only [Pi.add_apply, vecMul, dotProduct, Fintype.sum_sum_type, Fin.sum_univ_three]
    change (∑ x, r.ds st i x * 0 + ∑ x, r.dg st i x * g.da s a T x v) +
      ((r.da st i * Pi.single (M := fun _ => ℝ) .alpha 1 v + r.dadot st i * P.dyda s a T v +
        r.dD st i * Pi.single (M := fun _ => ℝ) .D 1 v) + ∑ x, r.dh st i x * J x v) = _
    simp [Pi.single_apply]
    ring

theorem vecMul_unit (v : Unit → ℝ) (w : Var n) :
    v ᵥ* (of fun _ => Pi.single w 1 : Matrix Unit (Var n) ℝ) = v () • Pi.single w 1 := by
  ext x
  simp [vecMul, dotProduct]

theorem vecMul_X (v : Fin 6 → ℝ) (i : Fin n) (w : Var n) :
    (v ᵥ* (of fun j => Pi.single (.X i j) 1 : Matrix (Fin 6) (Var n) ℝ)) w =
      match w with
      | .X k l => if k = i then v l else 0
      | _ => 0 := by
  cases w with
  | X k l =>
    by_cases hk : k = i
    · subst hk
      simp [vecMul, dotProduct, Pi.single_apply]
    · simp [vecMul, dotProduct, Pi.single_apply, hk]
  | _ => simp [vecMul, dotProduct, Pi.single_apply]

theorem val_unit_DV (w : Var n) (s : Fin 6 → ℝ) (a : Var n → ℝ) :
    DV (fun (_ : Fin 6 → ℝ) (a : Var n → ℝ) (_ : Unit) => a w) 0 (of fun _ => Pi.single w 1) s a :=
  fun _ => D1.coord_a w

theorem valX_DV (i : Fin n) (s : Fin 6 → ℝ) (a : Var n → ℝ) :
    DV (fun (_ : Fin 6 → ℝ) (a : Var n → ℝ) => valX a i) 0 (of fun j => Pi.single (.X i j) 1) s a :=
  fun j => D1.coord_a (Var.X i j)

/-- The assembled hardening directions have the reported derivatives when the rates of the variables, the scalar rate and
the flow direction have, backstresses are deviatoric, and the rate of the drag stress does not look at the drag stress
other than as its own value. -/
theorem hist_correct (c : ℝ) (rR rD : Rate Unit) (rX : Fin n → Rate (Fin 6)) (s : Fin 6 → ℝ) (a : Var n → ℝ) (T : ℝ)
    (hX : ∀ i, tr3 (valX a i) = 0)
    (hy : D1 (fun s a => P.y s a T) (P.dyds s a T) (P.dyda s a T) s a)
    (hg : (Parts.g : Part (Fin 6) (Var n) (Fin 6)).CorrectAt s a T)
    (hR : rR.CorrectAt (P.state s a T (valR a))) (hD : rD.CorrectAt (P.state s a T (valD a)))
    (hDD : rD.dD (P.state s a T (valD a)) () = 0)
    (hK : ∀ i, (rX i).CorrectAt (P.state s a T (valX a i))) :
    (P.hist c rR rD rX).CorrectAt s a T := by
  have hsym : ∀ v : Fin 6 → ℝ, v ᵥ* g.ds s a T = g.ds s a T *ᵥ v := by
    intro v
    have h : (g.ds s a T)ᵀ = g.ds s a T := dDir_dev_transpose (tr3_eff hX)
    rw [← vecMul_transpose, h]
  have hG : ∀ (v : Fin 6 → ℝ) k l, (v ᵥ* g.da s a T) (.X k l) = (-dDirOf (eff s a) *ᵥ v) l := by
    intro v k l
    have h : (dDirOf (eff s a) *ᵥ v) l = (v ᵥ* dDirOf (eff s a)) l := by
      rw [← vecMul_transpose, dDirOf_symm]
    rw [neg_mulVec, Pi.neg_apply, h]
    simp [vecMul, dotProduct, g]
  have hG0 : ∀ (v : Fin 6 → ℝ) w, (∀ k l, w ≠ Var.X k l) → (v ᵥ* g.da s a T) w = 0 := by
    intro v w hw
    cases w with
    | X k l => exact absurd rfl (hw k l)
    | _ => simp [vecMul, dotProduct, g]
  have hG1 : ∀ w, (∀ k l, w ≠ Var.X k l) → (fun i => g.da s a T i w) = (0 : Fin 6 → ℝ) := by
    intro w hw
    cases w with
    | X k l => exact absurd rfl (hw k l)
    | _ => rfl
  intro v
  cases v with
  | alpha => exact (D1.const c).congr rfl rfl
  | R =>
    refine (P.state_D1 rR valR _ s a T hy hg (val_unit_DV .R s a) hR ()).congr ?_ ?_
    · rw [hsym]
      rfl
    · ext w
      cases w with
      | X k l => simp [hist, hG, vecMul_unit]
      | _ => simp [hist, hG0, hG1, vecMul_unit] <;> ring
  | D =>
    refine (P.state_D1 rD valD _ s a T hy hg (val_unit_DV .D s a) hD ()).congr ?_ ?_
    · rw [hsym]
      rfl
    · ext w
      cases w with
      | X k l => simp [hist, hG, vecMul_unit]
      | _ => simp [hist, hG0, hG1, hDD, vecMul_unit] <;> ring
  | X i j =>
    refine (P.state_D1 (rX i) (fun a => valX a i) _ s a T hy hg (valX_DV i s a) (hK i) j).congr ?_ ?_
    · ext l
      simp [hist, vecMulVec_apply, Matrix.mul_apply, vecMul, dotProduct]
    · ext w
      cases w with
      | X k l =>
        rw [Pi.add_apply, Pi.add_apply, hG]
        have h1 : ((rX i).dg (P.state s a T (valX a i)) * -dDirOf (eff s a)) j l =
            (-dDirOf (eff s a) *ᵥ (rX i).dg (P.state s a T (valX a i)) j) l := by
          have h := congrFun (vecMul_transpose (-dDirOf (eff s a)) ((rX i).dg (P.state s a T (valX a i)) j)) l
          rw [← h, transpose_neg, dDirOf_symm]
          rfl
        simp only [hist, of_apply, h1, vecMul_X]
        simp
        ring
      | _ => simp [hist, hG0, hG1, vecMul_X] <;> ring

end Parts

/-- A Walker material as documented: Walker isotropic hardening, drag stress and backstresses. -/
structure Full (n : Nat) where
  eps0 : ℝ → ℝ
  soft : Soft
  chi : ℝ → ℝ
  pow : ℝ → ℝ
  k : ℝ → ℝ
  m : ℝ → ℝ
  (r0 Rinf R0 r1 r2 : ℝ → ℝ)
  (d0 d1 d2 Dxi : ℝ → ℝ)
  D0 : ℝ
  dsoft : Soft
  kin : Fin n → KinPar
  ksoft : Fin n → Soft

/-- Its parts, with the thermal scaling shared. -/
noncomputable def Full.parts (W : Full n) : Parts n where
  eps0 := W.eps0
  soft := W.soft
  chi := W.chi
  pow := W.pow
  k := W.k
  m := W.m
  R := walkerIso W.r0 W.Rinf W.R0 W.r1 W.r2
  D := walkerDrag W.d0 W.d1 W.d2 W.Dxi W.D0 W.dsoft W.chi
  X := fun i => walkerKin (W.kin i) (W.ksoft i) W.chi

/-- The states at which the material flows and everything is smooth. -/
structure Full.Smooth (W : Full n) (s : Fin 6 → ℝ) (a : Var n → ℝ) (T : ℝ) : Prop where
  alpha : 0 < a .alpha
  rate : 0 < W.parts.y s a T
  drag : W.D0 < a .D
  Dxi : 0 < W.Dxi T
  Dpos : 0 < a .D
  eff : Parts.eff s a ≠ 0
  iso : a .R ≠ W.R0 T ∨ 1 ≤ W.r2 T
  trace : ∀ i, tr3 (Parts.valX a i) = 0
  back : ∀ i, Parts.valX a i ≠ 0
  own : ∀ i, devVec s ≠ Parts.valX a i
  L : ∀ i, (W.kin i).L (a .alpha) T ≠ 0
  soft : W.soft.CorrectAt (a .alpha) T
  dsoft : W.dsoft.CorrectAt (a .alpha) T
  ksoft : ∀ i, (W.ksoft i).CorrectAt (a .alpha) T

/-- **C119** at flowing states with positive plastic strain, above the initial drag stress, and with nonzero deviatoric
backstresses, every derivative the Walker rule reports is right. -/
theorem C119_walker_partial (W : Full n) (s : Fin 6 → ℝ) (a : Var n → ℝ) (T : ℝ) (h : W.Smooth s a T) :
    (walkerFlow W.parts).CorrectAt s a T := by
  have ho : W.parts.over s a T ≠ 0 := by
    intro h0
    have := h.rate
    simp [Parts.y, Parts.flow, h0] at this
  have hy := W.parts.y_correct s a T h.drag h.Dxi h.Dpos.ne' h.eff ho h.soft
  have hg := g_correct s a T h.eff
  refine ⟨hy, hg, Part.zero_correct _ _ _, Part.zero_correct _ _ _, ?_, ?_, Part.zero_correct _ _ _⟩
  · refine W.parts.hist_correct _ _ _ _ s a T h.trace hy hg (C118_iso_p _ _ _ _ _ _) (C118_drag_p _ _ _ _ _ _ _ _) rfl
      fun i => C118_kin_p _ _ _ _ h.alpha h.rate (h.L i) ?_ (h.trace i)
    exact sub_ne_zero.mpr (h.own i)
  · exact W.parts.hist_correct _ _ _ _ s a T h.trace hy hg (C118_iso_t _ _ _ _ _ _ h.iso)
      (C118_drag_t _ _ _ _ _ _ _ _ h.drag h.dsoft) rfl fun i => C118_kin_t _ _ _ _ (h.back i) h.Dpos (h.ksoft i)

/-- **C119** hence (C114) the rates of the rule behind the rate switch have right derivatives there. -/
theorem C119_switched_partial (W : Full n) (el : Elastic ℝ (Fin 6)) (lam : ℝ → ℝ) (eps0 T Td : ℝ)
    (z : (Fin 6 ⊕ Var n → ℝ) × (Fin 6 → ℝ)) (h : W.Smooth (fun i => z.1 (.inl i)) (fun i => z.1 (.inr i)) T)
    (he : devVec z.2 ≠ 0 ∨ lam T = 0) : CorrectRates (switchRule el (walkerFlow W.parts) lam eps0) T Td z :=
  C114_switch_rates el lam eps0 Td (C119_walker_partial W _ _ T h) he

/-- **C119** the test rule: all reported derivatives are right away from its threshold and from hydrostatic stress. -/
theorem C119_test (eps0 D n K : ℝ) (s : Fin 6 → ℝ) (a : TestVar → ℝ) (T : ℝ) (hd : devVec s ≠ 0)
    (ho : testOver D s a ≠ 0) : (testFlow eps0 D n K).CorrectAt s a T := by
  have hp := norm2_pos hd
  have hn := (norm2_DV (Neml.Creep.devVec_DV (κ := TestVar) s a) hp).smul (√(3 / 2))
  have H : D1 (fun s a => testOver D s a) ((1 / D) • (√(3 / 2) • fun i => devVec s i / norm2 (devVec s)))
      ((1 / D) • -Pi.single TestVar.iso 1) s a := by
    have h := (hn.sub (D1.coord_a TestVar.iso)).smul (1 / D)
    have e : (fun (s : Fin 6 → ℝ) (a : TestVar → ℝ) => testOver D s a) =
        fun s a => 1 / D * (√(3 / 2) * norm2 (devVec s) - a .iso) := by
      funext s a
      simp only [testOver]
      ring
    rw [e]
    refine h.congr ?_ ?_
    · have e2 : (devProjᵀ *ᵥ fun i => devVec s i / norm2 (devVec s)) = fun i => devVec s i / norm2 (devVec s) := by
        rw [devProj_symm]
        apply devProj_of_tr3
        have := tr3_devVec s
        simp only [tr3] at *
        rw [← add_div, ← add_div, this, zero_div]
      rw [e2, sub_zero]
    · simp
  have hg : (testFlow eps0 D n K).g.CorrectAt s a T := by
    have e : ∀ (s : Fin 6 → ℝ) (a : TestVar → ℝ), (testFlow eps0 D n K).g.v s a T = dirOf (devVec s) := by
      intro s a
      by_cases h0 : devVec s = 0
      · have h1 := norm2_eq_zero.mpr h0
        simp [testFlow, h1, dirOf]
      · have h1 := norm2_pos h0
        simp only [testFlow, gt_iff_lt, h1, if_true, dirOf_of_ne h0]
    intro i
    have h := dirOf_DV (Neml.Creep.devVec_DV (κ := TestVar) s a) hd i
    simp only [e]
    refine h.congr ?_ ?_
    · have e3 : dDirOf (devVec s) * devProj = (√(3 / 2) / norm2 (devVec s)) •
          (devProj - vecMulVec (fun i => devVec s i / norm2 (devVec s)) (fun i => devVec s i / norm2 (devVec s))) := by
        rw [dDirOf_of_ne hd, smul_mul, Matrix.sub_mul, Matrix.one_mul, vecMulVec_mul, devProj_vecMul]
        have := tr3_devVec s
        simp only [tr3] at *
        rw [← add_div, ← add_div, this, zero_div]
      rw [e3]
      simp only [testFlow, gt_iff_lt, hp, if_true]
    · rw [Matrix.mul_zero]
      rfl
  have hy : D1 (fun s a => (testFlow eps0 D n K).y s a T) ((testFlow eps0 D n K).dy_ds s a T)
      ((testFlow eps0 D n K).dy_da s a T) s a := by
    rcases lt_or_gt_of_ne ho with hneg | hpos
    · refine ((H.smul (-1)).congr_near (by linarith) (fun s a h => ?_) (D1.const 0)).congr ?_ ?_
      · have : ¬ 0 < testOver D s a := by linarith
        simp [testFlow, this]
      · simp [testFlow, not_lt.mpr hneg.le]
      · ext v
        cases v <;> simp [testFlow, not_lt.mpr hneg.le]
    · refine (H.congr_near hpos (fun s a h => ?_)
        ((H.scalar (φ := fun x => x ^ n) (Real.hasDerivAt_rpow_const (Or.inl hpos.ne'))).smul eps0)).congr ?_ ?_
      · simp only [testFlow, gt_iff_lt, h, if_true]
      · simp only [testFlow, gt_iff_lt, hpos, if_true]
        ext i
        simp only [Pi.smul_apply, smul_eq_mul]
        ring
      · ext v
        cases v <;> simp [testFlow, hpos]
        ring
  have hh : (testFlow eps0 D n K).h.CorrectAt s a T := fun v => D1.const _
  exact ⟨hy, hg, Part.zero_correct _ _ _, Part.zero_correct _ _ _, hh, Part.zero_correct _ _ _, Part.zero_correct _ _ _⟩

/-! ## Where the derivatives are wrong -/

/-- At and below the initial drag stress the threshold vanishes, for a positive exponent. -/
theorem Parts.Y_initial (P : Parts n) (a : Var n → ℝ) (T : ℝ) (hD : a .D ≤ P.D.D0 T) (hx : 0 < P.D.Dxi T)
    (hm : 0 < P.m T) : P.Y a T = 0 := by
  have h : (a .D - P.D.D0 T) / P.D.Dxi T ≤ 0 := div_nonpos_of_nonpos_of_nonneg (by linarith) hx.le
  simp only [Parts.Y]
  rcases h.lt_or_eq with h1 | h1
  · rw [if_pos h1, Real.zero_rpow hm.ne', mul_zero]
  · rw [h1, if_neg (lt_irrefl _), Real.zero_rpow hm.ne', mul_zero]

/-- **C119** (disagreement) at the drag stress every material starts with, the scalar rate does not depend on the isotropic
hardening, but the reported derivative is not zero wherever the material flows. -/
theorem C119_initial_derivative (P : Parts n) (s : Fin 6 → ℝ) (a : Var n → ℝ) (T : ℝ) (hD : a .D = P.D.D0 T)
    (h0 : 0 < a .D) (hx : 0 < P.D.Dxi T) (hm : 0 < P.m T) (hn : P.pow T ≠ 0) (hp : P.prefactor a T ≠ 0)
    (ho : 0 < P.over s a T) :
    (∀ t, P.y s (Function.update a .R t) T = P.y s a T) ∧ P.dyda s a T .R ≠ 0 ∧
    ¬ (walkerFlow P).CorrectAt s a T := by
  have hu : ∀ t, P.y s (Function.update a .R t) T = P.y s a T := by
    intro t
    have e1 : (Function.update a .R t) .D = a .D := by simp
    have e2 : Parts.eff s (Function.update a .R t) = Parts.eff s a := by
      simp [Parts.eff, Parts.TX_eq]
    have e3 : P.Y (Function.update a .R t) T = 0 := P.Y_initial _ T (by rw [e1, hD]) hx hm
    have e4 : P.Y a T = 0 := P.Y_initial _ T hD.le hx hm
    simp only [Parts.y, Parts.prefactor, Parts.flow, Parts.over, e1, e2, e3, e4]
    simp
  have hr : P.dyda s a T .R ≠ 0 := by
    have hdr : P.Dr a T = 1 / 10 ^ 8 := by simp [Parts.Dr, hD]
    simp only [Parts.dyda, Parts.dflow, if_neg (not_le.mpr ho), hdr]
    have h1 : |P.over s a T| ^ (P.pow T - 1) ≠ 0 := (Real.rpow_pos_of_pos (abs_pos.mpr ho.ne') _).ne'
    have h2 : ((1 : ℝ) / 10 ^ 8) ^ P.m T ≠ 0 := (Real.rpow_pos_of_pos (by norm_num) _).ne'
    exact div_ne_zero (mul_ne_zero (mul_ne_zero (neg_ne_zero.mpr hp) (mul_ne_zero hn h1)) h2) h0.ne'
  refine ⟨hu, hr, fun hc => hr ?_⟩
  have h1 := hc.y.partial_a Var.R
  have h2 : HasDerivAt (fun t => (walkerFlow P).y s (Function.update a .R t) T) 0 (a .R) := by
    have e : (fun t => (walkerFlow P).y s (Function.update a .R t) T) = fun _ => P.y s a T := funext hu
    rw [e]
    exact hasDerivAt_const _ _
  exact h1.unique h2

/-- **C119** (disagreement) with the constant drag stress and a positive exponent the threshold is always zero: the yield
strength and the isotropic hardening have no effect on the flow rate. -/
theorem C119_constant_drag (P P' : Parts n) (value : ℝ) (s : Fin 6 → ℝ) (a a' : Var n → ℝ) (T : ℝ)
    (hP : P.D = constDrag value) (hm : 0 < P.m T) (hP' : P' = { P with k := P'.k }) (hD : a .D = value)
    (ha : ∀ v, v ≠ .R → a' v = a v) : P'.y s a' T = P.y s a T := by
  have h1 : ∀ b : Var n → ℝ, b .D = value → P.Y b T = 0 := fun b hb =>
    P.Y_initial b T (by rw [hb, hP]; rfl) (by rw [hP]; exact one_pos) hm
  have h2 : ∀ b : Var n → ℝ, b .D = value → P'.Y b T = 0 := by
    intro b hb
    rw [hP']
    exact Parts.Y_initial _ b T (by rw [hb]; simp only [hP]; rfl) (by simp only [hP]; exact one_pos) hm
  have hD' : a' .D = value := by rw [ha _ (by simp), hD]
  have e : Parts.eff s a' = Parts.eff s a := by
    simp only [Parts.eff, Parts.TX_eq]
    congr 1
    funext j
    exact Finset.sum_congr rfl fun i _ => ha _ (by simp)
  have hq : P'.prefactor a' T = P.prefactor a T ∧ P'.pow T = P.pow T := by
    rw [hP']
    exact ⟨by simp only [Parts.prefactor, ha .alpha (by simp)], rfl⟩
  simp only [Parts.y, Parts.flow, Parts.over, h1 a hD, h2 a' hD', hD, hD', e, hq.1, hq.2]

/-! ## Concrete cases -/

/-- A Walker material with all parameters one, apart from a zero threshold. -/
noncomputable def sampleW : Full 1 :=
  let one : ℝ → ℝ := fun _ => 1
  ⟨one, noSoft, one, one, fun _ => 0, one, one, one, one, one, one, one, one, one, one, 1, noSoft,
    fun _ => ⟨one, one, one, one, one, one, one, one, one⟩, fun _ => noSoft⟩

/-- Concrete case for C119: a flowing state with everything smooth. -/
example : ∃ (s : Fin 6 → ℝ) (a : Var 1 → ℝ), sampleW.Smooth s a 0 := by
  refine ⟨![0, 0, 0, 3, 0, 0], fun v => match v with
    | .alpha => 1
    | .R => 0
    | .D => 2
    | .X _ j => if j = 3 then 1 else 0, ?_⟩
  set s : Fin 6 → ℝ := ![0, 0, 0, 3, 0, 0]
  set a : Var 1 → ℝ := fun v => match v with
    | .alpha => 1
    | .R => 0
    | .D => 2
    | .X _ j => if j = 3 then 1 else 0
  have hdev : devVec s = s := by
    ext i; fin_cases i <;> simp [devVec, s]
  have heff : Parts.eff s a = ![0, 0, 0, 2, 0, 0] := by
    rw [Parts.eff, hdev, Parts.TX_eq]
    ext i
    fin_cases i <;> simp [s, a] <;> norm_num
  have hne : Parts.eff s a ≠ 0 := fun h => by
    rw [heff] at h
    simpa using congrFun h 3
  have hY : sampleW.parts.Y a 0 = 0 := by simp [Parts.Y, sampleW, Full.parts, a]
  have hover : 0 < sampleW.parts.over s a 0 := by
    rw [Parts.over, hY, sub_zero]
    exact div_pos (mul_pos sqrt32_pos (norm2_pos hne)) two_pos
  refine ⟨one_pos, ?_, by simp [sampleW, a], one_pos, two_pos, hne, Or.inr le_rfl, fun i => ?_, fun i h => ?_,
    fun i h => ?_, fun i => ?_, noSoft_correct _ _, noSoft_correct _ _, fun _ => noSoft_correct _ _⟩
  · rw [Parts.y, Parts.flow, if_neg (not_le.mpr hover)]
    refine mul_pos ?_ (Real.rpow_pos_of_pos (abs_pos.mpr hover.ne') _)
    simp [Parts.prefactor, sampleW, Full.parts, noSoft]
  · simp [tr3, Parts.valX, a]
  · simpa [Parts.valX, a] using congrFun h 3
  · rw [hdev] at h
    have := congrFun h 3
    simp [s, Parts.valX, a] at this
  · norm_num [KinPar.L, sampleW, a]

end Neml.Walker
