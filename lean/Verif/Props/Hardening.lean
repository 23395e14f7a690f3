import Verif.Model.Hardening
import Verif.Props.FlowRule

/-!
# Properties of the hardening rules (C44, C45, C46, C84)
-/

namespace Neml.Flow

open Matrix Neml.Mandel Neml.SmallStrain

/-! ## C44: isotropic and kinematic rules -/

/-- An isotropic rule with the right derivative at a history value. -/
def Iso.CorrectAt (r : Iso) (a T : ℝ) : Prop := HasDerivAt (fun a => r.q a T) (r.dq a T) a

/-- **C44** linear hardening. -/
theorem C44_linear (s0 K : ℝ → ℝ) (a T : ℝ) : (linearIso s0 K).CorrectAt a T := by
  have h := ((hasDerivAt_id a).const_mul (K T)).const_sub (-s0 T)
  refine h.congr_deriv ?_
  simp [linearIso]

/-- **C44** interpolated hardening, where the interpolation function has the derivative it reports. -/
theorem C44_interpolated (f f' : ℝ → ℝ) (a T : ℝ) (h : HasDerivAt f (f' a) a) :
    (interpolatedIso f f').CorrectAt a T := h.fun_neg

/-- **C44** Voce hardening. -/
theorem C44_voce (s0 R d : ℝ → ℝ) (a T : ℝ) : (voceIso s0 R d).CorrectAt a T := by
  have h := (((((hasDerivAt_id a).const_mul (-d T)).exp).const_sub 1).const_mul (R T)).const_sub
    (-s0 T)
  refine h.congr_deriv ?_
  simp only [voceIso, id]
  ring

/-- **C44** power law hardening, except at zero strain. -/
theorem C44_powerLaw (s0 A n : ℝ → ℝ) {a : ℝ} (ha : a ≠ 0) (T : ℝ) :
    (powerLawIso s0 A n).CorrectAt a T := by
  have h := ((Real.hasDerivAt_rpow_const (p := n T) (Or.inl ha)).const_mul (A T)).const_sub (-s0 T)
  refine h.congr_deriv ?_
  simp only [powerLawIso, if_neg ha]
  ring

/-- **C44** (disagreement) at zero strain the power law reports a derivative of `-10^15`, although the
function has a derivative there for exponents of at least one. Witness: exponent two, derivative
zero. -/
theorem C44_powerLaw_at_zero (s0 : ℝ → ℝ) (T : ℝ) :
    ¬ (powerLawIso s0 (fun _ => 1) (fun _ => 2)).CorrectAt 0 T := by
  intro h
  have h2 := ((Real.hasDerivAt_rpow_const (x := (0 : ℝ)) (p := 2) (Or.inr (by norm_num))).const_mul
    (1 : ℝ)).const_sub (-s0 T)
  have := h.unique h2
  norm_num [powerLawIso] at this

theorem foldl_add {β : Type} (l : List β) (g : β → ℝ) (x : ℝ) :
    l.foldl (fun acc r => acc + g r) x = x + (l.map g).sum := by
  induction l generalizing x with
  | nil => simp
  | cons r l ih => simp only [List.foldl_cons, ih, List.map_cons, List.sum_cons]; ring

/-- **C45** combined isotropic rules add. -/
theorem C45_combined_adds (rules : List Iso) (a T : ℝ) :
    (combinedIso rules).q a T = (rules.map fun r => r.q a T).sum := by
  simp [combinedIso, foldl_add]

/-- **C44** combined isotropic hardening. -/
theorem C44_combined_iso (rules : List Iso) (a T : ℝ) (h : ∀ r ∈ rules, r.CorrectAt a T) :
    (combinedIso rules).CorrectAt a T := by
  unfold Iso.CorrectAt
  simp only [combinedIso, foldl_add, zero_add]
  induction rules with
  | nil => simpa using hasDerivAt_const a (0 : ℝ)
  | cons r l ih =>
    simp only [List.map_cons, List.sum_cons]
    exact (h r (by simp)).fun_add (ih fun r' hr => h r' (by simp [hr]))

/-- An isotropic rule that is right is right as a hardening rule. -/
theorem Iso.toHardening_correct {r : Iso} {a : Unit → ℝ} {T : ℝ} (h : r.CorrectAt (a ()) T) :
    r.toHardening.CorrectAt a T := by
  intro i
  refine (D1.scalar (D1.coord_a (κ := Unit) ()) h).congr (by simp) ?_
  ext j
  simp [Iso.toHardening]

/-- **C44** linear kinematic hardening. -/
theorem C44_linearKin (H : ℝ → ℝ) (a : Fin 6 → ℝ) (T : ℝ) : (linearKin H).CorrectAt a T := by
  intro i
  refine ((D1.coord_a i).smul (-H T)).congr (by simp) ?_
  ext j
  simp [linearKin, Pi.single_apply, eq_comm]

/-- **C44** combined isotropic and kinematic hardening. -/
theorem C44_combined {iso : Iso} {kin : Hardening (Fin 6) (Fin 6)} {a : Q7 → ℝ} {T : ℝ}
    (hi : iso.CorrectAt (a (.inl ())) T) (hk : kin.CorrectAt (fun i => a (.inr i)) T) :
    (combinedHardening iso kin).CorrectAt a T := by
  have hx : DH (fun (a : Q7 → ℝ) i => a (.inr i)) (fromCols 0 1 : Matrix (Fin 6) Q7 ℝ) a := by
    intro i
    refine (D1.coord_a (κ := Q7) (.inr i)).congr rfl ?_
    ext (j | j)
    · simp [fromCols]
    · simp [fromCols, Pi.single_apply, Matrix.one_apply, eq_comm]
  rintro (i | i)
  · refine (D1.scalar (D1.coord_a (κ := Q7) (.inl ())) hi).congr (by simp) ?_
    ext (j | j) <;> simp [combinedHardening, fromBlocks]
  · refine (D1.hist hx (hk i)).congr rfl ?_
    ext (j | j)
    · simp [combinedHardening, fromBlocks, mulVec, dotProduct, fromCols]
    · simp [combinedHardening, fromBlocks, mulVec, dotProduct, fromCols, Matrix.one_apply]

/-! ## C45 -/

/-- **C45** at zero plastic strain linear and Voce hardening give minus the initial yield stress. -/
theorem C45_initial (s0 K R d : ℝ → ℝ) (T : ℝ) :
    (linearIso s0 K).q 0 T = -s0 T ∧ (voceIso s0 R d).q 0 T = -s0 T := by
  simp [linearIso, voceIso]

/-- **C45** the yield stress does not decrease with plastic strain, for non-negative moduli. -/
theorem C45_monotone (s0 K R d : ℝ → ℝ) (T : ℝ) (hK : 0 ≤ K T) (hR : 0 ≤ R T) (hd : 0 ≤ d T)
    {a b : ℝ} (hab : a ≤ b) :
    -(linearIso s0 K).q a T ≤ -(linearIso s0 K).q b T ∧
    -(voceIso s0 R d).q a T ≤ -(voceIso s0 R d).q b T := by
  have h1 := mul_le_mul_of_nonneg_left hab hK
  have h2 : Real.exp (-d T * b) ≤ Real.exp (-d T * a) :=
    Real.exp_le_exp.mpr (by nlinarith)
  have h3 := mul_le_mul_of_nonneg_left h2 hR
  simp only [linearIso, voceIso]
  constructor <;> linarith

/-- **C45** Voce hardening stays between the initial yield stress and its saturation value, and comes
as close to the latter as wanted. -/
theorem C45_voce_saturates (s0 R d : ℝ → ℝ) (T : ℝ) (hR : 0 ≤ R T) (hd : 0 < d T) :
    (∀ a, 0 ≤ a → s0 T ≤ -(voceIso s0 R d).q a T ∧ -(voceIso s0 R d).q a T ≤ s0 T + R T) ∧
    Filter.Tendsto (fun a => -(voceIso s0 R d).q a T) Filter.atTop (nhds (s0 T + R T)) := by
  constructor
  · intro a ha
    have h1 : Real.exp (-d T * a) ≤ 1 := Real.exp_le_one_iff.mpr (by nlinarith)
    have h2 := Real.exp_pos (-d T * a)
    simp only [voceIso]
    constructor <;> nlinarith
  · have h0 : Filter.Tendsto (fun a : ℝ => Real.exp (-d T * a)) Filter.atTop (nhds 0) :=
      Real.tendsto_exp_atBot.comp
        ((Filter.tendsto_const_mul_atBot_of_neg (by linarith)).mpr Filter.tendsto_id)
    have h1 := ((h0.const_sub 1).const_mul (R T)).const_add (s0 T)
    simp only [sub_zero, mul_one] at h1
    refine h1.congr fun a => ?_
    simp only [voceIso]
    ring

/-- Concrete case for C45: yield stress 100, saturation 50, at strain one. -/
example : 100 < -(voceIso (fun _ => 100) (fun _ => 50) (fun _ => 2)).q 1 0 := by
  have h1 : Real.exp (-2) < 1 := by rw [← Real.exp_zero]; exact Real.exp_lt_exp.mpr (by norm_num)
  simp only [voceIso, mul_one]
  linarith

/-! ## C44: Chaboche rules -/

/-- A recovery rate model with the right derivative. -/
def Gamma.CorrectAt (g : Gamma) (a T : ℝ) : Prop := HasDerivAt (fun a => g.gamma a T) (g.dgamma a T) a

/-- **C44** both recovery models. -/
theorem C44_gamma (g gs g0 beta : ℝ → ℝ) (a T : ℝ) :
    (constantGamma g).CorrectAt a T ∧ (satGamma gs g0 beta).CorrectAt a T := by
  refine ⟨hasDerivAt_const _ _, ?_⟩
  have h := ((((hasDerivAt_id a).const_mul (-beta T)).exp).const_mul (g0 T - gs T)).const_add (gs T)
  refine h.congr_deriv ?_
  simp only [satGamma, id]
  ring

section chab

variable {n : Nat}

/-- The sum of the normal components of every backstress is zero. -/
def BackFree (a : CH n → ℝ) : Prop := ∀ i, tr3 (back a i) = 0

theorem tr3_backstress {a : CH n → ℝ} : tr3 (backstress a) = ∑ i, tr3 (back a i) := by
  simp [tr3, backstress, back, Finset.sum_add_distrib]

theorem tr3_effStress (s : Fin 6 → ℝ) (a : CH n → ℝ) :
    tr3 (effStress s a) = ∑ i, tr3 (back a i) := by
  have h1 := tr3_devVec s
  rw [← tr3_backstress]
  simp only [tr3, effStress] at *
  linarith

/-- Derivative of the total backstress. -/
def backJ : Matrix (Fin 6) (CH n) ℝ := Matrix.of fun j k => match k with
  | .inl _ => 0
  | .inr (_, l) => if j = l then 1 else 0

@[simp] theorem backJ_inl (j : Fin 6) (u : Unit) : (backJ : Matrix (Fin 6) (CH n) ℝ) j (.inl u) = 0 := rfl

@[simp] theorem backJ_inr (j : Fin 6) (i : Fin n) (l : Fin 6) :
    (backJ : Matrix (Fin 6) (CH n) ℝ) j (.inr (i, l)) = if j = l then 1 else 0 := rfl

theorem backstress_D1 {ι : Type} [Fintype ι] (s : ι → ℝ) (a : CH n → ℝ) (j : Fin 6) :
    D1 (fun (_ : ι → ℝ) (a : CH n → ℝ) => backstress a j) 0 (backJ j) s a := by
  refine (D1.sum Finset.univ fun i _ => D1.coord_a (κ := CH n) (.inr (i, j))).congr (by simp) ?_
  ext (k | ⟨i, l⟩)
  · simp [backJ, Finset.sum_apply]
  · rw [Finset.sum_apply, Finset.sum_eq_single i]
    · simp [backJ, Pi.single_apply, eq_comm]
    · intro b _ hb
      simp [Pi.single_apply, hb.symm]
    · simp

theorem effStress_DV (s : Fin 6 → ℝ) (a : CH n → ℝ) :
    DV (fun s a => effStress s a) devProj backJ s a := by
  intro j
  have h1 : D1 (fun (s : Fin 6 → ℝ) (_ : CH n → ℝ) => ∑ k, devProj j k * s k) _ _ s a :=
    D1.sum Finset.univ fun k _ => (D1.coord_s k).smul (devProj j k)
  have h2 : (fun (s : Fin 6 → ℝ) (a : CH n → ℝ) => effStress s a j) =
      fun s a => (∑ k, devProj j k * s k) + backstress a j := by
    funext s a
    simp only [effStress, devVec_eq, mulVec, dotProduct]
  simp only [h2]
  refine (h1.add (backstress_D1 s a j)).congr ?_ ?_
  · ext k
    simp [Pi.single_apply]
  · simp

/-- Isotropic entries with right derivatives. -/
structure ChabIso.CorrectAt (r : ChabIso) (a T : ℝ) : Prop where
  q : HasDerivAt (fun a => r.q a T) (r.dq a T) a
  h : HasDerivAt (fun a => r.h a T) (r.dh a T) a
  ht : HasDerivAt (fun a => r.ht a T) (r.dht a T) a

/-- **C44** hardening variables of a Chaboche rule. -/
theorem chab_q {eps : ℝ} {iso : ChabIso} {c dc : Fin n → ℝ → ℝ} {gm : Fin n → Gamma}
    {rec : Fin n → ℝ → ℝ → ℝ} {ex : Fin n → ℝ → ℝ} {a : CH n → ℝ} {T : ℝ}
    (hi : HasDerivAt (fun a => iso.q a T) (iso.dq (a (.inl ())) T) (a (.inl ()))) :
    (chabBase eps iso c dc gm rec ex).toHardening.CorrectAt a T := by
  rintro (j | j)
  · refine (D1.scalar (D1.coord_a (κ := CH n) (.inl ())) hi).congr (by simp) ?_
    ext (k | ⟨i, l⟩) <;> simp [chabBase]
  · refine (backstress_D1 _ a j).congr rfl ?_
    ext (k | ⟨i, l⟩) <;> simp [chabBase, backJ]

/-- **C44** rates with plastic strain of a Chaboche rule. -/
theorem chab_h {eps : ℝ} (he : 0 < eps) {iso : ChabIso} {c dc : Fin n → ℝ → ℝ} {gm : Fin n → Gamma}
    {rec : Fin n → ℝ → ℝ → ℝ} {ex : Fin n → ℝ → ℝ} {s : Fin 6 → ℝ} {a : CH n → ℝ} {T : ℝ}
    (hi : HasDerivAt (fun a => iso.h a T) (iso.dh (a (.inl ())) T) (a (.inl ())))
    (hg : ∀ i, (gm i).CorrectAt (a (.inl ())) T) (ht : tr3 (backstress a) = 0)
    (h0 : eps < norm2 (effStress s a)) :
    (chabBase eps iso c dc gm rec ex).h.CorrectAt s a T := by
  have hpos := he.trans h0
  rintro (j | ⟨i, j⟩)
  · refine (D1.scalar (D1.coord_a (κ := CH n) (.inl ())) hi).congr ?_ ?_
    · ext k; simp [chabBase]
    · ext (k | ⟨i, l⟩) <;> simp [chabBase]
  · have hN := normalize_DV (effStress_DV s a) he h0 j
    have hn : devProj *ᵥ normalize eps (effStress s a) = normalize eps (effStress s a) :=
      devProj_of_tr3 (tr3_normalize (by rw [tr3_effStress, ← tr3_backstress, ht]))
    rw [devProj_symm, hn] at hN
    have hG := (D1.scalar (D1.coord_a (ι := Fin 6) (s1 := s) (κ := CH n) (.inl ()))
      (hg i)).smul (√(2 / 3))
    have hX := D1.coord_a (ι := Fin 6) (s1 := s) (a1 := a) (κ := CH n) (.inr (i, j))
    have hJ : ∀ k, ((backJ : Matrix (Fin 6) (CH n) ℝ)ᵀ *ᵥ normalize eps (effStress s a)) k = match k with
        | .inl _ => 0
        | .inr (_, l) => normalize eps (effStress s a) l := by
      rintro (k | ⟨i', l⟩) <;> simp [backJ, mulVec, dotProduct]
    refine ((hN.smul (-2 / 3 * c i T)).sub (hG.mul hX)).congr ?_ ?_
    · ext k
      simp [chabBase, hpos.ne', vecMulVec_apply]
    · ext (k | ⟨i', l⟩)
      · simp [chabBase, vecMulVec_apply, hJ]
        ring
      · by_cases hil : (i, j) = (i', l)
        · have hil' := hil
          simp only [Prod.mk.injEq] at hil'
          obtain ⟨rfl, rfl⟩ := hil'
          simp [chabBase, vecMulVec_apply, hJ, hpos.ne', Pi.single_apply, Matrix.one_apply]
          ring
        · have h2 : ¬ ((Sum.inr (i', l) : CH n) = Sum.inr (i, j)) := by
            intro h; exact hil (Sum.inr.inj h).symm
          simp only [chabBase, Pi.sub_apply, Pi.smul_apply, smul_eq_mul, Matrix.smul_apply,
            Matrix.sub_apply, vecMulVec_apply, hJ, backJ_inr, Matrix.of_apply, Pi.add_apply,
            Pi.single_apply, if_neg h2, if_neg hil, ne_eq, hpos.ne', not_false_eq_true, if_true,
            Matrix.one_apply, reduceCtorEq, if_false, mul_zero, sub_zero, add_zero]
          ring

/-- **C44** temperature rates of a Chaboche rule. -/
theorem chab_temp {eps : ℝ} {iso : ChabIso} {c dc : Fin n → ℝ → ℝ} {gm : Fin n → Gamma}
    {rec : Fin n → ℝ → ℝ → ℝ} {ex : Fin n → ℝ → ℝ} {s : Fin 6 → ℝ} {a : CH n → ℝ} {T : ℝ} :
    (chabBase eps iso c dc gm rec ex).h_temp.CorrectAt s a T := by
  rintro (j | ⟨i, j⟩)
  · refine (D1.const 0).congr rfl ?_
    ext (k | k) <;> simp [chabBase]
  · have hX := D1.coord_a (ι := Fin 6) (s1 := s) (a1 := a) (κ := CH n) (.inr (i, j))
    have h1 := hX.smul (if c i T = 0 then 0 else -√(2 / 3) * dc i T / c i T)
    have h2 : (fun (s : Fin 6 → ℝ) a => (chabBase eps iso c dc gm rec ex).h_temp.v s a T (.inr (i, j)))
        = fun _ a => (if c i T = 0 then 0 else -√(2 / 3) * dc i T / c i T) * a (.inr (i, j)) := by
      funext s a
      simp only [chabBase, Sum.elim_inr]
      split_ifs <;> simp
    rw [h2]
    refine h1.congr ?_ ?_
    · ext k; simp [chabBase]
    · ext (k | ⟨i', l⟩)
      · simp [chabBase]
      · simp only [chabBase, Pi.smul_apply, Pi.single_apply, smul_eq_mul, Matrix.of_apply,
          Sum.inr.injEq, eq_comm (a := (i', l))]
        split_ifs <;> simp

omit n in
/-- A product whose second factor vanishes at the point needs only continuity of the first. -/
theorem D1.mul_of_zero {ι κ : Type} [Fintype ι] [Fintype κ] {u v : (ι → ℝ) → (κ → ℝ) → ℝ}
    {vs : ι → ℝ} {va : κ → ℝ} {s : ι → ℝ} {a : κ → ℝ}
    (hu : ContinuousAt (fun p : (ι → ℝ) × (κ → ℝ) => u p.1 p.2) (s, a)) (hv : D1 v vs va s a)
    (h0 : v s a = 0) :
    D1 (fun s a => u s a * v s a) (u s a • vs) (u s a • va) s a := by
  have hv' : HasFDerivAt (fun p : (ι → ℝ) × (κ → ℝ) => v p.1 p.2) (grad vs va) (s, a) := hv
  have hO : (fun p : (ι → ℝ) × (κ → ℝ) => v p.1 p.2) =O[nhds (s, a)] fun p => p - (s, a) := by
    have := hv'.isBigO_sub
    simpa only [h0, sub_zero] using this
  have h1 : (fun p : (ι → ℝ) × (κ → ℝ) => u p.1 p.2 - u s a) =o[nhds (s, a)] fun _ => (1 : ℝ) := by
    rw [Asymptotics.isLittleO_one_iff]
    have := hu.tendsto.sub_const (u s a)
    simpa using this
  have h2 := h1.mul_isBigO hO.norm_right
  have h3 := hv'.isLittleO.const_mul_left (u s a)
  unfold D1
  rw [hasFDerivAt_iff_isLittleO]
  have hb : (fun p : (ι → ℝ) × (κ → ℝ) => 1 * ‖p - (s, a)‖) =O[nhds (s, a)] fun p => p - (s, a) :=
    Asymptotics.IsBigO.of_bound 1 (Filter.Eventually.of_forall fun p => by simp)
  have h4 := (h2.trans_isBigO hb).add h3
  refine h4.congr_left fun p => ?_
  simp only [h0, grad_apply, smul_dotProduct, smul_eq_mul]
  ring

theorem back_DV {ι : Type} [Fintype ι] (s : ι → ℝ) (a : CH n → ℝ) (i : Fin n) :
    DV (fun (_ : ι → ℝ) a => back a i) 0
      (Matrix.of fun j k => if k = (.inr (i, j) : CH n) then (1 : ℝ) else 0) s a := by
  intro j
  refine (D1.coord_a (κ := CH n) (.inr (i, j))).congr rfl ?_
  ext k
  simp [Pi.single_apply]

/-- Conditions for the static recovery of one backstress: either the backstress is longer than the
threshold and the factor scales with the exponent, or the backstress is zero and the factor is
continuous there. -/
def RecoveryOk (eps : ℝ) (rec : ℝ → ℝ) (ex : ℝ) (X : Fin 6 → ℝ) : Prop :=
  (eps < norm2 X ∧ ∃ r', HasDerivAt rec r' (norm2 X) ∧ r' * norm2 X = (ex - 1) * rec (norm2 X)) ∨
  (X = 0 ∧ ContinuousAt rec 0)

/-- **C44** time rates of a Chaboche rule. -/
theorem chab_time {eps : ℝ} (he : 0 < eps) {iso : ChabIso} {c dc : Fin n → ℝ → ℝ}
    {gm : Fin n → Gamma} {rec : Fin n → ℝ → ℝ → ℝ} {ex : Fin n → ℝ → ℝ} {s : Fin 6 → ℝ}
    {a : CH n → ℝ} {T : ℝ}
    (hi : HasDerivAt (fun a => iso.ht a T) (iso.dht (a (.inl ())) T) (a (.inl ())))
    (hr : ∀ i, RecoveryOk eps (rec i T) (ex i T) (back a i)) :
    (chabBase eps iso c dc gm rec ex).h_time.CorrectAt s a T := by
  rintro (j | ⟨i, j⟩)
  · refine (D1.scalar (D1.coord_a (κ := CH n) (.inl ())) hi).congr ?_ ?_
    · ext k; simp [chabBase]
    · ext (k | ⟨i, l⟩) <;> simp [chabBase]
  · have hX := D1.coord_a (ι := Fin 6) (s1 := s) (a1 := a) (κ := CH n) (.inr (i, j))
    have hB := back_DV s a i
    have hsel : ∀ (v : Fin 6 → ℝ) (k : CH n),
        ((Matrix.of fun j k => if k = (.inr (i, j) : CH n) then (1 : ℝ) else 0)ᵀ *ᵥ v) k =
        match k with
        | .inl _ => 0
        | .inr (i', l) => if i = i' then v l else 0 := by
      rintro v (k | ⟨i', l⟩)
      · simp [mulVec, dotProduct]
      · by_cases h : i = i'
        · subst h
          simp [mulVec, dotProduct]
        · simp [mulVec, dotProduct, h, Ne.symm h]
    rcases hr i with ⟨h0, r', hd, hs⟩ | ⟨h0, hc⟩
    · have hpos := he.trans h0
      have hN := norm2_DV hB hpos
      refine (((hN.scalar hd).smul (-1)).mul hX |> fun h => ?_ : D1 _ _ _ s a)
      have e : (fun (s : Fin 6 → ℝ) a =>
          (chabBase eps iso c dc gm rec ex).h_time.v s a T (.inr (i, j))) =
          fun _ a => -1 * rec i T (norm2 (back a i)) * a (.inr (i, j)) := by
        funext s a
        simp [chabBase]
      rw [e]
      refine h.congr ?_ ?_
      · ext k; simp [chabBase]
      · ext (k | ⟨i', l⟩)
        · simp [chabBase, hsel]
        · simp only [Pi.add_apply, Pi.smul_apply, smul_eq_mul, hsel, chabBase, Matrix.of_apply,
            Pi.single_apply, Sum.inr.injEq, Prod.mk.injEq, normalize_of_le h0.le]
          by_cases hii : i = i'
          · subst hii
            have e2 : r' = (ex i T - 1) * rec i T (norm2 (back a i)) / norm2 (back a i) := by
              rw [← hs, mul_div_assoc, div_self hpos.ne', mul_one]
            rw [e2]
            simp only [if_true, true_and, eq_comm (a := l)]
            change a (.inr (i, j)) * (-1 * ((ex i T - 1) * rec i T (norm2 (back a i)) /
              norm2 (back a i) * (a (.inr (i, l)) / norm2 (back a i)))) + _ = -rec i T _ * (_ +
              (ex i T - 1) * (a (.inr (i, j)) / _ * (a (.inr (i, l)) / _)))
            split_ifs <;> field_simp <;> ring
          · simp [hii, Ne.symm hii]
    · have hcont : ContinuousAt (fun p : (Fin 6 → ℝ) × (CH n → ℝ) =>
          -rec i T (norm2 (back p.2 i))) (s, a) := by
        have h1 : Continuous fun p : (Fin 6 → ℝ) × (CH n → ℝ) => norm2 (back p.2 i) := by
          unfold norm2 back dotProduct
          fun_prop
        have h2 : ContinuousAt (rec i T) (norm2 (back a i)) := by
          rw [h0]
          simpa [norm2] using hc
        exact (ContinuousAt.comp (f := fun p : (Fin 6 → ℝ) × (CH n → ℝ) => norm2 (back p.2 i))
          (x := (s, a)) h2 h1.continuousAt).neg
      have hz : a (.inr (i, j)) = 0 := congrFun h0 j
      refine (D1.mul_of_zero (u := fun _ a => -rec i T (norm2 (back a i))) hcont hX hz).congr ?_ ?_
      · ext k; simp [chabBase]
      · ext (k | ⟨i', l⟩)
        · simp [chabBase]
        · have hn : normalize eps (back a i) = 0 := by
            rw [h0]
            simp [normalize, norm2, he]
          simp only [Pi.smul_apply, smul_eq_mul, chabBase, Matrix.of_apply, hn,
            Pi.single_apply, Sum.inr.injEq, Prod.mk.injEq, Pi.zero_apply, mul_zero, add_zero]
          by_cases hii : i = i'
          · subst hii
            simp [eq_comm]
          · simp [hii, Ne.symm hii]

/-- **C44** the Chaboche rule: hardening variables and all rates, where the effective deviator is
longer than the threshold, the total backstress is trace free and each backstress either is longer
than the threshold or is zero with a recovery exponent of at least one. -/
theorem C44_chaboche {eps : ℝ} (he : 0 < eps) (noniso : Bool) {iso : Iso} {c dc : Fin n → ℝ → ℝ}
    {gm : Fin n → Gamma} {A ex : Fin n → ℝ → ℝ} {s : Fin 6 → ℝ} {a : CH n → ℝ} {T : ℝ}
    (hi : iso.CorrectAt (a (.inl ())) T) (hg : ∀ i, (gm i).CorrectAt (a (.inl ())) T)
    (ht : tr3 (backstress a) = 0) (h0 : eps < norm2 (effStress s a))
    (hX : ∀ i, eps < norm2 (back a i) ∨ (back a i = 0 ∧ 1 ≤ ex i T)) :
    let hd := chaboche noniso eps iso c dc gm A ex
    hd.toHardening.CorrectAt a T ∧ hd.h.CorrectAt s a T ∧ hd.h_time.CorrectAt s a T ∧
      hd.h_temp.CorrectAt s a T := by
  refine ⟨chab_q hi, chab_h he (hasDerivAt_const _ _) hg ht h0,
    chab_time he (hasDerivAt_const _ _) fun i => ?_, chab_temp⟩
  rcases hX i with h | ⟨h, h1⟩
  · have hpos := he.trans h
    refine Or.inl ⟨h, _, (Real.hasDerivAt_rpow_const (Or.inl hpos.ne')).const_mul _, ?_⟩
    rw [Real.rpow_sub_one hpos.ne']
    field_simp
  · refine Or.inr ⟨h, ?_⟩
    exact continuousAt_const.mul (Real.continuousAt_rpow_const _ _ (Or.inr (by linarith)))

/-- **C44** the Chaboche rule with Voce hardening and recovery, where in addition the isotropic
variable is above the level it recovers to, for non-negative recovery constants. -/
theorem C44_chabocheVoce {eps : ℝ} (he : 0 < eps) (noniso : Bool)
    {s0 theta0 Rmax Rmin r1 r2 : ℝ → ℝ} {c dc : Fin n → ℝ → ℝ}
    {gm : Fin n → Gamma} {A ex : Fin n → ℝ → ℝ} {s : Fin 6 → ℝ} {a : CH n → ℝ} {T : ℝ}
    (hg : ∀ i, (gm i).CorrectAt (a (.inl ())) T)
    (ht : tr3 (backstress a) = 0) (h0 : eps < norm2 (effStress s a))
    (hX : ∀ i, eps < norm2 (back a i) ∨ (back a i = 0 ∧ 1 ≤ ex i T))
    (h1 : 0 ≤ r1 T) (h2 : 0 ≤ r2 T) (hR : Rmin T < a (.inl ())) :
    let hd := chabocheVoce noniso eps s0 theta0 Rmax Rmin r1 r2 c dc gm A ex
    hd.toHardening.CorrectAt a T ∧ hd.h.CorrectAt s a T ∧ hd.h_time.CorrectAt s a T ∧
      hd.h_temp.CorrectAt s a T := by
  refine ⟨chab_q ?_, chab_h he ?_ hg ht h0, chab_time he ?_ fun i => ?_, chab_temp⟩
  · exact ((hasDerivAt_id (a (.inl ()))).const_add (s0 T)).fun_neg
  · have := (((hasDerivAt_id (a (.inl ()))).div_const (Rmax T)).const_sub 1).const_mul (theta0 T)
      |>.mul_const (√(2 / 3))
    refine this.congr_deriv ?_
    simp only [id]
    ring
  · have hneg : Rmin T - a (.inl ()) < 0 := by linarith
    have hd : HasDerivAt (fun x : ℝ => Rmin T - x) (-1) (a (.inl ())) :=
      (hasDerivAt_id _).const_sub _
    have hm := hd.fun_neg.rpow_const (p := r2 T - 1) (Or.inl (by linarith))
    have hp := (hd.const_mul (r1 T)).fun_mul hm
    have hnn := Real.rpow_nonneg (abs_nonneg (Rmin T - a (.inl ()))) (r2 T - 1)
    refine (hp.congr_of_eventuallyEq ?_).congr_deriv ?_
    · filter_upwards [eventually_gt_nhds hR] with x hx
      rw [abs_of_neg (by linarith)]
    · simp only [if_neg (not_le.mpr hneg), abs_of_nonneg (mul_nonneg (mul_nonneg h1 h2) hnn)]
      rw [abs_of_neg hneg, Real.rpow_sub_one (neg_ne_zero.mpr hneg.ne) (r2 T - 1)]
      generalize (-(Rmin T - a (.inl ()))) ^ (r2 T - 1) = P
      have := hneg.ne
      field_simp
      ring
  · rcases hX i with h | ⟨h, h1⟩
    · have hpos := he.trans h
      have h32 : (0 : ℝ) < √(3 / 2) := Real.sqrt_pos.mpr (by norm_num)
      have hne : √(3 / 2) * norm2 (back a i) ≠ 0 := (mul_pos h32 hpos).ne'
      refine Or.inl ⟨h, _, (((hasDerivAt_id (norm2 (back a i))).const_mul (√(3 / 2))).rpow_const
        (p := ex i T - 1) (Or.inl hne)).const_mul (A i T), ?_⟩
      simp only [id]
      rw [Real.rpow_sub_one hne]
      field_simp
    · refine Or.inr ⟨h, ?_⟩
      refine continuousAt_const.mul (ContinuousAt.comp (f := fun x : ℝ => √(3 / 2) * x)
        (Real.continuousAt_rpow_const _ _ (Or.inr (by linarith))) (by fun_prop))

/-- **C44** (disagreement) below the recovery level the derivative of the isotropic recovery rate is
reported with the wrong sign. Witness: linear recovery towards one from zero. -/
theorem C44_chabocheVoce_below (T : ℝ) :
    ¬ (chabocheVoce (n := 0) true 1 (fun _ => 0) (fun _ => 0) (fun _ => 1) (fun _ => 1) (fun _ => 1)
      (fun _ => 1) Fin.elim0 Fin.elim0 Fin.elim0 Fin.elim0 Fin.elim0).h_time.CorrectAt 0 0 T := by
  intro h
  have h1 := (h (.inl ())).partial_a (.inl ())
  have h2 : HasDerivAt (fun t : ℝ => (1 : ℝ) * (1 - t) * |1 - t| ^ ((1 : ℝ) - 1)) (-1) 0 := by
    simpa using (hasDerivAt_id (0 : ℝ)).const_sub 1
  have h3 := h1.unique (by simpa [chabocheVoce, chabBase] using h2)
  norm_num [chabocheVoce, chabBase] at h3

/-- Concrete case for C44: one zero backstress, uniaxial stress. -/
example : tr3 (backstress (n := 1) 0) = 0 ∧ (1 : ℝ) < norm2 (effStress (n := 1) ![3, 0, 0, 0, 0, 0] 0) := by
  constructor
  · simp [tr3, backstress]
  · simp only [norm2]
    rw [Real.lt_sqrt (by norm_num)]
    simp [effStress, backstress, devVec, dotProduct, Fin.sum_univ_succ]
    norm_num

/-- **C84** (disagreement) documentation (hardening.h:425): with `noniso = false` the temperature rates
are zero. They are not: the switch is ignored. -/
theorem C84_noniso_ignored : ∃ (c dc : Fin 1 → ℝ → ℝ) (s : Fin 6 → ℝ) (a : CH 1 → ℝ) (T : ℝ),
    (chaboche false 1 (linearIso 0 0) c dc (fun _ => constantGamma 0) 0 0).h_temp.v s a T ≠ 0 := by
  refine ⟨fun _ _ => 1, fun _ _ => 1, 0, fun _ => 1, 0, fun h => ?_⟩
  have := congrFun h (.inr (0, 0))
  simp [chaboche, chabBase] at this

/-- **C84** (partial) the temperature rates are as documented for `noniso = true`, and vanish for
constant coefficients. Missing: the switch. -/
theorem C84_temperature_rates_partial (b : Bool) (eps : ℝ) (iso : Iso) (c dc : Fin n → ℝ → ℝ)
    (gm : Fin n → Gamma) (A ex : Fin n → ℝ → ℝ) (s : Fin 6 → ℝ) (a : CH n → ℝ) (T : ℝ) (i : Fin n)
    (j : Fin 6) (hc : c i T ≠ 0) :
    (chaboche b eps iso c dc gm A ex).h_temp.v s a T (.inr (i, j)) =
        -√(2 / 3) * (dc i T / c i T) * a (.inr (i, j)) ∧
      (dc i T = 0 → (chaboche b eps iso c dc gm A ex).h_temp.v s a T (.inr (i, j)) = 0) := by
  constructor
  · simp [chaboche, chabBase, hc]; ring
  · intro h; simp [chaboche, chabBase, hc, h]

/-! ## C46 -/

/-- **C46** the backstress seen by the yield surface is the sum of the components. -/
theorem C46_total (b : Bool) (eps : ℝ) (iso : Iso) (c dc : Fin n → ℝ → ℝ) (gm : Fin n → Gamma)
    (A ex : Fin n → ℝ → ℝ) (a : CH n → ℝ) (T : ℝ) :
    (fun j => (chaboche b eps iso c dc gm A ex).q a T (.inr j)) = ∑ i, back a i := by
  ext j
  simp [chaboche, chabBase, backstress, back]

/-- Trace of the three kinds of backstress rates in terms of the traces of the backstresses: each is
minus a factor times the trace of the backstress, and the first also minus a factor times the total
trace. -/
theorem chab_traces {eps : ℝ} (he : 0 < eps) {iso : ChabIso} {c dc : Fin n → ℝ → ℝ}
    {gm : Fin n → Gamma} {rec : Fin n → ℝ → ℝ → ℝ} {ex : Fin n → ℝ → ℝ} (s : Fin 6 → ℝ)
    (a : CH n → ℝ) (T : ℝ) (i : Fin n) :
    let hd := chabBase eps iso c dc gm rec ex
    (∃ w, 0 ≤ w ∧ tr3 (back (hd.h.v s a T) i) = -(2 / 3 * c i T * w * ∑ k, tr3 (back a k)) -
      √(2 / 3) * (gm i).gamma (a (.inl ())) T * tr3 (back a i)) ∧
    tr3 (back (hd.h_time.v s a T) i) = -rec i T (norm2 (back a i)) * tr3 (back a i) ∧
    tr3 (back (hd.h_temp.v s a T) i) =
      (if c i T = 0 then 0 else -√(2 / 3) * dc i T / c i T) * tr3 (back a i) := by
  refine ⟨?_, ?_, ?_⟩
  · by_cases h : eps ≤ norm2 (effStress s a)
    · refine ⟨1 / norm2 (effStress s a), by have := norm2_nonneg (effStress s a); positivity, ?_⟩
      rw [← tr3_effStress s a]
      simp only [tr3, back, chabBase, Sum.elim_inr, normalize_of_le h]
      ring
    · refine ⟨0, le_rfl, ?_⟩
      have hn : normalize eps (effStress s a) = 0 := by
        unfold normalize
        rw [abs_of_nonneg (norm2_nonneg _), if_pos (not_le.mp h)]
      simp only [tr3, back, chabBase, Sum.elim_inr, hn, Pi.zero_apply]
      ring
  · simp only [tr3, back, chabBase, Sum.elim_inr]
    ring
  · simp only [tr3, back, chabBase, Sum.elim_inr]
    split_ifs <;> ring

/-- **C46** the rates of trace free backstresses are trace free, for the Chaboche rule and the one
with Voce recovery, whatever the stress. -/
theorem C46_rates_tracefree {eps : ℝ} (he : 0 < eps) (iso : ChabIso) (c dc : Fin n → ℝ → ℝ)
    (gm : Fin n → Gamma) (rec : Fin n → ℝ → ℝ → ℝ) (ex : Fin n → ℝ → ℝ) (s : Fin 6 → ℝ)
    (a : CH n → ℝ) (T : ℝ) (ha : BackFree a) :
    let hd := chabBase eps iso c dc gm rec ex
    BackFree (hd.h.v s a T) ∧ BackFree (hd.h_time.v s a T) ∧ BackFree (hd.h_temp.v s a T) := by
  have hz : ∑ k, tr3 (back a k) = 0 := Finset.sum_eq_zero fun k _ => ha k
  refine ⟨fun i => ?_, fun i => ?_, fun i => ?_⟩
  · obtain ⟨w, _, hw⟩ := (chab_traces he (iso := iso) (c := c) (dc := dc) (gm := gm) (rec := rec)
      (ex := ex) s a T i).1
    rw [hw, hz, ha i]
    ring
  · rw [(chab_traces he s a T i).2.1, ha i, mul_zero]
  · rw [(chab_traces he s a T i).2.2, ha i, mul_zero]

/-- **C46** every implicit step of a Chaboche viscoplastic material keeps the backstresses trace free:
if the history at the end of the step solves the backward Euler equation of the general integrator
(`a1 = a0 + dt * rate` with the rate at the end of the step), at constant temperature and with
non-negative constants, then trace free backstresses stay trace free. -/
theorem C46_step {eps : ℝ} (he : 0 < eps) (el : Elastic ℝ (Fin 6)) (sf : Surface (Fin 6) Q7)
    (iso : ChabIso) (c dc : Fin n → ℝ → ℝ) (gm : Fin n → Gamma) (rec : Fin n → ℝ → ℝ → ℝ)
    (ex : Fin n → ℝ → ℝ) (fl : Fluidity) (m pre : ℝ → ℝ) {s ed : Fin 6 → ℝ} {a0 a1 : CH n → ℝ}
    {T dt : ℝ}
    (hc : ∀ i, 0 ≤ c i T) (hg : ∀ i x, 0 ≤ (gm i).gamma x T) (hr : ∀ i x, 0 ≤ x → 0 ≤ rec i T x)
    (hdt : 0 ≤ dt)
    (hy : 0 ≤ (chabocheFlow sf (chabBase eps iso c dc gm rec ex) fl m pre (.inl ())).y s a1 T)
    (hstep : ∀ k, a1 k = a0 k + dt *
      (tvp el (chabocheFlow sf (chabBase eps iso c dc gm rec ex) fl m pre (.inl ()))).a s a1 ed T 0 k)
    (ha : BackFree a0) : BackFree a1 := by
  obtain ⟨y, hyv⟩ : ∃ y, y = (chabocheFlow sf (chabBase eps iso c dc gm rec ex) fl m pre (.inl ())).y
    s a1 T := ⟨_, rfl⟩
  rw [← hyv] at hy
  obtain ⟨St, hS⟩ : ∃ S, S = ∑ k, tr3 (back a1 k) := ⟨_, rfl⟩
  have key : ∀ i, ∃ w, 0 ≤ w ∧ tr3 (back a1 i) = -w * St := by
    intro i
    obtain ⟨w, hw, htr⟩ := (chab_traces he (iso := iso) (c := c) (dc := dc) (gm := gm) (rec := rec)
      (ex := ex) s a1 T i).1
    have htt := (chab_traces he (iso := iso) (c := c) (dc := dc) (gm := gm) (rec := rec)
      (ex := ex) s a1 T i).2.1
    have e : ∀ j, a1 (.inr (i, j)) = a0 (.inr (i, j)) + dt *
        ((chabBase eps iso c dc gm rec ex).h.v s a1 T (.inr (i, j)) * y +
          (chabBase eps iso c dc gm rec ex).h_temp.v s a1 T (.inr (i, j)) * 0 +
          (chabBase eps iso c dc gm rec ex).h_time.v s a1 T (.inr (i, j))) := by
      intro j
      rw [hyv]
      exact hstep (.inr (i, j))
    have e2 : tr3 (back a1 i) = tr3 (back a0 i) + dt *
        (y * tr3 (back ((chabBase eps iso c dc gm rec ex).h.v s a1 T) i) +
          tr3 (back ((chabBase eps iso c dc gm rec ex).h_time.v s a1 T) i)) := by
      have e0 := e 0
      have e1 := e 1
      have e2 := e 2
      simp only [tr3, back] at *
      linear_combination e0 + e1 + e2
    rw [ha i, htr, htt, ← hS] at e2
    have hG := hg i (a1 (.inl ()))
    have hR := hr i (norm2 (back a1 i)) (norm2_nonneg _)
    have hden : 0 < 1 + dt * (y * (√(2 / 3) * (gm i).gamma (a1 (.inl ())) T) +
        rec i T (norm2 (back a1 i))) := by positivity
    refine ⟨dt * y * (2 / 3 * c i T * w) / (1 + dt * (y * (√(2 / 3) * (gm i).gamma (a1 (.inl ())) T) +
        rec i T (norm2 (back a1 i)))), ?_, ?_⟩
    · have := hc i
      positivity
    · rw [neg_mul, div_mul_eq_mul_div, ← neg_div, eq_div_iff hden.ne']
      linear_combination e2
  choose w hw hw' using key
  have hsum : St = -(∑ i, w i) * St := by
    conv_lhs => rw [hS]
    rw [Finset.sum_congr rfl fun i _ => hw' i, ← Finset.sum_mul, Finset.sum_neg_distrib]
  have hW : 0 ≤ ∑ i, w i := Finset.sum_nonneg fun i _ => hw i
  have hz : St = 0 := by
    have : (1 + ∑ i, w i) * St = 0 := by linear_combination hsum
    rcases mul_eq_zero.mp this with h | h
    · linarith
    · exact h
  intro i
  rw [hw' i, hz, mul_zero]

/-- One step of a history: end stress, strain rate, temperature and time increment. -/
structure HistStep where
  s : Fin 6 → ℝ
  ed : Fin 6 → ℝ
  T : ℝ
  dt : ℝ

/-- A sequence of implicit steps from one history to another. -/
inductive Steps (fl : GenFlow ℝ (Fin 6) (CH n)) : (CH n → ℝ) → List HistStep → (CH n → ℝ) → Prop
  | nil (a) : Steps fl a [] a
  | cons (a0 a1 a2) (st : HistStep) (l) :
      (∀ k, a1 k = a0 k + st.dt * fl.a st.s a1 st.ed st.T 0 k) → Steps fl a1 l a2 →
      Steps fl a0 (st :: l) a2

/-- **C46** a history of any length that starts with zero backstresses never acquires a backstress with
a trace. -/
theorem C46_histories {eps : ℝ} (he : 0 < eps) (el : Elastic ℝ (Fin 6)) (sf : Surface (Fin 6) Q7)
    (iso : ChabIso) (c dc : Fin n → ℝ → ℝ) (gm : Fin n → Gamma) (rec : Fin n → ℝ → ℝ → ℝ)
    (ex : Fin n → ℝ → ℝ) (fl : Fluidity) (m pre : ℝ → ℝ)
    (hc : ∀ i T, 0 ≤ c i T) (hg : ∀ i x T, 0 ≤ (gm i).gamma x T)
    (hr : ∀ i T x, 0 ≤ x → 0 ≤ rec i T x) (hpre : ∀ T, 0 ≤ pre T)
    (heta : ∀ x T, 0 ≤ fl.eta x T) {a0 a1 : CH n → ℝ} (l : List HistStep)
    (hl : ∀ st ∈ l, 0 ≤ st.dt)
    (h : Steps (tvp el (chabocheFlow sf (chabBase eps iso c dc gm rec ex) fl m pre (.inl ()))) a0 l a1)
    (ha : ∀ i, back a0 i = 0) : BackFree a1 := by
  have ha' : BackFree a0 := fun i => by rw [ha i]; simp [tr3]
  clear ha
  induction h with
  | nil => exact ha'
  | cons a0 a1 a2 st l hst _ ih =>
    refine ih (fun st' h' => hl st' (by simp [h'])) ?_
    refine C46_step he el sf iso c dc gm rec ex fl m pre (fun i => hc i _) (fun i x => hg i x _)
      (fun i x => hr i _ x) (hl st (by simp)) ?_ hst ha'
    simp only [chabocheFlow]
    split_ifs with hp
    · have h1 := heta (a1 (.inl ())) st.T
      have h2 : 0 ≤ (sf.f st.s ((chabBase eps iso c dc gm rec ex).q a1 st.T) st.T /
          (√(2 / 3) * fl.eta (a1 (.inl ())) st.T)) ^ m st.T := Real.rpow_nonneg (by positivity) _
      have := hpre st.T
      positivity
    · exact le_rfl

/-- **C46** for the Chaboche rule of the library. -/
theorem C46_chaboche_histories {eps : ℝ} (he : 0 < eps) (b : Bool) (el : Elastic ℝ (Fin 6))
    (sf : Surface (Fin 6) Q7) (iso : Iso) (c dc : Fin n → ℝ → ℝ) (gm : Fin n → Gamma)
    (A ex : Fin n → ℝ → ℝ) (fl : Fluidity) (m pre : ℝ → ℝ)
    (hc : ∀ i T, 0 ≤ c i T) (hg : ∀ i x T, 0 ≤ (gm i).gamma x T) (hA : ∀ i T, 0 ≤ A i T)
    (hpre : ∀ T, 0 ≤ pre T) (heta : ∀ x T, 0 ≤ fl.eta x T) {a0 a1 : CH n → ℝ} (l : List HistStep)
    (hl : ∀ st ∈ l, 0 ≤ st.dt)
    (h : Steps (tvp el (chabocheFlow sf (chaboche b eps iso c dc gm A ex) fl m pre (.inl ()))) a0 l a1)
    (ha : ∀ i, back a0 i = 0) :
    ∀ i, (usym (back a1 i)).trace = 0 := by
  intro i
  have := C46_histories he el sf _ c dc gm _ ex fl m pre hc hg (fun i T x hx => by
    have := hA i T
    have := Real.rpow_nonneg hx (ex i T - 1)
    positivity) hpre heta l hl h ha i
  simp only [tr3] at this
  simp [usym, Matrix.trace, Fin.sum_univ_succ]
  linarith

/-- Concrete case for C46: one backstress, one step of unit length at a uniaxial stress, after which the
backstress is minus half the deviator. -/
example : ∃ a1 : CH 1 → ℝ, a1 (.inr (0, 0)) = -1 ∧
    Steps (tvp ⟨fun _ => 1, fun _ => 1⟩ (chabocheFlow ⟨fun _ _ _ => 1, 0, 0, 0, 0, 0, 0⟩
      (chaboche true 1 (linearIso 0 0) (fun _ _ => 3 / 2 * (√6 / 2)) 0 (fun _ => constantGamma 0) 0 1)
      (constantFluidity fun _ => 1) 0 (fun _ => (√(3 / 2))⁻¹) (.inl ()))) 0
      [⟨![3, 0, 0, 0, 0, 0], 0, 0, 1⟩] a1 := by
  have h6 : √(6 : ℝ) * √6 = 6 := Real.mul_self_sqrt (by norm_num)
  have h32 : √(3 / 2 : ℝ) ≠ 0 := (Real.sqrt_pos.mpr (by norm_num)).ne'
  have h6p : 0 < √(6 : ℝ) := Real.sqrt_pos.mpr (by norm_num)
  refine ⟨Sum.elim (fun _ => √(2 / 3)) (fun p => ![-1, 1 / 2, 1 / 2, 0, 0, 0] p.2), rfl,
    .cons _ _ _ _ _ ?_ (.nil _)⟩
  have heff : effStress (n := 1) ![3, 0, 0, 0, 0, 0]
      (Sum.elim (fun _ => √(2 / 3)) (fun p => ![-1, 1 / 2, 1 / 2, 0, 0, 0] p.2)) =
      ![1, -1 / 2, -1 / 2, 0, 0, 0] := by
    ext j
    fin_cases j <;> simp [effStress, devVec, backstress] <;> norm_num
  have hn : norm2 ![1, -1 / 2, -1 / 2, 0, 0, 0] = √6 / 2 := by
    have hv : (![1, -1 / 2, -1 / 2, 0, 0, 0] : Fin 6 → ℝ) ⬝ᵥ ![1, -1 / 2, -1 / 2, 0, 0, 0] =
        (√6 / 2) * (√6 / 2) := by
      simp [dotProduct, Fin.sum_univ_succ]
      linarith
    rw [norm2, hv, Real.sqrt_mul_self (by linarith)]
  have hle : (1 : ℝ) ≤ norm2 ![1, -1 / 2, -1 / 2, 0, 0, 0] := by
    rw [hn]; nlinarith
  rintro (k | ⟨i, j⟩)
  · simp [tvp, chabocheFlow, chaboche, chabBase, constantFluidity, h32]
  · simp only [tvp, chabocheFlow, chaboche, chabBase, constantFluidity, heff, normalize_of_le hle, hn,
      constantGamma]
    fin_cases j <;> simp [h32] <;> field_simp

/-- **C81** the hardening variables of a Chaboche rule shift the stress by the total backstress. -/
theorem shifted_chab {eps : ℝ} {iso : ChabIso} {c dc : Fin n → ℝ → ℝ} {gm : Fin n → Gamma}
    {rec : Fin n → ℝ → ℝ → ℝ} {ex : Fin n → ℝ → ℝ} (s : Fin 6 → ℝ) (a : CH n → ℝ) (T : ℝ) :
    shifted s ((chabBase eps iso c dc gm rec ex).q a T) = effStress s a ∧
    (Deviatoric ((chabBase eps iso c dc gm rec ex).q a T) ↔ tr3 (backstress a) = 0) :=
  ⟨rfl, Iff.rfl⟩

/-- **C85** a complete Chaboche viscoplastic material, made of the J2 surface, the Chaboche rule, a
fluidity and linear elasticity: the Jacobian the integrator hands to the solver is the Jacobian of
its residual. -/
theorem C85_chaboche_material {eps : ℝ} (he : 0 < eps) (noniso : Bool) (el : Elastic ℝ (Fin 6))
    {iso : Iso} {c dc : Fin n → ℝ → ℝ} {gm : Fin n → Gamma} {A ex : Fin n → ℝ → ℝ} {fl : Fluidity}
    {m pre : ℝ → ℝ} (ts : GITrial ℝ (Fin 6) (CH n)) (x : Fin 6 ⊕ CH n → ℝ) {s : Fin 6 → ℝ}
    {a : CH n → ℝ} (hs : s = fun i => x (.inl i)) (ha : a = fun i => x (.inr i))
    (hi : iso.CorrectAt (a (.inl ())) ts.T) (hg : ∀ i, (gm i).CorrectAt (a (.inl ())) ts.T)
    (hfl : fl.CorrectAt (a (.inl ())) ts.T) (heta : fl.eta (a (.inl ())) ts.T ≠ 0)
    (ht : tr3 (backstress a) = 0) (h0 : eps < norm2 (effStress s a))
    (hX : ∀ i, eps < norm2 (back a i) ∨ (back a i = 0 ∧ 1 ≤ ex i ts.T))
    (hf : norm2 (effStress s a) + √(2 / 3) * iso.q (a (.inl ())) ts.T ≠ 0) :
    let flow := chabocheFlow (isoKinJ2 eps) (chaboche noniso eps iso c dc gm A ex) fl m pre (.inl ())
    IsJacobian (giR (tvp el flow) ts) (giJ (tvp el flow) ts x) x := by
  subst hs ha
  obtain ⟨h1, h2, h3, h4⟩ := C44_chaboche (c := c) (dc := dc) (A := A) he noniso hi hg ht h0 hX
  exact C81_integrator_jacobian el ts x
    (C81_chabocheFlow (C38_gradient he ts.T ht h0) h1 h2 h3 h4 hfl heta hf)

end chab

/-- **C85** a Perzyna material with combined isotropic and kinematic hardening and a power law. -/
theorem C85_perzyna_material {eps : ℝ} (he : 0 < eps) (el : Elastic ℝ (Fin 6)) {iso : Iso}
    {H m eta : ℝ → ℝ} (ts : GITrial ℝ (Fin 6) Q7) (x : Fin 6 ⊕ Q7 → ℝ) {s : Fin 6 → ℝ} {a : Q7 → ℝ}
    (hs : s = fun i => x (.inl i)) (ha : a = fun i => x (.inr i))
    (hi : iso.CorrectAt (a (.inl ())) ts.T) (heta : eta ts.T ≠ 0) (ht : Deviatoric a)
    (h0 : eps < norm2 fun j => devVec s j - H ts.T * a (.inr j))
    (hf : norm2 (fun j => devVec s j - H ts.T * a (.inr j)) + √(2 / 3) * iso.q (a (.inl ())) ts.T ≠ 0) :
    let flow := perzyna (isoKinJ2 eps) (combinedHardening iso (linearKin H)) (gPowerLaw m eta)
    IsJacobian (giR (tvp el flow) ts) (giJ (tvp el flow) ts x) x := by
  subst hs ha
  have hsh : shifted (fun i => x (.inl i))
      ((combinedHardening iso (linearKin H)).q (fun i => x (.inr i)) ts.T) =
      fun j => devVec (fun i => x (.inl i)) j - H ts.T * x (.inr (.inr j)) := by
    ext j
    simp only [shifted, combinedHardening, linearKin, Sum.elim_inr]
    ring
  have hq : Deviatoric ((combinedHardening iso (linearKin H)).q (fun i => x (.inr i)) ts.T) := by
    simp only [Deviatoric, combinedHardening, linearKin, Sum.elim_inr, tr3] at ht ⊢
    linear_combination (-H ts.T) * ht
  have hfv : (isoKinJ2 eps).f (fun i => x (.inl i))
      ((combinedHardening iso (linearKin H)).q (fun i => x (.inr i)) ts.T) ts.T ≠ 0 := by
    simp only [isoKinJ2, hsh]
    exact hf
  exact C81_integrator_jacobian el ts x (C81_perzyna (C38_gradient he ts.T hq (by rwa [hsh]))
    (C44_combined hi (C44_linearKin H _ _)) hfv fun hp => C81_gPowerLaw m eta ts.T hp heta)

/-- **C85** a rate independent material with Voce hardening and associative flow. -/
theorem C85_rate_independent_material {eps : ℝ} (he : 0 < eps) (s0 R d : ℝ → ℝ)
    (ts : RITrial ℝ (Fin 6) Unit) (x : RIx (Fin 6) Unit → ℝ)
    (h0 : eps < norm2 (devVec fun i => x (.inl i))) :
    let flow := associative (isoJ2 eps) (voceIso s0 R d).toHardening
    IsJacobian (riR flow ts) (riJ flow ts x) x :=
  C74_rate_independent _ ts x (C81_associative (C38_isotropic he _ ts.T h0)
    (Iso.toHardening_correct (C44_voce s0 R d _ _))).correctAt

end Neml.Flow
