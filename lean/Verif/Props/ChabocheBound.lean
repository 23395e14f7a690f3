import Verif.Props.Hardening
import Verif.Props.Contract

/-!
# C196: limits of the Chaboche models

A backstress with constants `C` and `γ` saturates at the equivalent stress `C / γ`. `K i` below is a bound on that
ratio, `√(3/2) ‖X‖` the equivalent stress of a backstress.
-/

namespace Neml.Flow

open Matrix Neml.Mandel Neml.SmallStrain Neml.SolveStep

variable {n : Nat}

theorem norm2_normalize_le (eps : ℝ) (v : Fin 6 → ℝ) : norm2 (normalize eps v) ≤ 1 := by
  unfold normalize
  split_ifs with h
  · simp [norm2]
  · have e : (fun i => v i / norm2 v) = (norm2 v)⁻¹ • v := by ext i; simp [div_eq_inv_mul]
    rw [e, norm2_smul, abs_of_nonneg (inv_nonneg.mpr (norm2_nonneg v))]
    exact inv_mul_le_one_of_le₀ le_rfl (norm2_nonneg v)

theorem norm2_sum_le {α : Type} (s : Finset α) (v : α → Fin 6 → ℝ) : norm2 (∑ i ∈ s, v i) ≤ ∑ i ∈ s, norm2 (v i) := by
  classical
  induction s using Finset.induction_on with
  | empty => simp [norm2]
  | insert a s ha ih =>
    rw [Finset.sum_insert ha, Finset.sum_insert ha]
    exact (norm2_add_le _ _).trans (by linarith)

theorem root_prod : √(3 / 2 : ℝ) * (2 / 3) = √(2 / 3) := by
  have h : √(3 / 2 : ℝ) * √(2 / 3) = 1 := by
    rw [← Real.sqrt_mul (by norm_num)]; norm_num
  have h2 : √(2 / 3 : ℝ) * √(2 / 3) = 2 / 3 := Real.mul_self_sqrt (by norm_num)
  calc √(3 / 2 : ℝ) * (2 / 3) = √(3 / 2) * √(2 / 3) * √(2 / 3) := by rw [mul_assoc, h2]
    _ = _ := by rw [h, one_mul]

/-- One implicit step of one backstress: what is above the limit before and the error of the step are all that can be
above the limit afterwards. -/
theorem back_step {X0 X1 m r : Fin 6 → ℝ} {a c g w K d tau : ℝ} (ha : 0 ≤ a) (hc : 0 ≤ c) (hg : 0 ≤ g) (hw : 0 ≤ w)
    (hK : 0 ≤ K) (hd : 0 ≤ d) (hcg : c ≤ g * K) (hm : norm2 m ≤ 1) (hr : norm2 r ≤ tau)
    (h : X1 = X0 + a • (-(2 / 3 * c) • m - (√(2 / 3) * g) • X1) - w • X1 + r)
    (h0 : √(3 / 2) * norm2 X0 ≤ K + d) : √(3 / 2) * norm2 X1 ≤ K + d + √(3 / 2) * tau := by
  have hs : (0 : ℝ) ≤ √(2 / 3) := Real.sqrt_nonneg _
  have hs' : (0 : ℝ) ≤ √(3 / 2) := Real.sqrt_nonneg _
  have ht : 0 ≤ tau := (norm2_nonneg r).trans hr
  have e : (1 + a * (√(2 / 3) * g) + w) • X1 = X0 + ((-(a * (2 / 3 * c))) • m + r) := by
    ext j
    have := congrFun h j
    simp only [Pi.add_apply, Pi.sub_apply, Pi.smul_apply, smul_eq_mul] at this ⊢
    linear_combination this
  have hf : 0 ≤ 1 + a * (√(2 / 3) * g) + w := by positivity
  have e2 := congrArg norm2 e
  rw [norm2_smul, abs_of_nonneg hf] at e2
  have h1 := norm2_add_le X0 ((-(a * (2 / 3 * c))) • m + r)
  have h2 := norm2_add_le ((-(a * (2 / 3 * c))) • m) r
  rw [norm2_smul, abs_neg, abs_of_nonneg (by positivity)] at h2
  have h3 : a * (2 / 3 * c) * norm2 m ≤ a * (2 / 3 * c) := mul_le_of_le_one_right (by positivity) hm
  have h4 : (1 + a * (√(2 / 3) * g) + w) * norm2 X1 ≤ norm2 X0 + a * (2 / 3 * c) + tau := by linarith
  have h5 := mul_le_mul_of_nonneg_left h4 hs'
  have h6 : √(3 / 2) * (a * (2 / 3 * c)) ≤ a * (√(2 / 3) * g) * K := by
    have : a * √(2 / 3) * c ≤ a * √(2 / 3) * (g * K) := mul_le_mul_of_nonneg_left hcg (by positivity)
    calc √(3 / 2) * (a * (2 / 3 * c)) = a * (√(3 / 2) * (2 / 3)) * c := by ring
      _ ≤ _ := by rw [root_prod]; linarith
  have h7 : (1 + a * (√(2 / 3) * g) + w) * (√(3 / 2) * norm2 X1) ≤
      (1 + a * (√(2 / 3) * g) + w) * (K + d + √(3 / 2) * tau) := by
    have p1 : 0 ≤ a * (√(2 / 3) * g) * (d + √(3 / 2) * tau) := by positivity
    have p2 : 0 ≤ w * (K + d + √(3 / 2) * tau) := by positivity
    nlinarith
  exact le_of_mul_le_mul_left h7 (by positivity)

/-! ## Points the solver accepts -/

/-- The residual of an accepted point is below the absolute tolerance, or the relative one times the residual of the
first guess. -/
theorem solveGuarded_resid {P : Type} {N : Nat} [Fintype P] {ok : (P → ℝ) → Prop} {e : P ≃ Fin N} {init : P → ℝ} {R J lin}
    {p : Newton.Params} {fuel : Nat} {z Jz} (hm : 1 ≤ p.miter)
    (h : solveGuarded ok e init R J lin p fuel = some (z, Jz)) :
    ok z ∧ √(∑ a, R z a * R z a) ≤ max p.atol (p.rtol * √(∑ a, R init a * R init a)) := by
  have fl : ∀ v : P → ℝ, Newton.norm2 (fun i => v (e.symm i)) = √(∑ a, v a * v a) := fun v => by
    unfold Newton.norm2
    congr 1
    exact Fintype.sum_equiv e.symm _ _ fun j => rfl
  unfold solveGuarded at h
  split at h
  · rename_i it hn
    obtain ⟨R0, J0, h0, h1, h2⟩ := Newton.C17_converged hm fuel it hn
    simp only [guarded] at h0 h1
    have hi : (fun a => init (e.symm (e a))) = init := by ext a; simp
    rw [hi] at h0
    split_ifs at h0 h1 with hb ha
    simp only [Option.some.injEq, Prod.mk.injEq] at h h0 h1
    rw [← h.1]
    refine ⟨ha, ?_⟩
    rw [← h1.1, ← h0.1, fl, fl] at h2
    rcases h2 with h2 | h2
    · exact h2.le.trans (le_max_left _ _)
    · exact h2.le.trans (le_max_right _ _)
  · simp at h

theorem solveWith_resid {P : Type} {N : Nat} [Fintype P] {e : P ≃ Fin N} {init : P → ℝ} {R J lin}
    {p : Newton.Params} {fuel : Nat} {z Jz} (hm : 1 ≤ p.miter)
    (h : solveWith e init R J lin p fuel = some (z, Jz)) :
    √(∑ a, R z a * R z a) ≤ max p.atol (p.rtol * √(∑ a, R init a * R init a)) := by
  have fl : ∀ v : P → ℝ, Newton.norm2 (fun i => v (e.symm i)) = √(∑ a, v a * v a) := fun v => by
    unfold Newton.norm2
    congr 1
    exact Fintype.sum_equiv e.symm _ _ fun j => rfl
  unfold solveWith at h
  split at h
  · rename_i it hn
    obtain ⟨R0, J0, h0, h1, h2⟩ := Newton.C17_converged hm fuel it hn
    simp only [system] at h0 h1
    have hi : (fun a => init (e.symm (e a))) = init := by ext a; simp
    rw [hi] at h0
    simp only [Option.some.injEq, Prod.mk.injEq] at h h0 h1
    rw [← h.1]
    rw [← h1.1, ← h0.1, fl, fl] at h2
    rcases h2 with h2 | h2
    · exact h2.le.trans (le_max_left _ _)
    · exact h2.le.trans (le_max_right _ _)
  · simp at h

/-- What a step returns: after an elastic step the old history, otherwise what the solver found. -/
theorem updateStep_cases {H P τ : Type} [Fintype P] [DecidableEq P] {m : Integrator ℝ (Fin 6) H P τ} {x e1 T1 t1 inc}
    (h : updateStep m x e1 T1 t1 = some inc) :
    m.elasticStep (m.setup x e1 T1 t1) x e1 T1 t1 ∧ inc.h = x.h ∨
    ¬ m.elasticStep (m.setup x e1 T1 t1) x e1 T1 t1 ∧ ∃ z J, m.solve (m.setup x e1 T1 t1) = some (z, J) ∧
      inc.s = (m.internal z).1 ∧ inc.h = (m.internal z).2 := by
  unfold updateStep at h
  simp only at h
  by_cases he : m.elasticStep (m.setup x e1 T1 t1) x e1 T1 t1
  · rw [if_pos he] at h
    left
    exact ⟨he, by rw [← Option.some.inj h]⟩
  · rw [if_neg he] at h
    right
    refine ⟨he, ?_⟩
    split at h
    · simp at h
    rename_i z J hz
    split at h
    · simp at h
    exact ⟨z, J, hz, by rw [← Option.some.inj h], by rw [← Option.some.inj h]⟩

theorem back_resid (R : CH n → ℝ) (i : Fin n) : norm2 (back R i) ≤ √(∑ a, R a * R a) := by
  unfold norm2
  apply Real.sqrt_le_sqrt
  rw [Fintype.sum_sum_type, Fintype.sum_prod_type]
  have h1 : back R i ⬝ᵥ back R i = ∑ j, R (.inr (i, j)) * R (.inr (i, j)) := rfl
  rw [h1]
  have h2 := Finset.single_le_sum (f := fun i => ∑ j, R (.inr (i, j)) * R (.inr (i, j)))
    (fun i _ => Finset.sum_nonneg fun j _ => mul_self_nonneg _) (Finset.mem_univ i)
  have h3 : 0 ≤ ∑ u : Unit, R (.inl u) * R (.inl u) := Finset.sum_nonneg fun u _ => mul_self_nonneg _
  linarith

/-! ## The viscoplastic model -/

/-- The constants of a Chaboche rule at a temperature: not negative, and `K i` a bound on `C / γ`. -/
structure Sat (c : Fin n → ℝ → ℝ) (gm : Fin n → Gamma) (rec : Fin n → ℝ → ℝ → ℝ) (K : Fin n → ℝ) (T : ℝ) : Prop where
  hc : ∀ i, 0 ≤ c i T
  g : ∀ i x, 0 ≤ (gm i).gamma x T
  r : ∀ i x, 0 ≤ x → 0 ≤ rec i T x
  k : ∀ i, 0 ≤ K i
  sat : ∀ i x, c i T ≤ (gm i).gamma x T * K i

/-- State of a material point with a Chaboche history. -/
abbrev ChState (n : Nat) := Substep.Point ℝ (Fin 6 → ℝ) (Fin 6 → ℝ) (CH n → ℝ)

section visco

variable {N : Nat} {k : CH n ≃ Fin N} {el : Elastic ℝ (Fin 6)} {sf : Surface (Fin 6) Q7} {eps : ℝ} {iso : ChabIso}
  {c dc : Fin n → ℝ → ℝ} {gm : Fin n → Gamma} {rec : Fin n → ℝ → ℝ → ℝ} {ex : Fin n → ℝ → ℝ} {fl : Fluidity}
  {m pre : ℝ → ℝ} {limit tiny : ℝ}
  {lin : Matrix (Fin (6 + N)) (Fin (6 + N)) ℝ → (Fin (6 + N) → ℝ) → Option (Fin (6 + N) → ℝ)} {p : Newton.Params}
  {fuel : Nat} {inv : Matrix (Fin 6 ⊕ CH n) (Fin 6 ⊕ CH n) ℝ → Option (Matrix (Fin 6 ⊕ CH n) (Fin 6 ⊕ CH n) ℝ)}

theorem chabocheFlow_nonneg {hd : NonAssoc (Fin 6) (CH n) Q7} {T : ℝ} (hpre : 0 ≤ pre T) (heta : ∀ x, 0 ≤ fl.eta x T)
    (s a) : 0 ≤ (chabocheFlow sf hd fl m pre (.inl ())).y s a T := by
  simp only [chabocheFlow]
  split_ifs with h
  · have h1 := heta (a (.inl ()))
    have h2 : 0 ≤ (sf.f s (hd.q a T) T / (√(2 / 3) * fl.eta (a (.inl ())) T)) ^ m T :=
      Real.rpow_nonneg (by positivity) _
    positivity
  · exact le_rfl

/-- The size of the residual of the first guess of a step. -/
noncomputable def firstResid (el : Elastic ℝ (Fin 6)) (vf : Visco (Fin 6) (CH n)) (x : ChState n) (e1 : Fin 6 → ℝ)
    (T1 t1 : ℝ) : ℝ :=
  √(∑ a, giR (tvp el vf) (giTrial x e1 T1 t1) (giInit el (giTrial x e1 T1 t1)) a *
    giR (tvp el vf) (giTrial x e1 T1 t1) (giInit el (giTrial x e1 T1 t1)) a)

/-- **C196** one step of the viscoplastic Chaboche model as the code takes it: whatever the strain, a backstress comes
above its saturation value by no more than it was before plus the tolerance. The temperature is constant, or `C` does
not depend on it. -/
theorem C196_step (hm : 1 ≤ p.miter) (htiny : 0 < tiny) {x : ChState n} {e1 : Fin 6 → ℝ} {T1 t1 : ℝ} {inc}
    {K : Fin n → ℝ} (hs : Sat c gm rec K T1) (hpre : 0 ≤ pre T1) (heta : ∀ x, 0 ≤ fl.eta x T1)
    (hT : T1 = x.T ∨ ∀ i, dc i T1 = 0)
    (h : updateStep (viscoPlastic k el (chabocheFlow sf (chabBase eps iso c dc gm rec ex) fl m pre (.inl ())) limit tiny
      lin p fuel inv) x e1 T1 t1 = some inc) {tau d : ℝ} (hd : 0 ≤ d) (htau0 : 0 ≤ tau)
    (htau : max p.atol (p.rtol * firstResid el (chabocheFlow sf (chabBase eps iso c dc gm rec ex) fl m pre (.inl ()))
      x e1 T1 t1) ≤ tau)
    (h0 : ∀ i, √(3 / 2) * norm2 (back x.h i) ≤ K i + d) :
    ∀ i, √(3 / 2) * norm2 (back inc.h i) ≤ K i + d + √(3 / 2) * tau := by
  intro i
  have hK := hs.k i
  have hsq : (0 : ℝ) ≤ √(3 / 2) := Real.sqrt_nonneg _
  rcases updateStep_cases h with ⟨-, hh⟩ | ⟨he, z, Jz, hz, -, hh⟩
  · rw [hh]
    have := h0 i
    have : 0 ≤ √(3 / 2) * tau := by positivity
    linarith
  · rw [show inc.h = fun i => z (.inr i) from hh]
    obtain ⟨-, hr⟩ := solveGuarded_resid hm hz
    replace hr := hr.trans htau
    have hdt : 0 < t1 - x.t := lt_of_lt_of_le htiny (not_lt.mp he)
    obtain ⟨ts, hts⟩ : ∃ ts, ts = giTrial x e1 T1 t1 := ⟨_, rfl⟩
    have t1' : ts.T = T1 := by rw [hts]; simp [giTrial, hdt]
    have t2' : ts.dt = t1 - x.t := by rw [hts]; simp [giTrial, hdt]
    have t3' : ts.Tdot = (T1 - x.T) / (t1 - x.t) := by rw [hts]; simp [giTrial, hdt]
    have t4' : ts.h0 = x.h := by rw [hts]; simp [giTrial, hdt]
    change √(∑ a, giR _ (giTrial x e1 T1 t1) z a * giR _ (giTrial x e1 T1 t1) z a) ≤ tau at hr
    rw [← hts] at hr
    obtain ⟨y, hy⟩ : ∃ y, y = (chabocheFlow sf (chabBase eps iso c dc gm rec ex) fl m pre (.inl ())).y
      (fun i => z (.inl i)) (fun i => z (.inr i)) T1 := ⟨_, rfl⟩
    have hy0 : 0 ≤ y := hy ▸ chabocheFlow_nonneg hpre heta _ _
    obtain ⟨R, hR⟩ : ∃ R, R = giR (tvp el (chabocheFlow sf (chabBase eps iso c dc gm rec ex) fl m pre (.inl ()))) ts z :=
      ⟨_, rfl⟩
    rw [← hR] at hr
    have hRi : norm2 (back (fun a => R (.inr a)) i) ≤ tau := by
      refine (back_resid _ i).trans (le_trans (Real.sqrt_le_sqrt ?_) hr)
      rw [Fintype.sum_sum_type (f := fun a => R a * R a)]
      have : 0 ≤ ∑ a : Fin 6, R (.inl a) * R (.inl a) := Finset.sum_nonneg fun u _ => mul_self_nonneg _
      linarith
    refine back_step (X0 := back x.h i) (X1 := back (fun a => z (.inr a)) i)
      (m := normalize eps (effStress (fun i => z (.inl i)) fun a => z (.inr a)))
      (r := back (fun a => R (.inr a)) i) (a := (t1 - x.t) * y) (c := c i T1) (g := (gm i).gamma (z (.inr (.inl ()))) T1)
      (w := (t1 - x.t) * rec i T1 (norm2 (back (fun a => z (.inr a)) i))) (K := K i) (d := d)
      (by positivity) (hs.hc i) (hs.g i _) (mul_nonneg hdt.le (hs.r i _ (norm2_nonneg _))) hK hd (hs.sat i _)
      (norm2_normalize_le _ _) hRi ?_ (h0 i)
    ext j
    have e := congrFun hR (.inr (.inr (i, j)))
    simp only [giR, Sum.elim_inr, t1', t2', t3', t4'] at e
    simp only [tvp] at e
    rw [← hy] at e
    have htemp : (chabBase eps iso c dc gm rec ex).h_temp.v (fun i => z (.inl i)) (fun i => z (.inr i)) T1 (.inr (i, j)) *
        ((T1 - x.T) / (t1 - x.t)) = 0 := by
      rcases hT with hT | hT
      · rw [hT]; simp
      · simp [chabBase, hT i]
    have hh : (chabocheFlow sf (chabBase eps iso c dc gm rec ex) fl m pre (.inl ())).h_temp =
      (chabBase eps iso c dc gm rec ex).h_temp := rfl
    rw [hh, htemp] at e
    simp only [chabocheFlow, chabBase, Sum.elim_inr] at e
    simp only [back, Pi.add_apply, Pi.sub_apply, Pi.smul_apply, smul_eq_mul] at e ⊢
    linear_combination -e

/-- A step as the code takes it to a strain, temperature and time, with a tolerance of at most `tau`. -/
def ChabSteps (k : CH n ≃ Fin N) (el : Elastic ℝ (Fin 6)) (vf : Visco (Fin 6) (CH n)) (limit tiny : ℝ)
    (lin : Matrix (Fin (6 + N)) (Fin (6 + N)) ℝ → (Fin (6 + N) → ℝ) → Option (Fin (6 + N) → ℝ)) (p : Newton.Params)
    (fuel : Nat) (inv : Matrix (Fin 6 ⊕ CH n) (Fin 6 ⊕ CH n) ℝ → Option (Matrix (Fin 6 ⊕ CH n) (Fin 6 ⊕ CH n) ℝ))
    (tau : ℝ) (x : ChState n) (i : (Fin 6 → ℝ) × ℝ × ℝ) (y : ChState n) : Prop :=
  ∃ inc, updateStep (viscoPlastic k el vf limit tiny lin p fuel inv) x i.1 i.2.1 i.2.2 = some inc ∧ y.s = inc.s ∧
    y.h = inc.h ∧ y.e = i.1 ∧ y.T = i.2.1 ∧ y.t = i.2.2 ∧
    max p.atol (p.rtol * firstResid el vf x i.1 i.2.1 i.2.2) ≤ tau

/-- **C196** over whole histories of strains and times: a backstress that starts within its saturation value never
comes above it by more than the tolerance for each step. -/
theorem C196_history (hm : 1 ≤ p.miter) (htiny : 0 < tiny) {K : Fin n → ℝ} {T : ℝ} (hs : Sat c gm rec K T)
    (hpre : 0 ≤ pre T) (heta : ∀ x, 0 ≤ fl.eta x T) {tau : ℝ} (htau : 0 ≤ tau) (l : List ((Fin 6 → ℝ) × ℝ × ℝ))
    (hl : ∀ i ∈ l, i.2.1 = T) {x y : ChState n} (hx : x.T = T) {d : ℝ} (hd : 0 ≤ d)
    (h0 : ∀ i, √(3 / 2) * norm2 (back x.h i) ≤ K i + d)
    (h : Along (ChabSteps k el (chabocheFlow sf (chabBase eps iso c dc gm rec ex) fl m pre (.inl ())) limit tiny lin p
      fuel inv tau) x l y) :
    ∀ i, √(3 / 2) * norm2 (back y.h i) ≤ K i + d + l.length * (√(3 / 2) * tau) := by
  induction l generalizing x d with
  | nil =>
    intro i
    rw [show y = x from h]
    simpa using h0 i
  | cons a l ih =>
    obtain ⟨w, ⟨inc, hu, -, hh, -, hT, -, ht⟩, h⟩ := h
    have ha : a.2.1 = T := hl a (by simp)
    have h1 := C196_step (K := K) hm htiny (by rw [ha]; exact hs) (by rw [ha]; exact hpre) (by rw [ha]; exact heta)
      (Or.inl (by rw [ha, hx])) hu hd htau ht h0
    have h2 := ih (x := w) (d := d + √(3 / 2) * tau) (fun i hi => hl i (by simp [hi])) (by rw [hT, ha]) (by positivity)
      (fun i => by rw [hh]; linarith [h1 i]) h
    intro i
    have := h2 i
    rw [List.length_cons]
    push_cast
    linarith

end visco

/-! ## The stress -/

/-- **C196** the equivalent stress is no more than the yield stress, plus the equivalent backstresses, plus what the
stress is outside the surface. -/
theorem C196_stress (eps : ℝ) (hd : NonAssoc (Fin 6) (CH n) Q7) (hq : ∀ a T j, hd.q a T (.inr j) = backstress a j)
    (s : Fin 6 → ℝ) (a : CH n → ℝ) (T : ℝ) :
    √(3 / 2) * norm2 (devVec s) ≤ -hd.q a T (.inl ()) + ∑ i, √(3 / 2) * norm2 (back a i) +
      √(3 / 2) * (isoKinJ2 eps).f s (hd.q a T) T := by
  have hsq : (0 : ℝ) ≤ √(3 / 2) := Real.sqrt_nonneg _
  have h1 : shifted s (hd.q a T) = devVec s + ∑ i, back a i := by
    ext j
    simp [shifted, hq, backstress, back]
  have h2 : devVec s = shifted s (hd.q a T) + (-1 : ℝ) • ∑ i, back a i := by rw [h1]; simp
  have h3 := norm2_add_le (shifted s (hd.q a T)) ((-1 : ℝ) • ∑ i, back a i)
  rw [← h2, norm2_smul] at h3
  have h4 := norm2_sum_le Finset.univ (back a)
  have h5 : (isoKinJ2 eps).f s (hd.q a T) T = norm2 (shifted s (hd.q a T)) + √(2 / 3) * hd.q a T (.inl ()) := rfl
  have h6 : √(3 / 2 : ℝ) * √(2 / 3) = 1 := by
    rw [← Real.sqrt_mul (by norm_num)]; norm_num
  rw [h5, ← Finset.mul_sum, mul_add, ← mul_assoc, h6, one_mul]
  have h7 : norm2 (devVec s) ≤ norm2 (shifted s (hd.q a T)) + ∑ i, norm2 (back a i) := by
    simp only [abs_neg, abs_one, one_mul] at h3
    linarith
  have := mul_le_mul_of_nonneg_left h7 hsq
  linarith

/-- **C196** the flow stress of the viscoplastic model: where the material flows at the rate `y` the stress is outside
the surface by exactly the drag stress times a power of the rate, and a point at rest is not outside. -/
theorem C196_overstress {sf : Surface (Fin 6) Q7} {hd : NonAssoc (Fin 6) (CH n) Q7} {fl : Fluidity} {m pre : ℝ → ℝ}
    {s : Fin 6 → ℝ} {a : CH n → ℝ} {T : ℝ} (hpre : 0 < pre T) (heta : 0 < fl.eta (a (.inl ())) T) (hm : 0 < m T) :
    √(3 / 2) * max 0 (sf.f s (hd.q a T) T) = fl.eta (a (.inl ())) T *
      ((chabocheFlow sf hd fl m pre (.inl ())).y s a T / (√(3 / 2) * pre T)) ^ (1 / m T) := by
  have hs : (0 : ℝ) < √(3 / 2) := Real.sqrt_pos.mpr (by norm_num)
  have hs' : (0 : ℝ) < √(2 / 3) := Real.sqrt_pos.mpr (by norm_num)
  have h6 : √(3 / 2 : ℝ) * √(2 / 3) = 1 := by
    rw [← Real.sqrt_mul (by norm_num)]; norm_num
  simp only [chabocheFlow]
  split_ifs with h
  · have h1 : √(3 / 2) * (sf.f s (hd.q a T) T / (√(2 / 3) * fl.eta (a (.inl ())) T)) ^ m T * pre T /
        (√(3 / 2) * pre T) = (sf.f s (hd.q a T) T / (√(2 / 3) * fl.eta (a (.inl ())) T)) ^ m T := by
      field_simp
    rw [h1, one_div, Real.rpow_rpow_inv (by positivity) hm.ne', max_eq_right h.le]
    rw [mul_div_assoc', eq_div_iff (by positivity)]
    linear_combination (fl.eta (a (.inl ())) T * sf.f s (hd.q a T) T) * h6
  · rw [max_eq_left (not_lt.mp h), zero_div, Real.zero_rpow (by positivity)]
    simp

/-! ## The rate independent model -/

section plastic

variable {N : Nat} {k : CH n ≃ Fin N} {el : Elastic ℝ (Fin 6)} {sf : Surface (Fin 6) Q7} {eps : ℝ} {iso : Iso} {b : Bool}
  {c dc : Fin n → ℝ → ℝ} {gm : Fin n → Gamma} {A ex : Fin n → ℝ → ℝ}
  {lin : Matrix (Fin (6 + (N + 1))) (Fin (6 + (N + 1))) ℝ → (Fin (6 + (N + 1)) → ℝ) →
      Option (Fin (6 + (N + 1)) → ℝ)} {p : Newton.Params} {fuel : Nat}
  {inv : Matrix (RIx (Fin 6) (CH n)) (RIx (Fin 6) (CH n)) ℝ → Option (Matrix (RIx (Fin 6) (CH n)) (RIx (Fin 6) (CH n)) ℝ)}

/-- The size of the residual of the first guess of a rate independent step. -/
noncomputable def firstResidRI (el : Elastic ℝ (Fin 6)) (f : RIFlow ℝ (Fin 6) (CH n)) (x : ChState n) (e1 : Fin 6 → ℝ)
    (T1 : ℝ) : ℝ :=
  √(∑ a, riR f (riTrial el x e1 T1) (riInit (riTrial el x e1 T1)) a *
    riR f (riTrial el x e1 T1) (riInit (riTrial el x e1 T1)) a)

/-- **C196** one step of the rate independent Chaboche model as the code takes it, at any temperature: either the history
does not change, or the plastic strain changes by the multiplier of the step, but for the tolerance, the new stress is
within the tolerance of the new surface, and if the multiplier is not negative each backstress comes above its
saturation value by no more than it was before plus the tolerance. -/
theorem C196_plastic (hm : 1 ≤ p.miter) {x : ChState n} {e1 : Fin 6 → ℝ} {T1 t1 : ℝ} {inc} {K : Fin n → ℝ}
    (hs : Sat c gm (fun _ _ _ => 0) K T1)
    (h : updateStep (rateIndep k el (nonAssociative sf (chaboche b eps iso c dc gm A ex)) lin p fuel inv) x e1 T1 t1 =
      some inc) {tau d : ℝ} (hd : 0 ≤ d)
    (htau : max p.atol (p.rtol * firstResidRI el (nonAssociative sf (chaboche b eps iso c dc gm A ex)) x e1 T1) ≤ tau)
    (h0 : ∀ i, √(3 / 2) * norm2 (back x.h i) ≤ K i + d) :
    inc.h = x.h ∨ ∃ dg, |inc.h (.inl ()) - x.h (.inl ()) - √(2 / 3) * dg| ≤ tau ∧
      |sf.f inc.s ((chaboche b eps iso c dc gm A ex).q inc.h T1) T1| ≤ tau ∧
      (0 ≤ dg → ∀ i, √(3 / 2) * norm2 (back inc.h i) ≤ K i + d + √(3 / 2) * tau) := by
  rcases updateStep_cases h with ⟨-, hh⟩ | ⟨he, z, Jz, hz, hS, hh⟩
  · exact Or.inl hh
  · right
    rw [show inc.h = fun i => z (.inr (.inl i)) from hh, show inc.s = fun i => z (.inl i) from hS]
    have hr := (solveWith_resid hm hz).trans htau
    obtain ⟨ts, hts⟩ : ∃ ts, ts = riTrial el x e1 T1 := ⟨_, rfl⟩
    have t1' : ts.T = T1 := by rw [hts]; rfl
    have t4' : ts.h = x.h := by rw [hts]; rfl
    change √(∑ a, riR _ (riTrial el x e1 T1) z a * riR _ (riTrial el x e1 T1) z a) ≤ tau at hr
    rw [← hts] at hr
    obtain ⟨R, hR⟩ : ∃ R, R = riR (nonAssociative sf (chaboche b eps iso c dc gm A ex)) ts z := ⟨_, rfl⟩
    rw [← hR] at hr
    have hone : ∀ a, |R a| ≤ tau := by
      intro a
      refine le_trans ?_ hr
      rw [← Real.sqrt_mul_self_eq_abs]
      exact Real.sqrt_le_sqrt (Finset.single_le_sum (f := fun a => R a * R a) (fun a _ => mul_self_nonneg _)
        (Finset.mem_univ a))
    refine ⟨z (.inr (.inr ())), ?_, ?_, fun hdg i => ?_⟩
    · have e := congrFun hR (.inr (.inl (.inl ())))
      simp only [riR, Sum.elim_inr, Sum.elim_inl, t1', t4', nonAssociative, chaboche, chabBase] at e
      rw [← e]
      exact hone _
    · have e := congrFun hR (.inr (.inr ()))
      simp only [riR, Sum.elim_inr, t1', nonAssociative] at e
      rw [← e]
      exact hone _
    · have hRi : norm2 (back (fun a => R (.inr (.inl a))) i) ≤ tau := by
        refine (back_resid _ i).trans (le_trans (Real.sqrt_le_sqrt ?_) hr)
        rw [Fintype.sum_sum_type (f := fun a => R a * R a), Fintype.sum_sum_type (f := fun a => R (.inr a) * R (.inr a))]
        have h1 : 0 ≤ ∑ a : Fin 6, R (.inl a) * R (.inl a) := Finset.sum_nonneg fun u _ => mul_self_nonneg _
        have h2 : 0 ≤ ∑ a : Unit, R (.inr (.inr a)) * R (.inr (.inr a)) := Finset.sum_nonneg fun u _ => mul_self_nonneg _
        linarith
      refine back_step (X0 := back x.h i) (X1 := back (fun a => z (.inr (.inl a))) i)
        (m := normalize eps (effStress (fun i => z (.inl i)) fun a => z (.inr (.inl a))))
        (r := back (fun a => R (.inr (.inl a))) i) (a := z (.inr (.inr ()))) (c := c i T1)
        (g := (gm i).gamma (z (.inr (.inl (.inl ())))) T1) (w := 0) (K := K i) (d := d)
        hdg (hs.hc i) (hs.g i _) le_rfl (hs.k i) hd (hs.sat i _) (norm2_normalize_le _ _) hRi ?_ (h0 i)
      ext j
      have e := congrFun hR (.inr (.inl (.inr (i, j))))
      simp only [riR, Sum.elim_inr, Sum.elim_inl, t1', t4', nonAssociative, chaboche, chabBase] at e
      simp only [back, Pi.add_apply, Pi.sub_apply, Pi.smul_apply, smul_eq_mul] at e ⊢
      linear_combination -e

end plastic

/-! ## Saturation -/

/-- A sequence of implicit steps with the multipliers in the list, straining in the direction `m`, at one temperature,
without recovery. -/
def Strains (c g : ℝ) (m : Fin 6 → ℝ) : (Fin 6 → ℝ) → List ℝ → (Fin 6 → ℝ) → Prop :=
  Along fun X a Y => Y = X + a • (-(2 / 3 * c) • m - (√(2 / 3) * g) • Y)

/-- **C196** straining in one direction brings a backstress to its saturation value `C / γ` in that direction: after the
plastic strain `q` the distance has shrunk at least to its `1 / (1 + γ q)`-th part and not below `exp (-γ q)`, which is
the exact law. -/
theorem C196_saturates {c g : ℝ} (hg : 0 < g) (m : Fin 6 → ℝ) (l : List ℝ) (hl : ∀ a ∈ l, 0 ≤ a) {X Y : Fin 6 → ℝ}
    (h : Strains c g m X l Y) :
    norm2 (Y + (√(2 / 3) * c / g) • m) * (1 + g * (√(2 / 3) * l.sum)) ≤ norm2 (X + (√(2 / 3) * c / g) • m) ∧
    norm2 (X + (√(2 / 3) * c / g) • m) * Real.exp (-(g * (√(2 / 3) * l.sum))) ≤
      norm2 (Y + (√(2 / 3) * c / g) • m) := by
  have hs : (0 : ℝ) ≤ √(2 / 3) := Real.sqrt_nonneg _
  have h2 : √(2 / 3 : ℝ) * √(2 / 3) = 2 / 3 := Real.mul_self_sqrt (by norm_num)
  induction l generalizing X with
  | nil =>
    rw [show Y = X from h]
    simp
  | cons a l ih =>
    obtain ⟨W, hW, h⟩ := h
    have ha := hl a (by simp)
    have hsum : 0 ≤ l.sum := List.sum_nonneg fun b hb => hl b (by simp [hb])
    obtain ⟨h3, h4⟩ := ih (fun b hb => hl b (by simp [hb])) h
    have e : (1 + g * (√(2 / 3) * a)) • (W + (√(2 / 3) * c / g) • m) = X + (√(2 / 3) * c / g) • m := by
      ext j
      have := congrFun hW j
      simp only [Pi.add_apply, Pi.sub_apply, Pi.smul_apply, smul_eq_mul] at this ⊢
      have hg' : √(2 / 3) * c / g * g = √(2 / 3) * c := by field_simp
      linear_combination this + (√(2 / 3) * a * m j) * hg' + (a * c * m j) * h2
    have e2 := congrArg norm2 e
    have hp : 0 ≤ g * (√(2 / 3) * a) := by positivity
    rw [norm2_smul, abs_of_nonneg (by positivity)] at e2
    have hn := norm2_nonneg (W + (√(2 / 3) * c / g) • m)
    have hn' := norm2_nonneg (Y + (√(2 / 3) * c / g) • m)
    have hq : 0 ≤ g * (√(2 / 3) * l.sum) := by positivity
    rw [List.sum_cons, ← e2]
    constructor
    · calc norm2 (Y + (√(2 / 3) * c / g) • m) * (1 + g * (√(2 / 3) * (a + l.sum)))
          ≤ norm2 (Y + (√(2 / 3) * c / g) • m) * ((1 + g * (√(2 / 3) * a)) * (1 + g * (√(2 / 3) * l.sum))) := by
            refine mul_le_mul_of_nonneg_left ?_ hn'
            nlinarith [mul_nonneg hp hq]
        _ = (1 + g * (√(2 / 3) * a)) * (norm2 (Y + (√(2 / 3) * c / g) • m) * (1 + g * (√(2 / 3) * l.sum))) := by ring
        _ ≤ _ := mul_le_mul_of_nonneg_left h3 (by positivity)
    · have e3 : Real.exp (-(g * (√(2 / 3) * (a + l.sum)))) =
          Real.exp (-(g * (√(2 / 3) * a))) * Real.exp (-(g * (√(2 / 3) * l.sum))) := by
        rw [← Real.exp_add]; congr 1; ring
      have e4 : (1 + g * (√(2 / 3) * a)) * Real.exp (-(g * (√(2 / 3) * a))) ≤ 1 := by
        have := Real.add_one_le_exp (g * (√(2 / 3) * a))
        rw [Real.exp_neg, ← div_eq_mul_inv, div_le_one (Real.exp_pos _)]
        linarith
      refine le_trans ?_ h4
      calc (1 + g * (√(2 / 3) * a)) * norm2 (W + (√(2 / 3) * c / g) • m) * Real.exp (-(g * (√(2 / 3) * (a + l.sum))))
          = ((1 + g * (√(2 / 3) * a)) * Real.exp (-(g * (√(2 / 3) * a)))) *
            (norm2 (W + (√(2 / 3) * c / g) • m) * Real.exp (-(g * (√(2 / 3) * l.sum)))) := by rw [e3]; ring
        _ ≤ _ := mul_le_of_le_one_left (by positivity) e4

/-! ## Changes of temperature -/

/-- The factor of the temperature term over a step from `T0` to `T1`. -/
noncomputable def thermal (c dc : Fin n → ℝ → ℝ) (T0 T1 : ℝ) (i : Fin n) : ℝ :=
  1 + if c i T1 = 0 then 0 else √(2 / 3) * dc i T1 / c i T1 * (T1 - T0)

/-- The history after a step at rest. -/
noncomputable def rested (c dc : Fin n → ℝ → ℝ) (T0 T1 : ℝ) (h : CH n → ℝ) : CH n → ℝ
  | .inl u => h (.inl u)
  | .inr (i, j) => h (.inr (i, j)) / thermal c dc T0 T1 i

section heat

variable {N : Nat} {k : CH n ≃ Fin N} {el : Elastic ℝ (Fin 6)} {sf : Surface (Fin 6) Q7} {eps : ℝ} {iso : Iso} {b : Bool}
  {c dc : Fin n → ℝ → ℝ} {gm : Fin n → Gamma} {ex : Fin n → ℝ → ℝ} {fl : Fluidity}
  {m pre : ℝ → ℝ} {limit tiny : ℝ}
  {lin : Matrix (Fin (6 + N)) (Fin (6 + N)) ℝ → (Fin (6 + N) → ℝ) → Option (Fin (6 + N) → ℝ)} {p : Newton.Params}
  {fuel : Nat} {inv : Matrix (Fin 6 ⊕ CH n) (Fin 6 ⊕ CH n) ℝ → Option (Matrix (Fin 6 ⊕ CH n) (Fin 6 ⊕ CH n) ℝ)}

/-- The step of a viscoplastic Chaboche material without recovery that stays within its surface: the code divides every
backstress by its thermal factor. -/
theorem C196_rest (hm : 2 ≤ p.miter) (hf : 2 ≤ fuel) (hl : ExactSolve lin) (hv : ExactInv inv) (ha : 0 < p.atol)
    (hrt : p.rtol ≤ 1) (htiny : 0 < tiny) (hlim : 0 ≤ limit) {x : ChState n} {e1 : Fin 6 → ℝ} {T1 t1 : ℝ}
    (hdt : tiny ≤ t1 - x.t) (hth : ∀ i, thermal c dc x.T T1 i ≠ 0)
    (h0 : sf.f (x.s + el.C T1 *ᵥ (e1 - x.e)) ((chaboche b eps iso c dc gm 0 ex).q x.h T1) T1 ≤ 0)
    (h1 : sf.f (x.s + el.C T1 *ᵥ (e1 - x.e)) ((chaboche b eps iso c dc gm 0 ex).q (rested c dc x.T T1 x.h) T1) T1 ≤ 0)
    (hR : (∀ i j, (thermal c dc x.T T1 i - 1) * x.h (.inr (i, j)) = 0) ∨
      ∃ i j, p.atol ≤ |(thermal c dc x.T T1 i - 1) * x.h (.inr (i, j))|) :
    ∃ inc, updateStep (viscoPlastic k el (chabocheFlow sf (chaboche b eps iso c dc gm 0 ex) fl m pre (.inl ())) limit tiny
      lin p fuel inv) x e1 T1 t1 = some inc ∧ inc.h = rested c dc x.T T1 x.h ∧
      inc.s = x.s + el.C T1 *ᵥ (e1 - x.e) := by
  obtain ⟨vf, hvf⟩ : ∃ vf, vf = chabocheFlow sf (chaboche b eps iso c dc gm 0 ex) fl m pre (.inl ()) := ⟨_, rfl⟩
  rw [← hvf]
  have hdt0 : 0 < t1 - x.t := htiny.trans_le hdt
  obtain ⟨s1, hs1⟩ : ∃ s1, s1 = x.s + el.C T1 *ᵥ (e1 - x.e) := ⟨_, rfl⟩
  rw [← hs1] at h0 h1 ⊢
  obtain ⟨ts, hts⟩ : ∃ ts, ts = giTrial x e1 T1 t1 := ⟨_, rfl⟩
  have t1' : ts.T = T1 := by rw [hts]; simp [giTrial, hdt0]
  have t2' : ts.dt = t1 - x.t := by rw [hts]; simp [giTrial, hdt0]
  have t3' : ts.Tdot = (T1 - x.T) / (t1 - x.t) := by rw [hts]; simp [giTrial, hdt0]
  have t4' : ts.h0 = x.h := by rw [hts]; simp [giTrial, hdt0]
  have t5' : ts.s0 = x.s := by rw [hts]; simp [giTrial, hdt0]
  have t6' : ts.dt • ts.edot = e1 - x.e := by
    rw [hts]; simp only [giTrial, if_pos hdt0]; ext i; simp [mul_div_cancel₀ _ hdt0.ne']
  have hat : ∀ h : CH n → ℝ, sf.f s1 ((chaboche b eps iso c dc gm 0 ex).q h T1) T1 ≤ 0 →
      vf.y s1 h T1 = 0 ∧ vf.dy_ds s1 h T1 = 0 ∧ vf.dy_da s1 h T1 = 0 := by
    intro h hh
    rw [hvf]
    simp only [chabocheFlow, if_neg (not_lt.mpr hh), and_self]
  have htemp : ∀ (h : CH n → ℝ) i j, vf.h_temp.v s1 h T1 (.inr (i, j)) * (T1 - x.T) =
      -((thermal c dc x.T T1 i - 1) * h (.inr (i, j))) := by
    intro h i j
    rw [hvf]
    simp only [chabocheFlow, chaboche, chabBase, Sum.elim_inr, thermal]
    split_ifs <;> ring
  have hz : ∀ h : CH n → ℝ, sf.f s1 ((chaboche b eps iso c dc gm 0 ex).q h T1) T1 ≤ 0 →
      giR (tvp el vf) ts (Sum.elim s1 h) = Sum.elim (0 : Fin 6 → ℝ) (fun a : CH n => match a with
        | .inl u => h (.inl u) - x.h (.inl u)
        | .inr (i, j) => thermal c dc x.T T1 i * h (.inr (i, j)) - x.h (.inr (i, j))) := by
    intro h hh
    obtain ⟨y0, -, -⟩ := hat h hh
    ext a
    rcases a with a | a | ⟨i, j⟩
    · simp only [giR, Sum.elim_inl, Sum.elim_inr, tvp, t1', y0, t5', Pi.zero_apply]
      have e : (fun i => ts.edot i - 0 * vf.g.v s1 h T1 i - ts.Tdot * vf.g_temp.v s1 h T1 i - vf.g_time.v s1 h T1 i) =
          ts.edot := by
        rw [hvf]; ext i; simp [chabocheFlow, Part.zero]
      show s1 a - x.s a - (el.C T1 *ᵥ _) a * ts.dt = 0
      rw [e, hs1, ← t6', mulVec_smul]
      simp only [Pi.add_apply, Pi.smul_apply, smul_eq_mul]
      ring
    · simp only [giR, Sum.elim_inr, tvp, t1', t4']
      show h (.inl a) - x.h (.inl a) - (vf.h.v s1 h T1 (.inl a) * vf.y s1 h T1 + vf.h_temp.v s1 h T1 (.inl a) * ts.Tdot +
        vf.h_time.v s1 h T1 (.inl a)) * ts.dt = _
      have e1 : vf.h_temp.v s1 h T1 (.inl a) = 0 := by rw [hvf]; rfl
      have e2 : vf.h_time.v s1 h T1 (.inl a) = 0 := by rw [hvf]; rfl
      rw [y0, e1, e2]
      ring
    · simp only [giR, Sum.elim_inr, tvp, t1', t4']
      show h (.inr (i, j)) - x.h (.inr (i, j)) - (vf.h.v s1 h T1 (.inr (i, j)) * vf.y s1 h T1 +
        vf.h_temp.v s1 h T1 (.inr (i, j)) * ts.Tdot + vf.h_time.v s1 h T1 (.inr (i, j))) * ts.dt = _
      have e2 : vf.h_time.v s1 h T1 (.inr (i, j)) = 0 := by rw [hvf]; simp [chabocheFlow, chaboche, chabBase]
      have e3 : vf.h_temp.v s1 h T1 (.inr (i, j)) * ts.Tdot * ts.dt =
          -((thermal c dc x.T T1 i - 1) * h (.inr (i, j))) := by
        rw [← htemp, t3', t2', mul_assoc, div_mul_cancel₀ _ hdt0.ne']
      rw [y0, e2, mul_zero, zero_add, add_zero, e3]
      ring
  have hJ : ∀ h : CH n → ℝ, sf.f s1 ((chaboche b eps iso c dc gm 0 ex).q h T1) T1 ≤ 0 →
      giJ (tvp el vf) ts (Sum.elim s1 h) = fromBlocks 1 0 0 (diagonal fun a => match a with
        | .inl _ => 1
        | .inr (i, _) => thermal c dc x.T T1 i) := by
    intro h hh
    obtain ⟨y0, y1, y2⟩ := hat h hh
    have g1 : vf.g_temp.ds s1 h T1 = 0 := by rw [hvf]; rfl
    have g2 : vf.g_time.ds s1 h T1 = 0 := by rw [hvf]; rfl
    have g3 : vf.g_temp.da s1 h T1 = 0 := by rw [hvf]; rfl
    have g4 : vf.g_time.da s1 h T1 = 0 := by rw [hvf]; rfl
    have g5 : vf.h_temp.ds s1 h T1 = 0 := by rw [hvf]; rfl
    have g6 : vf.h_time.ds s1 h T1 = 0 := by rw [hvf]; rfl
    have g7 : vf.h_time.da s1 h T1 = 0 := by
      rw [hvf]
      ext a b
      rcases a with a | ⟨i, j⟩ <;> rcases b with b | ⟨i', j'⟩ <;> simp [chabocheFlow, chaboche, chabBase]
    simp only [giJ, Sum.elim_inl, Sum.elim_inr]
    congr 1
    · ext i j
      show -((tvp el vf).ds_ds s1 h ts.edot ts.T ts.Tdot i j * ts.dt - _) = _
      simp only [tvp, t1', y0, y1, g1, g2]
      simp [Matrix.one_apply]
    · ext i j
      show -(tvp el vf).ds_da s1 h ts.edot ts.T ts.Tdot i j * ts.dt = _
      simp only [tvp, t1', y0, y2, g3, g4]
      simp [show vecMulVec (vf.g.v s1 h T1) (0 : CH n → ℝ) = 0 by ext; simp [vecMulVec_apply]]
    · ext i j
      show -(tvp el vf).da_ds s1 h ts.edot ts.T ts.Tdot i j * ts.dt = _
      simp only [tvp, t1', y0, y1, g5, g6]
      simp [show vecMulVec (vf.h.v s1 h T1) (0 : Fin 6 → ℝ) = 0 by ext; simp [vecMulVec_apply]]
    · ext a d
      show -((tvp el vf).da_da s1 h ts.edot ts.T ts.Tdot a d * ts.dt - _) = _
      simp only [tvp, t1', y0, y2, g7]
      have e : ((0 : ℝ) • vf.h.da s1 h T1 + vecMulVec (vf.h.v s1 h T1) 0 + ts.Tdot • vf.h_temp.da s1 h T1 + 0 :
          Matrix (CH n) (CH n) ℝ) a d * ts.dt =
          (T1 - x.T) * vf.h_temp.da s1 h T1 a d := by
        have : ts.Tdot * ts.dt = T1 - x.T := by rw [t3', t2', div_mul_cancel₀ _ hdt0.ne']
        simp only [zero_smul, vecMulVec_zero, zero_add, add_zero, Matrix.smul_apply, smul_eq_mul]
        rw [← this]
        ring
      rw [e]
      have e2 : vf.h_temp.da s1 h T1 = (chaboche b eps iso c dc gm 0 ex).h_temp.da s1 h T1 := by rw [hvf]; rfl
      rw [e2]
      rcases a with a | ⟨i, j⟩ <;> rcases d with d | ⟨i', j'⟩
      · simp [chaboche, chabBase]
      · simp [chaboche, chabBase]
      · simp [chaboche, chabBase]
      · simp only [chaboche, chabBase, of_apply, diagonal_apply, Sum.inr.injEq]
        split_ifs with q1 q2
        · rw [thermal, if_pos q2]; ring
        · rw [thermal, if_neg q2]; ring
        · ring
  have hJdet : (fromBlocks 1 0 0 (diagonal fun a : CH n => match a with
        | .inl _ => (1 : ℝ)
        | .inr (i, _) => thermal c dc x.T T1 i) : Matrix (Fin 6 ⊕ CH n) (Fin 6 ⊕ CH n) ℝ).det ≠ 0 := by
    rw [det_fromBlocks_zero₂₁, det_one, one_mul, det_diagonal]
    refine Finset.prod_ne_zero_iff.mpr fun a _ => ?_
    rcases a with a | ⟨i, j⟩
    · exact one_ne_zero
    · exact hth i
  have hinit : giInit el ts = Sum.elim s1 x.h := by
    unfold giInit
    rw [t4', t5', t6', t1', hs1]
  have hsol : ∃ J, solveGuarded (fun z => tvpAccepts limit vf (fun i => z (.inl i)) (fun i => z (.inr i)) ts.T)
      (giIndex k) (giInit el ts) (giR (tvp el vf) ts) (giJ (tvp el vf) ts) lin p fuel =
        some (Sum.elim s1 (rested c dc x.T T1 x.h), J) ∧ J.det ≠ 0 := by
    have hok0 : tvpAccepts limit vf s1 x.h T1 := by
      unfold tvpAccepts; rw [(hat _ h0).1]; exact not_lt.mpr hlim
    have hok1 : tvpAccepts limit vf s1 (rested c dc x.T T1 x.h) T1 := by
      unfold tvpAccepts; rw [(hat _ h1).1]; exact not_lt.mpr hlim
    rw [hinit]
    have hR1 : giR (tvp el vf) ts (Sum.elim s1 (rested c dc x.T T1 x.h)) = 0 := by
      rw [hz _ h1]
      ext a
      rcases a with a | a | ⟨i, j⟩
      · rfl
      · simp [rested]
      · simp only [Sum.elim_inr, rested, Pi.zero_apply]
        rw [mul_div_cancel₀ _ (hth i), sub_self]
    rcases hR with hR | ⟨i, j, hR⟩
    · have hsame : rested c dc x.T T1 x.h = x.h := by
        ext a
        rcases a with a | ⟨i, j⟩
        · rfl
        · simp only [rested]
          rw [div_eq_iff (hth i)]
          linear_combination -(hR i j)
      have hR0 : giR (tvp el vf) ts (Sum.elim s1 x.h) = 0 := by rw [← hsame]; exact hR1
      obtain ⟨q, hq, -, hsol⟩ := solveGuarded_chain
        (fun z => tvpAccepts limit vf (fun i => z (.inl i)) (fun i => z (.inr i)) ts.T) (giIndex k)
        (fun _ => Sum.elim s1 x.h) (giR (tvp el vf) ts) (giJ (tvp el vf) ts) hl p fuel 0
        (fun _ => by rw [t1']; exact hok0) (by omega) (by omega) (by omega) (by left; rw [hR0]; simpa using ha)
        (by push_cast; omega) (by omega)
      exact ⟨giJ (tvp el vf) ts (Sum.elim s1 x.h), by rw [hsame]; exact hsol, by rw [hJ _ h0]; exact hJdet⟩
    · have hge : p.atol ≤ √(∑ a, giR (tvp el vf) ts (Sum.elim s1 x.h) a * giR (tvp el vf) ts (Sum.elim s1 x.h) a) := by
        refine hR.trans ?_
        have e : (thermal c dc x.T T1 i - 1) * x.h (.inr (i, j)) =
            giR (tvp el vf) ts (Sum.elim s1 x.h) (.inr (.inr (i, j))) := by
          rw [hz _ h0]
          simp only [Sum.elim_inr]
          ring
        rw [e, ← Real.sqrt_mul_self_eq_abs]
        exact Real.sqrt_le_sqrt (Finset.single_le_sum
          (f := fun a => giR (tvp el vf) ts (Sum.elim s1 x.h) a * giR (tvp el vf) ts (Sum.elim s1 x.h) a)
          (fun a _ => mul_self_nonneg _) (Finset.mem_univ _))
      obtain ⟨q, hq, hcv, hsol⟩ := solveGuarded_chain
        (fun z => tvpAccepts limit vf (fun i => z (.inl i)) (fun i => z (.inr i)) ts.T) (giIndex k)
        (fun q => if q = 0 then Sum.elim s1 x.h else Sum.elim s1 (rested c dc x.T T1 x.h))
        (giR (tvp el vf) ts) (giJ (tvp el vf) ts) hl p fuel 1
        (fun q => by
          rw [t1']
          by_cases hq : q = 0
          · rw [if_pos hq]; exact hok0
          · rw [if_neg hq]; exact hok1)
        (fun q hq => by
          obtain rfl : q = 0 := by omega
          rw [if_pos rfl, hJ _ h0]; exact hJdet)
        (fun q hq => by
          obtain rfl : q = 0 := by omega
          rw [if_pos rfl, if_neg (by omega), hJ _ h0, hz _ h0, fromBlocks_mulVec]
          ext a
          rcases a with a | a | ⟨i, j⟩
          · simp
          · simp [mulVec_diagonal, rested]
          · simp only [Sum.elim_inr, zero_mulVec, zero_add, mulVec_diagonal, Function.comp_apply, Pi.sub_apply, rested]
            rw [mul_sub, mul_div_cancel₀ _ (hth i)])
        (fun q hq => by
          obtain rfl : q = 0 := by omega
          rw [if_pos rfl, if_neg (by omega), hR1]
          refine lt_of_lt_of_le ?_ hge
          simpa using ha)
        (by left; rw [if_neg (by omega), hR1]; simpa using ha) (by push_cast; omega) (by omega)
      have hq1 : q = 1 := by
        by_contra hne
        obtain rfl : q = 0 := by omega
        simp only [if_true] at hcv
        rcases hcv with h | ⟨h2, h3⟩
        · exact absurd h (not_lt.mpr hge)
        · rw [div_self h2] at h3
          linarith
      subst hq1
      simp only [if_true, if_neg (show ¬ (1 = 0) by omega)] at hsol
      exact ⟨_, hsol, by rw [hJ _ h1]; exact hJdet⟩
  obtain ⟨J, hsol, hJd⟩ := hsol
  have hne : ¬ (t1 - x.t < tiny) := not_lt.mpr hdt
  obtain ⟨M, hM⟩ : ∃ M, M = viscoPlastic k el vf limit tiny lin p fuel inv := ⟨_, rfl⟩
  have m1 : ¬ M.elasticStep (M.setup x e1 T1 t1) x e1 T1 t1 := by rw [hM]; exact hne
  have m2 : M.solve (M.setup x e1 T1 t1) = some (Sum.elim s1 (rested c dc x.T T1 x.h), J) := by
    rw [hM, ← hsol, hts]; rfl
  have m3 : M.inv J = some J⁻¹ := by rw [hM]; exact hv J hJd
  rw [← hM]
  have m4 : M.internal (Sum.elim s1 (rested c dc x.T T1 x.h)) = (s1, rested c dc x.T T1 x.h) := by rw [hM]; rfl
  unfold updateStep
  simp only
  rw [if_neg m1]
  simp only [m2, m3, m4]
  exact ⟨_, rfl, rfl, rfl⟩

end heat

/-! ## Heating -/

/-- One backstress whose constant `C` falls by one for each degree, `γ = 1`, yield stress ten. -/
noncomputable def hotRule : NonAssoc (Fin 6) (CH 1) Q7 :=
  chaboche false (1 / 10 ^ 10) ⟨fun _ _ => -10, fun _ _ => 0⟩ (fun _ T => 2 - T) (fun _ _ => -1)
    (fun _ => constantGamma fun _ => 1) 0 0

/-- The viscoplastic model with this rule. -/
noncomputable def hotFlow : Visco (Fin 6) (CH 1) :=
  chabocheFlow (isoKinJ2 (1 / 10 ^ 10)) hotRule (constantFluidity fun _ => 1) (fun _ => 2) (fun _ => 1) (.inl ())

/-- The history with a backstress `a` in shear. -/
noncomputable def hotHist (a : ℝ) : CH 1 → ℝ
  | .inl _ => 0
  | .inr (_, j) => (a • shear) j

/-- An unstressed material with a backstress of the equivalent stress one half. -/
noncomputable def hotStart : ChState 1 := ⟨0, 0, 0, 0, hotHist (√(2 / 3) / 2), 0, 0⟩

theorem norm2_shear (a : ℝ) : norm2 (a • shear) = |a| := by
  rw [norm2_smul]
  unfold norm2
  rw [shear_unit, Real.sqrt_one, mul_one]

theorem back_hot (a : ℝ) : back (hotHist a) 0 = a • shear := rfl

theorem hot_f (a T : ℝ) (ha : |a| ≤ 8) : (isoKinJ2 (1 / 10 ^ 10)).f 0 (hotRule.q (hotHist a) T) T ≤ 0 := by
  have e : shifted 0 (hotRule.q (hotHist a) T) = a • shear := by
    ext j
    have : devVec 0 = 0 := devVec_of_tr3 (by simp [tr3])
    simp [shifted, hotRule, chaboche, chabBase, backstress, hotHist, this]
  show norm2 (shifted 0 (hotRule.q (hotHist a) T)) + √(2 / 3) * (-10) ≤ 0
  rw [e, norm2_shear]
  have : (4 / 5 : ℝ) ≤ √(2 / 3) := Real.le_sqrt_of_sq_le (by norm_num)
  linarith

theorem hot_sat (T : ℝ) (hT : T ≤ 2) :
    Sat (fun (_ : Fin 1) T => 2 - T) (fun _ => constantGamma fun _ => 1) (fun _ _ _ => 0) (fun _ => 2 - T) T where
  hc _ := by linarith
  g _ _ := by simp [constantGamma]
  r _ _ _ := le_rfl
  k _ := by linarith
  sat _ _ := by simp [constantGamma]

/-- **C196** fails when the temperature changes: heated by one degree at rest, without any straining, the backstress
grows from one half to more than two. Its limit `C / γ` falls meanwhile from two to one. -/
theorem C196_heating_disagreement {N : Nat} (k : CH 1 ≃ Fin N) (el : Elastic ℝ (Fin 6)) :
    (∀ T : ℝ, HasDerivAt (fun T : ℝ => 2 - T) (-1) T) ∧
    Sat (fun (_ : Fin 1) T => 2 - T) (fun _ => constantGamma fun _ => 1) (fun _ _ _ => 0) (fun _ => 2) 0 ∧
    Sat (fun (_ : Fin 1) T => 2 - T) (fun _ => constantGamma fun _ => 1) (fun _ _ _ => 0) (fun _ => 1) 1 ∧
    √(3 / 2) * norm2 (back hotStart.h 0) = 1 / 2 ∧
    ∃ inc, updateStep (viscoPlastic k el hotFlow 10 (1 / 10 ^ 10) exactLin ⟨1 / 10 ^ 8, 1 / 10 ^ 8, 50, false⟩ 50
      exactInv) hotStart 0 1 1 = some inc ∧ inc.s = 0 ∧ inc.h (.inl ()) = 0 ∧
      2 < √(3 / 2) * norm2 (back inc.h 0) := by
  have hlo : (4 / 5 : ℝ) ≤ √(2 / 3) := Real.le_sqrt_of_sq_le (by norm_num)
  have hup : √(2 / 3 : ℝ) ≤ 41 / 50 := Real.sqrt_le_iff.mpr ⟨by norm_num, by norm_num⟩
  have hsq : √(2 / 3 : ℝ) * √(2 / 3) = 2 / 3 := Real.mul_self_sqrt (by norm_num)
  have h6 : √(3 / 2 : ℝ) * √(2 / 3) = 1 := by
    rw [← Real.sqrt_mul (by norm_num)]; norm_num
  have hth : ∀ i, thermal (fun (_ : Fin 1) T => 2 - T) (fun _ _ => -1) 0 1 i = 1 - √(2 / 3) := by
    intro i
    unfold thermal
    norm_num
    ring
  have hpos : 0 < 1 - √(2 / 3 : ℝ) := by linarith
  have hres : rested (fun (_ : Fin 1) T => 2 - T) (fun _ _ => -1) 0 1 (hotHist (√(2 / 3) / 2)) =
      hotHist (√(2 / 3) / 2 / (1 - √(2 / 3))) := by
    ext a
    rcases a with a | ⟨i, j⟩
    · rfl
    · simp only [rested, hth, hotHist, Pi.smul_apply, smul_eq_mul]
      ring
  refine ⟨fun T => by simpa using (hasDerivAt_id T).const_sub 2, ?_, ?_, ?_, ?_⟩
  · have := hot_sat 0 (by norm_num); simpa using this
  · have := hot_sat 1 (by norm_num); norm_num at this ⊢; exact this
  · show √(3 / 2) * norm2 (back (hotHist (√(2 / 3) / 2)) 0) = 1 / 2
    rw [back_hot, norm2_shear, abs_of_nonneg (by positivity)]
    linear_combination h6 / 2
  · have e0 : hotStart.s + el.C 1 *ᵥ (0 - hotStart.e) = 0 := by simp [hotStart]
    obtain ⟨inc, h1, h2, h3⟩ := C196_rest (k := k) (el := el) (sf := isoKinJ2 (1 / 10 ^ 10)) (eps := 1 / 10 ^ 10)
      (iso := ⟨fun _ _ => -10, fun _ _ => 0⟩) (b := false) (c := fun (_ : Fin 1) T => 2 - T) (dc := fun _ _ => -1)
      (gm := fun _ => constantGamma fun _ => 1) (ex := 0) (fl := constantFluidity fun _ => 1) (m := fun _ => 2)
      (pre := fun _ => 1) (limit := 10) (tiny := 1 / 10 ^ 10) (lin := exactLin) (inv := exactInv)
      (p := ⟨1 / 10 ^ 8, 1 / 10 ^ 8, 50, false⟩) (fuel := 50) (x := hotStart) (e1 := 0) (T1 := 1) (t1 := 1)
      (by norm_num) (by norm_num) exactLin_exact exactInv_exact (by norm_num) (by norm_num) (by norm_num) (by norm_num)
      (by norm_num [hotStart]) (fun i => by rw [show hotStart.T = 0 from rfl, hth]; exact hpos.ne')
      (by
        rw [e0]
        exact hot_f _ 1 (by rw [abs_of_nonneg (by positivity)]; linarith))
      (by
        rw [e0, show hotStart.T = 0 from rfl, show hotStart.h = hotHist (√(2 / 3) / 2) from rfl, hres]
        refine hot_f _ 1 ?_
        rw [abs_of_nonneg (by positivity), div_le_iff₀ hpos]
        linarith)
      (Or.inr ⟨0, 3, by
        rw [show hotStart.T = 0 from rfl, hth]
        have e : hotStart.h (.inr (0, 3)) = √(2 / 3) / 2 := by simp [hotStart, hotHist, shear]
        rw [e, show (1 - √(2 / 3) - 1) * (√(2 / 3) / 2) = -(1 / 3 : ℝ) by linear_combination -hsq / 2, abs_neg]
        norm_num⟩)
    refine ⟨inc, h1, by rw [h3, e0], ?_, ?_⟩
    · rw [h2]; rfl
    · rw [h2, show hotStart.T = 0 from rfl, show hotStart.h = hotHist (√(2 / 3) / 2) from rfl, hres, back_hot,
        norm2_shear, abs_of_nonneg (by positivity),
        show √(3 / 2) * (√(2 / 3) / 2 / (1 - √(2 / 3))) = √(3 / 2) * √(2 / 3) / 2 / (1 - √(2 / 3)) by ring, h6,
        lt_div_iff₀ hpos]
      linarith

/-! ### The hypotheses can be met -/

/-- A step at constant temperature that the code takes: the hypotheses of `C196_step` and `C196_history` are met. -/
example {N : Nat} (k : CH 1 ≃ Fin N) (el : Elastic ℝ (Fin 6)) : ∃ y inc,
    updateStep (viscoPlastic k el hotFlow 10 (1 / 10 ^ 10) exactLin ⟨1 / 10 ^ 8, 1 / 10 ^ 8, 50, false⟩ 50 exactInv)
      hotStart 0 0 1 = some inc ∧
    Along (ChabSteps k el hotFlow 10 (1 / 10 ^ 10) exactLin ⟨1 / 10 ^ 8, 1 / 10 ^ 8, 50, false⟩ 50 exactInv
      (max (1 / 10 ^ 8) (1 / 10 ^ 8 * firstResid el hotFlow hotStart 0 0 1))) hotStart [(0, 0, 1)] y ∧
    √(3 / 2) * norm2 (back y.h 0) ≤
      2 + 0 + 1 * (√(3 / 2) * max (1 / 10 ^ 8) (1 / 10 ^ 8 * firstResid el hotFlow hotStart 0 0 1)) := by
  have hlo : (4 / 5 : ℝ) ≤ √(2 / 3) := Real.le_sqrt_of_sq_le (by norm_num)
  have hup : √(2 / 3 : ℝ) ≤ 41 / 50 := Real.sqrt_le_iff.mpr ⟨by norm_num, by norm_num⟩
  have h6 : √(3 / 2 : ℝ) * √(2 / 3) = 1 := by
    rw [← Real.sqrt_mul (by norm_num)]; norm_num
  have hth : ∀ i, thermal (fun (_ : Fin 1) T => 2 - T) (fun _ _ => -1) 0 0 i = 1 := by
    intro i
    unfold thermal
    norm_num
  have hres : rested (fun (_ : Fin 1) T => 2 - T) (fun _ _ => -1) 0 0 (hotHist (√(2 / 3) / 2)) =
      hotHist (√(2 / 3) / 2) := by
    ext a
    rcases a with a | ⟨i, j⟩
    · rfl
    · simp only [rested, hth, div_one]
  have e0 : hotStart.s + el.C 0 *ᵥ (0 - hotStart.e) = 0 := by simp [hotStart]
  obtain ⟨inc, h1, -, -⟩ := C196_rest (k := k) (el := el) (sf := isoKinJ2 (1 / 10 ^ 10)) (eps := 1 / 10 ^ 10)
    (iso := ⟨fun _ _ => -10, fun _ _ => 0⟩) (b := false) (c := fun (_ : Fin 1) T => 2 - T) (dc := fun _ _ => -1)
    (gm := fun _ => constantGamma fun _ => 1) (ex := 0) (fl := constantFluidity fun _ => 1) (m := fun _ => 2)
    (pre := fun _ => 1) (limit := 10) (tiny := 1 / 10 ^ 10) (lin := exactLin) (inv := exactInv)
    (p := ⟨1 / 10 ^ 8, 1 / 10 ^ 8, 50, false⟩) (fuel := 50) (x := hotStart) (e1 := 0) (T1 := 0) (t1 := 1)
    (by norm_num) (by norm_num) exactLin_exact exactInv_exact (by norm_num) (by norm_num) (by norm_num) (by norm_num)
    (by norm_num [hotStart]) (fun i => by rw [show hotStart.T = 0 from rfl, hth]; exact one_ne_zero)
    (by
      rw [e0]
      exact hot_f _ 0 (by rw [abs_of_nonneg (by positivity)]; linarith))
    (by
      rw [e0, show hotStart.T = 0 from rfl, show hotStart.h = hotHist (√(2 / 3) / 2) from rfl, hres]
      exact hot_f _ 0 (by rw [abs_of_nonneg (by positivity)]; linarith))
    (Or.inl fun i j => by rw [show hotStart.T = 0 from rfl, hth, sub_self, zero_mul])
  have hal : Along (ChabSteps k el hotFlow 10 (1 / 10 ^ 10) exactLin ⟨1 / 10 ^ 8, 1 / 10 ^ 8, 50, false⟩ 50 exactInv
      (max (1 / 10 ^ 8) (1 / 10 ^ 8 * firstResid el hotFlow hotStart 0 0 1))) hotStart [(0, 0, 1)]
      ⟨0, 0, 1, inc.s, inc.h, 0, 0⟩ :=
    ⟨_, ⟨inc, h1, rfl, rfl, rfl, rfl, rfl, le_rfl⟩, rfl⟩
  refine ⟨_, inc, h1, hal, ?_⟩
  have h2 := C196_history (k := k) (el := el) (sf := isoKinJ2 (1 / 10 ^ 10)) (eps := 1 / 10 ^ 10)
    (c := fun (_ : Fin 1) T => 2 - T) (dc := fun _ _ => -1)
    (gm := fun _ => constantGamma fun _ => 1) (rec := fun i T x => (0 : Fin 1 → ℝ → ℝ) i T * √(3 / 2) * x ^ ((0 : Fin 1 → ℝ → ℝ) i T - 1))
    (ex := 0) (K := fun _ => 2) (T := 0) (d := 0) (p := ⟨1 / 10 ^ 8, 1 / 10 ^ 8, 50, false⟩) (by norm_num) (by norm_num)
    ⟨fun _ => by norm_num, fun _ _ => by simp [constantGamma], fun _ _ _ => by simp, fun _ => by norm_num,
      fun _ _ => by simp [constantGamma]⟩ (by norm_num) (fun _ => by simp [constantFluidity])
    (le_trans (by norm_num) (le_max_left _ _)) [(0, 0, 1)] (by simp) (x := hotStart) rfl le_rfl
    (fun i => by
      obtain rfl : i = 0 := Subsingleton.elim _ _
      show √(3 / 2) * norm2 (back (hotHist (√(2 / 3) / 2)) 0) ≤ 2 + 0
      rw [back_hot, norm2_shear, abs_of_nonneg (by positivity)]
      linarith) hal 0
  simpa using h2

/-- Straining by one in shear from rest: the backstress `-(2/3) / (1 + √(2/3))` is the implicit step. -/
example : Strains 1 1 shear 0 [1] ((-(2 / 3) / (1 + √(2 / 3))) • shear) := by
  refine ⟨_, ?_, rfl⟩
  have : (0 : ℝ) ≤ √(2 / 3) := Real.sqrt_nonneg _
  ext j
  simp only [Pi.add_apply, Pi.sub_apply, Pi.smul_apply, smul_eq_mul, Pi.zero_apply]
  field_simp
  ring

/-- The stress of a flowing point: `C196_overstress` with the model above. -/
example (s : Fin 6 → ℝ) (a : CH 1 → ℝ) (T : ℝ) :
    √(3 / 2) * norm2 (devVec s) ≤ 10 + √(3 / 2) * norm2 (back a 0) + (hotFlow.y s a T / √(3 / 2)) ^ (1 / 2 : ℝ) := by
  have h1 := C196_stress (1 / 10 ^ 10) hotRule (fun _ _ _ => rfl) s a T
  have h2 := C196_overstress (sf := isoKinJ2 (1 / 10 ^ 10)) (hd := hotRule) (fl := constantFluidity fun _ => 1)
    (m := fun _ => 2) (pre := fun _ => 1) (s := s) (a := a) (T := T) (by norm_num) (by simp [constantFluidity]) (by norm_num)
  have h3 : √(3 / 2) * (isoKinJ2 (1 / 10 ^ 10)).f s (hotRule.q a T) T ≤
      √(3 / 2) * max 0 ((isoKinJ2 (1 / 10 ^ 10)).f s (hotRule.q a T) T) :=
    mul_le_mul_of_nonneg_left (le_max_right _ _) (Real.sqrt_nonneg _)
  rw [h2] at h3
  have e1 : hotRule.q a T (.inl ()) = -10 := rfl
  rw [e1, Fin.sum_univ_one] at h1
  simp only [constantFluidity, one_mul, mul_one] at h3
  change _ ≤ (hotFlow.y s a T / √(3 / 2)) ^ (1 / 2 : ℝ) at h3
  linarith

end Neml.Flow
