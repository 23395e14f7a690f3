import Verif.Props.Kinematics
import Verif.Props.Slip
import Verif.Props.SlipRates
import Verif.Props.LatticeSystems

/-!
# C102 and C103: derivatives and dissipation of the inelastic models
-/

namespace Neml.Kinematics

open Matrix Filter Topology Neml.Mandel Neml.Rotation Neml.Slip
open Neml.Damage (Moves)

variable {N : Type}

/-! ## Derivatives -/

theorem noInel_right [Fintype N] (s : Fin 6 → ℝ) (h : N → ℝ) : (noInel : Inel N).Right s h := by
  intro x x' y y' t0 _ _ _ _
  refine ⟨fun i => ?_, fun i => ?_, fun i => ?_⟩ <;> simpa [noInel] using hasDerivAt_const t0 (0 : ℝ)

theorem list_sum_apply {α β : Type} (l : List α) (f : α → β → ℝ) (i : β) :
    (l.map f).sum i = (l.map fun p => f p i).sum := by
  induction l with
  | nil => rfl
  | cons p l ih => simp [ih]

theorem list_mulVec {α m n : Type} [Fintype n] (l : List α) (f : α → Matrix m n ℝ) (v : n → ℝ) :
    (l.map f).sum *ᵥ v = (l.map fun p => f p *ᵥ v).sum := by
  induction l with
  | nil => simp
  | cons p l ih => simp [add_mulVec, ih]

theorem moves_list {α κ : Type} (l : List α) (f : α → ℝ → κ → ℝ) (f' : α → κ → ℝ) (t0 : ℝ)
    (h : ∀ p ∈ l, Moves (f p) (f' p) t0) : Moves (fun t => (l.map fun p => f p t).sum) (l.map f').sum t0 := by
  intro i
  simp only [list_sum_apply]
  exact list_deriv l (fun p t => f p t i) (fun p => f' p i) t0 fun p hp => h p hp i

theorem list_add {α M : Type} [AddCommMonoid M] (l : List α) (f g : α → M) :
    (l.map f).sum + (l.map g).sum = (l.map fun p => f p + g p).sum := by
  induction l with
  | nil => simp
  | cons p l ih => simp only [List.map_cons, List.sum_cons, ← ih]; abel

theorem douter_mulVec {m n : Type} [Fintype n] (a : m → ℝ) (b v : n → ℝ) : douter a b *ᵥ v = (b ⬝ᵥ v) • a := by
  ext i
  simp only [douter, mulVec, dotProduct, of_apply, Pi.smul_apply, smul_eq_mul, Finset.sum_mul]
  exact Finset.sum_congr rfl fun j _ => by ring

theorem asaro_right [Fintype N] [DecidableEq N] {m : Nat} (r : Rule N m) (c : Crys) (s : Fin 6 → ℝ) (h : N → ℝ)
    (hs : ∀ p ∈ c.systems, r.SlipRight c s h p.1 p.2)
    (hk : ∀ (x : ℝ → Fin 6 → ℝ) (x' : Fin 6 → ℝ) (y : ℝ → N → ℝ) (y' : N → ℝ) (t0 : ℝ), Moves x x' t0 → Moves y y' t0 →
      x t0 = s → y t0 = h → ∀ a,
      HasDerivAt (fun t => r.rate c (x t) (y t) a) (r.rateS c s h a ⬝ᵥ x' + r.rateH c s h a ⬝ᵥ y') t0) :
    (asaro c r).Right s h := by
  intro x x' y y' t0 hx hy ex ey
  refine ⟨?_, ?_, ?_⟩
  · have : (asaro c r).dpS s h *ᵥ x' + (asaro c r).dpH s h *ᵥ y' =
        (c.systems.map fun p => (r.slipS c s h p.1 p.2 ⬝ᵥ x' + r.slipH c s h p.1 p.2 ⬝ᵥ y') • c.M p.1 p.2).sum := by
      simp only [asaro, list_mulVec, list_add, douter_mulVec, add_smul]
    rw [this]
    exact moves_list c.systems (fun p t => r.slip c (x t) (y t) p.1 p.2 • c.M p.1 p.2) _ t0
      fun p hpm i => (hs p hpm x x' y y' t0 hx hy ex ey).mul_const _
  · exact fun a => hk x x' y y' t0 hx hy ex ey a
  · have : (asaro c r).wpS s h *ᵥ x' + (asaro c r).wpH s h *ᵥ y' =
        (c.systems.map fun p => if c.twin p.1 then 0
          else (r.slipS c s h p.1 p.2 ⬝ᵥ x' + r.slipH c s h p.1 p.2 ⬝ᵥ y') • c.W p.1 p.2).sum := by
      simp only [asaro, list_mulVec, list_add]
      congr 1
      refine List.map_congr_left fun p _ => ?_
      split_ifs
      · simp
      · rw [douter_mulVec, douter_mulVec, add_smul]
    rw [this]
    refine moves_list c.systems (fun p t => if c.twin p.1 then 0 else r.slip c (x t) (y t) p.1 p.2 • c.W p.1 p.2) _ t0
      fun p hpm i => ?_
    split_ifs
    · exact hasDerivAt_const t0 0
    · exact (hs p hpm x x' y y' t0 hx hy ex ey).mul_const _

/-- C102, slip: where the derivatives of the slip rates and of the hardening rates are right, so are all those of the
inelastic model made of them. -/
theorem C102_asaro [Fintype N] [DecidableEq N] {m : Nat} (r : Rule N m) (hp : r.Partition) (c : Crys) (s : Fin 6 → ℝ)
    (h : N → ℝ) (hs : ∀ p ∈ c.systems, r.SlipRight c s h p.1 p.2)
    (hk : ∀ k, (r.hard k).RateRight c (r.slip c s h) (r.slipS c s h) (r.slipH c s h) h) : (asaro c r).Right s h :=
  asaro_right r c s h hs (C99_rates r hp c s h hs hk)

/-- C102, a whole model: power law slip with Voce hardening, for every lattice, stress and history with a positive
strength. -/
theorem C102_power_voce [Fintype N] [DecidableEq N] {c : Crys} (var : N) (hN : ∀ a : N, a = var)
    {g0 n tau0 nye sat b : ℝ} (hn : 1 < n) (s : Fin 6 → ℝ) (h : N → ℝ) (hS : 0 < h var + (tau0 + nye)) :
    (asaro c (powerLaw (voce c var tau0 nye sat b) g0 n)).Right s h :=
  asaro_right _ c s h
    (fun p _ x x' y y' t0 hx hy ex ey => (C99_power_voce var hN hn s h hS x x' y y' t0 hx hy ex ey).1 p.1 p.2)
    fun x x' y y' t0 hx hy ex ey => (C99_power_voce var hN hn s h hS x x' y y' t0 hx hy ex ey).2

theorem combined_right [Fintype N] (ms : List (Inel N)) (s : Fin 6 → ℝ) (h : N → ℝ) (hm : ∀ m ∈ ms, m.Right s h) :
    (combined ms).Right s h := by
  intro x x' y y' t0 hx hy ex ey
  refine ⟨?_, ?_, ?_⟩ <;> simp only [combined, list_mulVec, list_add] <;> refine moves_list ms _ _ t0 fun m hmem => ?_
  · exact (hm m hmem x x' y y' t0 hx hy ex ey).1
  · exact (hm m hmem x x' y y' t0 hx hy ex ey).2.1
  · exact (hm m hmem x x' y y' t0 hx hy ex ey).2.2

/-! ### The power law -/

theorem idDev_mulVec (s : Fin 6 → ℝ) : idDev *ᵥ s = dev s := by
  ext i
  fin_cases i <;> simp [idDev, dev, mulVec, dotProduct, Fin.sum_univ_succ] <;> ring

theorem dev_trace (s : Fin 6 → ℝ) : dev s 0 + dev s 1 + dev s 2 = 0 := by simp [dev]; ring

theorem dev_dev (s : Fin 6 → ℝ) : dev (dev s) = dev s := by
  conv_lhs => rw [dev, dev_trace]
  simp

theorem dev_smul (c : ℝ) (s : Fin 6 → ℝ) : dev (c • s) = c • dev s := by
  rw [← idDev_mulVec, mulVec_smul, idDev_mulVec]

theorem dev_dot (a b : Fin 6 → ℝ) : dev a ⬝ᵥ dev b = dev a ⬝ᵥ b := by
  simp only [dev, dotProduct, Fin.sum_univ_six]
  simp
  ring

theorem dev_moves {x : ℝ → Fin 6 → ℝ} {x' : Fin 6 → ℝ} {t0 : ℝ} (hx : Moves x x' t0) :
    Moves (fun t => dev (x t)) (dev x') t0 := by
  simp only [← idDev_mulVec]
  exact Damage.Moves.mulVec idDev hx

theorem seq_nonneg (s : Fin 6 → ℝ) : 0 ≤ seq s := by unfold seq; positivity

theorem seq_sq (s : Fin 6 → ℝ) : seq s ^ 2 = 3 / 2 * (dev s ⬝ᵥ dev s) := by
  have : 0 ≤ dev s ⬝ᵥ dev s := by
    simp only [dotProduct]
    exact Finset.sum_nonneg fun i _ => mul_self_nonneg _
  rw [seq, mul_pow, Real.sq_sqrt (by norm_num), Real.sq_sqrt this]

theorem seq_deriv {x : ℝ → Fin 6 → ℝ} {x' : Fin 6 → ℝ} {t0 : ℝ} (hx : Moves x x' t0) (h0 : 0 < seq (x t0)) :
    HasDerivAt (fun t => seq (x t)) (3 / 2 * (dev (x t0) ⬝ᵥ x') / seq (x t0)) t0 := by
  have hd := dev_moves hx
  have h1 : HasDerivAt (fun t => 3 / 2 * (dev (x t) ⬝ᵥ dev (x t))) (3 / 2 * (2 * (dev (x t0) ⬝ᵥ x'))) t0 := by
    refine ((Damage.Moves.dot hd hd).const_mul _).congr_deriv ?_
    rw [dotProduct_comm (dev x'), dev_dot]
    ring
  have h2 : (fun t => seq (x t)) = fun t => √(3 / 2 * (dev (x t) ⬝ᵥ dev (x t))) := by
    funext t
    rw [← seq_sq, Real.sqrt_sq (seq_nonneg _)]
  rw [h2]
  have hpos : 3 / 2 * (dev (x t0) ⬝ᵥ dev (x t0)) ≠ 0 := by rw [← seq_sq]; positivity
  refine (h1.sqrt hpos).congr_deriv ?_
  rw [← seq_sq, Real.sqrt_sq (seq_nonneg _)]
  field_simp

theorem powerInel_value {A n eps : ℝ} {s : Fin 6 → ℝ} (h : N → ℝ) (x' : Fin 6 → ℝ) (heps : 0 < eps) (hs : eps ≤ seq s) :
    (powerInel A n eps : Inel N).dpS s h *ᵥ x' =
      (3 / 2 * (A * (n - 1) * seq s ^ (n - 1 - 1) / seq s) * (dev s ⬝ᵥ x')) • dev s + (A * seq s ^ (n - 1)) • dev x' := by
  have hq : 0 < seq s := lt_of_lt_of_le heps hs
  simp only [powerInel, if_neg (not_lt.2 hs)]
  rw [← mulVec_mulVec, add_mulVec, smul_mulVec, smul_mulVec, one_mulVec, douter_mulVec, mulVec_add, mulVec_smul,
    mulVec_smul, mulVec_smul, mulVec_smul, idDev_mulVec, idDev_mulVec, dev_dev, smul_dotProduct, smul_smul, smul_smul,
    smul_eq_mul]
  have e1 : seq s ^ n = seq s ^ (n - 1) * seq s := by
    rw [← Real.rpow_add_one hq.ne', sub_add_cancel]
  have e2 : seq s ^ (n - 1) = seq s ^ (n - 1 - 1) * seq s := by
    rw [← Real.rpow_add_one hq.ne', sub_add_cancel]
  congr 2
  · rw [e1, e2]
    field_simp
  · rw [e1]
    field_simp

/-- C102, power law: its derivative is right wherever the equivalent stress is above the smallest number the rule
takes for a stress at all. -/
theorem C102_power [Fintype N] {A n eps : ℝ} (heps : 0 < eps) (s : Fin 6 → ℝ) (h : N → ℝ) (hs : eps < seq s) :
    (powerInel A n eps : Inel N).Right s h := by
  intro x x' y y' t0 hx hy ex ey
  refine ⟨?_, fun i => ?_, fun i => ?_⟩
  · have hq : 0 < seq s := heps.trans hs
    have hd := seq_deriv hx (by rw [ex]; exact hq)
    have hev : ∀ᶠ t in 𝓝 t0, eps < seq (x t) :=
      continuousAt_const.eventually_lt hd.continuousAt (by simpa only [ex] using hs)
    have hF : Moves (fun t => (A * seq (x t) ^ (n - 1)) • dev (x t))
        ((A * (3 / 2 * (dev s ⬝ᵥ x') / seq s * (n - 1) * seq s ^ (n - 1 - 1))) • dev s + (A * seq s ^ (n - 1)) • dev x')
        t0 := by
      intro i
      have h1 := (hd.rpow_const (p := n - 1) (Or.inl (by rw [ex]; exact hq.ne'))).const_mul A
      simp only [ex] at h1
      exact (h1.fun_mul (dev_moves hx i)).congr_deriv (by simp [ex])
    have : (powerInel A n eps : Inel N).dpS s h *ᵥ x' + (powerInel A n eps : Inel N).dpH s h *ᵥ y' =
        (A * (3 / 2 * (dev s ⬝ᵥ x') / seq s * (n - 1) * seq s ^ (n - 1 - 1))) • dev s +
          (A * seq s ^ (n - 1)) • dev x' := by
      rw [powerInel_value h x' heps hs.le]
      have : (powerInel A n eps : Inel N).dpH s h *ᵥ y' = 0 := by simp [powerInel]
      rw [this, add_zero]
      congr 2
      ring
    rw [this]
    refine moves_eventually hF (hev.mono fun t ht => ?_)
    simp only [powerInel, if_neg (not_lt.2 ht.le)]
  · simpa [powerInel] using hasDerivAt_const t0 (0 : ℝ)
  · simpa [powerInel] using hasDerivAt_const t0 (0 : ℝ)

/-- Below that number the rule gives no flow at all but still reports a derivative, so the derivative is wrong: here at
zero stress. -/
theorem C102_power_below [Fintype N] {A n eps : ℝ} (heps : 0 < eps) (hA : A ≠ 0) (h : N → ℝ) :
    ¬ (powerInel A n eps : Inel N).Right 0 h := by
  intro hr
  have d0 : dev 0 = 0 := by ext i; fin_cases i <;> simp [dev]
  have s0 : seq 0 = 0 := by simp [seq, d0]
  let u : Fin 6 → ℝ := ![0, 0, 0, 1, 0, 0]
  have hu : dev u = u := by ext i; fin_cases i <;> simp [dev, u]
  have hx : Moves (fun t : ℝ => t • u) u 0 := fun i => by simpa using (hasDerivAt_id (0 : ℝ)).mul_const (u i)
  have h1 := (hr (fun t => t • u) u (fun _ => h) 0 0 hx (moves_const h 0) (by simp) rfl).1
  have hsq : ∀ t : ℝ, seq (t • u) = √(3 / 2) * |t| := by
    intro t
    rw [seq, dev_smul, hu]
    congr 1
    have : (t • u) ⬝ᵥ (t • u) = t ^ 2 := by simp [u, dotProduct, Fin.sum_univ_six, sq]
    rw [this, Real.sqrt_sq_eq_abs]
  have hc : ContinuousAt (fun t : ℝ => seq (t • u)) 0 := by
    simp only [hsq]
    fun_prop
  have hev : ∀ᶠ t in 𝓝 (0 : ℝ), seq (t • u) < eps :=
    hc.eventually_lt continuousAt_const (by simp [s0, heps])
  have h2 : Moves (fun t => (powerInel A n eps : Inel N).dp (t • u) h) 0 0 :=
    moves_eventually (moves_const 0 0) (hev.mono fun t ht => by simp only [powerInel, if_pos ht])
  have h3 := congrFun (moves_unique h1 h2) 3
  simp only [powerInel, s0, if_pos heps, d0] at h3
  rw [← mulVec_mulVec, add_mulVec, smul_mulVec, smul_mulVec, one_mulVec, douter_mulVec] at h3
  simp only [smul_zero, zero_dotProduct, zero_smul, zero_add, mulVec_smul, idDev_mulVec, hu, mulVec_zero, add_zero] at h3
  have hp := Real.rpow_pos_of_pos heps n
  simp [u, hA, heps.ne', hp.ne'] at h3

end Neml.Kinematics
