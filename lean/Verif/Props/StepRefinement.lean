import Verif.Props.Settle

/-!
# C208: refining the steps converges

Linear isotropic and kinematic hardening. Specification: two exact paths (`ExactStep`) through the same strains, of which one
leaves out strains the other takes, differ by no more than a multiple of the root of the sum of squares of the lengths of strain
between the strains both take. So the results for finer and finer steps along a strain path converge.
-/

namespace Neml.Settle

open Filter Topology

section abstract

variable {E : Type*} [NormedAddCommGroup E] [InnerProductSpace ℝ E]

/-- A nearest point is no farther than the set moved. -/
theorem step_length {S : Set E} {x x' δ : E} (h : Nearest S x x') (hx : x + δ ∈ S) : ‖x - x'‖ ≤ ‖δ‖ := by
  have h1 := h.2 _ hx
  rw [show x + δ - x' = (x - x') + δ by abel, inner_add_right, real_inner_self_eq_norm_sq] at h1
  have h2 := real_inner_le_norm (x - x') (-δ)
  rw [inner_neg_right, norm_neg] at h2
  by_contra hn
  have hn := not_le.1 hn
  nlinarith [norm_nonneg (x - x'), norm_nonneg δ]

/-- Many small projections onto moving sets against a single one. -/
theorem one_against_many {S : ℕ → Set E} {d : ℕ → E} (hS : ∀ i j, ∀ v ∈ S i, v + (d j - d i) ∈ S j) {Y : ℕ → E}
    (hY : ∀ i, Nearest (S (i + 1)) (Y i) (Y (i + 1))) (hY0 : ∀ i, Y i ∈ S i) {p q : ℕ} (hpq : p ≤ q) {X X' : E}
    (hX : Nearest (S q) X X') :
    ‖Y q - X'‖ ^ 2 ≤ ‖Y p - X‖ ^ 2 + 4 * (∑ i ∈ Finset.Ico p q, ‖d (i + 1) - d i‖) ^ 2 := by
  obtain ⟨L, hL⟩ : ∃ L, L = ∑ i ∈ Finset.Ico p q, ‖d (i + 1) - d i‖ := ⟨_, rfl⟩
  have hL0 : 0 ≤ L := by rw [hL]; exact Finset.sum_nonneg fun _ _ => norm_nonneg _
  have hlen (i : ℕ) : ‖Y i - Y (i + 1)‖ ≤ ‖d (i + 1) - d i‖ := step_length (hY i) (hS i (i + 1) _ (hY0 i))
  have hsub (i : ℕ) (hi : p ≤ i) (hiq : i ≤ q) : ∑ j ∈ Finset.Ico i q, ‖d (j + 1) - d j‖ ≤ L := by
    rw [hL]
    exact Finset.sum_le_sum_of_subset_of_nonneg (Finset.Ico_subset_Ico_left hi) fun _ _ _ => norm_nonneg _
  have hYl (i : ℕ) (hi : p ≤ i) (hiq : i ≤ q) : ‖Y q - Y i‖ ≤ L := by
    rw [norm_sub_rev, ← dist_eq_norm]
    refine (dist_le_Ico_sum_of_dist_le hiq fun {k} _ _ => ?_).trans (hsub i hi hiq)
    rw [dist_eq_norm]
    exact hlen k
  have hdl (i : ℕ) (hi : p ≤ i) (hiq : i ≤ q) : ‖d i - d q‖ ≤ L := by
    rw [← dist_eq_norm]
    refine (dist_le_Ico_sum_of_dist_le hiq fun {k} _ _ => ?_).trans (hsub i hi hiq)
    rw [dist_eq_norm, norm_sub_rev]
  have hterm (i : ℕ) (hi : i ∈ Finset.Ico p q) : -(2 * L * ‖d (i + 1) - d i‖) ≤ inner ℝ (Y q - X') (Y i - Y (i + 1)) := by
    obtain ⟨h1, h2⟩ := Finset.mem_Ico.1 hi
    have h3 := (hY i).2 _ (hS q (i + 1) X' hX.1)
    have h4 : inner ℝ (Y q - X') (Y i - Y (i + 1)) =
        inner ℝ ((Y q - Y (i + 1)) + (d (i + 1) - d q)) (Y i - Y (i + 1)) -
          inner ℝ (Y i - Y (i + 1)) (X' + (d (i + 1) - d q) - Y (i + 1)) := by
      rw [real_inner_comm (X' + (d (i + 1) - d q) - Y (i + 1)) (Y i - Y (i + 1)), ← inner_sub_left]
      congr 1
      abel
    have h5 : -(‖(Y q - Y (i + 1)) + (d (i + 1) - d q)‖ * ‖Y i - Y (i + 1)‖) ≤
        inner ℝ ((Y q - Y (i + 1)) + (d (i + 1) - d q)) (Y i - Y (i + 1)) := (abs_le.1 (abs_real_inner_le_norm _ _)).1
    have h6 : ‖(Y q - Y (i + 1)) + (d (i + 1) - d q)‖ ≤ 2 * L := by
      refine (norm_add_le _ _).trans ?_
      have := hYl (i + 1) (by omega) (by omega)
      have := hdl (i + 1) (by omega) (by omega)
      linarith
    have h7 : ‖(Y q - Y (i + 1)) + (d (i + 1) - d q)‖ * ‖Y i - Y (i + 1)‖ ≤ 2 * L * ‖d (i + 1) - d i‖ :=
      mul_le_mul h6 (hlen i) (norm_nonneg _) (by positivity)
    linarith
  have hsum : -(2 * L * L) ≤ inner ℝ (Y q - X') (∑ i ∈ Finset.Ico p q, (Y i - Y (i + 1))) := by
    rw [inner_sum]
    refine le_trans (le_of_eq ?_) (Finset.sum_le_sum hterm)
    rw [Finset.sum_neg_distrib, ← Finset.mul_sum, ← hL]
  have htel : ∑ i ∈ Finset.Ico p q, (Y i - Y (i + 1)) = Y p - Y q := by
    have := Finset.sum_Ico_sub (fun i => Y i) hpq
    rw [← neg_sub (Y q) (Y p), ← this, ← Finset.sum_neg_distrib]
    exact Finset.sum_congr rfl fun i _ => (neg_sub _ _).symm
  rw [htel] at hsum
  have hX2 : 0 ≤ inner ℝ (Y q - X') (-(X - X')) := by
    have h1 : Y q ∈ S q := hY0 q
    have := hX.2 _ h1
    rw [inner_neg_right, real_inner_comm]
    linarith
  have e : Y p - X = (Y q - X') + ((Y p - Y q) + -(X - X')) := by abel
  have h8 : ‖Y q - X'‖ ^ 2 + 2 * inner ℝ (Y q - X') ((Y p - Y q) + -(X - X')) ≤ ‖Y p - X‖ ^ 2 := by
    rw [e, norm_add_sq_real]
    have := sq_nonneg ‖(Y p - Y q) + -(X - X')‖
    linarith
  rw [inner_add_right] at h8
  rw [← hL]
  nlinarith

end abstract

end Neml.Settle

namespace Neml.SolveStep

open Matrix Filter Topology Neml.SmallStrain Neml.Flow Neml.Mandel Neml.Elastic Neml.Settle

variable {G Kb K H y T : ℝ} {el : Elastic ℝ (Fin 6)}

/-- A surface that moves. -/
noncomputable def shift (u : Fin 6 → ℝ) : Plane := WithLp.toLp 2 (Sum.elim u 0)

theorem region_shift {mu y K : ℝ} {c c' : Fin 6 → ℝ} (hc : tr3 c = 0) (hc' : tr3 c' = 0) {v : Plane} (h : v ∈ region mu y K c) :
    v + (shift c' - shift c) ∈ region mu y K c' := by
  obtain ⟨h1, h2, h3⟩ := h
  have e1 : partZ (v + (shift c' - shift c)) = partZ v + (c' - c) := rfl
  have e2 : partA (v + (shift c' - shift c)) = partA v := by
    show partA v + (0 - 0) = partA v
    ring
  refine ⟨?_, ?_, ?_⟩
  · rw [e1, e2, show c' - (partZ v + (c' - c)) = c - partZ v by abel]
    exact h1
  · rw [e1, tr3_add, tr3_sub, hc, hc', h2]
    ring
  · rw [e2]
    exact h3

theorem norm_shift (c c' : Fin 6 → ℝ) : ‖shift c' - shift c‖ = norm2 (c' - c) := by
  have h1 := norm_plane (shift c' - shift c)
  have e1 : partZ (shift c' - shift c) = c' - c := rfl
  have e2 : partA (shift c' - shift c) = 0 := by
    show (0 : ℝ) - 0 = 0
    ring
  rw [e1, e2] at h1
  have h2 : 0 ≤ norm2 (c' - c) := Real.sqrt_nonneg _
  exact (sq_eq_sq₀ (norm_nonneg _) h2).1 (by rw [h1]; ring)

/-- Where a state is, if the residual stress is `I`. -/
noncomputable def locus (G K H : ℝ) (I : Fin 6 → ℝ) (x : State7) : Plane :=
  place (2 * G + H) K ((2 * G + H) • bk x - devVec I) (ac x)

theorem effective_of {I : Fin 6 → ℝ} {w : State7} (hw : residual G Kb w = I) (hb : tr3 (bk w) = 0) :
    devVec w.s - H • bk w = (2 * G) • devVec w.e - ((2 * G + H) • bk w - devVec I) := by
  have h1 : devVec ((2 * G) • bk w) = (2 * G) • bk w := devVec_of_tr3 (by rw [tr3_smul, hb, mul_zero])
  rw [effective G Kb, hw, h1, add_smul]
  abel

theorem ExactStep.nearest (hG : 0 < G) (hB : 0 < Kb) (hC : el.C T = isoC G Kb) (hS : el.S T = isoS G Kb) (hK : 0 ≤ K)
    (hH : 0 ≤ H) {x z : State7} {e I : Fin 6 → ℝ} {t : ℝ} (hT : x.T = T) (hI : residual G Kb x = I) (hb : tr3 (bk x) = 0)
    (h : ExactStep el G y K H T x (e, t) z) :
    Nearest (region (2 * G + H) y K ((2 * G) • devVec e)) (locus G K H I x) (locus G K H I z) ∧
      residual G Kb z = I ∧ tr3 (bk z) = 0 ∧ z.T = T ∧ z.e = e := by
  obtain ⟨hr, ⟨g, m, g0, mt, mm, hbz, ha, hf, hn⟩, he, hT', -⟩ := (exactStep_iff hG hB hC hS hT _ _).1 h
  have hbt : tr3 (bk z) = 0 := by
    rw [hbz, tr3_add, tr3_smul, hb, mt]
    ring
  have hrz := hr.trans hI
  rw [effective_of hrz hbt, he] at hf hn
  have hD : Drag (2 * G + H) y K ((2 * G) • devVec e) ((2 * G + H) • bk x - devVec I) (ac x)
      ((2 * G + H) • bk z - devVec I) (ac z) g m := by
    refine ⟨g0, mt, mm, ?_, ha, hf, hn⟩
    rw [hbz, smul_add, smul_smul]
    abel
  refine ⟨hD.nearest (by positivity) hK ?_, hrz, hbt, hT', he⟩
  rw [tr3_sub, tr3_smul, hb, tr3_devVec]
  ring

/-- Within the surface. -/
def Within (y K H : ℝ) (x : State7) : Prop := norm2 (devVec x.s - H • bk x) ≤ √(2 / 3) * (y + K * ac x)

/-- Length of strain between two steps, without the volume. -/
noncomputable def travel (ε : ℕ → Fin 6 → ℝ) (p q : ℕ) : ℝ := ∑ i ∈ Finset.Ico p q, norm2 (devVec (ε (i + 1) - ε i))

theorem locus_within (hG : 0 < G) (hK : 0 ≤ K) (hH : 0 ≤ H) {I : Fin 6 → ℝ} {w : State7} (hw : residual G Kb w = I)
    (hb : tr3 (bk w) = 0) (h : Within y K H w) : locus G K H I w ∈ region (2 * G + H) y K ((2 * G) • devVec w.e) := by
  have hmu : 0 < 2 * G + H := by positivity
  have hth : √((2 * G + H) * K) * √((2 * G + H) * K) = (2 * G + H) * K := Real.mul_self_sqrt (by positivity)
  have hco : √((2 * G + H) * K) / (2 * G + H) * (√((2 * G + H) * K) * ac w) = K * ac w := by
    field_simp
    linear_combination ac w * hth
  refine ⟨?_, ?_, fun h0 => ?_⟩
  · show norm2 ((2 * G) • devVec w.e - ((2 * G + H) • bk w - devVec I)) ≤
      √(2 / 3) * (y + √((2 * G + H) * K) / (2 * G + H) * (√((2 * G + H) * K) * ac w))
    rw [hco, ← effective_of hw hb]
    exact h
  · show tr3 ((2 * G + H) • bk w - devVec I) = 0
    rw [tr3_sub, tr3_smul, hb, tr3_devVec]
    ring
  · show √((2 * G + H) * K) * ac w = 0
    rw [h0]
    simp

/-- C208: a path of exact steps `x` along strains `ε` from a state within the surface, and a path `z` from the same state that
takes only every strain with a number `κ j`. They differ by no more than the lengths of strain in between are worth. -/
theorem C208_refine (hG : 0 < G) (hB : 0 < Kb) (hC : el.C T = isoC G Kb) (hS : el.S T = isoS G Kb) (hK : 0 ≤ K) (hH : 0 ≤ H)
    {ε : ℕ → Fin 6 → ℝ} {t t' : ℕ → ℝ} {κ : ℕ → ℕ} (hκ0 : κ 0 = 0) (hκ : Monotone κ) {x z : ℕ → State7} (h0 : Sound (x 0))
    (hT : (x 0).T = T) (he : (x 0).e = ε 0) (hw : Within y K H (x 0)) (hz0 : z 0 = x 0)
    (hx : ∀ i, ExactStep el G y K H T (x i) (ε (i + 1), t i) (x (i + 1)))
    (hz : ∀ j, ExactStep el G y K H T (z j) (ε (κ (j + 1)), t' j) (z (j + 1))) (j : ℕ) :
    norm2 ((x (κ j)).s - (z j).s) ≤ 4 * G * √(∑ i ∈ Finset.range j, travel ε (κ i) (κ (i + 1)) ^ 2) ∧
    (2 * G + H) * norm2 (bk (x (κ j)) - bk (z j)) ≤ 4 * G * √(∑ i ∈ Finset.range j, travel ε (κ i) (κ (i + 1)) ^ 2) ∧
    √((2 * G + H) * K) * |ac (x (κ j)) - ac (z j)| ≤ 4 * G * √(∑ i ∈ Finset.range j, travel ε (κ i) (κ (i + 1)) ^ 2) := by
  have hmu : 0 < 2 * G + H := by positivity
  obtain ⟨I, hI⟩ : ∃ I, I = residual G Kb (x 0) := ⟨_, rfl⟩
  have hxs (i : ℕ) : residual G Kb (x i) = I ∧ tr3 (bk (x i)) = 0 ∧ (x i).T = T ∧ (x i).e = ε i := by
    induction i with
    | zero => exact ⟨hI.symm, h0.2, hT, he⟩
    | succ i ih => exact ((hx i).nearest hG hB hC hS hK hH ih.2.2.1 ih.1 ih.2.1).2
  have hzs (i : ℕ) : residual G Kb (z i) = I ∧ tr3 (bk (z i)) = 0 ∧ (z i).T = T ∧ (z i).e = ε (κ i) := by
    induction i with
    | zero => rw [hz0, hκ0]; exact hxs 0
    | succ i ih => exact ((hz i).nearest hG hB hC hS hK hH ih.2.2.1 ih.1 ih.2.1).2
  have hY (i : ℕ) := ((hx i).nearest hG hB hC hS hK hH (hxs i).2.2.1 (hxs i).1 (hxs i).2.1).1
  have hX (i : ℕ) := ((hz i).nearest hG hB hC hS hK hH (hzs i).2.2.1 (hzs i).1 (hzs i).2.1).1
  have hin (i : ℕ) : locus G K H I (x i) ∈ region (2 * G + H) y K ((2 * G) • devVec (ε i)) := by
    cases i with
    | zero =>
      have := locus_within hG hK hH (hxs 0).1 (hxs 0).2.1 hw
      rwa [he] at this
    | succ i => exact (hY i).1
  have htr (i : ℕ) : tr3 ((2 * G) • devVec (ε i)) = 0 := by rw [tr3_smul, tr3_devVec, mul_zero]
  have hstep (j : ℕ) := one_against_many (S := fun i => region (2 * G + H) y K ((2 * G) • devVec (ε i)))
    (d := fun i => shift ((2 * G) • devVec (ε i))) (fun i k v hv => region_shift (htr i) (htr k) hv)
    (Y := fun i => locus G K H I (x i)) hY hin (hκ (Nat.le_succ j)) (hX j)
  have hlen (p q : ℕ) : ∑ i ∈ Finset.Ico p q, ‖shift ((2 * G) • devVec (ε (i + 1))) - shift ((2 * G) • devVec (ε i))‖ =
      2 * G * travel ε p q := by
    rw [travel, Finset.mul_sum]
    refine Finset.sum_congr rfl fun i _ => ?_
    rw [norm_shift, ← smul_sub, ← devVec_sub, norm2_smul, abs_of_pos (by positivity)]
  have hall (j : ℕ) : ‖locus G K H I (x (κ j)) - locus G K H I (z j)‖ ^ 2 ≤
      (4 * G) ^ 2 * ∑ i ∈ Finset.range j, travel ε (κ i) (κ (i + 1)) ^ 2 := by
    induction j with
    | zero => simp [hκ0, hz0]
    | succ j ih =>
      have h1 := hstep j
      rw [hlen] at h1
      rw [Finset.sum_range_succ, mul_add]
      refine h1.trans ?_
      have : 4 * (2 * G * travel ε (κ j) (κ (j + 1))) ^ 2 = (4 * G) ^ 2 * travel ε (κ j) (κ (j + 1)) ^ 2 := by ring
      rw [this]
      exact add_le_add_left ih _
  have hn : ‖locus G K H I (x (κ j)) - locus G K H I (z j)‖ ≤
      4 * G * √(∑ i ∈ Finset.range j, travel ε (κ i) (κ (i + 1)) ^ 2) := by
    refine le_of_sq_le_sq ?_ (by positivity)
    rw [mul_pow, Real.sq_sqrt (Finset.sum_nonneg fun _ _ => sq_nonneg _)]
    exact hall j
  have hp := norm_plane (locus G K H I (x (κ j)) - locus G K H I (z j))
  have e1 : partZ (locus G K H I (x (κ j)) - locus G K H I (z j)) = (2 * G + H) • (bk (x (κ j)) - bk (z j)) := by
    show ((2 * G + H) • bk (x (κ j)) - devVec I) - ((2 * G + H) • bk (z j) - devVec I) = _
    rw [smul_sub]
    abel
  have e2 : partA (locus G K H I (x (κ j)) - locus G K H I (z j)) = √((2 * G + H) * K) * (ac (x (κ j)) - ac (z j)) := by
    show √((2 * G + H) * K) * ac (x (κ j)) - √((2 * G + H) * K) * ac (z j) = _
    ring
  rw [e1, e2, norm2_smul, abs_of_pos hmu] at hp
  have hb0 : 0 ≤ norm2 (bk (x (κ j)) - bk (z j)) := Real.sqrt_nonneg _
  have hbk : (2 * G + H) * norm2 (bk (x (κ j)) - bk (z j)) ≤ ‖locus G K H I (x (κ j)) - locus G K H I (z j)‖ :=
    le_of_sq_le_sq (by rw [hp]; nlinarith [sq_nonneg (√((2 * G + H) * K) * (ac (x (κ j)) - ac (z j)))]) (norm_nonneg _)
  refine ⟨?_, hbk.trans hn, ?_⟩
  · have h1 : ∀ w : State7, residual G Kb w = I → w.s = I - (2 * G) • bk w + isoC G Kb *ᵥ w.e := fun w hw => by
      rw [← hw, residual]
      abel
    have h2 : (x (κ j)).s - (z j).s = (-(2 * G)) • (bk (x (κ j)) - bk (z j)) := by
      rw [h1 _ (hxs (κ j)).1, h1 _ (hzs j).1, (hxs (κ j)).2.2.2, (hzs j).2.2.2, neg_smul, smul_sub]
      abel
    rw [h2, norm2_smul, abs_neg, abs_of_pos (by positivity)]
    refine le_trans ?_ (hbk.trans hn)
    exact mul_le_mul_of_nonneg_right (by linarith) hb0
  · refine le_trans ?_ hn
    refine le_of_sq_le_sq ?_ (norm_nonneg _)
    rw [hp, mul_pow, sq_abs, ← mul_pow]
    nlinarith [sq_nonneg ((2 * G + H) * norm2 (bk (x (κ j)) - bk (z j)))]

theorem travel_le {ε : ℕ → Fin 6 → ℝ} {c : ℝ} (h : ∀ i, norm2 (devVec (ε (i + 1) - ε i)) ≤ c) (p q : ℕ) :
    travel ε p q ≤ ((q - p : ℕ) : ℝ) * c := by
  refine (Finset.sum_le_card_nsmul _ _ _ fun i _ => h i).trans (le_of_eq ?_)
  rw [Nat.card_Ico, nsmul_eq_mul]

/-- A strain path sampled at times `i / n`. -/
noncomputable def samples (f : ℝ → Fin 6 → ℝ) (n i : ℕ) : Fin 6 → ℝ := f (i / n)

theorem samples_step {f : ℝ → Fin 6 → ℝ} {Λ : ℝ} (hf : ∀ a b, 0 ≤ a → a ≤ b → norm2 (devVec (f b - f a)) ≤ Λ * (b - a))
    {n : ℕ} (hn : 0 < n) (i : ℕ) : norm2 (devVec (samples f n (i + 1) - samples f n i)) ≤ Λ * (1 / n) := by
  have hn' : (0 : ℝ) < n := by exact_mod_cast hn
  refine (hf (i / n) ((i + 1 : ℕ) / n) (by positivity) (by gcongr; simp)).trans (le_of_eq ?_)
  push_cast
  ring

/-- `n` steps against `n * m` steps. -/
theorem uniform_refine (hG : 0 < G) (hB : 0 < Kb) (hC : el.C T = isoC G Kb) (hS : el.S T = isoS G Kb) (hK : 0 ≤ K) (hH : 0 ≤ H)
    {f : ℝ → Fin 6 → ℝ} {Λ : ℝ} (hΛ : 0 ≤ Λ) (hf : ∀ a b, 0 ≤ a → a ≤ b → norm2 (devVec (f b - f a)) ≤ Λ * (b - a))
    {x0 : State7} (h0 : Sound x0) (hT : x0.T = T) (he : x0.e = f 0) (hw : Within y K H x0) {t : ℕ → ℕ → ℝ}
    {x : ℕ → ℕ → State7} (hx0 : ∀ n, x n 0 = x0)
    (hx : ∀ n i, ExactStep el G y K H T (x n i) (samples f n (i + 1), t n i) (x n (i + 1))) {n m : ℕ} (hn : 0 < n) (hm : 0 < m) :
    norm2 ((x (n * m) (n * m)).s - (x n n).s) ≤ 4 * G * Λ / √n := by
  have hn' : (0 : ℝ) < n := by exact_mod_cast hn
  have hm' : (0 : ℝ) < m := by exact_mod_cast hm
  have hsame (j : ℕ) : samples f (n * m) (j * m) = samples f n j := by
    unfold samples
    push_cast
    rw [mul_div_mul_right _ _ hm'.ne']
  have h1 := (C208_refine (ε := samples f (n * m)) (κ := fun j => j * m) (x := x (n * m)) (z := x n) (t := t (n * m)) (t' := t n)
    hG hB hC hS hK hH (by simp) (fun a b h => Nat.mul_le_mul_right m h) (by rw [hx0]; exact h0) (by rw [hx0]; exact hT)
    (by rw [hx0, he]; simp [samples]) (by rw [hx0]; exact hw) (by rw [hx0, hx0]) (hx (n * m))
    (fun j => by rw [hsame]; exact hx n j) n).1
  refine h1.trans ?_
  have h2 (i : ℕ) : travel (samples f (n * m)) (i * m) ((i + 1) * m) ≤ Λ / n := by
    refine (travel_le (samples_step hf (Nat.mul_pos hn hm)) _ _).trans (le_of_eq ?_)
    rw [show (i + 1) * m - i * m = m by rw [Nat.add_mul]; omega]
    push_cast
    field_simp
  have h3 (i : ℕ) : 0 ≤ travel (samples f (n * m)) (i * m) ((i + 1) * m) :=
    Finset.sum_nonneg fun _ _ => Real.sqrt_nonneg _
  have h4 : ∑ i ∈ Finset.range n, travel (samples f (n * m)) (i * m) ((i + 1) * m) ^ 2 ≤ (Λ / √n) ^ 2 := by
    refine (Finset.sum_le_card_nsmul _ _ ((Λ / n) ^ 2) fun i _ => pow_le_pow_left₀ (h3 i) (h2 i) 2).trans (le_of_eq ?_)
    rw [Finset.card_range, nsmul_eq_mul, div_pow, div_pow, Real.sq_sqrt hn'.le]
    field_simp
  calc 4 * G * √(∑ i ∈ Finset.range n, travel (samples f (n * m)) (i * m) ((i + 1) * m) ^ 2)
      ≤ 4 * G * √((Λ / √n) ^ 2) := by gcongr
    _ = 4 * G * Λ / √n := by rw [Real.sqrt_sq (by positivity)]; ring

/-- C208: the stresses at the end of `n` equal steps along any strain path whose rate is bounded converge as `n` grows, and the
error is at most `4 G Λ / √n`. -/
theorem C208_converges (hG : 0 < G) (hB : 0 < Kb) (hC : el.C T = isoC G Kb) (hS : el.S T = isoS G Kb) (hK : 0 ≤ K) (hH : 0 ≤ H)
    {f : ℝ → Fin 6 → ℝ} {Λ : ℝ} (hΛ : 0 ≤ Λ) (hf : ∀ a b, 0 ≤ a → a ≤ b → norm2 (devVec (f b - f a)) ≤ Λ * (b - a))
    {x0 : State7} (h0 : Sound x0) (hT : x0.T = T) (he : x0.e = f 0) (hw : Within y K H x0) {t : ℕ → ℕ → ℝ}
    {x : ℕ → ℕ → State7} (hx0 : ∀ n, x n 0 = x0)
    (hx : ∀ n i, ExactStep el G y K H T (x n i) (samples f n (i + 1), t n i) (x n (i + 1))) :
    ∃ s : Fin 6 → ℝ, Tendsto (fun n => (x n n).s) atTop (𝓝 s) ∧ ∀ n : ℕ, 0 < n → norm2 ((x n n).s - s) ≤ 4 * G * Λ / √n := by
  obtain ⟨u, hu⟩ : ∃ u : ℕ → EuclideanSpace ℝ (Fin 6), u = fun n => WithLp.toLp 2 (x n n).s := ⟨_, rfl⟩
  have hd (n m : ℕ) : dist (u n) (u m) = norm2 ((x n n).s - (x m m).s) := by
    rw [dist_eq_norm, hu, norm2_lp]
    rfl
  have hpair (n m : ℕ) (hn : 0 < n) (hm : 0 < m) : dist (u n) (u m) ≤ 4 * G * Λ / √n + 4 * G * Λ / √m := by
    have h1 := uniform_refine hG hB hC hS hK hH hΛ hf h0 hT he hw hx0 hx hn hm
    have h2 := uniform_refine hG hB hC hS hK hH hΛ hf h0 hT he hw hx0 hx hm hn
    rw [← hd] at h1 h2
    rw [Nat.mul_comm m n] at h2
    have := dist_triangle_left (u n) (u m) (u (n * m))
    linarith
  have hlim : Tendsto (fun n : ℕ => 4 * G * Λ / √(n : ℝ)) atTop (𝓝 0) :=
    tendsto_const_nhds.div_atTop (Real.tendsto_sqrt_atTop.comp tendsto_natCast_atTop_atTop)
  have hcau : CauchySeq fun n => u (n + 1) := by
    refine cauchySeq_of_le_tendsto_0 (fun n : ℕ => 4 * G * Λ / √((n + 1 : ℕ) : ℝ) + 4 * G * Λ / √((n + 1 : ℕ) : ℝ))
      (fun n m N hn hm => (hpair _ _ n.succ_pos m.succ_pos).trans ?_) ?_
    · have hle (k : ℕ) (hk : N ≤ k) : 4 * G * Λ / √((k + 1 : ℕ) : ℝ) ≤ 4 * G * Λ / √((N + 1 : ℕ) : ℝ) :=
        div_le_div_of_nonneg_left (by positivity) (by positivity) (Real.sqrt_le_sqrt (by exact_mod_cast Nat.succ_le_succ hk))
      exact add_le_add (hle n hn) (hle m hm)
    · have := hlim.comp (tendsto_add_atTop_nat 1)
      simpa using this.add this
  obtain ⟨a, ha⟩ := cauchySeq_tendsto_of_complete hcau
  have ha' : Tendsto u atTop (𝓝 a) := (tendsto_add_atTop_iff_nat 1).1 ha
  refine ⟨WithLp.ofLp a, ?_, fun n hn => ?_⟩
  · have := ((PiLp.continuous_ofLp 2 (fun _ : Fin 6 => ℝ)).tendsto a).comp ha'
    rw [hu] at this
    exact this
  · have h1 : Tendsto (fun m => dist (u n) (u m)) atTop (𝓝 (dist (u n) a)) := tendsto_const_nhds.dist ha'
    have h2 : Tendsto (fun m : ℕ => 4 * G * Λ / √n + 4 * G * Λ / √(m : ℝ)) atTop (𝓝 (4 * G * Λ / √n + 0)) :=
      tendsto_const_nhds.add hlim
    have h3 := le_of_tendsto_of_tendsto h1 h2 (eventually_atTop.2 ⟨1, fun m hm => hpair n m hn hm⟩)
    rw [add_zero, dist_eq_norm, hu] at h3
    rw [norm2_lp]
    exact h3

/-- The paths of every number of steps there are. -/
theorem C208_path (hG : 0 < G) (hy : 0 ≤ y) (hK : 0 ≤ K) (hH : 0 ≤ H) (f : ℝ → Fin 6 → ℝ) (t : ℕ → ℕ → ℝ) {x0 : State7}
    (h0 : Sound x0) (hT : x0.T = T) : ∃ x : ℕ → ℕ → State7, (∀ n, x n 0 = x0) ∧
      ∀ n i, ExactStep el G y K H T (x n i) (samples f n (i + 1), t n i) (x n (i + 1)) := by
  choose x h1 h2 using fun n => C206_strain_path (el := el) hG hy hK hH (fun i => samples f n (i + 1)) (t n) h0 hT
  exact ⟨x, h1, fun n i => (h2 n).2 i⟩

theorem along_path {X I : Type} {R : X → I → X → Prop} {x : ℕ → X} {l : ℕ → I} (h : ∀ i, R (x i) (l i) (x (i + 1))) (n : ℕ) :
    ∀ k, Along R (x k) ((List.range' k n).map l) (x (k + n)) := by
  induction n with
  | zero => exact fun k => rfl
  | succ n ih =>
    intro k
    rw [List.range'_succ, List.map_cons]
    refine ⟨x (k + 1), h k, ?_⟩
    have := ih (k + 1)
    rwa [show k + 1 + n = k + (n + 1) by omega] at this

theorem devVec_le_apart (hG : 0 < G) (hB : 0 < Kb) (hK : 0 ≤ K) (hH : 0 ≤ H) (s : Fin 6 → ℝ) (h : Q7 → ℝ) :
    norm2 (devVec s) ≤ √(2 * G) * apart7 G Kb K H s h := by
  have h1 : devVec s ⬝ᵥ devVec s ≤ 2 * G * energy7 G Kb K H s h := by
    rw [energy7_eq, energy_split hG hB]
    have h2 : 0 ≤ H * ((fun i => h (.inr i)) ⬝ᵥ fun i => h (.inr i)) := by
      have : 0 ≤ (fun i => h (.inr i)) ⬝ᵥ fun i => h (.inr i) := by
        simp only [dotProduct]
        exact Finset.sum_nonneg fun i _ => mul_self_nonneg _
      positivity
    have h3 : 0 ≤ K * h (.inl ()) ^ 2 := by positivity
    have h4 : 0 ≤ tr3 s ^ 2 / (9 * Kb) := by positivity
    have h5 : 2 * G * (devVec s ⬝ᵥ devVec s / (2 * G)) = devVec s ⬝ᵥ devVec s := by field_simp
    nlinarith
  rw [apart7, ← Real.sqrt_mul (by positivity)]
  exact Real.sqrt_le_sqrt h1

theorem devVec_le_norm2 (s : Fin 6 → ℝ) : norm2 (devVec s) ≤ norm2 s := by
  have h : s ⬝ᵥ s = devVec s ⬝ᵥ devVec s + tr3 s ^ 2 / 3 := by
    simp only [devVec, tr3, dotProduct, Fin.sum_univ_six]
    simp
    ring
  have h' : devVec s ⬝ᵥ devVec s ≤ s ⬝ᵥ s := by
    rw [h]
    have := sq_nonneg (tr3 s)
    linarith
  exact Real.sqrt_le_sqrt h'

/-- Strains and times of `n` steps along a strain path. -/
noncomputable def steps (f : ℝ → Fin 6 → ℝ) (t : ℕ → ℕ → ℝ) (n : ℕ) : List ((Fin 6 → ℝ) × ℝ) :=
  (List.range' 0 n).map fun i => (samples f n (i + 1), t n i)

/-- C208: the code takes any number of steps along a strain path. The deviatoric stress it ends with is, whatever the number
`n`, within `4 G Λ / √n` and `n` times the tolerance of one and the same stress. -/
theorem C208_taken {eps : ℝ} {s0 Ki Hk : ℝ → ℝ} {lin} {p : Newton.Params} {fuel : ℕ} {inv} (hep : 0 < eps)
    (hs : Standard p fuel) (hl : ExactSolve lin) (hv : ExactInv inv) (hG : 0 < G) (hB : 0 < Kb) (hC : el.C T = isoC G Kb)
    (hS : el.S T = isoS G Kb) (hH : 0 ≤ Hk T) (hK : 0 ≤ Ki T) (hk : eps ≤ √(2 / 3) * s0 T) {f : ℝ → Fin 6 → ℝ} {Λ : ℝ}
    (hΛ : 0 ≤ Λ) (hf : ∀ a b, 0 ≤ a → a ≤ b → norm2 (devVec (f b - f a)) ≤ Λ * (b - a)) {x0 : State7} (h0 : Sound x0)
    (hT : x0.T = T) (he : x0.e = f 0) (hw : Within (s0 T) (Ki T) (Hk T) x0) (t : ℕ → ℕ → ℝ) :
    ∃ s : Fin 6 → ℝ, ∀ n : ℕ, 0 < n →
      (∃ z, Along (Takes (rateIndep q7Index el (linearFlow eps s0 Ki Hk) lin p fuel inv) T) x0 (steps f t n) z) ∧
      ∀ z, Along (Takes (rateIndep q7Index el (linearFlow eps s0 Ki Hk) lin p fuel inv) T) x0 (steps f t n) z →
        norm2 (devVec (z.s - s)) ≤ 4 * G * Λ / √n + n * p.atol := by
  have hy : 0 ≤ s0 T := by
    have h1 : (0 : ℝ) < √(2 / 3) := by positivity
    by_contra hn
    have := mul_neg_of_pos_of_neg h1 (not_le.1 hn)
    linarith
  obtain ⟨x, hx0, hx⟩ := C208_path (el := el) (T := T) hG hy hK hH f t h0 hT
  obtain ⟨s, -, hs'⟩ := C208_converges hG hB hC hS hK hH hΛ hf h0 hT he hw hx0 hx
  refine ⟨s, fun n hn => ?_⟩
  obtain ⟨h1, -, h3⟩ := C189_history (lin := lin) (inv := inv) hep hs hl hv hG hB hC hS hH hK hk (steps f t n) h0 h0 hT hT rfl
  refine ⟨h1, fun z hz => ?_⟩
  have h4 := along_path (R := ExactStep el G (s0 T) (Ki T) (Hk T) T) (l := fun i => (samples f n (i + 1), t n i)) (hx n) n 0
  rw [hx0, zero_add] at h4
  have h5 := h3 z (x n n) hz h4
  have h6 := devVec_le_apart hG hB hK hH (z.s - (x n n).s) (z.h - (x n n).h)
  have h7 : apart7 G Kb (Ki T) (Hk T) (x0.s - x0.s) (x0.h - x0.h) = 0 := by simp [apart7, energy7]
  have h8 : (steps f t n).length = n := by simp [steps]
  rw [h7, h8, zero_add] at h5
  have h9 := hs' n hn
  have ha := hs.atol
  have h10 : √(2 * G) * (p.atol / √(2 * G + 2 / 3 * Ki T + Hk T)) ≤ p.atol := by
    rw [mul_div_assoc', div_le_iff₀ (by positivity), mul_comm]
    exact mul_le_mul_of_nonneg_left (Real.sqrt_le_sqrt (by nlinarith)) ha.le
  have h11 : norm2 (devVec (z.s - (x n n).s)) ≤ n * p.atol := by
    refine h6.trans ((mul_le_mul_of_nonneg_left h5 (Real.sqrt_nonneg _)).trans ?_)
    have := mul_le_mul_of_nonneg_left h10 (Nat.cast_nonneg (α := ℝ) n)
    linarith
  have h12 : norm2 (devVec ((x n n).s - s)) ≤ norm2 ((x n n).s - s) := by
    exact devVec_le_norm2 _
  have e : devVec (z.s - s) = devVec (z.s - (x n n).s) + devVec ((x n n).s - s) := by
    rw [← devVec_add]
    congr 1
    abel
  rw [e]
  refine (norm2_add_le _ _).trans ?_
  linarith

/-- The strain path of the cases below: pulled and twisted, and from half way on only pulled. -/
noncomputable def bent (a : ℝ) : Fin 6 → ℝ := ![3 * a, 0, 0, 0, 0, min a (1 / 2)]

theorem bent_rate (a b : ℝ) (_ : 0 ≤ a) (hab : a ≤ b) : norm2 (devVec (bent b - bent a)) ≤ 4 * (b - a) := by
  have h1 : min a (1 / 2) ≤ min b (1 / 2 : ℝ) := min_le_min_right _ hab
  have h2 : min b (1 / 2 : ℝ) - min a (1 / 2) ≤ b - a := by
    rcases le_total a (1 / 2) with h | h <;> rcases le_total b (1 / 2) with h' | h' <;>
      simp only [min_eq_left, min_eq_right, h, h'] <;> linarith
  obtain ⟨q, hq⟩ : ∃ q, q = min b (1 / 2 : ℝ) - min a (1 / 2) := ⟨_, rfl⟩
  rw [← hq] at h2
  have h3 : 0 ≤ q := by rw [hq]; linarith
  refine Real.sqrt_le_iff.2 ⟨by linarith, ?_⟩
  have e : bent b - bent a = ![3 * (b - a), 0, 0, 0, 0, q] := by
    rw [hq]
    ext i
    fin_cases i <;> simp [bent]
    ring
  rw [e]
  simp only [devVec, dotProduct, Fin.sum_univ_six, tr3]
  simp
  nlinarith

theorem bent_zero : (0 : Fin 6 → ℝ) = bent 0 := by ext i; fin_cases i <;> simp [bent]

theorem within_zero {y K H : ℝ} (hy : 0 ≤ y) : Within y K H ⟨0, 0, 0, 0, 0, 0, 0⟩ := by
  have e : bk ⟨0, 0, 0, 0, 0, 0, 0⟩ = 0 := rfl
  have e' : ac ⟨0, 0, 0, 0, 0, 0, 0⟩ = 0 := rfl
  have e2 : norm2 (devVec (0 : Fin 6 → ℝ) - H • (0 : Fin 6 → ℝ)) = 0 := by simp [devVec, norm2]
  show norm2 (devVec (0 : Fin 6 → ℝ) - H • bk ⟨0, 0, 0, 0, 0, 0, 0⟩) ≤ _
  rw [e, e', e2, mul_zero, add_zero]
  positivity

/-- A bar that is pulled and twisted, and from half way on only pulled. -/
example : ∃ (x : ℕ → ℕ → State7) (s : Fin 6 → ℝ), (∀ n, x n 0 = ⟨0, 0, 0, 0, 0, 0, 0⟩) ∧
    (∀ n i, ExactStep (isoElastic (1 / 2) 1) (1 / 2) 1 1 1 0 (x n i) (samples bent n (i + 1), (i : ℝ)) (x n (i + 1))) ∧
    Tendsto (fun n => (x n n).s) atTop (𝓝 s) ∧ ∀ n : ℕ, 0 < n → norm2 ((x n n).s - s) ≤ 8 / √n := by
  have h0 : Sound ⟨0, 0, 0, 0, 0, 0, 0⟩ := ⟨le_rfl, by simp [tr3]⟩
  obtain ⟨x, hx0, hx⟩ := C208_path (el := isoElastic (1 / 2) 1) (G := 1 / 2) (y := 1) (K := 1) (H := 1) (T := 0) (by norm_num)
    zero_le_one zero_le_one zero_le_one bent (fun _ i => (i : ℝ)) h0 rfl
  obtain ⟨s, hs, hn⟩ := C208_converges (Kb := 1) (Λ := 4) (by norm_num) one_pos rfl rfl zero_le_one zero_le_one (by norm_num)
    bent_rate h0 rfl bent_zero (within_zero zero_le_one) hx0 hx
  exact ⟨x, s, hx0, hx, hs, fun n h => (hn n h).trans (le_of_eq (by norm_num))⟩

/-- The code along the same strains: a hundred steps or a million. -/
example : ∃ s : Fin 6 → ℝ, ∀ n : ℕ, 0 < n → ∃ z, Along (Takes (rateIndep q7Index (isoElastic (1 / 2) 1)
      (linearFlow 1 (fun _ => √(3 / 2)) (fun _ => 3 / 2) (fun _ => 1)) exactLin ⟨1e-8, 1e-8, 50, false⟩ 50 exactInv) 0)
      ⟨0, 0, 0, 0, 0, 0, 0⟩ (steps bent (fun _ i => i) n) z ∧ norm2 (devVec (z.s - s)) ≤ 8 / √n + n * 1e-8 := by
  obtain ⟨s, h⟩ := C208_taken (el := isoElastic (1 / 2) 1) (G := 1 / 2) (Kb := 1) (T := 0) (eps := 1)
    (s0 := fun _ => √(3 / 2)) (Ki := fun _ => 3 / 2) (Hk := fun _ => 1) (lin := exactLin) (inv := exactInv)
    (p := ⟨1e-8, 1e-8, 50, false⟩) (fuel := 50) one_pos ⟨by norm_num, by norm_num, by norm_num, by norm_num⟩ exactLin_exact
    exactInv_exact (by norm_num) one_pos rfl rfl zero_le_one (by norm_num) sqrt_cancel.ge (Λ := 4) (by norm_num) bent_rate
    (x0 := ⟨0, 0, 0, 0, 0, 0, 0⟩) ⟨le_rfl, by simp [tr3]⟩ rfl bent_zero (within_zero (Real.sqrt_nonneg _)) (fun _ i => i)
  refine ⟨s, fun n hn => ?_⟩
  obtain ⟨⟨z, hz⟩, h2⟩ := h n hn
  refine ⟨z, hz, (h2 z hz).trans (le_of_eq ?_)⟩
  norm_num

end Neml.SolveStep
