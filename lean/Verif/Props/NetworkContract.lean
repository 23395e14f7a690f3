import Verif.Props.SlowLimit
import Verif.Props.BarNetworkLaws

/-!
# C198: networks of bars forget where they started

Two networks of the same bars under the same loads, displacements and temperatures, which differ in the stresses and
internal variables they start with (stresses from assembly, welding, an earlier overload).
-/

namespace Neml.SolveStep

open Matrix Neml.Mandel Neml.SmallStrain Neml.Flow Neml.Elastic

variable {G Kb K : ℝ}

theorem tr3_stiff (e : Fin 6 → ℝ) : tr3 (isoC G Kb *ᵥ e) = 3 * Kb * tr3 e := by
  simp only [tr3, isoC, mulVec, dotProduct, Fin.sum_univ_succ]
  simp
  ring

theorem dot_split (u q : Fin 6 → ℝ) : u ⬝ᵥ q = devVec u ⬝ᵥ devVec q + tr3 u * tr3 q / 3 := by
  simp only [devVec, tr3, mulVec, dotProduct, Fin.sum_univ_succ]
  simp
  ring

/-- The energy of a difference to which a strain is added. -/
theorem energy_shift (hG : 0 < G) (hB : 0 < Kb) (u q : Fin 6 → ℝ) (a : ℝ) :
    energy G Kb K u a + 2 * (u ⬝ᵥ q) ≤ energy G Kb K (u + isoC G Kb *ᵥ q) a := by
  rw [energy_split hG hB, energy_split hG hB, devVec_add, dev_stiff, tr3_add, tr3_stiff, dot_split u q]
  have h1 : (devVec u + (2 * G) • devVec q) ⬝ᵥ (devVec u + (2 * G) • devVec q) / (2 * G) =
      devVec u ⬝ᵥ devVec u / (2 * G) + 2 * (devVec u ⬝ᵥ devVec q) + 2 * G * (devVec q ⬝ᵥ devVec q) := by
    simp only [add_dotProduct, dotProduct_add, smul_dotProduct, dotProduct_smul, smul_eq_mul]
    rw [dotProduct_comm (devVec q) (devVec u)]
    field_simp
    ring
  have h2 : (tr3 u + 3 * Kb * tr3 q) ^ 2 / (9 * Kb) =
      tr3 u ^ 2 / (9 * Kb) + 2 * (tr3 u * tr3 q / 3) + Kb * tr3 q ^ 2 := by
    field_simp
    ring
  have h3 : 0 ≤ 2 * G * (devVec q ⬝ᵥ devVec q) := by
    have : 0 ≤ devVec q ⬝ᵥ devVec q := by
      simp only [dotProduct]
      exact Finset.sum_nonneg fun i _ => mul_self_nonneg _
    positivity
  have h4 : 0 ≤ Kb * tr3 q ^ 2 := by positivity
  rw [h1, h2]
  linarith

/-- Two steps with different strain increments: the energy of the difference grows at most by the work of the
difference of the new stresses on the difference of the increments. -/
theorem contract_work (hG : 0 < G) (hB : 0 < Kb) (hK : 0 ≤ K) {t1 t2 s1 s2 p δ : Fin 6 → ℝ}
    {a1 a2 b1 b2 g1 g2 : ℝ} (M1 : Moves G t1 a1 s1 b1 g1) (M2 : Moves G t2 a2 s2 b2 g2)
    (hp : t1 - t2 = p + isoC G Kb *ᵥ δ)
    (hmono : 0 ≤ (g1 - g2) * ((norm2 (devVec s1) - √(2 / 3) * (K * b1)) -
      (norm2 (devVec s2) - √(2 / 3) * (K * b2)))) :
    energy G Kb K (s1 - s2) (b1 - b2) ≤ energy G Kb K p (a1 - a2) + 2 * ((s1 - s2) ⬝ᵥ δ) := by
  obtain ⟨m1, p1, q1, r1, e1⟩ := M1.normal
  obtain ⟨m2, p2, q2, r2, e2⟩ := M2.normal
  have w1 := M1.work p1 q1 r1 s2
  have w2 := M2.work p2 q2 r2 s1
  set u := s1 - s2 with hu
  set v := g1 • m1 - g2 • m2 with hv
  have htv : tr3 v = 0 := by rw [hv, tr3_sub, tr3_smul, tr3_smul, p1, p2]; ring
  have hcv : isoC G Kb *ᵥ v = (2 * G) • v := isoC_dev G Kb htv
  have ht : p = u + isoC G Kb *ᵥ (v - δ) := by
    rw [mulVec_sub, hcv, eq_sub_of_add_eq hp.symm, hu, hv, e1, e2]
    module
  have huv : u ⬝ᵥ v = g1 * (m1 ⬝ᵥ (s1 - s2)) + g2 * (m2 ⬝ᵥ (s2 - s1)) := by
    rw [hv, dotProduct_sub, dotProduct_smul, dotProduct_smul, dotProduct_comm u m1,
      dotProduct_comm u m2, ← hu, show s2 - s1 = -u by rw [hu]; abel, dotProduct_neg]
    simp only [smul_eq_mul]
    ring
  have hs := energy_shift (K := K) hG hB u (v - δ) (a1 - a2)
  rw [← ht, dotProduct_sub] at hs
  have hb : a1 - a2 = (b1 - b2) - √(2 / 3) * (g1 - g2) := by rw [M1.hard, M2.hard]; ring
  have hc2 : 0 ≤ K * (√(2 / 3) * (g1 - g2)) ^ 2 := by positivity
  have he : energy G Kb K u (a1 - a2) = energy G Kb K u (b1 - b2) - K * (b1 - b2) ^ 2 + K * (a1 - a2) ^ 2 := by
    unfold energy; ring
  rw [he, hb] at hs
  rw [hb]
  nlinarith [huv, w1, w2, hmono, hc2]

section models

variable {el : Elastic ℝ (Fin 6)} {eps : ℝ} {T1 : ℝ} {s0 k : ℝ → ℝ} {gf : GFlow}

theorem trial'_differ (hG : 0 < G) (hB : 0 < Kb) (hC : el.C T1 = isoC G Kb) {x y : State} {e e' : Fin 6 → ℝ}
    (hx : el.S x.T = isoS G Kb) (hy : el.S y.T = isoS G Kb) :
    trial' el x e T1 - trial' el y e' T1 = (x.s - y.s) + isoC G Kb *ᵥ ((e - x.e) - (e' - y.e)) := by
  have h1 := (C36_iso_inverse G Kb hG hB).2
  have h2 : ∀ v, isoC G Kb *ᵥ (isoS G Kb *ᵥ v) = v := fun v => by
    rw [mulVec_mulVec, h1, one_mulVec]
  unfold trial'
  rw [hC, hx, hy]
  simp only [mulVec_sub, h2]
  abel

/-- C198: rate independent J2 plasticity with linear hardening or none, two states and two strain increments. -/
theorem C198_plastic (he : 0 < eps) (hG : 0 < G) (hB : 0 < Kb) (hk : 0 ≤ k T1) (hC : el.C T1 = isoC G Kb)
    {x y : State} {e e' s s' : Fin 6 → ℝ} {a a' : ℝ} (hx : el.S x.T = isoS G Kb) (hy : el.S y.T = isoS G Kb)
    (hfx : eps ≤ √(2 / 3) * (s0 T1 + k T1 * x.h ())) (hfy : eps ≤ √(2 / 3) * (s0 T1 + k T1 * y.h ()))
    (h : Returns el eps (linearIso s0 k) x e T1 s a) (h' : Returns el eps (linearIso s0 k) y e' T1 s' a') :
    energy G Kb (k T1) (s - s') (a - a') ≤ energy G Kb (k T1) (x.s - y.s) (x.h () - y.h ()) +
      2 * ((s - s') ⬝ᵥ ((e - x.e) - (e' - y.e))) := by
  obtain ⟨g, M, f1, c1⟩ := h.moves he hG hC (linear_tame hG hk hfx)
  obtain ⟨g', M', f2, c2⟩ := h'.moves he hG hC (linear_tame hG hk hfy)
  refine contract_work hG hB hk M M' (trial'_differ hG hB hC hx hy) ?_
  have e1 := linear_excess s0 k T1 s a
  have e2 := linear_excess s0 k T1 s' a'
  have h3 : (norm2 (devVec s) - √(2 / 3) * (k T1 * a)) - (norm2 (devVec s') - √(2 / 3) * (k T1 * a')) =
      excess (linearIso s0 k) T1 s a - excess (linearIso s0 k) T1 s' a' := by
    rw [e1, e2]; ring
  rw [h3]
  have h4 := mul_nonneg M.nonneg (neg_nonneg.mpr f2)
  have h5 := mul_nonneg M'.nonneg (neg_nonneg.mpr f1)
  linarith

/-- C198: viscoplasticity with linear hardening or none and any growing flow function. -/
theorem C198_visco (he : 0 < eps) (hG : 0 < G) (hB : 0 < Kb) (hk : 0 ≤ k T1) (hC : el.C T1 = isoC G Kb)
    (hm : Flowing gf T1) {x y z w : State} {e e' : Fin 6 → ℝ} {t1 : ℝ} (ht : x.t = y.t)
    (hfx : eps ≤ √(2 / 3) * (s0 T1 + k T1 * x.h ())) (hfy : eps ≤ √(2 / 3) * (s0 T1 + k T1 * y.h ()))
    (h : ViscoStep el eps (linearIso s0 k) gf T1 x (e, t1) z)
    (h' : ViscoStep el eps (linearIso s0 k) gf T1 y (e', t1) w) :
    energy G Kb (k T1) (z.s - w.s) (z.h () - w.h ()) ≤ energy G Kb (k T1) (x.s - y.s) (x.h () - y.h ()) +
      2 * ((z.s - w.s) ⬝ᵥ ((e - x.e) - (e' - y.e))) := by
  have M := visco_moves he hG hC hm (linear_tame hG hk hfx) h
  have M' := visco_moves he hG hC hm (linear_tame hG hk hfy) h'
  have hdt : 0 < t1 - x.t := sub_pos.mpr h.1
  have htr : trial el x e T1 - trial el y e' T1 = (x.s - y.s) + isoC G Kb *ᵥ ((e - x.e) - (e' - y.e)) := by
    unfold trial
    rw [hC, mulVec_sub _ (e - x.e)]
    abel
  refine contract_work hG hB hk M M' htr ?_
  set f := excess (linearIso s0 k) T1 z.s (z.h ()) with hf
  set f' := excess (linearIso s0 k) T1 w.s (w.h ()) with hf'
  have h3 : (norm2 (devVec z.s) - √(2 / 3) * (k T1 * z.h ())) -
      (norm2 (devVec w.s) - √(2 / 3) * (k T1 * w.h ())) = f - f' := by
    rw [hf, hf', linear_excess, linear_excess]; ring
  rw [h3, ← ht, ← mul_sub, mul_assoc]
  refine mul_nonneg hdt.le ?_
  rcases le_total f f' with h4 | h4
  · exact mul_nonneg_of_nonpos_of_nonpos (sub_nonpos.mpr (hm.rate_le h4)) (sub_nonpos.mpr h4)
  · exact mul_nonneg (sub_nonneg.mpr (hm.rate_le h4)) (sub_nonneg.mpr h4)

end models

end Neml.SolveStep

namespace Neml.BarNetwork

open Matrix Neml.PySolve Neml.Uniaxial Neml.Driver

variable {H : Type} {n : Nat}

/-- A material for which a measure `D` of the difference of two states, of those that satisfy `P`, grows at most by
twice the work of the difference of the new stresses on the difference of the strain increments. -/
structure Settles (m : Mat1 H) (P : H → Prop) (D : ℝ × H → ℝ × H → ℝ) : Prop where
  keeps : ∀ i o, i.t0 < i.t1 → P i.h0 → m.update i = some o → P o.h
  closer : ∀ i i' o o', i.t0 < i.t1 → i.T1 = i'.T1 → i.T0 = i'.T0 → i.t1 = i'.t1 → i.t0 = i'.t0 → P i.h0 → P i'.h0 →
    m.update i = some o → m.update i' = some o' →
    D (o.s, o.h) (o'.s, o'.h) ≤ D (i.s0, i.h0) (i'.s0, i'.h0) +
      2 * ((o.s - o'.s) * ((i.e1 - i.e0) - (i'.e1 - i'.e0)))

/-- The same bar between the same nodes, at the same temperature. -/
structure SameBar (e e' : Edge H n) : Prop where
  i : e.i = e'.i
  j : e.j = e'.j
  mat : e.bar.mat = e'.bar.mat
  A : e.bar.A = e'.bar.A
  l : e.bar.l = e'.bar.l
  T : e.bar.T = e'.bar.T
  temperature : e.bar.temperature.last = e'.bar.temperature.last

/-- The same network under the same loads at the same time, with the same displacements where they are prescribed. -/
structure Twins (net net' : Net H n) : Prop where
  time : net.time.last = net'.time.last
  dbc : net.dbc = net'.dbc
  fbc : net.fbc = net'.fbc
  bars : List.Forall₂ SameBar net.edges net'.edges
  held : ∀ v, net.dbc v ≠ none → net.last v = net'.last v

/-- The bars have a cross section and a length, and settle. -/
def Settling (P : Mat1 H → H → Prop) (D : Mat1 H → ℝ × H → ℝ × H → ℝ) (net : Net H n) : Prop :=
  ∀ e ∈ net.edges, 0 ≤ e.bar.A ∧ 0 < e.bar.l ∧ Settles e.bar.mat (P e.bar.mat) (D e.bar.mat) ∧
    P e.bar.mat e.bar.history.last

/-- Strains fit the displacements, and are mechanical and thermal. -/
def Fits (net : Net H n) : Prop :=
  ∀ e ∈ net.edges, e.bar.strain.last * e.bar.l = net.last e.j - net.last e.i ∧
    e.bar.strain.last = e.bar.mstrain.last + e.bar.tstrain.last

/-- What two bars differ by, times the volume. -/
def gap (D : Mat1 H → ℝ × H → ℝ × H → ℝ) (e e' : Edge H n) : ℝ :=
  e.bar.A * e.bar.l * D e.bar.mat (e.bar.stress.last, e.bar.history.last) (e'.bar.stress.last, e'.bar.history.last)

/-- What two networks differ by. -/
def apart (D : Mat1 H → ℝ × H → ℝ × H → ℝ) (net net' : Net H n) : ℝ :=
  (List.zipWith (gap D) net.edges net'.edges).sum

variable {P : Mat1 H → H → Prop} {D : Mat1 H → ℝ × H → ℝ × H → ℝ}

/-- One pair of bars over one step. -/
theorem gap_step {w w' z z' : Fin n → ℝ} {t1 t0 : ℝ} (ht : t0 < t1) {e e' f f' : Edge H n} (hs : SameBar e f)
    (he : BarStep w t1 t0 e e') (hf : BarStep w' t1 t0 f f') (hA : 0 ≤ e.bar.A) (hl : 0 < e.bar.l)
    (hS : Settles e.bar.mat (P e.bar.mat) (D e.bar.mat)) (hP : P e.bar.mat e.bar.history.last)
    (hP' : P f.bar.mat f.bar.history.last)
    (hce : e.bar.strain.last * e.bar.l = z e.j - z e.i ∧ e.bar.strain.last = e.bar.mstrain.last + e.bar.tstrain.last)
    (hcf : f.bar.strain.last * f.bar.l = z' f.j - z' f.i ∧ f.bar.strain.last = f.bar.mstrain.last + f.bar.tstrain.last) :
    SameBar e' f' ∧ P e'.bar.mat e'.bar.history.last ∧ P f'.bar.mat f'.bar.history.last ∧
    gap D e' f' ≤ gap D e f +
      2 * (e'.bar.stress.last * e'.bar.A * (((w - z) - (w' - z')) e'.j - ((w - z) - (w' - z')) e'.i) -
        f'.bar.stress.last * f'.bar.A * (((w - z) - (w' - z')) f'.j - ((w - z) - (w' - z')) f'.i)) := by
  obtain ⟨o, ho, m1, m2, -⟩ := he.material
  obtain ⟨o', ho', m1', m2', -⟩ := hf.material
  have T1 : e'.bar.temperature.last = f'.bar.temperature.last := by
    rw [he.temperature, hf.temperature, hs.T]; rfl
  rw [← hs.mat] at ho'
  rw [← hs.mat] at hP'
  have key := hS.closer
    ⟨e'.bar.mstrain.last, e.bar.mstrain.last, e'.bar.temperature.last, e.bar.temperature.last, t1, t0,
      e.bar.stress.last, e.bar.history.last, e.bar.energy.last, e.bar.dissipation.last⟩
    ⟨f'.bar.mstrain.last, f.bar.mstrain.last, f'.bar.temperature.last, f.bar.temperature.last, t1, t0,
      f.bar.stress.last, f.bar.history.last, f.bar.energy.last, f.bar.dissipation.last⟩ o o' ht T1 hs.temperature rfl rfl
    hP hP' ho ho'
  have k1 := hS.keeps _ o ht hP ho
  have k2 := hS.keeps _ o' ht hP' ho'
  have hm := congrArg Series.last he.mechanical
  have hm' := congrArg Series.last hf.mechanical
  rw [he.strain, he.thermal] at hm
  rw [hf.strain, hf.thermal] at hm'
  simp only [Series.push] at hm hm'
  have n1 : e'.bar.stress.last = o.s := by rw [m1]; rfl
  have n2 : f'.bar.stress.last = o'.s := by rw [m1']; rfl
  have n3 : e'.bar.history.last = o.h := by rw [m2]; rfl
  have n4 : f'.bar.history.last = o'.h := by rw [m2']; rfl
  refine ⟨⟨?_, ?_, ?_, ?_, ?_, ?_, T1⟩, ?_, ?_, ?_⟩
  · rw [he.ends.1, hf.ends.1, hs.i]
  · rw [he.ends.2, hf.ends.2, hs.j]
  · rw [he.same.1, hf.same.1, hs.mat]
  · rw [he.same.2.1, hf.same.2.1, hs.A]
  · rw [he.same.2.2.1, hf.same.2.2.1, hs.l]
  · rw [he.same.2.2.2, hf.same.2.2.2, hs.T]
  · rw [he.same.1, n3]; exact k1
  · rw [hf.same.1, ← hs.mat, n4]; exact k2
  unfold gap
  rw [n1, n2, n3, n4, he.same.1, he.same.2.1, hf.same.2.1, he.same.2.2.1, he.ends.1, he.ends.2, hf.ends.1, hf.ends.2]
  simp only [Pi.sub_apply]
  have hinc : e.bar.l * ((e'.bar.mstrain.last - e.bar.mstrain.last) - (f'.bar.mstrain.last - f.bar.mstrain.last)) =
      (w e.j - z e.j - (w' e.j - z' e.j)) - (w e.i - z e.i - (w' e.i - z' e.i)) := by
    have hl0 : e.bar.l ≠ 0 := hl.ne'
    have h1 := hce.1
    have h2 := hcf.1
    rw [hce.2] at h1
    rw [hcf.2, ← hs.l, ← hs.i, ← hs.j] at h2
    rw [hm, hm', ← hs.T, ← hs.mat, ← hs.temperature, ← hs.l, ← hs.i, ← hs.j]
    field_simp
    linarith
  have hmul := mul_le_mul_of_nonneg_left key (mul_nonneg hA hl.le)
  have hring : e.bar.A * e.bar.l * (2 * ((o.s - o'.s) * ((e'.bar.mstrain.last - e.bar.mstrain.last) -
      (f'.bar.mstrain.last - f.bar.mstrain.last)))) = 2 * (e.bar.A * (o.s - o'.s) *
        ((w e.j - z e.j - (w' e.j - z' e.j)) - (w e.i - z e.i - (w' e.i - z' e.i)))) := by
    rw [← hinc]; ring
  rw [mul_add] at hmul
  simp only at hmul
  rw [hring] at hmul
  rw [← hs.A, ← hs.i, ← hs.j]
  linarith

/-- All bars over one step. -/
theorem gaps_step {w w' z z' : Fin n → ℝ} {t1 t0 : ℝ} (ht : t0 < t1) {l l' k k' : List (Edge H n)}
    (hs : List.Forall₂ SameBar l k) (he : List.Forall₂ (BarStep w t1 t0) l l')
    (hf : List.Forall₂ (BarStep w' t1 t0) k k')
    (hl : ∀ e ∈ l, 0 ≤ e.bar.A ∧ 0 < e.bar.l ∧ Settles e.bar.mat (P e.bar.mat) (D e.bar.mat) ∧
      P e.bar.mat e.bar.history.last) (hk : ∀ e ∈ k, P e.bar.mat e.bar.history.last)
    (cl : ∀ e ∈ l, e.bar.strain.last * e.bar.l = z e.j - z e.i ∧
      e.bar.strain.last = e.bar.mstrain.last + e.bar.tstrain.last)
    (ck : ∀ e ∈ k, e.bar.strain.last * e.bar.l = z' e.j - z' e.i ∧
      e.bar.strain.last = e.bar.mstrain.last + e.bar.tstrain.last) :
    List.Forall₂ SameBar l' k' ∧
    (∀ e ∈ l', 0 ≤ e.bar.A ∧ 0 < e.bar.l ∧ Settles e.bar.mat (P e.bar.mat) (D e.bar.mat) ∧
      P e.bar.mat e.bar.history.last) ∧ (∀ e ∈ k', P e.bar.mat e.bar.history.last) ∧
    (List.zipWith (gap D) l' k').sum ≤ (List.zipWith (gap D) l k).sum +
      2 * ((l'.map fun e => e.bar.stress.last * e.bar.A *
          (((w - z) - (w' - z')) e.j - ((w - z) - (w' - z')) e.i)).sum -
        (k'.map fun e => e.bar.stress.last * e.bar.A *
          (((w - z) - (w' - z')) e.j - ((w - z) - (w' - z')) e.i)).sum) := by
  induction hs generalizing l' k' with
  | nil =>
    cases he; cases hf
    exact ⟨.nil, by simp, by simp, by simp⟩
  | @cons e f l k hef _ ih =>
    cases he with
    | @cons _ e' _ l' he1 he2 =>
    cases hf with
    | @cons _ f' _ k' hf1 hf2 =>
    obtain ⟨hA, hpos, hS, hP⟩ := hl e (by simp)
    obtain ⟨q1, q2, q3, q4⟩ := gap_step ht hef he1 hf1 hA hpos hS hP (hk f (by simp)) (cl e (by simp)) (ck f (by simp))
    obtain ⟨r1, r2, r3, r4⟩ := ih he2 hf2 (fun e h => hl e (List.mem_cons_of_mem _ h))
      (fun e h => hk e (List.mem_cons_of_mem _ h)) (fun e h => cl e (List.mem_cons_of_mem _ h))
      (fun e h => ck e (List.mem_cons_of_mem _ h))
    refine ⟨.cons q1 r1, ?_, ?_, ?_⟩
    · intro a ha
      rcases List.mem_cons.1 ha with rfl | ha
      · rw [he1.same.1, he1.same.2.1, he1.same.2.2.1] at *
        exact ⟨hA, hpos, hS, q2⟩
      · exact r2 a ha
    · intro a ha
      rcases List.mem_cons.1 ha with rfl | ha
      · exact q3
      · exact r3 a ha
    · simp only [List.zipWith_cons_cons, List.sum_cons, List.map_cons]
      linarith

/-- **C198.** Over an accepted step two networks of the same bars under the same loads draw closer, but for twice the
work of the difference of the forces on the free nodes on the difference of their displacement increments. -/
theorem C198_step {o o' : Opts} {h : ℝ} (hh : 0 < h) {net net' net1 net1' : Net H n} (ht : Twins net net')
    (hS : Settling P D net) (hP : ∀ e ∈ net'.edges, P e.bar.mat e.bar.history.last) (hc : Fits net) (hc' : Fits net')
    (ha : Accepted o net h net1) (ha' : Accepted o' net' h net1') :
    Twins net1 net1' ∧ Settling P D net1 ∧ (∀ e ∈ net1'.edges, P e.bar.mat e.bar.history.last) ∧
    apart D net1 net1' ≤ apart D net net' +
      2 * ∑ v with net.dbc v = none, ((net1.force v).last - (net1'.force v).last) *
        ((net1.last v - net.last v) - (net1'.last v - net'.last v)) := by
  obtain ⟨b1, d1, -, c1, c2, c3, -⟩ := C69_step o net net1 h ha
  obtain ⟨b2, d2, -, c1', c2', c3', -⟩ := C69_step o' net' net1' h ha'
  rw [← ht.time] at b2
  obtain ⟨g1, g2, g3, g4⟩ := gaps_step (D := D) (by linarith) ht.bars b1 b2 hS hP hc hc'
  have hheld : ∀ v, net.dbc v ≠ none → net1.last v = net1'.last v := by
    intro v hv
    obtain ⟨f, hf⟩ := Option.ne_none_iff_exists'.1 hv
    unfold Net.last
    rw [C69_prescribed o net net1 h ha v f hf, C69_prescribed o' net' net1' h ha' v f (by rw [← ht.dbc]; exact hf),
      ht.time]
  refine ⟨⟨?_, ?_, ?_, g1, ?_⟩, g2, g3, ?_⟩
  · rw [c3, c3', ht.time]; rfl
  · rw [c1, c1', ht.dbc]
  · rw [c2, c2', ht.fbc]
  · rw [c1]; exact hheld
  · unfold apart
    refine g4.trans (le_of_eq ?_)
    rw [← C69_virtual_work o net net1 h ha, ← C69_virtual_work o' net' net1' h ha', ← Finset.sum_sub_distrib,
      Finset.sum_filter]
    congr 2
    refine Finset.sum_congr rfl fun v _ => ?_
    simp only [Pi.sub_apply]
    split_ifs with hv
    · ring
    · rw [hheld v hv, ht.held v hv]; ring

/-- **C198.** With zero tolerances they draw closer. -/
theorem C198_exact {o o' : Opts} (ho : o.rtol = 0 ∧ o.atol = 0) (ho' : o'.rtol = 0 ∧ o'.atol = 0) {h : ℝ} (hh : 0 < h)
    {net net' net1 net1' : Net H n} (ht : Twins net net')
    (hS : Settling P D net) (hP : ∀ e ∈ net'.edges, P e.bar.mat e.bar.history.last) (hc : Fits net) (hc' : Fits net')
    (ha : Accepted o net h net1) (ha' : Accepted o' net' h net1') : apart D net1 net1' ≤ apart D net net' := by
  refine (C198_step hh ht hS hP hc hc' ha ha').2.2.2.trans (le_of_eq ?_)
  rw [Finset.sum_eq_zero, mul_zero, add_zero]
  intro v hv
  have hv := (Finset.mem_filter.1 hv).2
  rw [C69_equilibrium_exact o ho net net1 h ha v hv,
    C69_equilibrium_exact o' ho' net' net1' h ha' v (by rw [← ht.dbc]; exact hv)]
  unfold Net.applied
  rw [ht.time, ht.fbc, sub_self, zero_mul]

theorem fits_reach {net : Net H n} (h : Reach net) : Fits net := fun e he =>
  ⟨(C69_compatible_always net h e he).1, (C69_compatible_always net h e he).2.1⟩

theorem fits_step {o : Opts} {h : ℝ} {net net1 : Net H n} (ha : Accepted o net h net1) : Fits net1 := fun e he =>
  ⟨(C69_compatible o net net1 h ha e he).1, (C69_compatible o net net1 h ha e he).2.1⟩

/-- **C198.** Whatever the history of loads, displacements and temperatures, two networks that take the same time steps
never get further apart. -/
theorem C198_history {o o' : Opts} (ho : o.rtol = 0 ∧ o.atol = 0) (ho' : o'.rtol = 0 ∧ o'.atol = 0) {hs : List ℝ}
    (hh : ∀ h ∈ hs, 0 < h) {net net' net1 net1' : Net H n} (hc : Fits net) (hc' : Fits net') (ht : Twins net net')
    (hS : Settling P D net) (hP : ∀ e ∈ net'.edges, P e.bar.mat e.bar.history.last)
    (ha : Steps o net hs net1) (ha' : Steps o' net' hs net1') :
    Twins net1 net1' ∧ Settling P D net1 ∧ apart D net1 net1' ≤ apart D net net' := by
  induction ha generalizing net' with
  | nil => cases ha'; exact ⟨ht, hS, le_rfl⟩
  | cons h1 _ ih =>
    cases ha' with
    | cons h2 h3 =>
    obtain ⟨q1, q2, q3, -⟩ := C198_step (hh _ (by simp)) ht hS hP hc hc' h1 h2
    obtain ⟨r1, r2, r3⟩ := ih (fun h hm => hh h (List.mem_cons_of_mem _ hm)) (fits_step h1) (fits_step h2) q1 q2 q3 h3
    exact ⟨r1, r2, r3.trans (C198_exact ho ho' (hh _ (by simp)) ht hS hP hc hc' h1 h2)⟩

/-! ## Single bars -/

/-- If the measure is at least `c` times the square of the difference of stresses, the stresses of each bar never differ
by more than what the networks differed by at first. -/
theorem C198_stress {o o' : Opts} (ho : o.rtol = 0 ∧ o.atol = 0) (ho' : o'.rtol = 0 ∧ o'.atol = 0) {hs : List ℝ}
    (hh : ∀ h ∈ hs, 0 < h) {net net' net1 net1' : Net H n} (hc : Fits net) (hc' : Fits net') (ht : Twins net net')
    (hS : Settling P D net) (hP : ∀ e ∈ net'.edges, P e.bar.mat e.bar.history.last)
    {c : Mat1 H → ℝ} (hc0 : ∀ m, 0 ≤ c m) (hD : ∀ m x y, c m * (x.1 - y.1) ^ 2 ≤ D m x y)
    (ha : Steps o net hs net1) (ha' : Steps o' net' hs net1') (q : Edge H n × Edge H n)
    (hq : q ∈ net1.edges.zip net1'.edges) :
    q.1.bar.A * q.1.bar.l * (c q.1.bar.mat * (q.1.bar.stress.last - q.2.bar.stress.last) ^ 2) ≤ apart D net net' := by
  obtain ⟨-, h2, h3⟩ := C198_history ho ho' hh hc hc' ht hS hP ha ha'
  have hpos : ∀ x ∈ List.zipWith (gap D) net1.edges net1'.edges, 0 ≤ x := by
    intro x hx
    rw [← List.map_uncurry_zip_eq_zipWith] at hx
    obtain ⟨r, hr, rfl⟩ := List.mem_map.1 hx
    obtain ⟨hA, hl, -⟩ := h2 r.1 (List.of_mem_zip hr).1
    exact mul_nonneg (mul_nonneg hA hl.le) ((mul_nonneg (hc0 _) (sq_nonneg _)).trans (hD _ _ _))
  have hmem : gap D q.1 q.2 ∈ List.zipWith (gap D) net1.edges net1'.edges := by
    rw [← List.map_uncurry_zip_eq_zipWith]
    exact List.mem_map.2 ⟨q, hq, rfl⟩
  refine le_trans ?_ ((List.single_le_sum hpos _ hmem).trans h3)
  obtain ⟨hA, hl, -⟩ := h2 q.1 (List.of_mem_zip hq).1
  exact mul_le_mul_of_nonneg_left
    (hD q.1.bar.mat (q.1.bar.stress.last, q.1.bar.history.last) (q.2.bar.stress.last, q.2.bar.history.last))
    (mul_nonneg hA hl.le)

/-- The state a three-dimensional update starts from. -/
def start (i : In3 (Unit → ℝ)) : SolveStep.State := ⟨i.e0, i.T0, i.t0, i.s0, i.h0, i.u0, i.p0⟩

/-- uniaxial.py:15-117 over a three-dimensional model, lateral stresses solved for exactly. -/
noncomputable def wrapped (m : Model3 (Unit → ℝ)) (miter : Nat) (el : ℝ → ℝ → Store (Unit → ℝ) → ℝ) :
    Mat1 (Store (Unit → ℝ)) := ⟨Uniaxial.update m 0 0 miter, m.alpha, el, initStore m⟩

/-- The measure of a J2 material. -/
noncomputable def j2apart (G Kb K : ℝ) (x y : ℝ × Store (Unit → ℝ)) : ℝ :=
  SolveStep.energy G Kb K ![x.1 - y.1, 0, 0, 0, 0, 0] (x.2.2 () - y.2.2 ())

theorem axial_sub (a b : ℝ) : (![a, 0, 0, 0, 0, 0] : Fin 6 → ℝ) - ![b, 0, 0, 0, 0, 0] = ![a - b, 0, 0, 0, 0, 0] := by
  ext k; fin_cases k <;> simp

theorem axial_dot (a : ℝ) (v : Fin 6 → ℝ) : (![a, 0, 0, 0, 0, 0] : Fin 6 → ℝ) ⬝ᵥ v = a * v 0 := by
  simp [dotProduct, Fin.sum_univ_succ]

variable {G Kb K eps : ℝ} {el : SmallStrain.Elastic ℝ (Fin 6)} {s0 k : ℝ → ℝ} {gf : Flow.GFlow}

/-- **C198.** Bars of rate independent J2 plasticity settle. The yield stress may vary with temperature. -/
theorem C198_plastic_bar (he : 0 < eps) (hG : 0 < G) (hB : 0 < Kb) (hK : 0 ≤ K)
    (hC : ∀ T, el.C T = Elastic.isoC G Kb) (hS : ∀ T, el.S T = Elastic.isoS G Kb) (hk : ∀ T, k T = K)
    (hs : ∀ T, eps ≤ √(2 / 3) * s0 T) (m : Model3 (Unit → ℝ))
    (hm : ∀ i o, m.update i = some o →
      SolveStep.Returns el eps (Flow.linearIso s0 k) (start i) i.e1 i.T1 o.s (o.h ()))
    (miter : Nat) (es : ℝ → ℝ → Store (Unit → ℝ) → ℝ) :
    Settles (wrapped m miter es) (fun h => 0 ≤ h.2 ()) (j2apart G Kb K) := by
  have hfl : ∀ T a, 0 ≤ a → eps ≤ √(2 / 3) * (s0 T + k T * a) := fun T a ha =>
    (hs T).trans (mul_le_mul_of_nonneg_left (by rw [hk]; nlinarith [mul_nonneg hK ha]) (Real.sqrt_nonneg _))
  refine ⟨fun i o _ hP h => ?_, fun i i' o o' _ hT1 hT0 _ _ hP hP' h h' => ?_⟩
  · obtain ⟨o3, h1, h2, h3, -⟩ := C70_exact m miter i o h
    obtain ⟨g, M, -, -⟩ := (hm _ _ h1).moves he hG (hC _)
      (SolveStep.linear_tame hG (by rw [hk]; exact hK) (hfl _ _ hP))
    show 0 ≤ o.h.2 ()
    rw [h3, M.hard]
    have := M.nonneg
    exact add_nonneg hP (by positivity)
  · obtain ⟨o3, h1, h2, h3, -⟩ := C70_exact m miter i o h
    obtain ⟨o3', h1', h2', h3', -⟩ := C70_exact m miter i' o' h'
    have r := hm _ _ h1
    have r' := hm _ _ h1'
    simp only at r r'
    rw [← hT1] at r'
    have := SolveStep.C198_plastic he hG hB (by rw [hk]; exact hK) (hC _) (hS _) (hS _) (hfl _ _ hP) (hfl _ _ hP') r r'
    rw [hk, h2, h2', axial_sub, axial_dot] at this
    simp only [start, axial_sub, Pi.sub_apply, Fin.cons_zero] at this
    simp only [j2apart, h3, h3']
    exact this

/-- **C198.** Bars of viscoplasticity settle. -/
theorem C198_visco_bar (he : 0 < eps) (hG : 0 < G) (hB : 0 < Kb) (hK : 0 ≤ K)
    (hC : ∀ T, el.C T = Elastic.isoC G Kb) (hk : ∀ T, k T = K)
    (hs : ∀ T, eps ≤ √(2 / 3) * s0 T) (hg : ∀ T, SolveStep.Flowing gf T) (m : Model3 (Unit → ℝ))
    (hm : ∀ i o, i.t0 < i.t1 → m.update i = some o →
      SolveStep.ViscoStep el eps (Flow.linearIso s0 k) gf i.T1 (start i) (i.e1, i.t1)
        ⟨i.e1, i.T1, i.t1, o.s, o.h, o.u, o.p⟩)
    (miter : Nat) (es : ℝ → ℝ → Store (Unit → ℝ) → ℝ) :
    Settles (wrapped m miter es) (fun h => 0 ≤ h.2 ()) (j2apart G Kb K) := by
  have hfl : ∀ T a, 0 ≤ a → eps ≤ √(2 / 3) * (s0 T + k T * a) := fun T a ha =>
    (hs T).trans (mul_le_mul_of_nonneg_left (by rw [hk]; nlinarith [mul_nonneg hK ha]) (Real.sqrt_nonneg _))
  refine ⟨fun i o ht hP h => ?_, fun i i' o o' ht hT1 hT0 e1 e0 hP hP' h h' => ?_⟩
  · obtain ⟨o3, h1, h2, h3, -⟩ := C70_exact m miter i o h
    have := (hm _ _ ht h1).grows he hG (hC _) (hg _) (SolveStep.linear_tame hG (by rw [hk]; exact hK) (hfl _ _ hP))
    show 0 ≤ o.h.2 ()
    rw [h3]
    exact le_trans hP this
  · obtain ⟨o3, h1, h2, h3, -⟩ := C70_exact m miter i o h
    obtain ⟨o3', h1', h2', h3', -⟩ := C70_exact m miter i' o' h'
    have r := hm _ _ ht h1
    have r' := hm _ _ (by simp only; rw [← e0, ← e1]; exact ht) h1'
    simp only at r r'
    rw [← hT1, ← e1] at r'
    have := SolveStep.C198_visco he hG hB (by rw [hk]; exact hK) (hC _) (hg _) e0 (hfl _ _ hP) (hfl _ _ hP') r r'
    simp only at this
    rw [hk, h2, h2', axial_sub, axial_dot] at this
    simp only [start, axial_sub, Pi.sub_apply, Fin.cons_zero] at this
    simp only [j2apart, h3, h3']
    exact this

/-- **C198.** For such bars the measure is at least the square of the difference of stresses divided by Young's
modulus. -/
theorem C198_young (hG : 0 < G) (hB : 0 < Kb) (hK : 0 ≤ K) (x y : ℝ × Store (Unit → ℝ)) :
    (x.1 - y.1) ^ 2 / (9 * Kb * G / (3 * Kb + G)) ≤ j2apart G Kb K x y := by
  have h : j2apart G Kb K x y =
      (x.1 - y.1) ^ 2 / (9 * Kb * G / (3 * Kb + G)) + K * (x.2.2 () - y.2.2 ()) ^ 2 := by
    unfold j2apart SolveStep.energy
    rw [axial_dot]
    simp [Elastic.isoS, mulVec, dotProduct, Fin.sum_univ_succ]
    field_simp
    ring
  rw [h]
  have : 0 ≤ K * (x.2.2 () - y.2.2 ()) ^ 2 := by positivity
  linarith

/-- There are models as in `C198_plastic_bar`, which take every step from a state with a hardening variable that is not
negative. -/
example (he : 0 < eps) (hG : 0 < G) (hK : ∀ T, 0 ≤ k T) (hC : ∀ T, el.C T = Elastic.isoC G Kb)
    (hs : ∀ T, eps ≤ √(2 / 3) * s0 T) : ∃ m : Model3 (Unit → ℝ),
    (∀ i o, m.update i = some o →
      SolveStep.Returns el eps (Flow.linearIso s0 k) (start i) i.e1 i.T1 o.s (o.h ())) ∧
    ∀ i, 0 ≤ i.h0 () → ∃ o, m.update i = some o := by
  classical
  refine ⟨⟨fun i => if h : ∃ p : (Fin 6 → ℝ) × ℝ,
      SolveStep.Returns el eps (Flow.linearIso s0 k) (start i) i.e1 i.T1 p.1 p.2
    then some ⟨h.choose.1, fun _ => h.choose.2, Elastic.isoC G Kb, 0, 0⟩ else none, fun _ => 0, fun _ => 0⟩, ?_, ?_⟩
  · intro i o h
    simp only at h
    split_ifs at h with hp
    obtain rfl := Option.some.inj h
    exact hp.choose_spec
  · intro i hi
    obtain ⟨x', ⟨w, hw, -⟩, -⟩ := SolveStep.C187_plastic_path (s0 := s0) he hG (hK i.T1) (hC i.T1) [(i.e1, i.t1)]
      (x := start i) ((hs i.T1).trans (mul_le_mul_of_nonneg_left (le_add_of_nonneg_right (mul_nonneg (hK _) hi))
        (Real.sqrt_nonneg _)))
    simp only
    rw [dif_pos ⟨(w.s, w.h ()), hw.1⟩]
    exact ⟨_, rfl⟩

/-! ## A concrete case -/

/-- A perfectly plastic bar with modulus 2 and yield stress 1. -/
noncomputable def clamp : Mat1 Unit where
  update i := some ⟨max (-1) (min 1 (i.s0 + 2 * (i.e1 - i.e0))), (), 0, 0, 0⟩
  alpha _ := 1
  elastic s _ _ := s / 2
  init := ()

theorem clamp_settles : Settles clamp (fun _ => True) fun x y => (x.1 - y.1) ^ 2 / 2 := by
  refine ⟨fun _ _ _ _ _ => trivial, fun i i' o o' _ _ _ _ _ _ _ h h' => ?_⟩
  obtain rfl := Option.some.inj h
  obtain rfl := Option.some.inj h'
  simp only
  set t := i.s0 + 2 * (i.e1 - i.e0) with ht
  set t' := i'.s0 + 2 * (i'.e1 - i'.e0) with ht'
  have key : 0 ≤ (max (-1) (min 1 t) - max (-1) (min 1 t')) *
      ((t - max (-1) (min 1 t)) - (t' - max (-1) (min 1 t'))) := by
    rcases max_cases (-1) (min 1 t) with ⟨h1, h2⟩ | ⟨h1, h2⟩ <;> rcases max_cases (-1) (min 1 t') with ⟨h3, h4⟩ | ⟨h3, h4⟩ <;>
      rcases min_cases 1 t with ⟨h5, h6⟩ | ⟨h5, h6⟩ <;> rcases min_cases 1 t' with ⟨h7, h8⟩ | ⟨h7, h8⟩ <;>
      rw [h1, h3] <;> simp only [h5, h7] at * <;> nlinarith
  have e1 : i.s0 = t - 2 * (i.e1 - i.e0) := by rw [ht]; ring
  have e2 : i'.s0 = t' - 2 * (i'.e1 - i'.e0) := by rw [ht']; ring
  rw [e1, e2]
  generalize max (-1) (min 1 t) = s at key ⊢
  generalize max (-1) (min 1 t') = s' at key ⊢
  nlinarith [sq_nonneg ((t - s) - (t' - s') - 2 * ((i.e1 - i.e0) - (i'.e1 - i'.e0)))]

/-- A network all of whose nodes have prescribed displacements takes every step its bars take. -/
theorem driven_step (o : Opts) (ho : 0 ≤ o.atol) (net : Net H n) (hd : ∀ v, net.dbc v ≠ none) (h : ℝ)
    (hb : ∀ e ∈ net.edges, ∀ w t1 t0, ∃ y, trial e w t1 t0 = some y) : ∃ net1, Accepted o net h net1 := by
  classical
  have hf : net.free = [] := by
    rw [Net.free, List.filter_eq_nil_iff]
    intro v _
    simp [Option.isNone_iff_eq_none, hd v]
  have hl : net.free.length = 0 := (congrArg List.length hf).trans rfl
  have hz : ∀ R : Fin net.free.length → ℝ, norm2 R = 0 := fun R =>
    norm2_eq_zero.2 (funext fun k => absurd k.2 (by omega))
  set g0 := net.guess o.extrapolate 1
  let g : Edge H n → ℝ × ℝ × Bar H := fun e =>
    if he : e ∈ net.edges then (hb e he (net.value g0 (net.time.last + h)) (net.time.last + h) net.time.last).choose
    else (0, 0, e.bar)
  have hg : ∀ e ∈ net.edges, trial e (net.value g0 (net.time.last + h)) (net.time.last + h) net.time.last = some (g e) := by
    intro e he
    have : g e = (hb e he (net.value g0 (net.time.last + h)) (net.time.last + h) net.time.last).choose := dif_pos he
    rw [this]
    exact (hb e he (net.value g0 (net.time.last + h)) (net.time.last + h) net.time.last).choose_spec
  have hrj := rj_of net h net.edges g0 g hg
  refine ⟨net.apply (net.edges.map fun e => { e with bar := (g e).2.2 }) g0 h, 1, g0, _, ?_, rfl⟩
  change newton (net.rj h) o.rtol o.atol o.miter net.edges g0 = _
  unfold newton PySolve.solve
  simp only [plain, hrj]
  have hdone : ∀ a b : Fin net.free.length → ℝ, Done o.rtol o.atol (norm2 a) (norm2 b) := fun a b => by
    rw [done_iff, hz b]; exact Or.inr ho
  cases o.miter with
  | zero => rw [loop]; exact if_pos (hdone _ _)
  | succ m => rw [loop]; exact if_pos (hdone _ _)

/-- The bar between a fixed and a moved node; `s` is the stress in it. -/
noncomputable def pulled (s : ℝ) : Net Unit 2 :=
  ((Net.new [⟨0, 1, { Bar.new clamp 3 1 fun t => t with stress := ⟨s, []⟩ }⟩]).addDisp 0 fun _ => 0).addDisp 1
    fun t => t * (5 - t)

theorem clamp_trial (s : ℝ) (e : Edge Unit 2) (he : e ∈ (pulled s).edges) (w : Fin 2 → ℝ) (t1 t0 : ℝ) :
    ∃ y, trial e w t1 t0 = some y := by
  simp only [pulled, Net.addDisp, Net.new, List.mem_singleton] at he
  subst he
  simp [trial, Bar.updateForce, Bar.new, clamp]

/-- One bar came with a stress of one half, the other without: pulled, unloaded and heated together they draw closer. -/
example : ∃ net1 net1', Accepted ⟨1, 2, false, 0, 0, 50⟩ (pulled (1 / 2)) 1 net1 ∧
    Accepted ⟨1, 2, true, 0, 0, 50⟩ (pulled 0) 1 net1' ∧
    ∀ q ∈ net1.edges.zip net1'.edges,
      q.1.bar.A * q.1.bar.l * (1 / 2 * (q.1.bar.stress.last - q.2.bar.stress.last) ^ 2) ≤ 3 / 8 := by
  have hd : ∀ s v, (pulled s).dbc v ≠ none := by
    intro s v
    fin_cases v <;> simp [pulled, Net.addDisp, Net.new, Function.update]
  obtain ⟨net1, h1⟩ := driven_step ⟨1, 2, false, 0, 0, 50⟩ le_rfl (pulled (1 / 2)) (hd _) 1 (clamp_trial _)
  obtain ⟨net1', h1'⟩ := driven_step ⟨1, 2, true, 0, 0, 50⟩ le_rfl (pulled 0) (hd _) 1 (clamp_trial _)
  refine ⟨net1, net1', h1, h1', fun q hq => ?_⟩
  have hfit : ∀ s, Fits (pulled s) := by
    intro s e he
    simp only [pulled, Net.addDisp, Net.new, List.mem_singleton] at he
    subst he
    simp [Bar.new, Net.last, pulled, Net.addDisp, Net.new]
  have ht : Twins (pulled (1 / 2)) (pulled 0) :=
    ⟨rfl, rfl, rfl, .cons ⟨rfl, rfl, rfl, rfl, rfl, rfl, rfl⟩ .nil, fun v _ => rfl⟩
  have hS : Settling (fun _ _ => True) (fun _ x y => (x.1 - y.1) ^ 2 / 2) (pulled (1 / 2)) := by
    intro e he
    simp only [pulled, Net.addDisp, Net.new, List.mem_singleton] at he
    subst he
    exact ⟨by norm_num [Bar.new], by norm_num [Bar.new], clamp_settles, trivial⟩
  have := C198_stress (c := fun _ => 1 / 2) ⟨rfl, rfl⟩ ⟨rfl, rfl⟩ (hs := [1]) (by simp) (hfit _) (hfit _) ht hS
    (fun _ _ => trivial) (fun _ => by norm_num) (fun _ x y => by ring_nf; exact le_rfl) (.cons h1 (.nil _))
    (.cons h1' (.nil _)) q hq
  refine this.trans (le_of_eq ?_)
  simp [apart, gap, pulled, Net.addDisp, Net.new, Bar.new]
  norm_num

end Neml.BarNetwork
