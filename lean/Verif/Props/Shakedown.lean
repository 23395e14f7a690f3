import Verif.Props.NetworkWork

/-!
# C201: networks of bars shake down

Besides the network there is another of the same bars under the same loads that only deforms elastically. If its stresses,
together with some residual stresses that balance each other, stay inside the yield stress throughout, the plastic strains
the bars of the first network undergo have a bound that does not depend on the number of steps or cycles (Melan).
-/

namespace Neml.BarNetwork

open Matrix Neml.PySolve Neml.Uniaxial Neml.Driver

variable {H H' : Type} {n : Nat}

/-- Plastic strain of a bar over a step: the mechanical strain less the elastic strain of the stress. -/
noncomputable def plastic (E : ℝ) (e0 e1 s0 s1 : ℝ) : ℝ := (e1 - e0) - (s1 - s0) / E

/-- A material with modulus `E` that deforms plastically only in the direction of its stress and only if the stress is at
least `y`, which may depend on the temperature. `P` holds of the histories. -/
structure Flows (m : Mat1 H) (P : H → Prop) (E : ℝ) (y : ℝ → ℝ) : Prop where
  keeps : ∀ i o, i.t0 < i.t1 → P i.h0 → m.update i = some o → P o.h
  work : ∀ i o, i.t0 < i.t1 → P i.h0 → m.update i = some o →
    y i.T1 * |plastic E i.e0 i.e1 i.s0 o.s| ≤ o.s * plastic E i.e0 i.e1 i.s0 o.s

/-- Of a bar: modulus, yield stress, margin to the yield stress, residual stress. -/
structure Safety where
  E : ℝ
  y : ℝ → ℝ
  m : ℝ
  r : ℝ

/-- A bar and its elastic twin. -/
structure Twin (P : Mat1 H → H → Prop) (c : Safety) (e : Edge H n) (f : Edge H' n) : Prop where
  i : e.i = f.i
  j : e.j = f.j
  A : e.bar.A = f.bar.A
  l : e.bar.l = f.bar.l
  T : e.bar.T = f.bar.T
  temperature : e.bar.temperature.last = f.bar.temperature.last
  alpha : e.bar.mat.alpha = f.bar.mat.alpha
  section_ : 0 ≤ e.bar.A
  length : 0 < e.bar.l
  modulus : 0 < c.E
  flows : Flows e.bar.mat (P e.bar.mat) c.E c.y
  state : P e.bar.mat e.bar.history.last
  elastic : ∀ i o, f.bar.mat.update i = some o → o.s = i.s0 + c.E * (i.e1 - i.e0)

/-- A relation between the members of three lists. -/
inductive Three {α β γ : Type} (R : α → β → γ → Prop) : List α → List β → List γ → Prop
  | nil : Three R [] [] []
  | cons {a b c l k m} : R a b c → Three R l k m → Three R (a :: l) (b :: k) (c :: m)

/-- A sum over the members of three lists. -/
def sum3 {α β γ : Type} (f : α → β → γ → ℝ) : List α → List β → List γ → ℝ
  | a :: l, b :: k, c :: m => f a b c + sum3 f l k m
  | _, _, _ => 0

/-- The elastic stress with the residual stress is inside the yield stress by the margin. -/
def Safe (c : Safety) (f : Edge H n) : Prop := |f.bar.stress.last + c.r| ≤ c.y f.bar.temperature.last - c.m

/-- Elastic energy (twice) of the difference of the stress to the elastic stress with the residual stress. -/
noncomputable def excessEnergy (c : Safety) (e : Edge H n) (f : Edge H' n) : ℝ :=
  e.bar.A * e.bar.l * ((e.bar.stress.last - (f.bar.stress.last + c.r)) ^ 2 / c.E)

/-- Plastic strain over a step, times volume and margin. -/
noncomputable def marginWork (c : Safety) (e e' : Edge H n) : ℝ :=
  e.bar.A * e.bar.l * (c.m * |plastic c.E e.bar.mstrain.last e'.bar.mstrain.last e.bar.stress.last e'.bar.stress.last|)

variable {P : Mat1 H → H → Prop}

theorem twin_step {w w' z z' : Fin n → ℝ} {t1 t0 : ℝ} (ht : t0 < t1) {c : Safety} {e e' : Edge H n} {f f' : Edge H' n}
    (hs : Twin P c e f) (he : BarStep w t1 t0 e e') (hf : BarStep w' t1 t0 f f') (hsafe : Safe c f')
    (hce : e.bar.strain.last * e.bar.l = z e.j - z e.i ∧ e.bar.strain.last = e.bar.mstrain.last + e.bar.tstrain.last)
    (hcf : f.bar.strain.last * f.bar.l = z' f.j - z' f.i ∧ f.bar.strain.last = f.bar.mstrain.last + f.bar.tstrain.last) :
    Twin P c e' f' ∧ excessEnergy c e' f' + 2 * marginWork c e e' ≤ excessEnergy c e f +
      2 * (e'.bar.stress.last * e'.bar.A * (((w - z) - (w' - z')) e'.j - ((w - z) - (w' - z')) e'.i) -
        f'.bar.stress.last * f'.bar.A * (((w - z) - (w' - z')) f'.j - ((w - z) - (w' - z')) f'.i) -
        c.r * f'.bar.A * (((w - z) - (w' - z')) f'.j - ((w - z) - (w' - z')) f'.i)) := by
  obtain ⟨o, ho, m1, m2, -⟩ := he.material
  obtain ⟨o', ho', m1', m2', -⟩ := hf.material
  have T1 : e'.bar.temperature.last = f'.bar.temperature.last := by
    rw [he.temperature, hf.temperature, hs.T]; rfl
  have k1 := hs.flows.keeps _ o ht hs.state ho
  have k2 := hs.flows.work _ o ht hs.state ho
  have k3 := hs.elastic _ o' ho'
  simp only at k2 k3
  have hm := congrArg Series.last he.mechanical
  have hm' := congrArg Series.last hf.mechanical
  rw [he.strain, he.thermal] at hm
  rw [hf.strain, hf.thermal] at hm'
  simp only [Series.push] at hm hm'
  have n1 : e'.bar.stress.last = o.s := by rw [m1]; rfl
  have n2 : f'.bar.stress.last = o'.s := by rw [m1']; rfl
  have n3 : e'.bar.history.last = o.h := by rw [m2]; rfl
  have hinc : e.bar.l * ((e'.bar.mstrain.last - e.bar.mstrain.last) - (f'.bar.mstrain.last - f.bar.mstrain.last)) =
      (w e.j - z e.j - (w' e.j - z' e.j)) - (w e.i - z e.i - (w' e.i - z' e.i)) := by
    have hl0 : e.bar.l ≠ 0 := hs.length.ne'
    have h1 := hce.1
    have h2 := hcf.1
    rw [hce.2] at h1
    rw [hcf.2, ← hs.l, ← hs.i, ← hs.j] at h2
    rw [hm, hm', ← hs.T, ← hs.alpha, ← hs.temperature, ← hs.l, ← hs.i, ← hs.j]
    field_simp
    linarith
  refine ⟨⟨?_, ?_, ?_, ?_, ?_, T1, ?_, ?_, ?_, hs.modulus, ?_, ?_, ?_⟩, ?_⟩
  · rw [he.ends.1, hf.ends.1, hs.i]
  · rw [he.ends.2, hf.ends.2, hs.j]
  · rw [he.same.2.1, hf.same.2.1, hs.A]
  · rw [he.same.2.2.1, hf.same.2.2.1, hs.l]
  · rw [he.same.2.2.2, hf.same.2.2.2, hs.T]
  · rw [he.same.1, hf.same.1, hs.alpha]
  · rw [he.same.2.1]; exact hs.section_
  · rw [he.same.2.2.1]; exact hs.length
  · rw [he.same.1]; exact hs.flows
  · rw [he.same.1, n3]; exact k1
  · rw [hf.same.1]; exact hs.elastic
  unfold Safe at hsafe
  rw [← T1, n2] at hsafe
  unfold excessEnergy marginWork
  rw [he.same.2.1, hf.same.2.1, he.same.2.2.1, he.ends.1, he.ends.2, hf.ends.1, hf.ends.2, n1, n2]
  rw [← hs.A, ← hs.i, ← hs.j]
  simp only [Pi.sub_apply]
  rw [← hinc]
  have hE := hs.modulus
  set p := plastic c.E e.bar.mstrain.last e'.bar.mstrain.last e.bar.stress.last o.s with hp
  have h5 : (o'.s + c.r) * p ≤ (c.y e'.bar.temperature.last - c.m) * |p| := by
    calc (o'.s + c.r) * p ≤ |(o'.s + c.r) * p| := le_abs_self _
      _ = |o'.s + c.r| * |p| := abs_mul _ _
      _ ≤ _ := mul_le_mul_of_nonneg_right hsafe (abs_nonneg _)
  have h6 : (o.s - (o'.s + c.r)) ^ 2 / c.E ≤ (e.bar.stress.last - (f.bar.stress.last + c.r)) ^ 2 / c.E +
      2 * ((o.s - (o'.s + c.r)) * (((e'.bar.mstrain.last - e.bar.mstrain.last) -
        (f'.bar.mstrain.last - f.bar.mstrain.last)) - p)) := by
    have h7 : e.bar.stress.last - (f.bar.stress.last + c.r) = (o.s - (o'.s + c.r)) -
        c.E * (((e'.bar.mstrain.last - e.bar.mstrain.last) - (f'.bar.mstrain.last - f.bar.mstrain.last)) - p) := by
      rw [k3, hp, plastic]
      field_simp
      ring
    rw [h7]
    generalize ((e'.bar.mstrain.last - e.bar.mstrain.last) - (f'.bar.mstrain.last - f.bar.mstrain.last)) - p = q
    have h8 : (o.s - (o'.s + c.r) - c.E * q) ^ 2 / c.E =
        (o.s - (o'.s + c.r)) ^ 2 / c.E - 2 * ((o.s - (o'.s + c.r)) * q) + c.E * q ^ 2 := by
      field_simp
      ring
    rw [h8]
    have : 0 ≤ c.E * q ^ 2 := by positivity
    linarith
  have h9 := mul_le_mul_of_nonneg_left (show (o.s - (o'.s + c.r)) ^ 2 / c.E + 2 * (c.m * |p|) ≤
      (e.bar.stress.last - (f.bar.stress.last + c.r)) ^ 2 / c.E + 2 * ((o.s - (o'.s + c.r)) *
        ((e'.bar.mstrain.last - e.bar.mstrain.last) - (f'.bar.mstrain.last - f.bar.mstrain.last))) by
    nlinarith [h6, h5, k2]) (mul_nonneg hs.section_ hs.length.le)
  rw [mul_add, mul_add] at h9
  linarith

theorem twins_step {w w' z z' : Fin n → ℝ} {t1 t0 : ℝ} (ht : t0 < t1) {cs : List Safety} {l l' : List (Edge H n)}
    {k k' : List (Edge H' n)} (hs : Three (Twin P) cs l k) (he : List.Forall₂ (BarStep w t1 t0) l l')
    (hf : List.Forall₂ (BarStep w' t1 t0) k k') (hsafe : List.Forall₂ Safe cs k')
    (cl : ∀ e ∈ l, e.bar.strain.last * e.bar.l = z e.j - z e.i ∧
      e.bar.strain.last = e.bar.mstrain.last + e.bar.tstrain.last)
    (ck : ∀ e ∈ k, e.bar.strain.last * e.bar.l = z' e.j - z' e.i ∧
      e.bar.strain.last = e.bar.mstrain.last + e.bar.tstrain.last) :
    Three (Twin P) cs l' k' ∧
    sum3 excessEnergy cs l' k' + 2 * sum3 marginWork cs l l' ≤ sum3 excessEnergy cs l k +
      2 * ((l'.map fun e => e.bar.stress.last * e.bar.A *
          (((w - z) - (w' - z')) e.j - ((w - z) - (w' - z')) e.i)).sum -
        (k'.map fun e => e.bar.stress.last * e.bar.A *
          (((w - z) - (w' - z')) e.j - ((w - z) - (w' - z')) e.i)).sum -
        (List.zipWith (fun (c : Safety) (e : Edge H' n) => c.r * e.bar.A *
          (((w - z) - (w' - z')) e.j - ((w - z) - (w' - z')) e.i)) cs k').sum) := by
  induction hs generalizing l' k' with
  | nil =>
    cases he; cases hf
    exact ⟨.nil, by simp [sum3]⟩
  | @cons c e f cs l k h _ ih =>
    cases he with
    | @cons _ e' _ l' he1 he2 =>
    cases hf with
    | @cons _ f' _ k' hf1 hf2 =>
    cases hsafe with
    | cons s1 s2 =>
    obtain ⟨q1, q2⟩ := twin_step ht h he1 hf1 s1 (cl e (by simp)) (ck f (by simp))
    obtain ⟨r1, r2⟩ := ih he2 hf2 s2 (fun e h => cl e (List.mem_cons_of_mem _ h))
      (fun e h => ck e (List.mem_cons_of_mem _ h))
    refine ⟨.cons q1 r1, ?_⟩
    simp only [sum3, List.zipWith_cons_cons, List.sum_cons, List.map_cons]
    linarith

/-- The residual stresses do no work on displacements that leave the held nodes where they are. -/
def Balanced (cs : List Safety) (el : Net H' n) : Prop :=
  ∀ w : Fin n → ℝ, (∀ v, el.dbc v ≠ none → w v = 0) →
    (List.zipWith (fun (c : Safety) (e : Edge H' n) => c.r * e.bar.A * (w e.j - w e.i)) cs el.edges).sum = 0

/-- A network and its elastic twin, under the same loads, at the same time, with the same displacements where they are
prescribed; the residual stresses balance each other. -/
structure Shadow (P : Mat1 H → H → Prop) (cs : List Safety) (net : Net H n) (el : Net H' n) : Prop where
  time : net.time.last = el.time.last
  dbc : net.dbc = el.dbc
  fbc : net.fbc = el.fbc
  bars : Three (Twin P) cs net.edges el.edges
  held : ∀ v, net.dbc v ≠ none → net.last v = el.last v
  fits : Fits net
  fits' : Fits el
  balanced : Balanced cs el

/-- What the stresses are away from the elastic stresses with the residual stresses. -/
noncomputable def away (cs : List Safety) (net : Net H n) (el : Net H' n) : ℝ := sum3 excessEnergy cs net.edges el.edges

/-- Plastic strain over a step, times the volume of the bar. -/
noncomputable def strained (c : Safety) (e e' : Edge H n) : ℝ :=
  e.bar.A * e.bar.l * |plastic c.E e.bar.mstrain.last e'.bar.mstrain.last e.bar.stress.last e'.bar.stress.last|

/-- Both networks take the same time steps, the elastic one always safe; the number is the sum over all steps and bars of
the plastic strain times the volume. -/
inductive Cycles (o o' : Opts) (cs : List Safety) : Net H n → Net H' n → ℝ → Net H n → Net H' n → Prop
  | nil (net el) : Cycles o o' cs net el 0 net el
  | cons {net el net1 el1 net2 el2 h x} : 0 < h → Accepted o net h net1 → Accepted o' el h el1 →
      List.Forall₂ Safe cs el1.edges → Cycles o o' cs net1 el1 x net2 el2 →
      Cycles o o' cs net el (sum3 strained cs net.edges net1.edges + x) net2 el2

theorem balanced_step {w : Fin n → ℝ} {t1 t0 : ℝ} (cs : List Safety) {k k' : List (Edge H' n)}
    (hf : List.Forall₂ (BarStep w t1 t0) k k') (u : Fin n → ℝ) :
    (List.zipWith (fun (c : Safety) (e : Edge H' n) => c.r * e.bar.A * (u e.j - u e.i)) cs k').sum =
      (List.zipWith (fun (c : Safety) (e : Edge H' n) => c.r * e.bar.A * (u e.j - u e.i)) cs k).sum := by
  induction hf generalizing cs with
  | nil => rfl
  | cons he _ ih =>
    cases cs with
    | nil => rfl
    | cons c cs =>
      simp only [List.zipWith_cons_cons, List.sum_cons, ih cs, he.ends.1, he.ends.2, he.same.2.1]

/-- **C201.** One step. -/
theorem C201_step {o o' : Opts} (ho : o.rtol = 0 ∧ o.atol = 0) (ho' : o'.rtol = 0 ∧ o'.atol = 0) {cs : List Safety}
    {h : ℝ} (hh : 0 < h) {net net1 : Net H n} {el el1 : Net H' n} (hs : Shadow P cs net el) (ha : Accepted o net h net1)
    (ha' : Accepted o' el h el1) (hsafe : List.Forall₂ Safe cs el1.edges) :
    Shadow P cs net1 el1 ∧ away cs net1 el1 + 2 * sum3 marginWork cs net.edges net1.edges ≤ away cs net el := by
  obtain ⟨b1, d1, -, c1, c2, c3, -⟩ := C69_step o net net1 h ha
  obtain ⟨b2, d2, -, c1', c2', c3', -⟩ := C69_step o' el el1 h ha'
  rw [← hs.time] at b2
  obtain ⟨g1, g2⟩ := twins_step (by linarith) hs.bars b1 b2 hsafe hs.fits hs.fits'
  have hheld : ∀ v, net.dbc v ≠ none → net1.last v = el1.last v := by
    intro v hv
    obtain ⟨f, hf⟩ := Option.ne_none_iff_exists'.1 hv
    unfold Net.last
    rw [C69_prescribed o net net1 h ha v f hf, C69_prescribed o' el el1 h ha' v f (by rw [← hs.dbc]; exact hf),
      hs.time]
  have hbal : Balanced cs el1 := by
    intro w hw
    rw [balanced_step cs b2 w]
    exact hs.balanced w (by rw [← c1']; exact hw)
  refine ⟨⟨?_, ?_, ?_, g1, ?_, fits_step ha, fits_step ha', hbal⟩, ?_⟩
  · rw [c3, c3', hs.time]; rfl
  · rw [c1, c1', hs.dbc]
  · rw [c2, c2', hs.fbc]
  · rw [c1]; exact hheld
  · unfold away
    refine g2.trans (le_of_eq ?_)
    have hd : ∀ v, net.dbc v ≠ none → (net1.last - net.last - (el1.last - el.last)) v = 0 := by
      intro v hv
      simp only [Pi.sub_apply]
      rw [hheld v hv, hs.held v hv]; ring
    rw [hbal _ (by rw [c1', ← hs.dbc]; exact hd)]
    rw [← C69_virtual_work o net net1 h ha, ← C69_virtual_work o' el el1 h ha', ← Finset.sum_sub_distrib, sub_zero]
    rw [Finset.sum_eq_zero, mul_zero, add_zero]
    intro v _
    by_cases hv : net.dbc v = none
    · rw [C69_equilibrium_exact o ho net net1 h ha v hv,
        C69_equilibrium_exact o' ho' el el1 h ha' v (by rw [← hs.dbc]; exact hv)]
      unfold Net.applied
      rw [hs.time, hs.fbc, sub_self]
    · rw [hd v hv]; ring

theorem margin_le {μ : ℝ} {cs : List Safety} (hm : ∀ c ∈ cs, μ ≤ c.m) {l : List (Edge H n)} {k : List (Edge H' n)}
    (hs : Three (Twin P) cs l k) (l' : List (Edge H n)) :
    μ * sum3 strained cs l l' ≤ sum3 marginWork cs l l' := by
  induction hs generalizing l' with
  | nil => simp [sum3]
  | @cons c e f cs l k h _ ih =>
    cases l' with
    | nil => simp [sum3]
    | cons e' l' =>
      simp only [sum3]
      have h1 := ih (fun c hc => hm c (List.mem_cons_of_mem _ hc)) l'
      have h2 := mul_le_mul_of_nonneg_right (hm c (by simp)) (mul_nonneg (mul_nonneg h.section_ h.length.le)
        (abs_nonneg (plastic c.E e.bar.mstrain.last e'.bar.mstrain.last e.bar.stress.last e'.bar.stress.last)))
      rw [mul_add]
      refine add_le_add (le_trans h2 (le_of_eq ?_)) h1
      unfold marginWork
      ring

/-- **C201.** Whatever the number of steps or cycles, the sum of the plastic strains over all of them is bounded by the
energy the network starts with over the margin. -/
theorem C201_shakedown {o o' : Opts} (ho : o.rtol = 0 ∧ o.atol = 0) (ho' : o'.rtol = 0 ∧ o'.atol = 0) {μ : ℝ}
    {cs : List Safety} (hm : ∀ c ∈ cs, μ ≤ c.m) {net net1 : Net H n} {el el1 : Net H' n} {x : ℝ}
    (hs : Shadow P cs net el) (hc : Cycles o o' cs net el x net1 el1) :
    away cs net1 el1 + 2 * (μ * x) ≤ away cs net el := by
  induction hc with
  | nil => simp
  | @cons net el net1 el1 net2 el2 h x hh ha ha' hsafe _ ih =>
    obtain ⟨h1, h2⟩ := C201_step ho ho' hh hs ha ha' hsafe
    have := ih h1
    have h3 := margin_le hm hs.bars net1.edges
    rw [mul_add]
    linarith

theorem away_nonneg {cs : List Safety} {l : List (Edge H n)} {k : List (Edge H' n)} (hs : Three (Twin P) cs l k) :
    0 ≤ sum3 excessEnergy cs l k := by
  induction hs with
  | nil => simp [sum3]
  | cons h _ ih =>
    simp only [sum3]
    exact add_nonneg (mul_nonneg (mul_nonneg h.section_ h.length.le) (div_nonneg (sq_nonneg _) h.modulus.le)) ih

theorem Cycles.shadow {o o' : Opts} (ho : o.rtol = 0 ∧ o.atol = 0) (ho' : o'.rtol = 0 ∧ o'.atol = 0) {cs : List Safety}
    {net net1 : Net H n} {el el1 : Net H' n} {x : ℝ} (hs : Shadow P cs net el) (hc : Cycles o o' cs net el x net1 el1) :
    Shadow P cs net1 el1 := by
  induction hc with
  | nil => exact hs
  | cons hh ha ha' hsafe _ ih => exact ih (C201_step ho ho' hh hs ha ha' hsafe).1

theorem away_fresh {cs : List Safety} {l : List (Edge H n)} {k : List (Edge H' n)} (hs : Three (Twin P) cs l k)
    (h0 : ∀ e ∈ l, e.bar.stress.last = 0) (h1 : ∀ e ∈ k, e.bar.stress.last = 0) :
    sum3 excessEnergy cs l k = (List.zipWith (fun (c : Safety) (e : Edge H n) =>
      e.bar.A * e.bar.l * (c.r ^ 2 / c.E)) cs l).sum := by
  induction hs with
  | nil => simp [sum3]
  | cons h _ ih =>
    simp only [sum3, List.zipWith_cons_cons, List.sum_cons]
    rw [ih (fun e he => h0 e (List.mem_cons_of_mem _ he)) (fun e he => h1 e (List.mem_cons_of_mem _ he))]
    unfold excessEnergy
    rw [h0 _ (by simp), h1 _ (by simp)]
    ring

/-- **C201.** For networks without stress at first: the bound is the elastic energy of the residual stresses over the
margin. -/
theorem C201_fresh {o o' : Opts} (ho : o.rtol = 0 ∧ o.atol = 0) (ho' : o'.rtol = 0 ∧ o'.atol = 0) {μ : ℝ} (hμ : 0 < μ)
    {cs : List Safety} (hm : ∀ c ∈ cs, μ ≤ c.m) {net net1 : Net H n} {el el1 : Net H' n} {x : ℝ}
    (hs : Shadow P cs net el) (h0 : ∀ e ∈ net.edges, e.bar.stress.last = 0) (h1 : ∀ e ∈ el.edges, e.bar.stress.last = 0)
    (hc : Cycles o o' cs net el x net1 el1) :
    x ≤ (List.zipWith (fun (c : Safety) (e : Edge H n) => e.bar.A * e.bar.l * (c.r ^ 2 / c.E)) cs net.edges).sum /
      (2 * μ) := by
  have h2 := C201_shakedown ho ho' hm hs hc
  have h3 := away_nonneg (hc.shadow ho ho' hs).bars
  rw [show away cs net el = _ from away_fresh hs.bars h0 h1] at h2
  rw [le_div_iff₀ (by positivity)]
  unfold away at h2
  linarith

/-! ## Materials -/

section materials

open Neml.SolveStep in
/-- What a step of a J2 material under an axial stress does along the axis. -/
theorem axial_flow {G Kb : ℝ} (hG : 0 < G) (hB : 0 < Kb) {t d : Fin 6 → ℝ} {a b g s s0 y : ℝ}
    (ht : t = ![s0, 0, 0, 0, 0, 0] + Elastic.isoC G Kb *ᵥ d) (M : Moves G t a ![s, 0, 0, 0, 0, 0] b g) (hy : 0 < y)
    (hf : 0 < g → √(2 / 3) * y ≤ Flow.norm2 (Mandel.devVec ![s, 0, 0, 0, 0, 0])) :
    y * |d 0 - (s - s0) / (9 * Kb * G / (3 * Kb + G))| ≤ s * (d 0 - (s - s0) / (9 * Kb * G / (3 * Kb + G))) := by
  obtain ⟨m, p1, p2, p3, p4⟩ := M.normal
  have hp : 0 < √(2 / 3 : ℝ) := Real.sqrt_pos.mpr (by norm_num)
  have hpp : √(2 / 3 : ℝ) * √(2 / 3) = 2 / 3 := Real.mul_self_sqrt (by norm_num)
  have hinv := (Elastic.C36_iso_inverse G Kb hG hB).1
  have hcm := isoC_dev G Kb p1
  have hd : d = Elastic.isoS G Kb *ᵥ ![s - s0, 0, 0, 0, 0, 0] + g • m := by
    have h1 : Elastic.isoC G Kb *ᵥ d = ![s - s0, 0, 0, 0, 0, 0] + Elastic.isoC G Kb *ᵥ (g • m) := by
      rw [mulVec_smul, hcm, ← axial_sub, p4, ht]
      module
    have h2 := congrArg (fun v => Elastic.isoS G Kb *ᵥ v) h1
    simp only [mulVec_add, mulVec_mulVec, hinv, one_mulVec] at h2
    exact h2
  have h0 : (Elastic.isoS G Kb *ᵥ ![s - s0, 0, 0, 0, 0, 0]) 0 = (s - s0) / (9 * Kb * G / (3 * Kb + G)) := by
    simp [Elastic.isoS, mulVec, dotProduct, Fin.sum_univ_succ]
    field_simp
    ring
  have h3 : d 0 - (s - s0) / (9 * Kb * G / (3 * Kb + G)) = g * m 0 := by
    have := congrFun hd 0
    rw [Pi.add_apply, h0, Pi.smul_apply, smul_eq_mul] at this
    linarith
  rw [h3]
  rcases M.nonneg.eq_or_lt with h4 | h4
  · rw [← h4]; simp
  · have hn : Flow.norm2 (Mandel.devVec ![s, 0, 0, 0, 0, 0]) = √(2 / 3) * |s| := by
      rw [← Real.sqrt_sq_eq_abs, ← Real.sqrt_mul (by norm_num)]
      unfold Flow.norm2
      congr 1
      simp [Mandel.devVec, dotProduct, Fin.sum_univ_succ]
      ring
    have h5 := hf h4
    rw [hn] at h5
    have hys : y ≤ |s| := le_of_mul_le_mul_left h5 hp
    have h6 := congrFun (p3 h4) 0
    rw [hn] at h6
    have h7 : Mandel.devVec (![s, 0, 0, 0, 0, 0] : Fin 6 → ℝ) 0 = 2 / 3 * s := by
      simp [Mandel.devVec]
      ring
    rw [h7, Pi.smul_apply, smul_eq_mul] at h6
    have hs0 : s ≠ 0 := fun h => by rw [h, abs_zero] at hys; linarith
    have h8 : |s| * m 0 = √(2 / 3) * s := by
      have : √(2 / 3) * (|s| * m 0) = √(2 / 3) * (√(2 / 3) * s) := by
        rw [← mul_assoc √(2 / 3) √(2 / 3), hpp, h6]; ring
      exact mul_left_cancel₀ hp.ne' this
    have h9 : s * m 0 = √(2 / 3) * |s| := by
      rcases abs_cases s with ⟨e, h⟩ | ⟨e, h⟩ <;> rw [e] at h8 ⊢ <;> linarith
    have h10 : |m 0| = √(2 / 3) := by
      have : |s| * |m 0| = |s| * √(2 / 3) := by
        rw [← abs_mul, h9, abs_of_nonneg (by positivity), mul_comm]
      exact mul_left_cancel₀ (abs_pos.mpr hs0).ne' this
    rw [abs_mul, abs_of_pos h4, h10, show s * (g * m 0) = g * (s * m 0) by ring, h9]
    have : 0 ≤ g * √(2 / 3) * (|s| - y) := mul_nonneg (by positivity) (by linarith)
    linarith

variable {G Kb K eps : ℝ} {el : SmallStrain.Elastic ℝ (Fin 6)} {s0 k : ℝ → ℝ} {gf : Flow.GFlow}

/-- **C201.** Bars of rate independent J2 plasticity, perfect or with linear isotropic hardening. -/
theorem C201_plastic_bar (he : 0 < eps) (hG : 0 < G) (hB : 0 < Kb) (hk : ∀ T, 0 ≤ k T)
    (hC : ∀ T, el.C T = Elastic.isoC G Kb) (hS : ∀ T, el.S T = Elastic.isoS G Kb)
    (hs : ∀ T, eps ≤ √(2 / 3) * s0 T) (m : Model3 (Unit → ℝ))
    (hm : ∀ i o, m.update i = some o →
      SolveStep.Returns el eps (Flow.linearIso s0 k) (start i) i.e1 i.T1 o.s (o.h ()))
    (miter : Nat) (es : ℝ → ℝ → Store (Unit → ℝ) → ℝ) :
    Flows (wrapped m miter es) (fun h => 0 ≤ h.2 ()) (9 * Kb * G / (3 * Kb + G)) s0 := by
  have hp : 0 < √(2 / 3 : ℝ) := Real.sqrt_pos.mpr (by norm_num)
  have hfl : ∀ T a, 0 ≤ a → eps ≤ √(2 / 3) * (s0 T + k T * a) := fun T a ha =>
    (hs T).trans (mul_le_mul_of_nonneg_left (by nlinarith [mul_nonneg (hk T) ha]) (Real.sqrt_nonneg _))
  have hpos : ∀ T, 0 < s0 T := fun T => by
    by_contra h
    have := mul_nonpos_of_nonneg_of_nonpos hp.le (not_lt.mp h)
    linarith [hs T]
  refine ⟨fun i o _ hP h => ?_, fun i o _ hP h => ?_⟩
  · obtain ⟨o3, h1, h2, h3, -⟩ := C70_exact m miter i o h
    obtain ⟨g, M, -, -⟩ := (hm _ _ h1).moves he hG (hC _) (SolveStep.linear_tame hG (hk _) (hfl _ _ hP))
    show 0 ≤ o.h.2 ()
    rw [h3, M.hard]
    have := M.nonneg
    exact add_nonneg hP (by positivity)
  · obtain ⟨o3, h1, h2, h3, -⟩ := C70_exact m miter i o h
    obtain ⟨g, M, hx, hc⟩ := (hm _ _ h1).moves he hG (hC _) (SolveStep.linear_tame hG (hk _) (hfl _ _ hP))
    rw [h2] at M hx hc
    have hb : 0 ≤ o3.h () := by
      rw [M.hard]
      have := M.nonneg
      exact add_nonneg hP (by positivity)
    have ht : SolveStep.trial' el (start ⟨Fin.cons i.e1 o.h.1, Fin.cons i.e0 i.h0.1, i.T1, i.T0, i.t1, i.t0,
        ![i.s0, 0, 0, 0, 0, 0], i.h0.2, i.u0, i.p0⟩) (Fin.cons i.e1 o.h.1) i.T1 = ![i.s0, 0, 0, 0, 0, 0] +
        Elastic.isoC G Kb *ᵥ ((Fin.cons i.e1 o.h.1 : Fin 6 → ℝ) - (Fin.cons i.e0 i.h0.1 : Fin 6 → ℝ)) := by
      unfold SolveStep.trial' start
      rw [hC, hS]
      simp only [mulVec_sub]
      rw [mulVec_mulVec, (Elastic.C36_iso_inverse G Kb hG hB).2, one_mulVec]
      abel
    have := axial_flow hG hB ht M (hpos i.T1) (fun hg => by
      have h0 : SolveStep.excess (Flow.linearIso s0 k) i.T1 ![o.s, 0, 0, 0, 0, 0] (o3.h ()) = 0 :=
        (mul_eq_zero.1 hc).resolve_left hg.ne'
      rw [SolveStep.linear_excess] at h0
      have := mul_nonneg hp.le (mul_nonneg (hk i.T1) hb)
      linarith)
    simpa [plastic] using this

/-- **C201.** Bars of viscoplasticity, whatever the flow function. -/
theorem C201_visco_bar (he : 0 < eps) (hG : 0 < G) (hB : 0 < Kb) (hk : ∀ T, 0 ≤ k T)
    (hC : ∀ T, el.C T = Elastic.isoC G Kb)
    (hs : ∀ T, eps ≤ √(2 / 3) * s0 T) (hg : ∀ T, SolveStep.Flowing gf T) (m : Model3 (Unit → ℝ))
    (hm : ∀ i o, i.t0 < i.t1 → m.update i = some o →
      SolveStep.ViscoStep el eps (Flow.linearIso s0 k) gf i.T1 (start i) (i.e1, i.t1)
        ⟨i.e1, i.T1, i.t1, o.s, o.h, o.u, o.p⟩)
    (miter : Nat) (es : ℝ → ℝ → Store (Unit → ℝ) → ℝ) :
    Flows (wrapped m miter es) (fun h => 0 ≤ h.2 ()) (9 * Kb * G / (3 * Kb + G)) s0 := by
  have hp : 0 < √(2 / 3 : ℝ) := Real.sqrt_pos.mpr (by norm_num)
  have hfl : ∀ T a, 0 ≤ a → eps ≤ √(2 / 3) * (s0 T + k T * a) := fun T a ha =>
    (hs T).trans (mul_le_mul_of_nonneg_left (by nlinarith [mul_nonneg (hk T) ha]) (Real.sqrt_nonneg _))
  have hpos : ∀ T, 0 < s0 T := fun T => by
    by_contra h
    have := mul_nonpos_of_nonneg_of_nonpos hp.le (not_lt.mp h)
    linarith [hs T]
  have hkeep : ∀ i o, i.t0 < i.t1 → 0 ≤ i.h0.2 () → (wrapped m miter es).update i = some o → 0 ≤ o.h.2 () := by
    intro i o ht hP h
    obtain ⟨o3, h1, h2, h3, -⟩ := C70_exact m miter i o h
    have := (hm _ _ ht h1).grows he hG (hC _) (hg _) (SolveStep.linear_tame hG (hk _) (hfl _ _ hP))
    rw [h3]
    exact le_trans hP this
  refine ⟨hkeep, fun i o ht hP h => ?_⟩
  have hb := hkeep i o ht hP h
  obtain ⟨o3, h1, h2, h3, -⟩ := C70_exact m miter i o h
  have r := hm _ _ ht h1
  have M := SolveStep.visco_moves he hG (hC _) (hg _) (SolveStep.linear_tame hG (hk _) (hfl _ _ hP)) r
  simp only [h2] at M
  rw [h3] at hb
  have htr : SolveStep.trial el (start ⟨Fin.cons i.e1 o.h.1, Fin.cons i.e0 i.h0.1, i.T1, i.T0, i.t1, i.t0,
      ![i.s0, 0, 0, 0, 0, 0], i.h0.2, i.u0, i.p0⟩) (Fin.cons i.e1 o.h.1) i.T1 = ![i.s0, 0, 0, 0, 0, 0] +
      Elastic.isoC G Kb *ᵥ ((Fin.cons i.e1 o.h.1 : Fin 6 → ℝ) - (Fin.cons i.e0 i.h0.1 : Fin 6 → ℝ)) := by
    unfold SolveStep.trial start
    rw [hC]
  have := axial_flow hG hB htr M (hpos i.T1) (fun hgp => by
    by_contra hneg
    have h0 : SolveStep.excess (Flow.linearIso s0 k) i.T1 ![o.s, 0, 0, 0, 0, 0] (o3.h ()) ≤ 0 := by
      rw [SolveStep.linear_excess]
      have := mul_nonneg hp.le (mul_nonneg (hk i.T1) hb)
      linarith
    rw [SolveStep.rate_of_nonpos h0, mul_zero] at hgp
    exact lt_irrefl _ hgp)
  simpa [plastic] using this

end materials

/-! ## A concrete case -/

theorem clamp_flows : Flows clamp (fun _ => True) 2 fun _ => 1 := by
  refine ⟨fun _ _ _ _ _ => trivial, fun i o _ _ h => ?_⟩
  obtain rfl := Option.some.inj h
  have e : plastic 2 i.e0 i.e1 i.s0 (max (-1) (min 1 (i.s0 + 2 * (i.e1 - i.e0)))) =
      ((i.s0 + 2 * (i.e1 - i.e0)) - max (-1) (min 1 (i.s0 + 2 * (i.e1 - i.e0)))) / 2 := by
    unfold plastic; ring
  simp only [e]
  generalize i.s0 + 2 * (i.e1 - i.e0) = t
  rcases max_cases (-1) (min 1 t) with ⟨h1, h2⟩ | ⟨h1, h2⟩ <;> rcases min_cases 1 t with ⟨h3, h4⟩ | ⟨h3, h4⟩ <;>
    rw [h1] <;> simp only [h3] at * <;> rcases abs_cases ((t - (-1)) / 2) with ⟨h5, h6⟩ | ⟨h5, h6⟩ <;>
    rcases abs_cases ((t - 1) / 2) with ⟨h7, h8⟩ | ⟨h7, h8⟩ <;>
    first
    | linarith
    | simp

/-- A bar of the material `m` between a fixed and a moved node, without temperature changes. -/
noncomputable def cycled (m : Mat1 Unit) : Net Unit 2 :=
  ((Net.new [⟨0, 1, Bar.new m 3 1 fun _ => 0⟩]).addDisp 0 fun _ => 0).addDisp 1 fun t => 9 / 10 * (t * (2 - t))

theorem cycled_reach (m : Mat1 Unit) : Reach (cycled m) :=
  Reach.disp _ _ (Reach.disp _ _ (Reach.new [(0, 1, m, 3, 1, fun _ => 0)]))

/-- Modulus 2, yield stress 1, margin 1/10, residual stress -9/10. -/
noncomputable def tenth : Safety := ⟨2, fun _ => 1, 1 / 10, -(9 / 10)⟩

theorem cycled_shadow : Shadow (fun _ _ => True) [tenth] (cycled clamp) (cycled hooke) := by
  refine ⟨rfl, rfl, rfl, .cons ⟨rfl, rfl, rfl, rfl, rfl, rfl, rfl, ?_, ?_, ?_, clamp_flows, trivial, ?_⟩ .nil,
    fun _ _ => rfl, fits_reach (cycled_reach _), fits_reach (cycled_reach _), ?_⟩
  · norm_num [Bar.new]
  · norm_num [Bar.new]
  · norm_num [tenth]
  · intro i o h
    obtain rfl := Option.some.inj h
    rfl
  · intro w hw
    have h0 := hw 0 (by simp [cycled, Net.addDisp, Net.new, Function.update])
    have h1 := hw 1 (by simp [cycled, Net.addDisp, Net.new, Function.update])
    simp [cycled, Net.addDisp, Net.new, h0, h1]

/-- Strained beyond yield, a bar takes a step as in the theorem: its stress would be 9/5 if it were elastic, and 9/10 with the
residual stress. Whatever the number of further cycles in which the elastic bar is safe, the plastic strain stays below 6.1
over the volume 3. -/
example : ∃ net1 el1 x, Cycles ⟨1, 2, false, 0, 0, 50⟩ ⟨1, 2, false, 0, 0, 50⟩ [tenth] (cycled clamp) (cycled hooke) x
    net1 el1 ∧ ∀ net2 el2 z, Cycles ⟨1, 2, false, 0, 0, 50⟩ ⟨1, 2, false, 0, 0, 50⟩ [tenth] (cycled clamp)
      (cycled hooke) z net2 el2 → z ≤ 61 / 10 := by
  have hd : ∀ m v, (cycled m).dbc v ≠ none := by
    intro s v
    fin_cases v <;> simp [cycled, Net.addDisp, Net.new, Function.update]
  obtain ⟨net1, h1⟩ := driven_step ⟨1, 2, false, 0, 0, 50⟩ le_rfl (cycled clamp) (hd _) 1 (fun e he w t1 t0 => by
    simp only [cycled, Net.addDisp, Net.new, List.mem_singleton] at he
    subst he
    simp [trial, Bar.updateForce, Bar.new, clamp])
  obtain ⟨el1, h1'⟩ := driven_step ⟨1, 2, false, 0, 0, 50⟩ le_rfl (cycled hooke) (hd _) 1 (fun e he w t1 t0 => by
    simp only [cycled, Net.addDisp, Net.new, List.mem_singleton] at he
    subst he
    simp [trial, Bar.updateForce, Bar.new, hooke])
  refine ⟨net1, el1, _, .cons one_pos h1 h1' ?_ (.nil _ _), fun net2 el2 z hz => ?_⟩
  · obtain ⟨hb, -⟩ := C69_step _ _ _ _ h1'
    have p0 : el1.last 0 = 0 := C69_prescribed _ _ _ _ h1' 0 (fun _ => 0) (by
      simp [cycled, Net.addDisp, Net.new, Function.update])
    have p1 : el1.last 1 = 9 / 10 * ((0 + 1) * (2 - (0 + 1))) :=
      C69_prescribed _ _ _ _ h1' 1 (fun t => 9 / 10 * (t * (2 - t))) (by
        simp [cycled, Net.addDisp, Net.new, Function.update])
    have he : (cycled hooke).edges = [⟨0, 1, Bar.new hooke 3 1 fun _ => 0⟩] := rfl
    rw [he] at hb
    cases hb' : el1.edges with
    | nil => rw [hb'] at hb; cases hb
    | cons f l =>
      rw [hb'] at hb
      cases hb with
      | cons hf hnil =>
      cases hnil
      refine .cons ?_ .nil
      obtain ⟨o, ho, m1, -⟩ := hf.material
      have hm := congrArg Series.last hf.mechanical
      rw [hf.strain, hf.thermal] at hm
      simp only [Series.push, p0, p1, Bar.new] at hm
      obtain rfl := Option.some.inj ho
      unfold Safe
      rw [m1]
      simp only [Series.push, hm, tenth, Bar.new]
      norm_num
  · refine (C201_fresh (μ := 1 / 10) ⟨rfl, rfl⟩ ⟨rfl, rfl⟩ (by norm_num) (by simp [tenth]) cycled_shadow ?_ ?_ hz).trans ?_
    · intro e he
      simp only [cycled, Net.addDisp, Net.new, List.mem_singleton] at he
      subst he
      rfl
    · intro e he
      simp only [cycled, Net.addDisp, Net.new, List.mem_singleton] at he
      subst he
      rfl
    · simp [cycled, Net.addDisp, Net.new, Bar.new, tenth]
      norm_num

end Neml.BarNetwork
