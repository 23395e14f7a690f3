import Verif.Props.Bree
import Verif.Props.Shakedown
import Verif.Props.NetworkSolution

/-!
# C204: the Bree diagram

A wall of one elastic, perfectly plastic material under a constant hoop stress whose temperatures go back and forth between
two states. With the thermal stresses `q` of an elastic wall, which balance each other, the diagram has its boundary at
`P + mean of the positive parts of q = yield stress` and `|q| = 2 yield stress`: inside, the plastic strains have a bound
whatever the number of cycles; outside, each heating and each cooling leaves a plastic strain of at least a fixed size;
beyond the yield stress the hoop stress cannot be carried at all.
-/

namespace Neml.Bree

open Neml.BarNetwork Neml.Driver Neml.Vessel Neml.Uniaxial

variable {H : Type}

/-- Modulus, coefficient of expansion, yield stress, hoop stress, the course of the temperature between 0 and 1, and the
times of a cold and of a hot state. -/
structure Case where
  E : ℝ
  α : ℝ
  y : ℝ
  P : ℝ
  φ : ℝ → ℝ
  cold : ℝ
  hot : ℝ

/-- How much hotter a point is in the hot state. -/
def Case.rise (c : Case) (f : ℝ → ℝ) : ℝ := f c.hot - f c.cold

/-- A bar of the wall at the time `t` with the elongation `u`. -/
structure Slice (c : Case) (K : H → Prop) (mat : Mat1 H) (t u : ℝ) (e : Edge H 2) : Prop where
  ends : e.i = 0 ∧ e.j = 1 ∧ e.bar.l = 1
  area : 0 < e.bar.A
  mat : e.bar.mat = mat
  cycle : ∀ s, e.bar.T s = e.bar.T c.cold + c.φ s * c.rise e.bar.T
  temperature : e.bar.temperature.last = e.bar.T t
  thermal : e.bar.tstrain.last = c.α * (e.bar.T t - e.bar.T 0)
  strain : e.bar.mstrain.last = u - e.bar.tstrain.last
  state : K e.bar.history.last

/-- Thickness of the wall. -/
def size (l : List (Edge H 2)) : ℝ := (l.map fun e => e.bar.A).sum

/-- The wall: parallel bars, one end held, the other one pulled with the hoop stress times the thickness. -/
structure Wall (c : Case) (K : H → Prop) (mat : Mat1 H) (net : Net H 2) : Prop where
  held : net.dbc 0 = some fun _ => 0
  free : net.dbc 1 = none
  pulled : net.fbc 1 = some fun _ => c.P * size net.edges
  bars : ∀ e ∈ net.edges, Slice c K mat net.time.last (net.last 1 - net.last 0) e

/-- Mean rise of the temperature. -/
noncomputable def Case.mean (c : Case) (l : List (Edge H 2)) : ℝ := (l.map fun e => e.bar.A * c.rise e.bar.T).sum / size l

/-- Thermal stress in an elastic wall from the cold to the hot state. -/
noncomputable def Case.q (c : Case) (l : List (Edge H 2)) (f : ℝ → ℝ) : ℝ := c.E * c.α * (c.mean l - c.rise f)

/-- What is assumed of the material: modulus, expansion, and plastic strains only at the yield stress, along the stress. -/
structure Case.Ok (c : Case) (K : H → Prop) (mat : Mat1 H) : Prop where
  modulus : 0 < c.E
  between : ∀ t, 0 ≤ c.φ t ∧ c.φ t ≤ 1
  expansion : ∀ T, mat.alpha T = c.α
  flows : Flows mat K c.E fun _ => c.y

/-- The stresses balance the hoop stress. -/
def InBalance (c : Case) (net : Net H 2) : Prop :=
  (net.edges.map fun e => e.bar.A * e.bar.stress.last).sum = c.P * size net.edges

/-! ## Sums -/

theorem zip_le {α β : Type} {R : α → β → Prop} {l : List α} {k : List β} (h : List.Forall₂ R l k) (f g : α → β → ℝ)
    (hfg : ∀ a b, R a b → f a b ≤ g a b) : (List.zipWith f l k).sum ≤ (List.zipWith g l k).sum := by
  induction h with
  | nil => simp
  | cons h _ ih => simpa using add_le_add (hfg _ _ h) ih

theorem zip_add {α β : Type} (l : List α) (k : List β) (f g : α → β → ℝ) :
    (List.zipWith (fun a b => f a b + g a b) l k).sum = (List.zipWith f l k).sum + (List.zipWith g l k).sum := by
  induction l generalizing k with
  | nil => simp
  | cons a l ih =>
    cases k with
    | nil => simp
    | cons b k => simp only [List.zipWith_cons_cons, List.sum_cons, ih]; ring

theorem zip_mul {α β : Type} (l : List α) (k : List β) (x : ℝ) (f : α → β → ℝ) :
    (List.zipWith (fun a b => x * f a b) l k).sum = x * (List.zipWith f l k).sum := by
  induction l generalizing k with
  | nil => simp
  | cons a l ih =>
    cases k with
    | nil => simp
    | cons b k => simp only [List.zipWith_cons_cons, List.sum_cons, ih]; ring

theorem zip_left {α β : Type} {R : α → β → Prop} {l : List α} {k : List β} (h : List.Forall₂ R l k) (f : α → ℝ) :
    (List.zipWith (fun a _ => f a) l k).sum = (l.map f).sum := by
  induction h with
  | nil => simp
  | cons _ _ ih => simp [ih]

theorem zip_right {α β : Type} {R : α → β → Prop} {l : List α} {k : List β} (h : List.Forall₂ R l k) (f : β → ℝ) :
    (List.zipWith (fun _ b => f b) l k).sum = (k.map f).sum := by
  induction h with
  | nil => simp
  | cons _ _ ih => simp [ih]

theorem map_add' {α : Type} (l : List α) (f g : α → ℝ) :
    (l.map fun a => f a + g a).sum = (l.map f).sum + (l.map g).sum := by
  induction l with
  | nil => simp
  | cons a l ih => simp only [List.map_cons, List.sum_cons, ih]; ring

theorem map_mul' {α : Type} (l : List α) (x : ℝ) (f : α → ℝ) : (l.map fun a => x * f a).sum = x * (l.map f).sum := by
  induction l with
  | nil => simp
  | cons a l ih => simp only [List.map_cons, List.sum_cons, ih]; ring

theorem map_le' {α : Type} (l : List α) (f g : α → ℝ) (h : ∀ a ∈ l, f a ≤ g a) : (l.map f).sum ≤ (l.map g).sum := by
  induction l with
  | nil => simp
  | cons a l ih =>
    simpa using add_le_add (h a (by simp)) (ih fun a ha => h a (List.mem_cons_of_mem _ ha))

theorem size_pos {l : List (Edge H 2)} (hne : l ≠ []) (h : ∀ e ∈ l, 0 < e.bar.A) : 0 < size l := by
  cases l with
  | nil => exact absurd rfl hne
  | cons e l =>
    have h2 : 0 ≤ (l.map fun e => e.bar.A).sum :=
      List.sum_nonneg fun x hx => by
        obtain ⟨e, he, rfl⟩ := List.mem_map.1 hx
        exact (h e (List.mem_cons_of_mem _ he)).le
    have := h e (by simp)
    simp only [size, List.map_cons, List.sum_cons]
    linarith

/-- The thermal stresses balance each other. -/
theorem q_balanced (c : Case) {l : List (Edge H 2)} (h : size l ≠ 0) :
    (l.map fun e => e.bar.A * c.q l e.bar.T).sum = 0 := by
  have e1 : (l.map fun e => e.bar.A * c.q l e.bar.T) =
      l.map fun e => c.E * c.α * c.mean l * e.bar.A + (-(c.E * c.α)) * (e.bar.A * c.rise e.bar.T) :=
    List.map_congr_left fun e _ => by unfold Case.q; ring
  rw [e1, map_add', map_mul', map_mul']
  have : c.mean l * size l = (l.map fun e => e.bar.A * c.rise e.bar.T).sum := by
    unfold Case.mean; field_simp
  rw [← this]
  unfold size
  ring

theorem fixed_sum {l l' : List (Edge H 2)} (h : l'.map Fixed = l.map Fixed)
    (F : Fin 2 × Fin 2 × ℝ × ℝ × (ℝ → ℝ) × Mat1 H → ℝ) :
    (l'.map fun e => F (Fixed e)).sum = (l.map fun e => F (Fixed e)).sum := by
  have := congrArg (List.map F) h
  rw [List.map_map, List.map_map] at this
  exact congrArg List.sum this

theorem fixed_size {l l' : List (Edge H 2)} (h : l'.map Fixed = l.map Fixed) : size l' = size l :=
  fixed_sum h fun x => x.2.2.1

theorem fixed_q (c : Case) {l l' : List (Edge H 2)} (h : l'.map Fixed = l.map Fixed) : c.q l' = c.q l := by
  funext f
  have : c.mean l' = c.mean l := by
    unfold Case.mean
    rw [fixed_size h]
    congr 1
    exact fixed_sum h fun x => x.2.2.1 * c.rise x.2.2.2.2.1
  unfold Case.q
  rw [this]

/-! ## Steps of a wall -/

section
variable {c : Case} {K : H → Prop} {mat : Mat1 H}

theorem slice_step (hc : c.Ok K mat) {w : Fin 2 → ℝ} {t1 t0 u : ℝ} (ht : t0 < t1) {e e' : Edge H 2}
    (hs : Slice c K mat t0 u e) (he : BarStep w t1 t0 e e') : Slice c K mat t1 (w 1 - w 0) e' := by
  obtain ⟨o, ho, m1, m2, -⟩ := he.material
  have hTT : e'.bar.temperature.last = e.bar.T t1 := by rw [he.temperature]; rfl
  have hts : e'.bar.tstrain.last = c.α * (e.bar.T t1 - e.bar.T 0) := by
    rw [he.thermal]
    show _ + _ = _
    rw [hs.mat, hc.expansion, hc.expansion, hs.thermal, hs.temperature]
    ring
  refine ⟨?_, ?_, ?_, ?_, ?_, ?_, ?_, ?_⟩
  · rw [he.ends.1, he.ends.2, he.same.2.2.1]; exact hs.ends
  · rw [he.same.2.1]; exact hs.area
  · rw [he.same.1]; exact hs.mat
  · rw [he.same.2.2.2]; exact hs.cycle
  · rw [hTT, he.same.2.2.2]
  · rw [hts, he.same.2.2.2]
  · have h1 : e'.bar.strain.last = (w e.j - w e.i) / e.bar.l := by rw [he.strain]; rfl
    have h2 := congrArg Series.last he.mechanical
    simp only [Series.push] at h2
    rw [h2, h1, hs.ends.1, hs.ends.2.1, hs.ends.2.2, div_one]
  · rw [m2]
    rw [hs.mat] at ho
    exact hc.flows.keeps _ o ht hs.state ho

theorem wall_step (hc : c.Ok K mat) {o : Opts} (ho : o.rtol = 0 ∧ o.atol = 0) {h : ℝ} (hh : 0 < h) {net net1 : Net H 2}
    (hw : Wall c K mat net) (ha : Accepted o net h net1) : Wall c K mat net1 ∧ InBalance c net1 ∧
      net1.edges.map Fixed = net.edges.map Fixed := by
  obtain ⟨f1, f2, f3⟩ := fixed_step ha
  obtain ⟨b1, -, -, -, -, ht, -⟩ := C69_step o net net1 h ha
  have hwall : Wall c K mat net1 := by
    refine ⟨by rw [f2]; exact hw.held, by rw [f2]; exact hw.free, by rw [f3, fixed_size f1]; exact hw.pulled, ?_⟩
    have ht' : net1.time.last = net.time.last + h := by rw [ht]; rfl
    rw [ht']
    have hb := hw.bars
    clear f1 f2 f3 ha
    generalize net.edges = l at b1 hb
    generalize net1.edges = l' at b1
    induction b1 with
    | nil => simp
    | cons he _ ih =>
      intro e hm
      rcases List.mem_cons.1 hm with rfl | hm
      · exact slice_step hc (by linarith) (hb _ (by simp)) he
      · exact ih (fun e h => hb e (List.mem_cons_of_mem _ h)) e hm
  refine ⟨hwall, ?_, f1⟩
  have hv := C69_virtual_work o net net1 h ha ![0, 1]
  rw [Fin.sum_univ_two] at hv
  simp only [Matrix.cons_val_zero, Matrix.cons_val_one, mul_zero, mul_one, zero_add] at hv
  rw [C69_equilibrium_exact o ho net net1 h ha 1 hw.free] at hv
  unfold Net.applied at hv
  rw [hw.pulled] at hv
  unfold InBalance
  rw [fixed_size f1]
  refine Eq.trans ?_ hv.symm
  refine congrArg List.sum (List.map_congr_left fun e he => ?_)
  obtain ⟨h1, h2, -⟩ := (hwall.bars e he).ends
  rw [h1, h2]
  simp
  ring

/-- Plastic strain of a bar between two records. -/
noncomputable def Case.flow (c : Case) (e e' : Edge H 2) : ℝ :=
  plastic c.E e.bar.mstrain.last e'.bar.mstrain.last e.bar.stress.last e'.bar.stress.last

/-- Plastic strain between two records, without sign, integrated through the wall. -/
noncomputable def Case.spent (c : Case) (net net1 : Net H 2) : ℝ :=
  (List.zipWith (fun e e' => e.bar.A * |c.flow e e'|) net.edges net1.edges).sum

/-- Accepted steps, with the plastic strain, without sign, integrated through the wall and added up over all of them. -/
inductive Course (o : Opts) (c : Case) : Net H 2 → ℝ → Net H 2 → Prop
  | nil (net) : Course o c net 0 net
  | cons {net net1 net2 h x} : 0 < h → Accepted o net h net1 → Course o c net1 x net2 →
      Course o c net (c.spent net net1 + x) net2

/-! ## Inside the diagram -/

/-- The elastic stress with a residual stress `r`. -/
noncomputable def Case.aim (c : Case) (l : List (Edge H 2)) (r : (ℝ → ℝ) → ℝ) (x : ℝ) (f : ℝ → ℝ) : ℝ :=
  c.P + x * c.q l f + r f

/-- Residual stresses that balance each other and keep the elastic stresses inside the yield stress by the margin `μ`. -/
structure Case.Residual (c : Case) (l : List (Edge H 2)) (μ : ℝ) (r : (ℝ → ℝ) → ℝ) : Prop where
  balance : (l.map fun e => e.bar.A * r e.bar.T).sum = 0
  inside : ∀ e ∈ l, ∀ x, 0 ≤ x → x ≤ 1 → |c.aim l r x e.bar.T| ≤ c.y - μ

/-- Elastic energy (twice) of what the stresses differ by from the elastic ones with the residual ones. -/
noncomputable def Case.off (c : Case) (r : (ℝ → ℝ) → ℝ) (net : Net H 2) : ℝ :=
  (net.edges.map fun e => e.bar.A * ((e.bar.stress.last - c.aim net.edges r (c.φ net.time.last) e.bar.T) ^ 2 / c.E)).sum

theorem Case.Residual.keep {l l' : List (Edge H 2)} {μ : ℝ} {r : (ℝ → ℝ) → ℝ} (h : c.Residual l μ r)
    (hf : l'.map Fixed = l.map Fixed) : c.Residual l' μ r := by
  refine ⟨?_, ?_⟩
  · rw [← h.balance]
    exact fixed_sum hf fun x => x.2.2.1 * r x.2.2.2.2.1
  · intro e' he' x h0 h1
    have : Fixed e' ∈ l.map Fixed := by rw [← hf]; exact List.mem_map_of_mem he'
    obtain ⟨e, he, heq⟩ := List.mem_map.1 this
    simp only [Fixed, Prod.mk.injEq] at heq
    have := h.inside e he x h0 h1
    unfold Case.aim at this ⊢
    rw [fixed_q c hf, ← heq.2.2.2.2.1]
    exact this

theorem pair_step (hc : c.Ok K mat) {w : Fin 2 → ℝ} {t1 t0 u : ℝ} (ht : t0 < t1) {e e' : Edge H 2}
    (hs : Slice c K mat t0 u e) (he : BarStep w t1 t0 e e') (l : List (Edge H 2)) (r : (ℝ → ℝ) → ℝ) (μ : ℝ)
    (hr : ∀ x, 0 ≤ x → x ≤ 1 → |c.aim l r x e.bar.T| ≤ c.y - μ) :
    e'.bar.A * ((e'.bar.stress.last - c.aim l r (c.φ t1) e'.bar.T) ^ 2 / c.E) + 2 * μ * (e.bar.A * |c.flow e e'|) ≤
      e.bar.A * ((e.bar.stress.last - c.aim l r (c.φ t0) e.bar.T) ^ 2 / c.E) +
      2 * ((w 1 - w 0) - u - (c.φ t1 - c.φ t0) * c.α * c.mean l) *
        (e'.bar.A * (e'.bar.stress.last - c.aim l r (c.φ t1) e'.bar.T)) := by
  have hs' := slice_step hc ht hs he
  obtain ⟨o, ho, m1, -⟩ := he.material
  have hE := hc.modulus
  have n1 : e'.bar.stress.last = o.s := by rw [m1]; rfl
  rw [hs.mat] at ho
  have k := hc.flows.work _ o ht hs.state ho
  simp only at k
  have hfl : c.flow e e' = plastic c.E e.bar.mstrain.last e'.bar.mstrain.last e.bar.stress.last o.s := by
    unfold Case.flow; rw [n1]
  rw [← hfl, ← n1] at k
  have hz := hr _ (hc.between t1).1 (hc.between t1).2
  rw [he.same.2.1, he.same.2.2.2]
  have hm' : e'.bar.mstrain.last = (w 1 - w 0) - c.α * (e.bar.T t1 - e.bar.T 0) := by
    rw [hs'.strain, hs'.thermal, he.same.2.2.2]
  have hm : e.bar.mstrain.last = u - c.α * (e.bar.T t0 - e.bar.T 0) := by rw [hs.strain, hs.thermal]
  have hT : e.bar.T t1 - e.bar.T t0 = (c.φ t1 - c.φ t0) * c.rise e.bar.T := by
    rw [hs.cycle t1, hs.cycle t0]; ring
  obtain ⟨z1, hz1⟩ : ∃ z, z = c.aim l r (c.φ t1) e.bar.T := ⟨_, rfl⟩
  obtain ⟨z0, hz0⟩ : ∃ z, z = c.aim l r (c.φ t0) e.bar.T := ⟨_, rfl⟩
  obtain ⟨p, hp⟩ : ∃ p, p = c.flow e e' := ⟨_, rfl⟩
  have hzz : z1 - z0 = c.E * (c.α * (c.φ t1 - c.φ t0) * c.mean l - c.α * (e.bar.T t1 - e.bar.T t0)) := by
    rw [hz1, hz0, hT]; unfold Case.aim Case.q; ring
  have hp' : c.E * p = c.E * ((w 1 - w 0) - u - c.α * (e.bar.T t1 - e.bar.T t0)) -
      (e'.bar.stress.last - e.bar.stress.last) := by
    rw [hp, Case.flow, plastic, hm', hm]; field_simp; ring
  rw [← hz1, ← hz0, ← hp]
  rw [← hz1] at hz
  rw [← hp] at k
  obtain ⟨g, hg⟩ : ∃ g, g = (w 1 - w 0) - u - (c.φ t1 - c.φ t0) * c.α * c.mean l := ⟨_, rfl⟩
  rw [← hg]
  have hd : e.bar.stress.last - z0 = (e'.bar.stress.last - z1) - c.E * (g - p) := by
    rw [mul_sub, hp', hg]; linarith
  rw [hd]
  generalize e'.bar.stress.last = s at *
  have h5 : z1 * p ≤ (c.y - μ) * |p| := by
    calc z1 * p ≤ |z1 * p| := le_abs_self _
      _ = |z1| * |p| := abs_mul _ _
      _ ≤ _ := mul_le_mul_of_nonneg_right hz (abs_nonneg _)
  have h6 : (s - z1) ^ 2 / c.E + 2 * μ * |p| ≤ ((s - z1) - c.E * (g - p)) ^ 2 / c.E + 2 * g * (s - z1) := by
    have h8 : ((s - z1) - c.E * (g - p)) ^ 2 / c.E = (s - z1) ^ 2 / c.E - 2 * ((s - z1) * (g - p)) + c.E * (g - p) ^ 2 := by
      field_simp
      ring
    rw [h8]
    have : 0 ≤ c.E * (g - p) ^ 2 := by positivity
    nlinarith
  have h7 := mul_le_mul_of_nonneg_left h6 hs.area.le
  linarith

/-- **C204.** One step of a wall for which there are such residual stresses. -/
theorem C204_step (hc : c.Ok K mat) {o : Opts} (ho : o.rtol = 0 ∧ o.atol = 0) {h : ℝ} (hh : 0 < h)
    {net net1 : Net H 2} (hw : Wall c K mat net) (ha : Accepted o net h net1) {μ : ℝ} {r : (ℝ → ℝ) → ℝ}
    (hr : c.Residual net.edges μ r) : c.off r net1 + 2 * μ * c.spent net net1 ≤ c.off r net := by
  obtain ⟨hw1, hb1, hf⟩ := wall_step hc ho hh hw ha
  obtain ⟨b1, -, -, -, -, ht, -⟩ := C69_step o net net1 h ha
  have ht' : net1.time.last = net.time.last + h := by rw [ht]; rfl
  have b2 := (List.forall₂_and_left _ _).2 ⟨fun e he => (⟨hw.bars e he, hr.inside e he⟩ : Slice c K mat net.time.last
    (net.last 1 - net.last 0) e ∧ ∀ x, 0 ≤ x → x ≤ 1 → |c.aim net.edges r x e.bar.T| ≤ c.y - μ), b1⟩
  have key := zip_le b2 _ _ fun e e' q => pair_step hc (by linarith) q.1.1 q.2 net.edges r μ q.1.2
  rw [zip_add, zip_add, zip_mul, zip_mul, zip_left b2, zip_right b2, zip_right b2] at key
  have hz : (net1.edges.map fun e => e.bar.A * (e.bar.stress.last -
      c.aim net.edges r (c.φ (net.time.last + h)) e.bar.T)).sum = 0 := by
    have e1 : (net1.edges.map fun e => e.bar.A * (e.bar.stress.last -
        c.aim net.edges r (c.φ (net.time.last + h)) e.bar.T)) = net1.edges.map fun e => e.bar.A * e.bar.stress.last +
        ((-c.P) * e.bar.A + ((-c.φ (net.time.last + h)) * (e.bar.A * c.q net1.edges e.bar.T) +
          (-1) * (e.bar.A * r e.bar.T))) :=
      List.map_congr_left fun e _ => by rw [fixed_q c hf]; unfold Case.aim; ring
    rw [e1, map_add', map_add', map_add', map_mul', map_mul', map_mul', hb1, (hr.keep hf).balance]
    by_cases h0 : net1.edges = []
    · simp [h0, size]
    · rw [q_balanced c (size_pos h0 fun e he => (hw1.bars e he).area).ne']
      unfold size
      ring
  rw [hz, mul_zero, add_zero] at key
  unfold Case.off
  rw [ht']
  have e2 : (net1.edges.map fun e => e.bar.A * ((e.bar.stress.last -
      c.aim net1.edges r (c.φ (net.time.last + h)) e.bar.T) ^ 2 / c.E)) = net1.edges.map fun e =>
      e.bar.A * ((e.bar.stress.last - c.aim net.edges r (c.φ (net.time.last + h)) e.bar.T) ^ 2 / c.E) := by
    unfold Case.aim
    rw [fixed_q c hf]
  rw [e2]
  exact key

theorem off_nonneg (hc : c.Ok K mat) {net : Net H 2} (hw : Wall c K mat net) (r : (ℝ → ℝ) → ℝ) : 0 ≤ c.off r net :=
  List.sum_nonneg fun x hx => by
    obtain ⟨e, he, rfl⟩ := List.mem_map.1 hx
    exact mul_nonneg (hw.bars e he).area.le (div_nonneg (sq_nonneg _) hc.modulus.le)

/-- **C204.** Whatever the number of steps and cycles, the sum of the plastic strains is bounded by the energy at the start
over the margin. -/
theorem C204_melan (hc : c.Ok K mat) {o : Opts} (ho : o.rtol = 0 ∧ o.atol = 0) {net net1 : Net H 2} {x : ℝ}
    (hw : Wall c K mat net) {μ : ℝ} {r : (ℝ → ℝ) → ℝ} (hr : c.Residual net.edges μ r) (hx : Course o c net x net1) :
    Wall c K mat net1 ∧ c.off r net1 + 2 * μ * x ≤ c.off r net := by
  induction hx with
  | nil => exact ⟨hw, by simp⟩
  | @cons net net1 net2 h x hh ha _ ih =>
    obtain ⟨hw1, -, hf⟩ := wall_step hc ho hh hw ha
    obtain ⟨h1, h2⟩ := ih hw1 (hr.keep hf)
    have h3 := C204_step hc ho hh hw ha hr
    refine ⟨h1, ?_⟩
    rw [mul_add]
    linarith

/-- The diagram: the hoop stress together with the mean of the positive parts of the thermal stresses, and half the range
of the thermal stresses, are inside the yield stress by the margin `μ`. -/
structure Case.Inside (c : Case) (l : List (Edge H 2)) (μ : ℝ) : Prop where
  pull : 0 ≤ c.P
  primary : c.P * size l + (l.map fun e => e.bar.A * max (c.q l e.bar.T) 0).sum ≤ (c.y - μ) * size l
  range : ∀ e ∈ l, |c.q l e.bar.T| ≤ 2 * (c.y - μ)

/-- **C204.** Inside the diagram there are residual stresses as wanted. -/
theorem C204_residual {l : List (Edge H 2)} (hA : ∀ e ∈ l, 0 < e.bar.A) {μ : ℝ} (h : c.Inside l μ) :
    ∃ r, c.Residual l μ r := by
  by_cases hne : l = []
  · subst hne
    exact ⟨fun _ => 0, by simp, by simp⟩
  have hW := size_pos hne hA
  obtain ⟨Q, hQ⟩ : ∃ Q, Q = (l.map fun e => e.bar.A * max (c.q l e.bar.T) 0).sum := ⟨_, rfl⟩
  have hQ' : (l.map fun e => e.bar.A * max (-c.q l e.bar.T) 0).sum = Q := by
    have e1 : (l.map fun e => e.bar.A * max (-c.q l e.bar.T) 0) = l.map fun e => e.bar.A * max (c.q l e.bar.T) 0 +
        (-1) * (e.bar.A * c.q l e.bar.T) := List.map_congr_left fun e _ => by
      have : max (-c.q l e.bar.T) 0 = max (c.q l e.bar.T) 0 - c.q l e.bar.T := by
        rcases le_total 0 (c.q l e.bar.T) with h | h
        · rw [max_eq_right (by linarith), max_eq_left h]; ring
        · rw [max_eq_left (by linarith), max_eq_right h]; ring
      rw [this]; ring
    rw [e1, map_add', map_mul', q_balanced c hW.ne', hQ]
    ring
  have hprim := h.primary
  rw [← hQ] at hprim
  obtain ⟨y', hy'⟩ : ∃ y', y' = c.y - μ := ⟨_, rfl⟩
  rw [← hy'] at hprim
  have hPW : 0 ≤ c.P * size l := mul_nonneg h.pull hW.le
  -- the sums of the least and of the largest residual stresses
  obtain ⟨a, ha⟩ : ∃ a, a = (y' + c.P) * size l - Q := ⟨_, rfl⟩
  obtain ⟨b, hb⟩ : ∃ b, b = (y' - c.P) * size l - Q := ⟨_, rfl⟩
  have ha0 : 0 ≤ a := by rw [ha]; linarith
  have hb0 : 0 ≤ b := by rw [hb]; linarith
  obtain ⟨x, x0, x1, hx⟩ : ∃ x, 0 ≤ x ∧ x ≤ 1 ∧ (1 - x) * (-a) + x * b = 0 := by
    by_cases hab : a + b = 0
    · exact ⟨0, le_refl _, zero_le_one, by have : a = 0 := by linarith
                                           rw [this]; ring⟩
    · have hp : 0 < a + b := lt_of_le_of_ne (by linarith) (Ne.symm hab)
      refine ⟨a / (a + b), by positivity, (div_le_one hp).2 (by linarith), ?_⟩
      field_simp
      ring
  refine ⟨fun f => (1 - x) * (-y' - c.P + max (-c.q l f) 0) + x * (y' - c.P - max (c.q l f) 0), ?_, ?_⟩
  · have e1 : (l.map fun e => e.bar.A * ((1 - x) * (-y' - c.P + max (-c.q l e.bar.T) 0) +
        x * (y' - c.P - max (c.q l e.bar.T) 0))) = l.map fun e => ((1 - x) * (-y' - c.P) + x * (y' - c.P)) * e.bar.A +
        ((1 - x) * (e.bar.A * max (-c.q l e.bar.T) 0) + (-x) * (e.bar.A * max (c.q l e.bar.T) 0)) :=
      List.map_congr_left fun e _ => by ring
    rw [e1, map_add', map_add', map_mul', map_mul', map_mul', hQ', ← hQ]
    rw [ha, hb] at hx
    show _ * size l + _ = 0
    linarith
  · intro e he z z0 z1
    have hr := h.range e he
    rw [← hy'] at hr ⊢
    show |c.P + z * c.q l e.bar.T + ((1 - x) * (-y' - c.P + max (-c.q l e.bar.T) 0) +
      x * (y' - c.P - max (c.q l e.bar.T) 0))| ≤ y'
    generalize c.q l e.bar.T = q at *
    have hsum : max q 0 + max (-q) 0 = |q| := by
      rcases abs_cases q with ⟨i, j⟩ | ⟨i, j⟩ <;> rw [i]
      · rw [max_eq_left j, max_eq_right (by linarith)]; ring
      · rw [max_eq_right j.le, max_eq_left (by linarith)]; ring
    have u1 : z * q ≤ max q 0 := by
      rcases max_cases q 0 with ⟨i, j⟩ | ⟨i, j⟩ <;> rw [i] <;> nlinarith
    have u2 : -max (-q) 0 ≤ z * q := by
      rcases max_cases (-q) 0 with ⟨i, j⟩ | ⟨i, j⟩ <;> rw [i] <;> nlinarith
    have hle : -y' - c.P + max (-q) 0 ≤ y' - c.P - max q 0 := by linarith
    have v1 : (1 - x) * (-y' - c.P + max (-q) 0) + x * (y' - c.P - max q 0) ≤ y' - c.P - max q 0 := by
      nlinarith [mul_nonneg (sub_nonneg.2 x1) (sub_nonneg.2 hle)]
    have v2 : -y' - c.P + max (-q) 0 ≤ (1 - x) * (-y' - c.P + max (-q) 0) + x * (y' - c.P - max q 0) := by
      nlinarith [mul_nonneg x0 (sub_nonneg.2 hle)]
    rw [abs_le]
    constructor <;> linarith

/-- **C204, inside.** A wall without stress at first: whatever the number of steps and cycles, the plastic strains of all
of them, without sign, integrated through the wall, add up to no more than this. -/
theorem C204_shakedown (hc : c.Ok K mat) {o : Opts} (ho : o.rtol = 0 ∧ o.atol = 0) {net net1 : Net H 2} {x : ℝ}
    (hw : Wall c K mat net) (h0 : ∀ e ∈ net.edges, e.bar.stress.last = 0) {μ : ℝ} (hμ : 0 < μ)
    (hin : c.Inside net.edges μ) (hx : Course o c net x net1) :
    x ≤ size net.edges * (c.y - μ) ^ 2 / (2 * c.E * μ) := by
  obtain ⟨r, hr⟩ := C204_residual (fun e he => (hw.bars e he).area) hin
  obtain ⟨h1, h2⟩ := C204_melan hc ho hw hr hx
  have h3 := off_nonneg hc h1 r
  have hE := hc.modulus
  have h4 : c.off r net ≤ (c.y - μ) ^ 2 / c.E * size net.edges := by
    unfold Case.off size
    rw [← map_mul']
    refine map_le' _ _ _ fun e he => ?_
    rw [h0 e he, mul_comm]
    refine mul_le_mul_of_nonneg_right (div_le_div_of_nonneg_right ?_ hE.le) (hw.bars e he).area.le
    have := hr.inside e he _ (hc.between net.time.last).1 (hc.between net.time.last).2
    rw [zero_sub, neg_sq]
    exact sq_le_sq' (by linarith [(abs_le.1 this).1]) (abs_le.1 this).2
  rw [le_div_iff₀ (by positivity)]
  have h5 : 2 * μ * x ≤ (c.y - μ) ^ 2 / c.E * size net.edges := by linarith
  have h6 := mul_le_mul_of_nonneg_left h5 hE.le
  have h7 : c.E * ((c.y - μ) ^ 2 / c.E * size net.edges) = (c.y - μ) ^ 2 * size net.edges := by field_simp
  rw [h7] at h6
  linarith

/-! ## Outside the diagram -/

theorem fixed_pairs {l l' : List (Edge H 2)} (h : l'.map Fixed = l.map Fixed) :
    List.Forall₂ (fun e e' => Fixed e' = Fixed e) l l' := by
  induction l generalizing l' with
  | nil =>
    rw [List.map_nil, List.map_eq_nil_iff] at h
    subst h
    exact .nil
  | cons e l ih =>
    cases l' with
    | nil => simp at h
    | cons e' l' =>
      simp only [List.map_cons, List.cons.injEq] at h
      exact .cons h.1 (ih h.2)

theorem pairs_and {α β : Type} {R S : α → β → Prop} {p : α → Prop} {q : β → Prop} {l : List α} {k : List β}
    (h1 : List.Forall₂ R l k) (h2 : List.Forall₂ S l k) (hp : ∀ a ∈ l, p a) (hq : ∀ b ∈ k, q b) :
    List.Forall₂ (fun a b => R a b ∧ S a b ∧ p a ∧ q b) l k := by
  induction h1 with
  | nil => exact .nil
  | cons h _ ih =>
    cases h2 with
    | cons h' h2 =>
      exact .cons ⟨h, h', hp _ (by simp), hq _ (by simp)⟩ (ih h2 (fun a ha => hp a (List.mem_cons_of_mem _ ha))
        fun b hb => hq b (List.mem_cons_of_mem _ hb))

/-- **C204, outside.** Two records of a wall, one at a cold and one at a hot state, both in balance and with stresses
inside the yield stress. If no bar has more plastic strain than `δ` between them, the thermal stresses are inside the
diagram but for `2 E δ`. -/
theorem C204_between (hE : 0 < c.E) {net net1 : Net H 2} (hw : Wall c K mat net) (hw1 : Wall c K mat net1)
    (hf : net1.edges.map Fixed = net.edges.map Fixed) (hb : InBalance c net) (hb1 : InBalance c net1)
    (hy : ∀ e ∈ net.edges, |e.bar.stress.last| ≤ c.y) (hy1 : ∀ e ∈ net1.edges, |e.bar.stress.last| ≤ c.y)
    (hφ : |c.φ net1.time.last - c.φ net.time.last| = 1) {δ : ℝ}
    (hδ : List.Forall₂ (fun e e' => |c.flow e e'| ≤ δ) net.edges net1.edges) :
    c.P * size net.edges + (net.edges.map fun e => e.bar.A * max (c.q net.edges e.bar.T) 0).sum ≤
      (c.y + 2 * c.E * δ) * size net.edges ∧
    ∀ e ∈ net.edges, |c.q net.edges e.bar.T| ≤ 2 * (c.y + c.E * δ) := by
  have hp := pairs_and (fixed_pairs hf) hδ (fun e he => (⟨hw.bars e he, hy e he⟩ : Slice c K mat net.time.last
    (net.last 1 - net.last 0) e ∧ |e.bar.stress.last| ≤ c.y)) fun e he => (⟨hw1.bars e he, hy1 e he⟩ :
    Slice c K mat net1.time.last (net1.last 1 - net1.last 0) e ∧ |e.bar.stress.last| ≤ c.y)
  by_cases hne : net.edges = []
  · rw [hne]; simp [size]
  have hW := size_pos hne fun e he => (hw.bars e he).area
  obtain ⟨σ, hσ⟩ : ∃ σ, σ = c.φ net1.time.last - c.φ net.time.last := ⟨_, rfl⟩
  rw [← hσ] at hφ
  obtain ⟨a, ha⟩ : ∃ a, a = c.E * ((net1.last 1 - net1.last 0) - (net.last 1 - net.last 0)) -
    c.E * c.α * σ * c.mean net.edges := ⟨_, rfl⟩
  have key : List.Forall₂ (fun e e' => e'.bar.stress.last - e.bar.stress.last =
      a + σ * c.q net.edges e.bar.T - c.E * c.flow e e' ∧ e'.bar.A = e.bar.A ∧ 0 < e.bar.A ∧ |c.flow e e'| ≤ δ ∧
      |e.bar.stress.last| ≤ c.y ∧ |e'.bar.stress.last| ≤ c.y) net.edges net1.edges := by
    refine hp.imp fun e e' h => ?_
    obtain ⟨h1, h2, ⟨h3, h4⟩, h5, h6⟩ := h
    simp only [Fixed, Prod.mk.injEq] at h1
    refine ⟨?_, h1.2.2.1, h3.area, h2, h4, h6⟩
    have hm' : e'.bar.mstrain.last = (net1.last 1 - net1.last 0) - c.α * (e.bar.T net1.time.last - e.bar.T 0) := by
      rw [h5.strain, h5.thermal, h1.2.2.2.2.1]
    have hm : e.bar.mstrain.last = (net.last 1 - net.last 0) - c.α * (e.bar.T net.time.last - e.bar.T 0) := by
      rw [h3.strain, h3.thermal]
    have hT : e.bar.T net1.time.last - e.bar.T net.time.last = σ * c.rise e.bar.T := by
      rw [h3.cycle net1.time.last, h3.cycle net.time.last, hσ]; ring
    have hfl : c.E * c.flow e e' = c.E * ((net1.last 1 - net1.last 0) - (net.last 1 - net.last 0) -
        c.α * (e.bar.T net1.time.last - e.bar.T net.time.last)) - (e'.bar.stress.last - e.bar.stress.last) := by
      unfold Case.flow plastic
      rw [hm', hm]; field_simp; ring
    rw [hfl, hT, ha]
    unfold Case.q
    ring
  have hsum : a * size net.edges = c.E * (List.zipWith (fun e e' => e.bar.A * c.flow e e') net.edges net1.edges).sum := by
    have h1 := zip_left key fun e => e.bar.A * e.bar.stress.last
    have h2 := zip_right key fun e => e.bar.A * e.bar.stress.last
    have h3 : (List.zipWith (fun _ e' : Edge H 2 => e'.bar.A * e'.bar.stress.last) net.edges net1.edges).sum =
        (List.zipWith (fun e e' => e.bar.A * e.bar.stress.last + (a * e.bar.A + (σ * (e.bar.A * c.q net.edges e.bar.T) +
          (-c.E) * (e.bar.A * c.flow e e')))) net.edges net1.edges).sum := by
      refine le_antisymm (zip_le key _ _ fun e e' h => le_of_eq ?_) (zip_le key _ _ fun e e' h => le_of_eq ?_)
      · rw [h.2.1]; linear_combination e.bar.A * h.1
      · rw [h.2.1]; linear_combination -e.bar.A * h.1
    rw [zip_add, zip_add, zip_add, zip_mul, zip_mul, zip_mul, h2, h1, zip_left key, zip_left key, q_balanced c hW.ne',
      hb, hb1, fixed_size hf] at h3
    unfold size at h3 ⊢
    linarith
  have hbound : |a| ≤ c.E * δ := by
    have h1 : (List.zipWith (fun e e' => e.bar.A * c.flow e e') net.edges net1.edges).sum ≤ δ * size net.edges := by
      rw [show δ * size net.edges = δ * (net.edges.map fun e => e.bar.A).sum from rfl, ← zip_left key, ← zip_mul]
      exact zip_le key _ _ fun e e' h => by nlinarith [(abs_le.1 h.2.2.2.1).2, h.2.2.1]
    have h2 : -δ * size net.edges ≤ (List.zipWith (fun e e' => e.bar.A * c.flow e e') net.edges net1.edges).sum := by
      rw [show -δ * size net.edges = -δ * (net.edges.map fun e => e.bar.A).sum from rfl, ← zip_left key, ← zip_mul]
      exact zip_le key _ _ fun e e' h => by nlinarith [(abs_le.1 h.2.2.2.1).1, h.2.2.1]
    rw [abs_le]
    constructor
    · refine le_of_mul_le_mul_right ?_ hW
      rw [hsum]
      nlinarith [mul_le_mul_of_nonneg_left h2 hE.le]
    · refine le_of_mul_le_mul_right ?_ hW
      rw [hsum]
      nlinarith [mul_le_mul_of_nonneg_left h1 hE.le]
  have key2 : List.Forall₂ (fun e e' => |e'.bar.stress.last - e.bar.stress.last - σ * c.q net.edges e.bar.T| ≤
      2 * c.E * δ ∧ e'.bar.A = e.bar.A ∧ 0 < e.bar.A ∧ |e.bar.stress.last| ≤ c.y ∧ |e'.bar.stress.last| ≤ c.y)
      net.edges net1.edges := by
    refine key.imp fun e e' h => ⟨?_, h.2.1, h.2.2.1, h.2.2.2.2⟩
    rw [h.1, show a + σ * c.q net.edges e.bar.T - c.E * c.flow e e' - σ * c.q net.edges e.bar.T =
      a - c.E * c.flow e e' by ring]
    have h3 : |c.E * c.flow e e'| ≤ c.E * δ := by
      rw [abs_mul, abs_of_pos hE]
      exact mul_le_mul_of_nonneg_left h.2.2.2.1 hE.le
    have := abs_sub a (c.E * c.flow e e')
    linarith
  constructor
  · rcases eq_or_eq_neg_of_abs_eq hφ with h1 | h1
    · rw [h1] at key2
      rw [← hb, ← map_add', ← zip_left key2 fun e => e.bar.A * e.bar.stress.last + e.bar.A * max (c.q net.edges e.bar.T) 0,
        show (c.y + 2 * c.E * δ) * size net.edges = (c.y + 2 * c.E * δ) * (net.edges.map fun e => e.bar.A).sum from rfl,
        ← zip_left key2, ← zip_mul]
      refine zip_le key2 _ _ fun e e' h => ?_
      rw [← mul_add, mul_comm _ e.bar.A]
      refine mul_le_mul_of_nonneg_left ?_ h.2.2.1.le
      obtain ⟨g1, -, -, g2, g3⟩ := h
      rw [abs_le] at g1 g2 g3
      rcases max_cases (c.q net.edges e.bar.T) 0 with ⟨i, j⟩ | ⟨i, j⟩ <;> rw [i] <;> linarith
    · rw [h1] at key2
      have hz : (net.edges.map fun e => e.bar.A * e.bar.stress.last).sum =
          (net1.edges.map fun e => e.bar.A * e.bar.stress.last).sum := by rw [hb, hb1, fixed_size hf]
      rw [← hb, hz, ← zip_right key2 fun e => e.bar.A * e.bar.stress.last,
        ← zip_left key2 fun e => e.bar.A * max (c.q net.edges e.bar.T) 0, ← zip_add,
        show (c.y + 2 * c.E * δ) * size net.edges = (c.y + 2 * c.E * δ) * (net.edges.map fun e => e.bar.A).sum from rfl,
        ← zip_left key2, ← zip_mul]
      refine zip_le key2 _ _ fun e e' h => ?_
      rw [h.2.1, ← mul_add, mul_comm _ e.bar.A]
      refine mul_le_mul_of_nonneg_left ?_ h.2.2.1.le
      obtain ⟨g1, -, -, g2, g3⟩ := h
      rw [abs_le] at g1 g2 g3
      rcases max_cases (c.q net.edges e.bar.T) 0 with ⟨i, j⟩ | ⟨i, j⟩ <;> rw [i] <;> linarith
  · intro e he
    obtain ⟨e', -, g1, -, -, g2, g3⟩ := forall₂_mem_left key2 he
    have h4 : |σ * c.q net.edges e.bar.T| = |c.q net.edges e.bar.T| := by rw [abs_mul, hφ, one_mul]
    rw [← h4]
    rw [abs_le] at g1 g2 g3 ⊢
    constructor <;> linarith

theorem pairs_some {α β : Type} {R : α → β → Prop} {p : α → β → Prop} {l : List α} {k : List β}
    (h : List.Forall₂ R l k) (hn : ¬ List.Forall₂ p l k) : ∃ a ∈ l, ∃ b ∈ k, (a, b) ∈ l.zip k ∧ ¬ p a b := by
  induction h with
  | nil => exact absurd .nil hn
  | @cons a b l k _ _ ih =>
    by_cases h1 : p a b
    · obtain ⟨x, hx, y, hy, hxy, h2⟩ := ih fun h2 => hn (.cons h1 h2)
      exact ⟨x, List.mem_cons_of_mem _ hx, y, List.mem_cons_of_mem _ hy, by
        rw [List.zip_cons_cons]; exact List.mem_cons_of_mem _ hxy, h2⟩
    · exact ⟨a, by simp, b, by simp, by simp, h1⟩

/-- The wall is outside the diagram by more than `2 E δ`. -/
def Case.Outside (c : Case) (l : List (Edge H 2)) (δ : ℝ) : Prop :=
  (c.y + 2 * c.E * δ) * size l < c.P * size l + (l.map fun e => e.bar.A * max (c.q l e.bar.T) 0).sum ∨
    ∃ e ∈ l, 2 * (c.y + c.E * δ) < |c.q l e.bar.T|

theorem Case.Outside.keep {l l' : List (Edge H 2)} {δ : ℝ} (h : c.Outside l δ) (hf : l'.map Fixed = l.map Fixed) :
    c.Outside l' δ := by
  rcases h with h | ⟨e, he, h⟩
  · left
    rw [fixed_size hf, fixed_q c hf]
    have := fixed_sum hf fun x => x.2.2.1 * max (c.q l x.2.2.2.2.1) 0
    exact lt_of_lt_of_eq h (congrArg _ this.symm)
  · right
    obtain ⟨e', he', h1⟩ := forall₂_mem_left (fixed_pairs hf) he
    simp only [Fixed, Prod.mk.injEq] at h1
    exact ⟨e', he', by rw [fixed_q c hf, h1.2.2.2.2.1]; exact h⟩

/-- A record that balances the hoop stress with stresses inside the yield stress. -/
def Carries (c : Case) (net : Net H 2) : Prop := InBalance c net ∧ ∀ e ∈ net.edges, |e.bar.stress.last| ≤ c.y

/-- **C204, outside.** From a cold to a hot state or back, some bar has more plastic strain than `δ`. -/
theorem C204_passage (hE : 0 < c.E) {net net1 : Net H 2} (hw : Wall c K mat net) (hw1 : Wall c K mat net1)
    (hf : net1.edges.map Fixed = net.edges.map Fixed) (hb : Carries c net) (hb1 : Carries c net1)
    (hφ : |c.φ net1.time.last - c.φ net.time.last| = 1) {δ : ℝ} (hout : c.Outside net.edges δ) :
    ∃ e e', (e, e') ∈ net.edges.zip net1.edges ∧ δ < |c.flow e e'| := by
  by_contra hcon
  push Not at hcon
  have hall : List.Forall₂ (fun e e' => |c.flow e e'| ≤ δ) net.edges net1.edges := by
    by_contra hn
    obtain ⟨a, -, b, -, h1, h2⟩ := pairs_some (fixed_pairs hf) hn
    exact h2 (hcon a b h1)
  obtain ⟨h1, h2⟩ := C204_between hE hw hw1 hf hb.1 hb1.1 hb.2 hb1.2 hφ hall
  rcases hout with h | ⟨e, he, h⟩
  · linarith
  · linarith [h2 e he]

theorem carries_step (hc : c.Ok K mat) (hy : Yields mat fun _ => c.y) {o : Opts} (ho : o.rtol = 0 ∧ o.atol = 0) {h : ℝ}
    (hh : 0 < h) {net net1 : Net H 2} (hw : Wall c K mat net) (ha : Accepted o net h net1) : Carries c net1 := by
  refine ⟨(wall_step hc ho hh hw ha).2.1, ?_⟩
  obtain ⟨b1, -⟩ := C69_step o net net1 h ha
  have hb := hw.bars
  generalize net.edges = l at b1 hb
  generalize net1.edges = l' at b1
  induction b1 with
  | nil => simp
  | @cons e e' l l' he _ ih =>
    intro x hm
    rcases List.mem_cons.1 hm with rfl | hm
    · obtain ⟨out, ho, m1, -⟩ := he.material
      rw [(hb e (by simp)).mat] at ho
      rw [m1]
      exact hy _ _ ho
    · exact ih (fun e h => hb e (List.mem_cons_of_mem _ h)) x hm

theorem Course.keeps (hc : c.Ok K mat) {o : Opts} (ho : o.rtol = 0 ∧ o.atol = 0) {net net1 : Net H 2} {x : ℝ}
    (hw : Wall c K mat net) (hx : Course o c net x net1) :
    Wall c K mat net1 ∧ net1.edges.map Fixed = net.edges.map Fixed ∧
      (Yields mat (fun _ => c.y) → Carries c net → Carries c net1) := by
  induction hx with
  | nil => exact ⟨hw, rfl, fun _ h => h⟩
  | cons hh ha _ ih =>
    obtain ⟨hw1, -, hf⟩ := wall_step hc ho hh hw ha
    obtain ⟨h1, h2, h3⟩ := ih hw1
    exact ⟨h1, h2.trans hf, fun hy _ => h3 hy (carries_step hc hy ho hh hw ha)⟩

theorem spent_self (c : Case) (l : List (Edge H 2)) :
    (List.zipWith (fun e e' => e.bar.A * |c.flow e e'|) l l).sum = 0 := by
  induction l with
  | nil => simp
  | cons e l ih => simp [ih, Case.flow, plastic]

theorem spent_tri (c : Case) {l l1 l2 : List (Edge H 2)} (h1 : l1.map Fixed = l.map Fixed) (h2 : l2.map Fixed = l1.map Fixed)
    (hA : ∀ e ∈ l, 0 < e.bar.A) :
    (List.zipWith (fun e e' => e.bar.A * |c.flow e e'|) l l2).sum ≤
      (List.zipWith (fun e e' => e.bar.A * |c.flow e e'|) l l1).sum +
      (List.zipWith (fun e e' => e.bar.A * |c.flow e e'|) l1 l2).sum := by
  have p1 := fixed_pairs h1
  have p2 := fixed_pairs h2
  clear h1 h2
  induction p1 generalizing l2 with
  | nil => simp
  | @cons e e1 l l1 h _ ih =>
    cases p2 with
    | @cons _ e2 _ l2 h' p2 =>
    simp only [List.zipWith_cons_cons, List.sum_cons]
    have h3 := ih (fun e he => hA e (List.mem_cons_of_mem _ he)) p2
    have h4 : e1.bar.A = e.bar.A := by
      simp only [Fixed, Prod.mk.injEq] at h
      exact h.2.2.1
    have h5 : c.flow e e2 = c.flow e e1 + c.flow e1 e2 := by unfold Case.flow plastic; ring
    have h6 := mul_le_mul_of_nonneg_left (abs_add_le (c.flow e e1) (c.flow e1 e2)) (hA e (by simp)).le
    rw [h5, h4]
    linarith

theorem Course.spent_le (hc : c.Ok K mat) {o : Opts} (ho : o.rtol = 0 ∧ o.atol = 0) {net net1 : Net H 2} {x : ℝ}
    (hw : Wall c K mat net) (hx : Course o c net x net1) : c.spent net net1 ≤ x := by
  induction hx with
  | nil net => exact le_of_eq (spent_self c net.edges)
  | @cons net net1 net2 h x hh ha hx ih =>
    obtain ⟨hw1, -, hf⟩ := wall_step hc ho hh hw ha
    have h1 := ih hw1
    have h2 := spent_tri c hf (hx.keeps hc ho hw1).2.1 fun e he => (hw.bars e he).area
    unfold Case.spent at h1 ⊢
    linarith

theorem zip_single {α β : Type} (f : α → β → ℝ) (l : List α) (k : List β) (hf : ∀ a ∈ l, ∀ b, 0 ≤ f a b) {a : α} {b : β}
    (h : (a, b) ∈ l.zip k) : f a b ≤ (List.zipWith f l k).sum := by
  induction l generalizing k with
  | nil => simp at h
  | cons x l ih =>
    cases k with
    | nil => simp at h
    | cons y k =>
      have hn : 0 ≤ (List.zipWith f l k).sum := by
        clear ih h
        induction l generalizing k with
        | nil => simp
        | cons z l ih =>
          cases k with
          | nil => simp
          | cons w k =>
            simp only [List.zipWith_cons_cons, List.sum_cons]
            refine add_nonneg (hf z (by simp) w) (ih (fun a ha => hf a ?_) k)
            simp only [List.mem_cons] at ha ⊢
            tauto
      simp only [List.zip_cons_cons, List.mem_cons, Prod.mk.injEq] at h
      simp only [List.zipWith_cons_cons, List.sum_cons]
      rcases h with ⟨rfl, rfl⟩ | h
      · linarith
      · linarith [ih k (fun a ha => hf a (List.mem_cons_of_mem _ ha)) h, hf x (by simp) y]

/-- A course that goes `n` times from a cold to a hot state or back. -/
inductive Passages (o : Opts) (c : Case) : Net H 2 → ℕ → ℝ → Net H 2 → Prop
  | nil (net) : Passages o c net 0 0 net
  | cons {net net1 net2 n y x} : Course o c net y net1 → |c.φ net1.time.last - c.φ net.time.last| = 1 →
      Passages o c net1 n x net2 → Passages o c net (n + 1) (y + x) net2

/-- **C204, outside.** The plastic strains go on without end: in `n` passages they add up to at least `n` times a fixed
size. -/
theorem C204_never (hc : c.Ok K mat) (hy : Yields mat fun _ => c.y) {o : Opts} (ho : o.rtol = 0 ∧ o.atol = 0)
    {net net1 : Net H 2} {n : ℕ} {x δ m : ℝ} (hw : Wall c K mat net) (hb : Carries c net) (hδ : 0 ≤ δ)
    (hm : ∀ e ∈ net.edges, m ≤ e.bar.A) (hout : c.Outside net.edges δ) (hx : Passages o c net n x net1) :
    n * (m * δ) ≤ x := by
  induction hx with
  | nil => simp
  | @cons net net1 net2 n y x hy1 hφ _ ih =>
    obtain ⟨hw1, hf, hb1⟩ := hy1.keeps hc ho hw
    have h1 := ih hw1 (hb1 hy hb) (fun e' he' => by
      have : Fixed e' ∈ net.edges.map Fixed := by rw [← hf]; exact List.mem_map_of_mem he'
      obtain ⟨e, he, heq⟩ := List.mem_map.1 this
      simp only [Fixed, Prod.mk.injEq] at heq
      rw [← heq.2.2.1]
      exact hm e he) (hout.keep hf)
    have h2 := hy1.spent_le hc ho hw
    obtain ⟨e, e', hz, hlt⟩ := C204_passage hc.modulus hw hw1 hf hb (hb1 hy hb) hφ hout
    have he := (List.of_mem_zip hz).1
    have h3 : m * δ ≤ c.spent net net1 := by
      have h4 : e.bar.A * |c.flow e e'| ≤ c.spent net net1 :=
        zip_single _ _ _ (fun a ha b => mul_nonneg (hw.bars a ha).area.le (abs_nonneg _)) hz
      have h5 := mul_le_mul_of_nonneg_right (hm e he) hδ
      have h6 := mul_le_mul_of_nonneg_left hlt.le (hw.bars e he).area.le
      linarith
    push_cast
    linarith

/-- **C204.** A hoop stress beyond the yield stress cannot be carried: the step raises. -/
theorem C204_limit (hy : Yields mat fun _ => c.y) {o : Opts} (ho : o.rtol = 0 ∧ o.atol = 0) (hn : 0 < o.ndiv)
    (hd : 0 < o.dfact) {net : Net H 2} (hw : Wall c K mat net) (hne : net.edges ≠ []) (hP : c.y < c.P) {dt : ℝ} (hdt : dt ≠ 0)
    {fuel : ℕ} (hf : o.ndiv + o.dfact ^ o.ndiv < fuel) : ∃ net', net.solve o fuel dt = .raised net' := by
  have hW := size_pos hne fun e he => (hw.bars e he).area
  refine C200_raises (y := fun _ _ => c.y) ho hn hd (fun e he => ⟨(hw.bars e he).area.le, by
    rw [(hw.bars e he).mat]; exact hy⟩) hdt ![0, 1] (fun v hv => ?_) ?_ hf
  · fin_cases v
    · rfl
    · exact absurd hw.free hv
  · have e1 : capacity (fun _ _ => c.y) net (net.time.last + dt) ![0, 1] = c.y * size net.edges := by
      unfold capacity size
      rw [← map_mul']
      refine congrArg List.sum (List.map_congr_left fun e he => ?_)
      obtain ⟨h1, h2, -⟩ := (hw.bars e he).ends
      rw [h1, h2]
      simp
      ring
    rw [e1, Fin.sum_univ_two]
    unfold Net.applied
    rw [hw.pulled]
    simp only [Matrix.cons_val_zero, Matrix.cons_val_one, mul_zero, mul_one, zero_add]
    exact mul_lt_mul_of_pos_right hP hW

/-! ## The problem as a user sees it -/

/-- **C204.** A new problem of one material, with a constant hoop stress and temperatures that follow `φ`, is such a wall,
without stress. -/
theorem C204_new {rule : ℕ → List (ℝ × ℝ)} {rs : List ℝ} {mats : List (Mat1 H)} {ns : List ℕ} {T : ℝ → ℝ → ℝ}
    {p pext : ℝ → ℝ} {direct : Bool} {b : Problem H} (hr : Rule rule)
    (h : Problem.new rule rs mats ns T p pext direct = some b) (hm : ∀ m ∈ mats, m = mat) (hK : K mat.init)
    (hw : ∀ w ∈ b.weights, 0 < w) (hP : ∀ t, b.P t = c.P)
    (hT : ∀ x s, T x s = T x c.cold + c.φ s * (T x c.hot - T x c.cold)) :
    Wall c K mat b.net ∧ ∀ e ∈ b.net.edges, e.bar.stress.last = 0 := by
  have s := C135_setup_new hr h
  obtain ⟨-, -, -, -, -, -, -, -, -, hn, -⟩ := new_spec h
  have hsize : size b.net.edges = b.weights.sum := by unfold size; rw [s.areas]
  have hshape : ∀ e ∈ b.net.edges, ∃ x A, e = ⟨0, 1, Bar.new mat A 1 (T x)⟩ := by
    intro e he
    rw [hn] at he
    obtain ⟨q, hq, rfl⟩ := List.mem_map.1 (show e ∈ bars T b.points b.weights (materialsOf mats ns) from he)
    have := (List.of_mem_zip hq).2
    simp only [materialsOf, List.mem_flatMap] at this
    obtain ⟨z, hz, hzz⟩ := this
    rw [List.eq_of_mem_replicate hzz, hm _ (List.of_mem_zip hz).1]
    exact ⟨_, _, rfl⟩
  have h0 : b.net.time.last = 0 ∧ ∀ v, b.net.last v = 0 := by rw [hn]; exact ⟨rfl, fun _ => rfl⟩
  refine ⟨⟨s.held, s.free, ?_, fun e he => ?_⟩, fun e he => ?_⟩
  · rw [s.pulled, hsize]
    exact congrArg some (funext fun t => by rw [hP])
  · have hA : 0 < e.bar.A := hw _ (by rw [← s.areas]; exact List.mem_map_of_mem he)
    obtain ⟨x, A, rfl⟩ := hshape e he
    rw [h0.1, h0.2, h0.2]
    exact ⟨⟨rfl, rfl, rfl⟩, hA, rfl, hT x, rfl, by simp [Bar.new], by simp [Bar.new], hK⟩
  · obtain ⟨x, A, rfl⟩ := hshape e he
    rfl

theorem Course.append {o : Opts} {net net1 net2 : Net H 2} {x y : ℝ} (h1 : Course o c net x net1)
    (h2 : Course o c net1 y net2) : Course o c net (x + y) net2 := by
  induction h1 with
  | nil => rwa [zero_add]
  | cons hh ha _ ih => rw [add_assoc]; exact .cons hh ha (ih h2)

theorem steps_course {o : Opts} {net net1 : Net H 2} {hs : List ℝ} (h : Steps o net hs net1) (hp : ∀ x ∈ hs, 0 < x) :
    ∃ x, Course o c net x net1 := by
  induction h with
  | nil net => exact ⟨0, .nil net⟩
  | cons ha _ ih =>
    obtain ⟨x, hx⟩ := ih fun x hx => hp x (List.mem_cons_of_mem _ hx)
    exact ⟨_, .cons (hp _ (by simp)) ha hx⟩

/-- Calls of `step` that return, each to a later time, with the plastic strains between the records, without sign,
integrated through the wall and added up. -/
inductive History (o : Opts) (c : Case) : Problem H → ℝ → Problem H → Prop
  | nil (b) : History o c b 0 b
  | cons {b b1 b2 x} (fuel : ℕ) (t r a : ℝ) : b.times.last < t → b.step o fuel t r a = .ok b1 →
      History o c b1 x b2 → History o c b (c.spent b.net b1.net + x) b2

theorem history_course (hc : c.Ok K mat) {o : Opts} (ho : o.rtol = 0 ∧ o.atol = 0) (hd : 0 < o.dfact)
    {b b1 : Problem H} {x : ℝ} (hw : Wall c K mat b.net) (hx : History o c b x b1) :
    ∃ y, x ≤ y ∧ Course o c b.net y b1.net := by
  induction hx with
  | nil b => exact ⟨0, le_refl _, .nil _⟩
  | @cons b b1 b2 x fuel t r a hlt hs _ ih =>
    obtain ⟨-, net, hn, rfl⟩ := step_ok hs
    obtain ⟨hl, h1, -, h3⟩ := C69_solve o hd b.net net fuel _ hn
    obtain ⟨y1, hy1⟩ := steps_course (c := c) h1 fun z hz => by
      obtain ⟨m, hm⟩ := h3 z hz
      have hp : (0 : ℝ) < (o.dfact : ℝ) ^ m := pow_pos (by exact_mod_cast hd) _
      by_contra hneg
      have := mul_nonpos_of_nonpos_of_nonneg (not_lt.1 hneg) hp.le
      linarith
    obtain ⟨y2, h4, hy2⟩ := ih (hy1.keeps hc ho hw).1
    exact ⟨y1 + y2, add_le_add (hy1.spent_le hc ho hw) h4, hy1.append hy2⟩

/-- **C204, inside.** A new problem inside the diagram: after whatever number of calls of `step` and of cycles, the plastic
strains have added up to no more than this. -/
theorem C204_bree {rule : ℕ → List (ℝ × ℝ)} {rs : List ℝ} {mats : List (Mat1 H)} {ns : List ℕ} {T : ℝ → ℝ → ℝ}
    {p pext : ℝ → ℝ} {direct : Bool} {b b1 : Problem H} (hr : Rule rule) (hc : c.Ok K mat) {o : Opts}
    (ho : o.rtol = 0 ∧ o.atol = 0) (hd : 0 < o.dfact)
    (h : Problem.new rule rs mats ns T p pext direct = some b) (hm : ∀ m ∈ mats, m = mat) (hK : K mat.init)
    (hw : ∀ w ∈ b.weights, 0 < w) (hP : ∀ t, b.P t = c.P)
    (hT : ∀ x s, T x s = T x c.cold + c.φ s * (T x c.hot - T x c.cold)) {μ : ℝ} (hμ : 0 < μ)
    (hin : c.Inside b.net.edges μ) {x : ℝ} (hx : History o c b x b1) :
    x ≤ b.weights.sum * (c.y - μ) ^ 2 / (2 * c.E * μ) := by
  obtain ⟨h1, h2⟩ := C204_new hr h hm hK hw hP hT
  obtain ⟨y, h3, h4⟩ := history_course hc ho hd h1 hx
  have := C204_shakedown hc ho h1 h2 hμ hin h4
  have hsize : size b.net.edges = b.weights.sum := by
    unfold size; rw [(C135_setup_new hr h).areas]
  rw [hsize] at this
  linarith

/-- **C204, outside.** A step of a problem from a record at a cold state to one at a hot state or back leaves a plastic
strain of more than `δ` somewhere in the wall. -/
theorem C204_bree_outside (hc : c.Ok K mat) (hy : Yields mat fun _ => c.y) {o : Opts} (ho : o.rtol = 0 ∧ o.atol = 0)
    (hd : 0 < o.dfact) {b b1 : Problem H} (hw : Wall c K mat b.net) (hb : Carries c b.net) {δ : ℝ}
    (hout : c.Outside b.net.edges δ) {x : ℝ} (hx : History o c b x b1)
    (hφ : |c.φ b1.net.time.last - c.φ b.net.time.last| = 1) :
    ∃ e e', (e, e') ∈ b.net.edges.zip b1.net.edges ∧ δ < |c.flow e e'| := by
  obtain ⟨y, -, h4⟩ := history_course hc ho hd hw hx
  obtain ⟨h5, h6, h7⟩ := h4.keeps hc ho hw
  exact C204_passage hc.modulus hw h5 h6 hb (h7 hy hb) hφ hout

end

/-! ## Materials -/

/-- **C204.** Bars of perfect J2 plasticity: the material of the diagram. -/
theorem C204_material {G Kb eps y : ℝ} {el : SmallStrain.Elastic ℝ (Fin 6)} (he : 0 < eps) (hG : 0 < G) (hB : 0 < Kb)
    (hC : ∀ T, el.C T = Elastic.isoC G Kb) (hS : ∀ T, el.S T = Elastic.isoS G Kb) (hs : eps ≤ √(2 / 3) * y)
    (m : Model3 (Unit → ℝ)) (hm : ∀ i o, m.update i = some o →
      SolveStep.Returns el eps (Flow.linearIso (fun _ => y) 0) (start i) i.e1 i.T1 o.s (o.h ()))
    (miter : Nat) (es : ℝ → ℝ → Store (Unit → ℝ) → ℝ) :
    Flows (wrapped m miter es) (fun h => 0 ≤ h.2 ()) (9 * Kb * G / (3 * Kb + G)) (fun _ => y) ∧
      Yields (wrapped m miter es) fun _ => y :=
  ⟨C201_plastic_bar he hG hB (fun _ => le_refl _) hC hS (fun _ => hs) m hm miter es,
    C200_bar he hG hC (fun _ => hs) m hm miter es⟩

/-! ## A concrete case -/

/-- Heated and cooled once in two units of time. -/
noncomputable def swing (t : ℝ) : ℝ := (1 - Real.cos (Real.pi * t)) / 2

theorem swing_zero : swing 0 = 0 := by simp [swing]

theorem swing_one : swing 1 = 1 := by simp [swing]

/-- Modulus 2, expansion 1, yield stress 1, no hoop stress. -/
noncomputable def secondary : Case := ⟨2, 1, 1, 0, swing, 0, 1⟩

/-- A wall of two layers, one cooled by `d` and the other one heated by `d`. -/
noncomputable def twoLayers (d : ℝ) : Net Unit 2 :=
  network (fun x t => swing t * x) (fun _ => 0) [-d, d] [1, 1] [clamp, clamp]

theorem twoLayers_edges (d : ℝ) : (twoLayers d).edges = [⟨0, 1, Bar.new clamp 1 1 fun t => swing t * -d⟩,
    ⟨0, 1, Bar.new clamp 1 1 fun t => swing t * d⟩] := rfl

theorem secondary_ok : secondary.Ok (fun _ => True) clamp := by
  refine ⟨by norm_num [secondary], fun t => ?_, fun _ => rfl, clamp_flows⟩
  have h1 := Real.neg_one_le_cos (Real.pi * t)
  have h2 := Real.cos_le_one (Real.pi * t)
  show 0 ≤ swing t ∧ swing t ≤ 1
  unfold swing
  constructor <;> linarith

theorem clamp_yields : Yields clamp fun _ => secondary.y := by
  intro i o h
  obtain rfl := Option.some.inj h
  show |max (-1) (min 1 _)| ≤ 1
  rw [abs_le]
  exact ⟨le_max_left _ _, max_le (by norm_num) (min_le_left _ _)⟩

theorem secondary_rise (x : ℝ) : secondary.rise (fun t => swing t * x) = x := by
  show swing 1 * x - swing 0 * x = x
  rw [swing_zero, swing_one]; ring

theorem twoLayers_wall (d : ℝ) : Wall secondary (fun _ => True) clamp (twoLayers d) := by
  refine ⟨by simp [twoLayers, network, Net.addForce, Net.addDisp], by simp [twoLayers, network, Net.addForce], ?_, ?_⟩
  · simp [twoLayers, network, Net.addForce, secondary]
  · have hx : ∀ x, Slice secondary (fun _ => True) clamp 0 (0 - 0) (⟨0, 1, Bar.new clamp 1 1 fun t => swing t * x⟩ :
        Edge Unit 2) := fun x => by
      refine ⟨⟨rfl, rfl, rfl⟩, one_pos, rfl, fun s => ?_, rfl, by simp [Bar.new], by simp [Bar.new], trivial⟩
      show swing s * x = swing 0 * x + swing s * secondary.rise fun t => swing t * x
      rw [secondary_rise, swing_zero]; ring
    intro e he
    rw [twoLayers_edges] at he
    simp only [List.mem_cons, List.not_mem_nil, or_false] at he
    rcases he with rfl | rfl
    · exact hx _
    · exact hx _

theorem twoLayers_q (d x : ℝ) : secondary.q (twoLayers d).edges (fun t => swing t * x) = -(2 * x) := by
  have hm : secondary.mean (twoLayers d).edges = 0 := by
    unfold Case.mean
    rw [twoLayers_edges]
    simp only [List.map_cons, List.map_nil, List.sum_cons, List.sum_nil, Bar.new, secondary_rise]
    simp
  unfold Case.q
  rw [hm, secondary_rise]
  show 2 * 1 * (0 - x) = _
  ring

theorem twoLayers_carries (d : ℝ) : Carries secondary (twoLayers d) := by
  refine ⟨?_, fun e he => ?_⟩
  · unfold InBalance
    rw [twoLayers_edges]
    simp [Bar.new, secondary]
  · rw [twoLayers_edges] at he
    simp only [List.mem_cons, List.not_mem_nil, or_false] at he
    rcases he with rfl | rfl <;> simp [Bar.new, secondary]

/-- With a temperature difference of 3/4 the wall is inside the diagram. -/
theorem twoLayers_inside : secondary.Inside (twoLayers (3 / 4)).edges (1 / 4) := by
  refine ⟨le_refl _, ?_, fun e he => ?_⟩
  · have e1 : ((twoLayers (3 / 4)).edges.map fun e => e.bar.A * max (secondary.q (twoLayers (3 / 4)).edges e.bar.T) 0) =
        [1 * max (-(2 * -(3 / 4))) 0, 1 * max (-(2 * (3 / 4))) 0] := by
      rw [← twoLayers_q (3 / 4) (-(3 / 4)), ← twoLayers_q (3 / 4) (3 / 4)]
      rfl
    rw [e1, twoLayers_edges]
    simp [size, Bar.new, secondary]
    norm_num
  · rw [twoLayers_edges] at he
    simp only [List.mem_cons, List.not_mem_nil, or_false] at he
    rcases he with rfl | rfl
    · rw [show (Bar.new clamp 1 1 fun t => swing t * -(3 / 4)).T = fun t => swing t * -(3 / 4) from rfl, twoLayers_q,
        show secondary.y = 1 from rfl]
      norm_num [abs_le]
    · rw [show (Bar.new clamp 1 1 fun t => swing t * (3 / 4)).T = fun t => swing t * (3 / 4) from rfl, twoLayers_q,
        show secondary.y = 1 from rfl]
      norm_num [abs_le]

/-- With one of 5/4 it is outside. -/
theorem twoLayers_outside : secondary.Outside (twoLayers (5 / 4)).edges (1 / 10) := by
  right
  refine ⟨_, by rw [twoLayers_edges]; exact List.mem_cons_self, ?_⟩
  rw [show (Bar.new clamp 1 1 fun t => swing t * -(5 / 4)).T = fun t => swing t * -(5 / 4) from rfl, twoLayers_q,
    show secondary.y = 1 from rfl, show secondary.E = 2 from rfl]
  norm_num

/-- Heating such a wall is an accepted step. -/
theorem twoLayers_heats (d : ℝ) : ∃ net1, Accepted ⟨4, 2, false, 0, 0, 50⟩ (twoLayers d) 1 net1 := by
  set net := twoLayers d with hnet
  have hv1 : net.value (net.guess false 1) (net.time.last + 1) 1 = 0 := by
    have hmem : (1 : Fin 2) ∈ net.free := (mem_free net 1).2 (by simp [hnet, twoLayers, network, Net.addForce])
    obtain ⟨k, hk⟩ := List.mem_iff_get.1 hmem
    rw [← hk, value_free]
    rfl
  have hv0 : net.value (net.guess false 1) (net.time.last + 1) 0 = 0 :=
    value_fixed net _ _ 0 (fun _ => 0) (twoLayers_wall d).held
  have hfree : ∀ k : Fin net.free.length, net.free.get k = 1 := fun k => by
    have := free_get net k
    generalize net.free.get k = v at this
    fin_cases v
    · have h0 := (twoLayers_wall d).held
      exact absurd (h0.symm.trans this) (by simp)
    · rfl
  have htr : ∀ x, ∃ b, trial (⟨0, 1, Bar.new clamp 1 1 fun t => swing t * x⟩ : Edge Unit 2)
      (net.value (net.guess false 1) (net.time.last + 1)) (net.time.last + 1) net.time.last =
        some (max (-1) (min 1 (-(2 * x))), 0, b) := by
    intro x
    have ht : net.time.last + 1 = 1 := zero_add 1
    simp only [trial, Bar.updateForce, Bar.new, clamp, hv0, hv1, one_ne_zero, if_false, Option.map_some]
    refine ⟨_, congrArg some (Prod.ext ?_ (Prod.ext ?_ rfl))⟩
    · simp only [ht, swing_zero, swing_one]
      ring_nf
    · simp
  have hr := rj_of net 1 net.edges (net.guess false 1) (fun e => (trial e
    (net.value (net.guess false 1) (net.time.last + 1)) (net.time.last + 1) net.time.last).getD (0, 0, e.bar))
    fun e he => by
      rw [hnet, twoLayers_edges] at he
      simp only [List.mem_cons, List.not_mem_nil, or_false] at he
      rcases he with rfl | rfl
      · obtain ⟨b, hb⟩ := htr (-d)
        rw [hb]; rfl
      · obtain ⟨b, hb⟩ := htr d
        rw [hb]; rfl
  have h0 : (fun k => (net.edges.map fun e => inc e (net.free.get k) * ((trial e
      (net.value (net.guess false 1) (net.time.last + 1)) (net.time.last + 1) net.time.last).getD (0, 0, e.bar)).1).sum -
      net.applied (net.time.last + 1) (net.free.get k)) = 0 := by
    funext k
    rw [hfree]
    obtain ⟨b1, hb1⟩ := htr (-d)
    obtain ⟨b2, hb2⟩ := htr d
    have hap : net.applied (net.time.last + 1) 1 = 0 := by
      unfold Net.applied
      rw [(twoLayers_wall d).pulled]
      simp [secondary]
    have hcl : max (-1) (min 1 (2 * d)) = -max (-1) (min 1 (-(2 * d))) := by
      rcases le_total (2 * d) 1 with h1 | h1 <;> rcases le_total (-1) (2 * d) with h2 | h2
      · rw [min_eq_right h1, max_eq_right h2, min_eq_right (by linarith), max_eq_right (by linarith)]; ring
      · rw [min_eq_right h1, max_eq_left h2, min_eq_left (by linarith), max_eq_right (by norm_num)]
      · rw [min_eq_left h1, max_eq_right (by norm_num), min_eq_right (by linarith), max_eq_left (by linarith)]; ring
      · linarith
    rw [hap, show net.edges = _ from twoLayers_edges d]
    simp only [List.map_cons, List.map_nil, List.sum_cons, List.sum_nil]
    rw [hb1, hb2]
    simp only [Option.getD_some, mul_neg, neg_neg, hcl, Pi.zero_apply]
    simp [inc]
  rw [h0] at hr
  have hn : ∃ x es, PySolve.newton (net.rj 1) 0 0 50 net.edges (net.guess false 1) = some (x, es) := by
    unfold PySolve.newton PySolve.solve
    simp only [PySolve.plain, hr]
    rw [PySolve.loop]
    exact ⟨_, _, if_pos ((PySolve.done_iff _ _ _ _).2 (Or.inr (le_of_eq (PySolve.norm2_eq_zero.2 rfl))))⟩
  obtain ⟨x, es, hx⟩ := hn
  exact ⟨net.apply es x 1, 1, x, es, hx, rfl⟩

/-- Inside: heating leaves plastic strains, and whatever follows, they add up to no more than 9/8. Outside: heating leaves
more than 1/10, and so does each further passage. -/
example : (∃ x net1, Course ⟨4, 2, false, 0, 0, 50⟩ secondary (twoLayers (3 / 4)) x net1 ∧
      ∀ y net2, Course ⟨4, 2, false, 0, 0, 50⟩ secondary (twoLayers (3 / 4)) y net2 → y ≤ 9 / 8) ∧
    (∃ x net1, Passages ⟨4, 2, false, 0, 0, 50⟩ secondary (twoLayers (5 / 4)) 1 x net1) ∧
    ∀ n x net1, Passages ⟨4, 2, false, 0, 0, 50⟩ secondary (twoLayers (5 / 4)) n x net1 → n * (1 * (1 / 10)) ≤ x := by
  obtain ⟨net1, h1⟩ := twoLayers_heats (3 / 4)
  obtain ⟨net2, h2⟩ := twoLayers_heats (5 / 4)
  refine ⟨⟨_, net1, .cons one_pos h1 (.nil _), fun y net2 hy => ?_⟩, ⟨_, net2, .cons (.cons one_pos h2 (.nil _)) ?_
    (.nil _)⟩, fun n x net1 hx => ?_⟩
  · refine (C204_shakedown secondary_ok ⟨rfl, rfl⟩ (twoLayers_wall _) (fun e he => ?_) (by norm_num) twoLayers_inside
      hy).trans (le_of_eq ?_)
    · rw [twoLayers_edges] at he
      simp only [List.mem_cons, List.not_mem_nil, or_false] at he
      rcases he with rfl | rfl <;> rfl
    · rw [twoLayers_edges]
      simp only [size, List.map_cons, List.map_nil, List.sum_cons, List.sum_nil, Bar.new, secondary]
      norm_num
  · obtain ⟨-, -, -, -, -, ht, -⟩ := C69_step _ _ _ _ h2
    rw [ht]
    show |swing (0 + 1) - swing 0| = 1
    rw [zero_add, swing_zero, swing_one]
    norm_num
  · refine C204_never secondary_ok clamp_yields ⟨rfl, rfl⟩ (twoLayers_wall _) (twoLayers_carries _) (by norm_num)
      (fun e he => ?_) twoLayers_outside hx
    rw [twoLayers_edges] at he
    simp only [List.mem_cons, List.not_mem_nil, or_false] at he
    rcases he with rfl | rfl <;> exact le_refl _

end Neml.Bree
