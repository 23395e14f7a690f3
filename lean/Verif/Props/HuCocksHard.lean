import Verif.Props.HuCocksSlip

/-!
# C147: the combined dislocation and precipitation hardening

Specifications: `Hard.TauRight`, `Hard.RateRight`.
-/

namespace Neml.HuCocks

open Filter Topology Matrix
open Neml.Damage (Moves)
open Neml.Slip

variable {N : Type} [DecidableEq N] [Fintype N]

/-- All variables have different names. -/
def Named (d : Hard N) (ps : List (Phase N)) : Prop :=
  (ps.flatMap fun q => (List.finRange 3).map q.name).Nodup ∧ ∀ q ∈ ps, ∀ k, d.own (q.name k) = false

theorem index_some {q : Phase N} (hq : ((List.finRange 3).map q.name).Nodup) {a : N} {k : Fin 3} :
    q.index a = some k ↔ q.name k = a := by
  have hinj : Function.Injective q.name := List.nodup_ofFn.mp (by rwa [List.ofFn_eq_map])
  constructor
  · intro h
    simpa using List.find?_some h
  · rintro rfl
    rw [Phase.index]
    cases h : (List.finRange 3).find? fun l => q.name l = q.name k with
    | none => exact absurd (List.find?_eq_none.mp h k (List.mem_finRange k)) (by simp)
    | some l => exact congrArg some (hinj (by simpa using List.find?_some h))

theorem index_none {q : Phase N} {a : N} : q.index a = none ↔ ∀ k, q.name k ≠ a := by
  rw [Phase.index, List.find?_eq_none]
  simp

theorem find_cons (q : Phase N) (ps : List (Phase N)) (a : N) :
    find (q :: ps) a = match q.index a with
      | some k => some (q, k)
      | none => find ps a := by
  rw [find, List.findSome?_cons]
  cases q.index a <;> rfl

theorem find_mem {ps : List (Phase N)} {a : N} {q : Phase N} {k : Fin 3} (h : find ps a = some (q, k)) :
    q ∈ ps ∧ q.name k = a := by
  obtain ⟨p, hp, e⟩ := List.exists_of_findSome?_eq_some h
  cases hi : p.index a with
  | none => rw [hi] at e; exact absurd e (by simp)
  | some l =>
    rw [hi] at e
    simp only [Option.map_some, Option.some.injEq, Prod.mk.injEq] at e
    obtain ⟨rfl, rfl⟩ := e
    exact ⟨hp, by simpa using List.find?_some hi⟩

theorem find_none {ps : List (Phase N)} {a : N} (h : ∀ q ∈ ps, ∀ k, q.name k ≠ a) : find ps a = none := by
  rw [find, List.findSome?_eq_none_iff]
  intro q hq
  rw [index_none.mpr (h q hq)]
  rfl

theorem nodup_of_mem {ps : List (Phase N)} (h : (ps.flatMap fun q => (List.finRange 3).map q.name).Nodup) {q : Phase N}
    (hq : q ∈ ps) : ((List.finRange 3).map q.name).Nodup := (List.nodup_flatMap.mp h).1 q hq

/-- A vector with entries for the variables of precipitation models and for those of another model. -/
def joined (ps : List (Phase N)) (X : Phase N → Fin 3 → ℝ) (D : N → ℝ) : N → ℝ := fun a =>
  match find ps a with
  | some (q, k) => X q k
  | none => D a

theorem joined_dot {ps : List (Phase N)} (hn : (ps.flatMap fun q => (List.finRange 3).map q.name).Nodup)
    (X : Phase N → Fin 3 → ℝ) (D v : N → ℝ) (hD : ∀ q ∈ ps, ∀ k, D (q.name k) = 0) :
    joined ps X D ⬝ᵥ v = (ps.map fun q => ∑ k, X q k * v (q.name k)).sum + D ⬝ᵥ v := by
  induction ps with
  | nil => rw [List.map_nil, List.sum_nil, zero_add]; rfl
  | cons q ps ih =>
    have hn' := hn
    rw [List.flatMap_cons, List.nodup_append] at hn
    obtain ⟨h1, h2, h3⟩ := hn
    have ihh := ih h2 fun p hp => hD p (List.mem_cons_of_mem _ hp)
    have hsplit : joined (q :: ps) X D = (∑ k, Pi.single (q.name k) (X q k)) + joined ps X D := by
      funext a
      rw [joined, find_cons, Pi.add_apply, Finset.sum_apply]
      cases hi : q.index a with
      | none =>
        have := index_none.mp hi
        rw [Finset.sum_eq_zero fun k _ => Pi.single_eq_of_ne (this k).symm _, zero_add]
        rfl
      | some k =>
        have ha := (index_some h1).mp hi
        have hf : find ps a = none := by
          refine find_none fun p hp l e => ?_
          refine h3 (q.name k) (List.mem_map_of_mem (List.mem_finRange k)) (p.name l) ?_ (ha.trans e.symm)
          exact List.mem_flatMap.mpr ⟨p, hp, List.mem_map_of_mem (List.mem_finRange l)⟩
        rw [Finset.sum_eq_single k]
        · rw [joined, hf]
          have := hD q List.mem_cons_self k
          rw [ha] at this
          simp [ha, this]
        · intro l _ hl
          refine Pi.single_eq_of_ne (fun e => hl ?_) _
          have := (index_some h1).mpr e.symm
          rw [hi] at this
          exact (Option.some.inj this).symm
        · simp
    rw [hsplit, add_dotProduct, ihh, List.map_cons, List.sum_cons, add_assoc, sum_dotProduct]
    congr 1
    refine Finset.sum_congr rfl fun k _ => ?_
    rw [single_dotProduct]

theorem finRange_sum {n : Nat} (x : Fin n → ℝ) : ((List.finRange n).map x).sum = ∑ i, x i := by
  rw [← List.ofFn_eq_map, List.sum_ofFn]

theorem solute_eq (ps : List (Phase N)) (h : N → ℝ) :
    solute ps h = (ps.map fun q => ∑ i, q.chem.c (h (q.name 0) * q.chem.fs) i / q.chem.vm).sum := by
  simp only [solute, foldl_add, finRange_sum, zero_add]

theorem areal_eq (ps : List (Phase N)) (h : N → ℝ) :
    areal ps h = (ps.map fun q => 2 * (h (q.name 1) * q.chem.rs) * (h (q.name 2) * q.chem.Ns)).sum := by
  simp only [areal, foldl_add, zero_add]

/-- States at which the combined strength is smooth: some precipitate, some strength, some solute, and no phase filling
the volume. -/
structure Smooth (d : Hard N) (ps : List (Phase N)) (ap G b : ℝ) (g i : Nat) (h : N → ℝ) : Prop where
  areal : 0 < areal ps h
  strength : d.tau g i h ≠ 0 ∨ ap * G * b ≠ 0
  solute : 0 < solute ps h * b
  matrix : ∀ q ∈ ps, h (q.name 0) * q.chem.fs ≠ 1

/-- C147: the combined strength has the reported derivative by every variable of the dislocation and precipitation
models. -/
theorem C147_strength (junk : ℝ) {d : Hard N} {ps : List (Phase N)} {ap ac b G : ℝ} {g i : Nat} {h : N → ℝ}
    (hn : Named d ps) (hd : d.TauRight g i h) (hs : Smooth d ps ap G b g i h) :
    (hardening junk d ps ap ac b G).TauRight g i h := by
  constructor
  · intro y y' t0 hy ey
    have dd := hd.1 y y' t0 hy ey
    have da : HasDerivAt (fun t => areal ps (y t)) (ps.map fun q =>
        2 * (y' (q.name 1) * q.chem.rs) * (h (q.name 2) * q.chem.Ns) +
        2 * (h (q.name 1) * q.chem.rs) * (y' (q.name 2) * q.chem.Ns)).sum t0 := by
      simp only [areal_eq]
      refine list_deriv ps _ _ t0 fun q _ => ?_
      refine ((((hy (q.name 1)).mul_const q.chem.rs).const_mul 2).fun_mul
        ((hy (q.name 2)).mul_const q.chem.Ns)).congr_deriv ?_
      rw [ey]
    have ds : HasDerivAt (fun t => solute ps (y t)) (ps.map fun q =>
        ∑ i, q.chem.dc (h (q.name 0) * q.chem.fs) i * (y' (q.name 0) * q.chem.fs) / q.chem.vm).sum t0 := by
      simp only [solute_eq]
      refine list_deriv ps _ _ t0 fun q hq => ?_
      refine HasDerivAt.fun_sum fun i _ => ?_
      have := c_deriv (p := q.chem) ((hy (q.name 0)).mul_const q.chem.fs) (by rw [ey]; exact hs.matrix q hq) i
      rw [ey] at this
      exact this.div_const _
    have hA := hs.areal
    have hsb := hs.solute
    set A := areal ps h with hAdef
    have hA0 : areal ps (y t0) = A := by rw [ey]
    have hC0 : solute ps (y t0) = solute ps h := by rw [ey]
    have hT0 : d.tau g i (y t0) = d.tau g i h := by rw [ey]
    set T := d.tau g i h
    have hpos : 0 < T * T + ap * G * b * √A * (ap * G * b * √A) := by
      have h1 : 0 < √A := Real.sqrt_pos.mpr hA
      rcases hs.strength with e | e
      · have := mul_self_pos.mpr e
        have := mul_self_nonneg (ap * G * b * √A)
        linarith
      · have := mul_self_pos.mpr (mul_ne_zero e h1.ne')
        have := mul_self_nonneg T
        linarith
    have dp := (da.sqrt (by rw [hA0]; exact hA.ne')).const_mul (ap * G * b)
    have dq := ((dd.fun_mul dd).fun_add (dp.fun_mul dp)).sqrt (by rw [hT0, hA0]; exact hpos.ne')
    have dc := ((ds.mul_const b).sqrt (by rw [hC0]; exact hsb.ne')).const_mul (ac * G * b)
    refine (dq.fun_add dc).congr_deriv ?_
    rw [hT0, hA0, hC0]
    have hj : (hardening junk d ps ap ac b G).dtau g i h = joined ps (fun q => ![
        (List.finRange q.chem.ns).foldl (fun r j => r + ac * G * b * b / (2 * √(solute ps h * b)) *
          q.chem.dc (h (q.name 0) * q.chem.fs) j / q.chem.vm * q.chem.fs) 0,
        ap * G * b * √A / √(ap * G * b * √A * (ap * G * b * √A) + T * T) * ap * G * b *
          (h (q.name 2) * q.chem.Ns) / √A * q.chem.rs,
        ap * G * b * √A / √(ap * G * b * √A * (ap * G * b * √A) + T * T) * ap * G * b *
          (h (q.name 1) * q.chem.rs) / √A * q.chem.Ns])
        ((T / √(ap * G * b * √A * (ap * G * b * √A) + T * T)) • d.dtau g i h) := rfl
    rw [hj, joined_dot hn.1 _ _ _ (fun q hq k => by
      rw [Pi.smul_apply, hd.2 _ (hn.2 q hq k), smul_zero]), smul_dotProduct, smul_eq_mul,
      add_comm (ap * G * b * √A * (ap * G * b * √A))]
    generalize hR : √(T * T + ap * G * b * √A * (ap * G * b * √A)) = R
    have hR0 : R ≠ 0 := by rw [← hR]; exact (Real.sqrt_pos.mpr hpos).ne'
    generalize hS : √(solute ps h * b) = S
    have hS0 : S ≠ 0 := by rw [← hS]; exact (Real.sqrt_pos.mpr hsb).ne'
    generalize hB : √A = B
    have hB0 : B ≠ 0 := by rw [← hB]; exact (Real.sqrt_pos.mpr hA).ne'
    have e1 : (ps.map fun q => ∑ k, (![
        (List.finRange q.chem.ns).foldl (fun r j => r + ac * G * b * b / (2 * S) *
          q.chem.dc (h (q.name 0) * q.chem.fs) j / q.chem.vm * q.chem.fs) 0,
        ap * G * b * B / R * ap * G * b * (h (q.name 2) * q.chem.Ns) / B * q.chem.rs,
        ap * G * b * B / R * ap * G * b * (h (q.name 1) * q.chem.rs) / B * q.chem.Ns] : Fin 3 → ℝ) k * y' (q.name k)).sum =
        ac * G * b * b / (2 * S) * (ps.map fun q =>
        ∑ i, q.chem.dc (h (q.name 0) * q.chem.fs) i * (y' (q.name 0) * q.chem.fs) / q.chem.vm).sum +
        ap * G * b * ap * G * b / (2 * R) * (ps.map fun q =>
        2 * (y' (q.name 1) * q.chem.rs) * (h (q.name 2) * q.chem.Ns) +
        2 * (h (q.name 1) * q.chem.rs) * (y' (q.name 2) * q.chem.Ns)).sum := by
      rw [← List.sum_map_mul_left, ← List.sum_map_mul_left, ← List.sum_map_add]
      congr 1
      refine List.map_congr_left fun q _ => ?_
      rw [Fin.sum_univ_three]
      simp only [Matrix.cons_val_zero, Matrix.cons_val_one, Matrix.cons_val, foldl_add, finRange_sum, zero_add]
      rw [Finset.sum_mul, Finset.mul_sum, add_assoc]
      congr 1
      · refine Finset.sum_congr rfl fun j _ => ?_
        ring
      · field_simp
    rw [e1]
    generalize (ps.map fun q =>
        ∑ i, q.chem.dc (h (q.name 0) * q.chem.fs) i * (y' (q.name 0) * q.chem.fs) / q.chem.vm).sum = X1
    generalize (ps.map fun q => 2 * (y' (q.name 1) * q.chem.rs) * (h (q.name 2) * q.chem.Ns) +
        2 * (h (q.name 1) * q.chem.rs) * (y' (q.name 2) * q.chem.Ns)).sum = X2
    field_simp
    ring
  · intro a ha
    have h1 : d.own a = false := by
      cases e : d.own a with
      | false => rfl
      | true => simp [hardening, e] at ha
    have h2 : find ps a = none := by
      cases e : find ps a with
      | none => rfl
      | some q => simp [hardening, e] at ha
    simp only [hardening, h2, hd.2 a h1, mul_zero]

/-- C147: all rates have the reported derivatives, provided those of the parts have and the dislocation model reports
derivatives by every variable, as `spacing` does (`spacing_covers`). -/
theorem C147_rate (junk : ℝ) {c : Crys} {d : Hard N} {ps : List (Phase N)} {ap ac b G : ℝ} {h : N → ℝ}
    {R : Nat → Nat → ℝ} {dS : Nat → Nat → Fin 6 → ℝ} {dH : Nat → Nat → N → ℝ}
    (hn : Named d ps) (hd : d.RateRight c R dS dH h) (hc : Hard.Covers d R dH h)
    (hq : ∀ q ∈ ps, q.chem.JacRight junk (q.hist h)) : (hardening junk d ps ap ac b G).RateRight c R dS dH h := by
  intro Rt x' y y' t0 hy ey hR hdR a ha
  cases hf : find ps a with
  | some qk =>
    obtain ⟨q, k⟩ := qk
    obtain ⟨hm, rfl⟩ := find_mem hf
    have h1 := nodup_of_mem hn.1 hm
    have hj := hq q hm (fun t => q.hist (y t)) (q.hist y') t0 (fun l => hy (q.name l)) (by rw [ey]) k
    have e1 : (fun t => (hardening junk d ps ap ac b G).rate (Rt t) (y t) (q.name k)) = fun t =>
        q.chem.rates (q.hist (y t)) k := by
      funext t
      simp only [hardening, hf]
    have e2 : (hardening junk d ps ap ac b G).rateS R dS h (q.name k) = 0 := by
      simp only [hardening, hf]
    have e3 : (fun b' => if (hardening junk d ps ap ac b G).own b' then
        (hardening junk d ps ap ac b G).rateH R dH h (q.name k) b'
        else (hardening junk d ps ap ac b G).rateX R dH h (q.name k) b') =
        joined [q] (fun _ => q.chem.jac junk (q.hist h) k) 0 := by
      funext b'
      rw [joined, find_cons]
      cases hi : q.index b' with
      | none =>
        have e : find ([] : List (Phase N)) b' = none := rfl
        simp only [hardening, hf, hi, e, ite_self, Pi.zero_apply]
      | some l =>
        have hb := (index_some h1).mp hi
        have ho : (hardening junk d ps ap ac b G).own b' = true := by
          cases e : find ps b' with
          | none =>
            rw [find, List.findSome?_eq_none_iff] at e
            have := e q hm
            rw [hi] at this
            exact absurd this (by simp)
          | some _ => simp [hardening, e]
        rw [if_pos ho]
        simp only [hardening, hf, hi]
    rw [e1, e2, e3, zero_dotProduct, zero_add, joined_dot (by simpa using h1) _ _ _ (by simp)]
    simpa [dotProduct, Phase.hist] using hj
  | none =>
    have ho : d.own a = true := by simpa [hardening, hf] using ha
    have e4 : (fun b' => if (hardening junk d ps ap ac b G).own b' then
        (hardening junk d ps ap ac b G).rateH R dH h a b'
        else (hardening junk d ps ap ac b G).rateX R dH h a b') =
        fun b' => if d.own b' then d.rateH R dH h a b' else d.rateX R dH h a b' := by
      funext b'
      simp only [hardening, hf]
      cases e : d.own b' with
      | true => simp
      | false => simp [hc a b' ho e]
    rw [e4]
    have := hd Rt x' y y' t0 hy ey hR hdR a ho
    simpa only [hardening, hf] using this

/-- C147: the whole crystal rule, Arrhenius slip over spacings and precipitates. While every system carries some stress
below its strength, all slip rates and history rates have the reported derivatives. -/
theorem C147_rule (junk : ℝ) {c : Crys} {vars : Nat → N} {ps : List (Phase N)} {J1 J2 K L0 a ap ac b G g0 A B F : ℝ}
    (s : Fin 6 → ℝ) (h : N → ℝ) (hv : Distinct c.ntotal vars)
    (hn : Named (spacing c vars J1 J2 K L0 a G b) ps)
    (hall : ∀ x : N, (∃ i < c.ntotal, x = vars i) ∨ ∃ q ∈ ps, ∃ k, x = q.name k)
    (hpos : ∀ i < c.ntotal, h (vars i) ≠ 0) (h0 : 0 < g0) (hA : 0 < A) (hB : 0 ≤ B) (hF : 0 ≤ F)
    (hsm : ∀ g < c.ngroup, Smooth (spacing c vars J1 J2 K L0 a G b) ps ap G b g 0 h)
    (hsys : ∀ p ∈ c.systems, c.shear p.1 p.2 s ≠ 0 ∧ c.flat p.1 0 < c.ntotal ∧
      |c.shear p.1 p.2 s| < (hardening junk (spacing c vars J1 J2 K L0 a G b) ps ap ac b G).tau p.1 0 h)
    (htw : ∀ p ∈ c.systems, c.twin p.1 = true → 0 < c.shear p.1 p.2 s)
    (hq : ∀ q ∈ ps, q.chem.JacRight junk (q.hist h))
    (x : ℝ → Fin 6 → ℝ) (x' : Fin 6 → ℝ) (y : ℝ → N → ℝ) (y' : N → ℝ) (t0 : ℝ) (hx : Moves x x' t0)
    (hy : Moves y y' t0) (ex : x t0 = s) (ey : y t0 = h) :
    let r := arrhenius (hardening junk (spacing c vars J1 J2 K L0 a G b) ps ap ac b G) g0 A B F
    (∀ p ∈ c.systems, HasDerivAt (fun t => r.slip c (x t) (y t) p.1 p.2)
      (r.slipS c s h p.1 p.2 ⬝ᵥ x' + r.slipH c s h p.1 p.2 ⬝ᵥ y') t0) ∧
    ∀ o, HasDerivAt (fun t => r.rate c (x t) (y t) o) (r.rateS c s h o ⬝ᵥ x' + r.rateH c s h o ⬝ᵥ y') t0 := by
  intro r
  have hp : r.Partition := by
    refine fun o => ⟨0, ?_, fun k _ => Subsingleton.elim _ _⟩
    rcases hall o with ⟨i, hi, rfl⟩ | ⟨q, hqm, k, rfl⟩
    · have : (spacing c vars J1 J2 K L0 a G b).own (vars i) = true := own_iff.mpr ⟨i, hi, rfl⟩
      simp only [r, arrhenius, hardening, this, Bool.true_or]
    · have : (find ps (q.name k)).isSome = true := by
        cases e : find ps (q.name k) with
        | some _ => rfl
        | none =>
          rw [find, List.findSome?_eq_none_iff] at e
          have := e q hqm
          rw [(index_some (nodup_of_mem hn.1 hqm)).mpr rfl] at this
          exact absurd this (by simp)
      simp only [r, arrhenius, hardening, this, Bool.or_true]
  have hslip : ∀ p ∈ c.systems, r.SlipRight c s h p.1 p.2 := by
    intro p hpm
    obtain ⟨k1, k2, k3⟩ := hsys p hpm
    have hr := C148_right (hardening junk (spacing c vars J1 J2 K L0 a G b) ps ap ac b G) h0.le hA hB hF
      (r.strengths p.1 h) k1 k3
    refine C99_slip r hp c s h p.1 p.2 hr (fun k => ?_) fun ht hz => absurd hz k1
    obtain rfl : k = 0 := Subsingleton.elim _ _
    exact C147_strength junk hn (C146_strength k2 h (hpos _ k2)) (hsm p.1 (mem_systems.mp hpm).1)
  refine ⟨fun p hpm => hslip p hpm x x' y y' t0 hx hy ex ey, ?_⟩
  refine C99_rates r hp c s h hslip (fun k => ?_) x x' y y' t0 hx hy ex ey
  refine C147_rate junk hn (C146_rate hv _ _ _ h ?_ hpos) (spacing_covers hv _ _ _) hq
  intro p hpm hz
  exfalso
  obtain ⟨k1, k2, k3⟩ := hsys p hpm
  have hnt : ¬ (c.twin p.1 = true ∧ c.shear p.1 p.2 s < 0) := fun e => absurd e.2 (htw p hpm e.1).not_gt
  have hslip0 : r.sslip (c.shear p.1 p.2 s) (r.strengths p.1 h) = 0 := by
    rw [Rule.slip, if_neg hnt] at hz
    exact hz
  simp only [r, arrhenius, if_neg k1] at hslip0
  rcases mul_eq_zero.mp hslip0 with e | e
  · exact (mul_pos h0 (Real.exp_pos _)).ne' e
  · rw [sgn] at e
    split_ifs at e <;> norm_num at e

/-- C147: the combined strength is at least each part and at most their sum. -/
theorem C147_bounds (junk : ℝ) {d : Hard N} {ps : List (Phase N)} {ap ac b G : ℝ} {g i : Nat} {h : N → ℝ}
    (hd : 0 ≤ d.tau g i h) (hp : 0 ≤ ap * G * b) :
    let tau := (hardening junk d ps ap ac b G).tau g i h
    let tp := ap * G * b * √(areal ps h)
    let tc := ac * G * b * √(solute ps h * b)
    d.tau g i h + tc ≤ tau ∧ tp + tc ≤ tau ∧ tau ≤ d.tau g i h + tp + tc ∧
      (tau - tc) ^ 2 = d.tau g i h ^ 2 + tp ^ 2 := by
  intro tau tp tc
  have h2 : 0 ≤ tp := mul_nonneg hp (Real.sqrt_nonneg _)
  have ht : tau = √(d.tau g i h * d.tau g i h + tp * tp) + tc := rfl
  have e1 : d.tau g i h ≤ √(d.tau g i h * d.tau g i h + tp * tp) := Real.le_sqrt_of_sq_le (by nlinarith)
  have e2 : tp ≤ √(d.tau g i h * d.tau g i h + tp * tp) := Real.le_sqrt_of_sq_le (by nlinarith)
  have e3 : √(d.tau g i h * d.tau g i h + tp * tp) ≤ d.tau g i h + tp :=
    Real.sqrt_le_iff.mpr ⟨by linarith, by nlinarith⟩
  have e4 : √(d.tau g i h * d.tau g i h + tp * tp) ^ 2 = d.tau g i h * d.tau g i h + tp * tp :=
    Real.sq_sqrt (by nlinarith)
  refine ⟨by linarith, by linarith, by linarith, ?_⟩
  rw [ht, add_sub_cancel_right, e4]
  ring

/-! ## Case: one slip system and one phase -/

/-- Spacing 0, then volume fraction, radius and number density of a phase. -/
noncomputable def carbide : Phase (Fin 4) := ⟨steel, Fin.succ⟩

theorem carbide_named : Named (spacing single (fun _ => (0 : Fin 4)) 1 1 1 1 1 1 1) [carbide] := by
  refine ⟨by simp only [carbide]; decide, ?_⟩
  intro q hq k
  rw [List.mem_singleton.mp hq]
  have hk : ∀ k : Fin 3, (0 : Fin 4) ≠ k.succ := fun k => (Fin.succ_ne_zero k).symm
  simp [spacing, ownOf, carbide, hk]

theorem carbide_solute : solute [carbide] (fun _ => 1) = 1 / 9 := by
  rw [solute_eq]
  have hv : steel.vm = 1 := by norm_num [Chem.vm, steel]
  have hf : steel.fs = 1 / 10 := rfl
  have hs : ∑ i : Fin steel.ns, steel.c (1 / 10) i = 1 / 9 := by
    simp only [steel_c]
    rw [Finset.sum_const, Finset.card_univ, Fintype.card_fin, show steel.ns = 1 from rfl]
    norm_num
  simp only [carbide, List.map_cons, List.map_nil, List.sum_cons, List.sum_nil, hv, hf, one_mul, div_one, hs, add_zero]

theorem carbide_areal : areal [carbide] (fun _ => 1) = 12 := by
  rw [areal_eq]
  norm_num [carbide, steel]

theorem carbide_smooth : Smooth (spacing single (fun _ => (0 : Fin 4)) 1 1 1 1 1 1 1) [carbide] 1 1 1 0 0 fun _ => 1 where
  areal := by rw [carbide_areal]; norm_num
  strength := Or.inr (by norm_num)
  solute := by rw [carbide_solute]; norm_num
  matrix q hq := by
    rw [List.mem_singleton.mp hq]
    norm_num [carbide, steel]

example : (hardening 7 (spacing single (fun _ => (0 : Fin 4)) 1 1 1 1 1 1 1) [carbide] 1 1 1 1).TauRight 0 0 fun _ => 1 :=
  C147_strength 7 carbide_named (C146_strength (by rw [single_total]; norm_num [Slip.single, Crys.flat]) _ one_ne_zero)
    carbide_smooth

theorem carbide_jac : carbide.chem.JacRight 7 (carbide.hist fun _ => 1) :=
  C144_jacobian_partial steel 7 (fun _ => 1)
    (by simp only [steel, one_mul]; exact steel_good (by norm_num) (by norm_num) (by norm_num))
    (by simp only [steel, one_mul]; exact steel_clear)

theorem single_only {p : Nat × Nat} (hp : p ∈ single.systems) : p = (0, 0) := by
  obtain ⟨h1, h2⟩ := mem_systems.mp hp
  have h1 : p.1 < 1 := h1
  have h2 : p.2 < 1 := h2
  exact Prod.ext (by omega) (by omega)

example : ∀ o, HasDerivAt (fun t : ℝ => (arrhenius (hardening 7 (spacing single (fun _ => (0 : Fin 4)) 1 1 1 1 1 1 1)
      [carbide] 1 1 1 1) 1 (3 / 4) (4 / 3) 2).rate single (fun _ => t / 6) (fun _ => t) o)
    ((arrhenius (hardening 7 (spacing single (fun _ => (0 : Fin 4)) 1 1 1 1 1 1 1)
      [carbide] 1 1 1 1) 1 (3 / 4) (4 / 3) 2).rateS single (fun _ => 1 / 6) (fun _ => 1) o ⬝ᵥ (fun _ => 1 / 6) +
    (arrhenius (hardening 7 (spacing single (fun _ => (0 : Fin 4)) 1 1 1 1 1 1 1)
      [carbide] 1 1 1 1) 1 (3 / 4) (4 / 3) 2).rateH single (fun _ => 1 / 6) (fun _ => 1) o ⬝ᵥ fun _ => 1) 1 := by
  have hsh : single.shear 0 0 (fun _ => 1 / 6) = 1 := by
    simp [Crys.shear, Slip.single, dotProduct]
  refine (C147_rule 7 (fun _ => 1 / 6) (fun _ => 1) ?_ carbide_named ?_ (by norm_num) (by norm_num) (by norm_num)
    (by norm_num) (by norm_num) ?_ ?_ ?_ ?_ (fun t _ => t / 6) (fun _ => 1 / 6) (fun t _ => t) (fun _ => 1) 1
    (fun _ => (hasDerivAt_id 1).div_const 6) (fun _ => hasDerivAt_id 1) rfl rfl).2
  · rw [single_total]
    intro i hi j hj _
    omega
  · intro x
    rcases Fin.eq_zero_or_eq_succ x with h | ⟨k, h⟩
    · exact Or.inl ⟨0, by rw [single_total]; norm_num, h⟩
    · exact Or.inr ⟨carbide, by simp, k, h⟩
  · intro g hg
    have hg : g < 1 := hg
    obtain rfl : g = 0 := by omega
    exact carbide_smooth
  · intro p hp
    rw [single_only hp, hsh]
    refine ⟨one_ne_zero, by rw [single_total]; norm_num [Slip.single, Crys.flat], ?_⟩
    simp only [hardening, carbide_solute, carbide_areal, spacing]
    have h1 : 0 ≤ √(1 / 9 * 1 : ℝ) := Real.sqrt_nonneg _
    have h2 : 1 < √((1 : ℝ) * 1 * 1 / 1 * (1 * 1 * 1 / 1) + 1 * 1 * 1 * √12 * (1 * 1 * 1 * √12)) := by
      rw [Real.lt_sqrt (by norm_num)]
      have : √12 * √12 = (12 : ℝ) := Real.mul_self_sqrt (by norm_num)
      norm_num [this]
    rw [abs_one]
    linarith
  · intro p hp ht
    exact absurd ht (by simp [Slip.single])
  · intro q hq
    rw [List.mem_singleton.mp hq]
    exact carbide_jac

end Neml.HuCocks
