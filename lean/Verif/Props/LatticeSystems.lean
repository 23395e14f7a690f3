import Verif.Props.Lattice
import Verif.Props.RotationAngles

/-!
# C59, C62, C97: the slip and twin systems of a lattice, their numbering and their planes
-/

namespace Neml.Lattice

open Neml.Rotation Neml.Mandel Neml.Symmetry Matrix

variable {ops : List Quat} {dirOf planeOf : List ℤ → Option Vec}

/-- The lattices that a user can make: any sequence of additions and questions after the constructor,
where `asked` limits the orientations asked for. -/
inductive Reach (hash : Quat → Nat) (asked : Quat → Prop) (ops : List Quat) (dirOf planeOf : List ℤ → Option Vec) : Lat → Prop
  | empty : Reach hash asked ops dirOf planeOf empty
  | slip {L L' : Lat} (d p : List ℤ) : Reach hash asked ops dirOf planeOf L →
      addSlip ops dirOf planeOf L d p = some L' → Reach hash asked ops dirOf planeOf L'
  | twin {L L' : Lat} (e1 k1 e2 k2 : List ℤ) : Reach hash asked ops dirOf planeOf L →
      addTwin ops dirOf planeOf L e1 k1 e2 k2 = some L' → Reach hash asked ops dirOf planeOf L'
  | ask {L : Lat} (g i : Nat) (Q : Quat) : asked Q → Reach hash asked ops dirOf planeOf L →
      Reach hash asked ops dirOf planeOf (ask hash L g i Q).2

/-! ## Unit vectors -/

theorem norm3_sq (v : Vec) : norm3 v * norm3 v = v ⬝ᵥ v := by
  rw [norm3, Real.mul_self_sqrt (by nlinarith [mul_self_nonneg (v 0), mul_self_nonneg (v 1), mul_self_nonneg (v 2)])]
  simp [dotProduct, Fin.sum_univ_three]

theorem norm3_nonneg (v : Vec) : 0 ≤ norm3 v := Real.sqrt_nonneg _

theorem unit_dot {v : Vec} (h : norm3 v ≠ 0) : unit v ⬝ᵥ unit v = 1 := by
  rw [unit, smul_dotProduct, dotProduct_smul, ← norm3_sq]
  simp only [smul_eq_mul]
  field_simp

theorem norm3_smul_unit {v : Vec} (h : norm3 v ≠ 0) : norm3 v • unit v = v := by
  rw [unit, smul_smul, mul_inv_cancel₀ h, one_smul]

/-- `setAxisAngle m π` is the half turn about `m`. -/
theorem half_turn {m : Vec} (hm : m ⬝ᵥ m = 1) (v : Vec) :
    applyVec (setAxisAngle m Real.pi) v = (2 * (m ⬝ᵥ v)) • m - v := by
  have h : m 0 * m 0 + m 1 * m 1 + m 2 * m 2 = 1 := by
    rw [← hm]; simp [dotProduct, Fin.sum_univ_three]
  have hq := setAxisAngle_unit hm Real.pi
  rw [(C51_faithful hq hq v).2.2.2.2.2.2]
  have hs : Real.sin (Real.pi / 2) = 1 := Real.sin_pi_div_two
  have hc : Real.cos (Real.pi / 2) = 0 := Real.cos_pi_div_two
  ext i
  fin_cases i <;>
    simp [setAxisAngle, toMatrix, hs, hc, mulVec, dotProduct, Fin.sum_univ_three] <;> grind

/-! ## Geometry of the systems -/

/-- What holds for every system of a group: unit direction along the Burgers vector, unit normal. In a slip
group they are orthogonal up to the tolerance and there is no reorientation. In a twin group they are
orthogonal up to the (larger) tolerance of the twin search and the reorientation is the half turn about the
normal. -/
structure SysOk (twin : Bool) (s : Sys) : Prop where
  dir : s.dir ⬝ᵥ s.dir = 1
  normal : s.normal ⬝ᵥ s.normal = 1
  burgers : s.burgers = norm3 s.burgers • s.dir ∧ 0 < norm3 s.burgers
  slip : twin = false → |s.dir ⬝ᵥ s.normal| ≤ 1e-8 ∧ s.reorient = Rotation.one
  twinned : twin = true → (s.dir ⬝ᵥ s.normal) ^ 2 ≤ 2.1e-5 ∧
    ∀ v, applyVec s.reorient v = (2 * (s.normal ⬝ᵥ v)) • s.normal - v

theorem slipSystems_ok (pbs pns : List Vec) : ∀ s ∈ slipSystems pbs pns,
    SysOk false s ∧ ∃ b ∈ pbs, ∃ n ∈ pns, s.burgers = b ∧ s.normal = unit n ∧ s.dir = unit b ∧ norm3 n ≠ 0 := by
  intro s hs
  simp only [slipSystems, List.mem_flatMap, List.mem_filterMap] at hs
  obtain ⟨b, hb, n, hn, h⟩ := hs
  split_ifs at h with hc
  obtain ⟨h1, h2, h3⟩ := hc
  rw [Option.some.injEq] at h
  subst h
  refine ⟨⟨unit_dot h1, unit_dot h2, ⟨(norm3_smul_unit h1).symm, lt_of_le_of_ne (norm3_nonneg _) h1.symm⟩, ?_, ?_⟩,
    b, hb, n, hn, rfl, rfl, rfl, h2⟩
  · intro _
    refine ⟨?_, rfl⟩
    simpa [isclose] using h3
  · intro h; cases h

/-- Every pair of representatives that is orthogonal up to the tolerance is a system of the group. -/
theorem slipSystems_all (pbs pns : List Vec) {b n : Vec} (hb : b ∈ pbs) (hn : n ∈ pns) (h1 : norm3 b ≠ 0)
    (h2 : norm3 n ≠ 0) (h : |unit b ⬝ᵥ unit n| ≤ 1e-8) :
    ∃ s ∈ slipSystems pbs pns, s.burgers = b ∧ s.dir = unit b ∧ s.normal = unit n := by
  refine ⟨⟨b, unit b, unit n, ⟨1, 0, 0, 0⟩⟩, ?_, rfl, rfl, rfl⟩
  simp only [slipSystems, List.mem_flatMap, List.mem_filterMap]
  refine ⟨b, hb, n, hn, ?_⟩
  rw [if_pos]
  exact ⟨h1, h2, by simpa [isclose] using h⟩

/-- Two unit vectors and a third: the squares of the cosines to an orthonormal pair add up to at most one. -/
theorem bessel {l m t : Vec} (hl : l ⬝ᵥ l = 1) (hm : m ⬝ᵥ m = 1) (ht : t ⬝ᵥ t = 1) (h : t ⬝ᵥ m = 0) :
    (t ⬝ᵥ l) ^ 2 + (l ⬝ᵥ m) ^ 2 ≤ 1 := by
  have key : 0 ≤ (l - (t ⬝ᵥ l) • t - (l ⬝ᵥ m) • m) ⬝ᵥ (l - (t ⬝ᵥ l) • t - (l ⬝ᵥ m) • m) := by
    rw [← norm3_sq]; exact mul_self_nonneg _
  have h' : m ⬝ᵥ t = 0 := by rw [dotProduct_comm]; exact h
  simp only [sub_dotProduct, dotProduct_sub, smul_dotProduct, dotProduct_smul, smul_eq_mul, hl, hm, ht, h, h',
    dotProduct_comm l t, dotProduct_comm m l] at key
  nlinarith

theorem twinStep_ok {st : ℝ × List Sys} (x : Vec × Vec × Vec × Vec) (h : ∀ s ∈ st.2, SysOk true s) :
    ∀ s ∈ (twinStep st x).2, SysOk true s := by
  obtain ⟨K1, eta1, K2, eta2⟩ := x
  simp only [twinStep]
  split_ifs with hc
  swap
  · exact h
  obtain ⟨⟨h1, h2, h3, h4, h5, h6, h7, h8, h9, h10, h11, h12, h13⟩, -⟩ := hc
  intro s hs
  rcases List.mem_append.mp hs with hs | hs
  · exact h s hs
  rw [List.mem_singleton.mp hs]
  refine ⟨unit_dot h1, unit_dot h2, ⟨(norm3_smul_unit h1).symm, lt_of_le_of_ne (norm3_nonneg _) h1.symm⟩, ?_, ?_⟩
  · intro h; cases h
  intro _
  refine ⟨?_, half_turn (unit_dot h2)⟩
  dsimp only at h5 h6 h7 h13 ⊢
  have hval : unit eta2 ⬝ᵥ unit K1 ≠ 0 := by
    intro h0; rw [h0] at h13; norm_num at h13
  have horth : unit ((2 : ℝ) • (unit K1 - (unit eta2 ⬝ᵥ unit K1)⁻¹ • unit eta2)) ⬝ᵥ unit K1 = 0 := by
    rw [unit, smul_dotProduct, smul_dotProduct, sub_dotProduct, smul_dotProduct, unit_dot h2]
    simp only [smul_eq_mul]
    rw [inv_mul_cancel₀ hval]
    simp
  have hb := bessel (unit_dot h1) (unit_dot h2) (unit_dot h6) horth
  simp only [isclose, abs_one, mul_one] at h7
  rw [← sq_abs (unit ((2 : ℝ) • (unit K1 - (unit eta2 ⬝ᵥ unit K1)⁻¹ • unit eta2)) ⬝ᵥ unit eta1)] at hb
  have := (abs_le.mp h7).1
  norm_num at this ⊢
  nlinarith

theorem twinSystems_ok (K1s eta1s K2s eta2s : List Vec) :
    ∀ s ∈ (twinSystems K1s eta1s K2s eta2s).2, SysOk true s := by
  unfold twinSystems
  generalize (K1s.flatMap fun K1 => eta1s.flatMap fun eta1 => K2s.flatMap fun K2 => eta2s.map fun eta2 =>
    (K1, eta1, K2, eta2)) = l
  suffices ∀ st : ℝ × List Sys, (∀ s ∈ st.2, SysOk true s) → ∀ s ∈ (l.foldl twinStep st).2, SysOk true s from
    this (0, []) (by simp)
  induction l with
  | nil => intro st h; simpa using h
  | cons x l ih => intro st h; exact ih _ (twinStep_ok x h)

theorem cacheRot_groups (hash : Quat → Nat) (L : Lat) (Q : Quat) :
    (cacheRot hash L Q).groups = L.groups ∧ (cacheRot hash L Q).offsets = L.offsets ∧
      (cacheRot hash L Q).normals = L.normals ∧ (cacheRot hash L Q).normalMap = L.normalMap := by
  unfold cacheRot
  split
  · split_ifs <;> simp
  · simp

/-- Anything that the additions keep and that does not look at the stored tensors holds for all lattices. -/
theorem reach_induct {hash : Quat → Nat} {asked : Quat → Prop} {P : Lat → Prop} (h0 : P empty)
    (hadd : ∀ (L : Lat) (G : Group), P L → G.systems ≠ [] → (∀ s ∈ G.systems, SysOk G.twin s) → P (addGroup L G))
    (hask : ∀ (L : Lat) (Q : Quat), P L → P (cacheRot hash L Q)) {L : Lat} (h : Reach hash asked ops dirOf planeOf L) :
    P L := by
  have key : ∀ (L : Lat) (G : Group), P L → (∀ s ∈ G.systems, SysOk G.twin s) → P (addGroup L G) := by
    intro L G hL hG
    by_cases he : G.systems = []
    · rw [addGroup, if_pos he]; exact hL
    · exact hadd L G hL he hG
  induction h with
  | empty => exact h0
  | slip d p _ hL ih =>
    simp only [addSlip, Option.bind_eq_some_iff, Option.map_eq_some_iff] at hL
    obtain ⟨bv, -, nv, -, rfl⟩ := hL
    exact key _ ⟨false, 0, _⟩ ih fun s hs => (slipSystems_ok _ _ s hs).1
  | twin e1 k1 e2 k2 _ hL ih =>
    simp only [addTwin, Option.bind_eq_some_iff, Option.map_eq_some_iff] at hL
    obtain ⟨k1, -, e2, -, e1, -, k2, -, rfl⟩ := hL
    exact key _ ⟨true, _, _⟩ ih (twinSystems_ok _ _ _ _)
  | ask g i Q _ _ ih => exact hask _ Q ih

theorem reach_ok {hash : Quat → Nat} {asked : Quat → Prop} {L : Lat} (h : Reach hash asked ops dirOf planeOf L) :
    ∀ G ∈ L.groups, G.systems ≠ [] ∧ ∀ s ∈ G.systems, SysOk G.twin s := by
  refine reach_induct (P := fun L => ∀ G ∈ L.groups, G.systems ≠ [] ∧ ∀ s ∈ G.systems, SysOk G.twin s) ?_ ?_ ?_ h
  · simp [empty]
  · intro L G ih he hG
    rw [addGroup, if_neg he]
    intro G' hG'
    rcases List.mem_append.mp hG' with h | h
    · exact ih G' h
    · rw [List.mem_singleton.mp h]; exact ⟨he, hG⟩
  · intro L Q ih
    rw [(cacheRot_groups _ _ _).1]; exact ih

/-- Every system of every lattice has a unit direction along its Burgers vector and a unit normal, orthogonal
up to the tolerances of the search; the reorientation of a twin is the half turn about its normal. -/
theorem C59_systems {hash : Quat → Nat} {asked : Quat → Prop} {L : Lat} (h : Reach hash asked ops dirOf planeOf L) {g i : Nat} {s : Sys}
    (hs : system L g i = some s) : ∃ G, L.groups[g]? = some G ∧ SysOk G.twin s := by
  simp only [system, Option.bind_eq_some_iff] at hs
  obtain ⟨G, hG, hs⟩ := hs
  exact ⟨G, hG, (reach_ok h G (List.mem_of_getElem? hG)).2 s (List.mem_of_getElem? hs)⟩

/-! ## Schmid tensors -/

theorem half_eq : (0.5 : ℝ) = 2⁻¹ := by norm_num

theorem symOfFull_outer (d n : Vec) :
    usym (symOfFull (outer d n)) = (2⁻¹ : ℝ) • (outer d n + outer n d) := by
  have h2 := r2_sq
  ext i j
  fin_cases i <;> fin_cases j <;> simp [usym, symOfFull, outer, div_r2, half_eq] <;> grind

theorem skewOfFull_outer (d n : Vec) :
    uskew (skewOfFull (outer d n)) = (2⁻¹ : ℝ) • (outer d n - outer n d) := by
  ext i j
  fin_cases i <;> fin_cases j <;> simp [uskew, skewOfFull, outer, half_eq] <;> grind

theorem outer_rot (M : Matrix (Fin 3) (Fin 3) ℝ) (d n : Vec) :
    M * outer d n * Mᵀ = outer (M *ᵥ d) (M *ᵥ n) := by
  ext i j
  simp [outer, Matrix.mul_apply, mulVec, dotProduct, Fin.sum_univ_three]
  ring

/-- The two tensors of a system at an orientation are the symmetric and the skew part of the dyad of the
rotated direction and the rotated normal. The resolved shear is the traction on the rotated plane in the rotated
direction. The trace is the product of direction and normal, so a pressure resolves to this product times the
pressure. -/
theorem C59_schmid {Q : Quat} (hQ : Unit4 Q) (s : Sys) (sigma : Fin 6 → ℝ) (p : ℝ) :
    usym (schmid Q s).1 =
        (2⁻¹ : ℝ) • (outer (applyVec Q s.dir) (applyVec Q s.normal) + outer (applyVec Q s.normal) (applyVec Q s.dir)) ∧
      uskew (schmid Q s).2 =
        (2⁻¹ : ℝ) • (outer (applyVec Q s.dir) (applyVec Q s.normal) - outer (applyVec Q s.normal) (applyVec Q s.dir)) ∧
      (schmid Q s).1 ⬝ᵥ sigma = applyVec Q s.dir ⬝ᵥ (usym sigma *ᵥ applyVec Q s.normal) ∧
      (schmid Q s).1 0 + (schmid Q s).1 1 + (schmid Q s).1 2 = s.dir ⬝ᵥ s.normal ∧
      (schmid Q s).1 ⬝ᵥ (sigma + p • ![1, 1, 1, 0, 0, 0]) =
        (schmid Q s).1 ⬝ᵥ sigma + p * (s.dir ⬝ᵥ s.normal) := by
  have hv : ∀ v, applyVec Q v = toMatrix Q *ᵥ v := fun v => (C51_faithful hQ hQ v).2.2.2.2.2.2
  obtain ⟨c1, c2, c3, -, -⟩ := C55_compact hQ (symOfFull (outer s.dir s.normal)) (skewOfFull (outer s.dir s.normal)) 0
  have e1 : usym (schmid Q s).1 = (2⁻¹ : ℝ) •
      (outer (applyVec Q s.dir) (applyVec Q s.normal) + outer (applyVec Q s.normal) (applyVec Q s.dir)) := by
    rw [schmid, c1, c2, symOfFull_outer, Matrix.mul_smul, Matrix.smul_mul, Matrix.mul_add, Matrix.add_mul, outer_rot,
      outer_rot, hv, hv]
  have e2 : (schmid Q s).1 0 + (schmid Q s).1 1 + (schmid Q s).1 2 = s.dir ⬝ᵥ s.normal := by
    rw [schmid, (C55_invariants hQ (symOfFull (outer s.dir s.normal)) 0 0 0 0 0).2.1]
    simp [symOfFull, outer, dotProduct, Fin.sum_univ_three, half_eq]
    ring
  refine ⟨e1, ?_, ?_, e2, ?_⟩
  · rw [schmid, c3, applyR2, ← Matrix.mul_assoc, skewOfFull_outer, Matrix.mul_smul, Matrix.smul_mul, Matrix.mul_sub,
      Matrix.sub_mul, outer_rot, outer_rot, hv, hv]
  · rw [← C47_isometry, e1]
    have hs := fun i j => congrFun (congrFun (C47_usym_symmetric sigma) i) j
    simp only [transpose_apply] at hs
    generalize usym sigma = S at hs
    generalize applyVec Q s.dir = d
    generalize applyVec Q s.normal = n
    have s10 := hs 1 0; have s20 := hs 2 0; have s21 := hs 2 1
    simp [contract, outer, dotProduct, mulVec, Fin.sum_univ_three, s10, s20, s21]
    ring
  · rw [dotProduct_add, dotProduct_smul, ← e2]
    simp only [dotProduct, Fin.sum_univ_six, smul_eq_mul]
    simp

/-! ## C62: the flat numbering -/

/-- The numbers of systems in the groups. -/
def sizes (L : Lat) : List Nat := L.groups.map fun G => G.systems.length

theorem reach_offsets {hash : Quat → Nat} {asked : Quat → Prop} {L : Lat} (h : Reach hash asked ops dirOf planeOf L) :
    L.offsets = (List.range (ngroup L + 1)).map fun g => ((sizes L).take g).sum := by
  refine reach_induct (P := fun L => L.offsets = (List.range (ngroup L + 1)).map fun g => ((sizes L).take g).sum)
    ?_ ?_ ?_ h
  · simp [empty, ngroup]
  · intro L G ih he _
    have hn : ngroup (addGroup L G) = ngroup L + 1 := by rw [addGroup, if_neg he]; simp [ngroup]
    have hs : sizes (addGroup L G) = sizes L ++ [G.systems.length] := by rw [addGroup, if_neg he]; simp [sizes]
    have hl : (sizes L).length = ngroup L := by simp [sizes, ngroup]
    rw [hn, hs, List.range_succ, List.map_append]
    have e : (addGroup L G).offsets = L.offsets ++ [L.offsets.getLastD 0 + G.systems.length] := by
      rw [addGroup, if_neg he]
    rw [e]
    congr 1
    · rw [ih]
      apply List.map_congr_left
      intro g hg
      rw [List.take_append_of_le_length]
      rw [List.mem_range] at hg
      omega
    · rw [ih, List.range_succ, List.map_append]
      simp only [List.map_cons, List.map_nil, List.getLastD_concat]
      rw [List.take_of_length_le (l := sizes L) (by omega), List.take_of_length_le (by simp; omega)]
      simp
  · intro L Q ih
    obtain ⟨h1, h2, -, -⟩ := cacheRot_groups hash L Q
    simp only [ngroup, sizes, h1, h2] at ih ⊢
    exact ih

/-- Numbering pairs by the sum of the earlier sizes is one to one and leaves no gap. -/
theorem number_pairs (l : List Nat) :
    (∀ g i, (∃ n, l[g]? = some n ∧ i < n) → (l.take g).sum + i < l.sum) ∧
      ∀ k < l.sum, ∃! p : Nat × Nat, (∃ n, l[p.1]? = some n ∧ p.2 < n) ∧ (l.take p.1).sum + p.2 = k := by
  induction l with
  | nil => simp
  | cons a l ih =>
    obtain ⟨ih1, ih2⟩ := ih
    constructor
    · rintro g i ⟨n, hn, hi⟩
      cases g with
      | zero => simp at hn; subst hn; simp; omega
      | succ g =>
        simp only [List.getElem?_cons_succ] at hn
        have := ih1 g i ⟨n, hn, hi⟩
        simp only [List.take_succ_cons, List.sum_cons]
        omega
    · intro k hk
      rw [List.sum_cons] at hk
      by_cases hka : k < a
      · refine ⟨(0, k), ⟨⟨a, by simp, hka⟩, by simp⟩, ?_⟩
        rintro ⟨g, i⟩ ⟨⟨n, hn, hi⟩, e⟩
        cases g with
        | zero => simp at e; rw [e]
        | succ g => simp only [List.take_succ_cons, List.sum_cons] at e; omega
      · obtain ⟨⟨g, i⟩, ⟨⟨n, hn, hi⟩, e⟩, hu⟩ := ih2 (k - a) (by omega)
        refine ⟨(g + 1, i), ⟨⟨n, by simpa using hn, hi⟩, ?_⟩, ?_⟩
        · simp only [List.take_succ_cons, List.sum_cons]
          dsimp only at e
          omega
        · rintro ⟨g', i'⟩ ⟨⟨n', hn', hi'⟩, e'⟩
          cases g' with
          | zero =>
            simp at hn' e'
            omega
          | succ g' =>
            simp only [List.getElem?_cons_succ] at hn'
            simp only [List.take_succ_cons, List.sum_cons] at e'
            have := hu (g', i') ⟨⟨n', hn', hi'⟩, by dsimp only; omega⟩
            simp only [Prod.mk.injEq] at this
            rw [this.1, this.2]

/-- The flat number of system `i` of group `g` is the number of systems in the earlier groups plus `i`. The flat
numbers of all systems are exactly the numbers below the total number of systems, each belonging to one
system. -/
theorem C62_flat {hash : Quat → Nat} {asked : Quat → Prop} {L : Lat} (h : Reach hash asked ops dirOf planeOf L) :
    (∀ g i s, system L g i = some s →
      flat L g i = some (((L.groups.take g).map fun G => G.systems.length).sum + i)) ∧
    (∀ g i s, system L g i = some s → ∃ k, flat L g i = some k ∧ k < ntotal L) ∧
    ∀ k < ntotal L, ∃! p : Nat × Nat, (∃ s, system L p.1 p.2 = some s) ∧ flat L p.1 p.2 = some k := by
  have hf : ∀ g i s, system L g i = some s → flat L g i = some (((sizes L).take g).sum + i) := by
    intro g i s hs
    simp only [system, Option.bind_eq_some_iff] at hs
    obtain ⟨G, hG, hs⟩ := hs
    have hg := (List.getElem?_eq_some_iff.mp hG).1
    simp only [flat, reach_offsets h, List.getElem?_map, ngroup]
    rw [List.getElem?_range (by omega)]
    rfl
  have hsys : ∀ g i, (∃ s, system L g i = some s) ↔ ∃ n, (sizes L)[g]? = some n ∧ i < n := by
    intro g i
    simp only [system, sizes, List.getElem?_map, Option.bind_eq_some_iff, Option.map_eq_some_iff]
    constructor
    · rintro ⟨s, G, hG, hs⟩
      exact ⟨_, ⟨G, hG, rfl⟩, (List.getElem?_eq_some_iff.mp hs).1⟩
    · rintro ⟨n, ⟨G, hG, rfl⟩, hi⟩
      exact ⟨_, G, hG, List.getElem?_eq_getElem hi⟩
  obtain ⟨n1, n2⟩ := number_pairs (sizes L)
  refine ⟨fun g i s hs => ?_, fun g i s hs => ⟨_, hf g i s hs, n1 g i ((hsys g i).mp ⟨s, hs⟩)⟩, fun k hk => ?_⟩
  · rw [hf g i s hs, sizes, List.map_take]
  · obtain ⟨p, ⟨hp, e⟩, hu⟩ := n2 k hk
    obtain ⟨s, hs⟩ := (hsys _ _).mpr hp
    refine ⟨p, ⟨⟨s, hs⟩, by rw [hf _ _ s hs, e]⟩, ?_⟩
    rintro q ⟨⟨t, ht⟩, hq⟩
    refine hu q ⟨(hsys _ _).mp ⟨t, ht⟩, ?_⟩
    rw [hf _ _ t ht] at hq
    exact Option.some.inj hq

/-! ## C97: the planes -/

theorem isclose_unit {n : Vec} (h : n ⬝ᵥ n = 1) : isclose |n ⬝ᵥ n| 1 := by
  rw [h, abs_one]; exact isclose_refl 1

theorem numberPlane_spec (normals : List Vec) (p : Vec) (hp : p ⬝ᵥ p = 1)
    (hd : normals.Pairwise fun x y => ¬ isclose |x ⬝ᵥ y| 1) :
    normals <+: (numberPlane normals p).1 ∧ (∀ n ∈ (numberPlane normals p).1, n ∈ normals ∨ n = p) ∧
      ((numberPlane normals p).1.Pairwise fun x y => ¬ isclose |x ⬝ᵥ y| 1) ∧
      (∃ n, (numberPlane normals p).1[(numberPlane normals p).2]? = some n ∧ isclose |n ⬝ᵥ p| 1) ∧
      ∀ k, normals.length ≤ k → k < (numberPlane normals p).1.length → (numberPlane normals p).2 = k := by
  classical
  unfold numberPlane
  split
  · rename_i j hj
    rw [List.findIdx?_eq_some_iff_getElem] at hj
    obtain ⟨hlt, h1, -⟩ := hj
    refine ⟨List.prefix_rfl, fun n hn => Or.inl hn, hd, ⟨_, List.getElem?_eq_getElem hlt, by simpa using h1⟩, ?_⟩
    intro k h1 h2
    dsimp only at h2
    omega
  · rename_i hj
    rw [List.findIdx?_eq_none_iff] at hj
    refine ⟨List.prefix_append _ _, by simp, ?_, ⟨p, by simp, isclose_unit hp⟩, ?_⟩
    · rw [List.pairwise_append]
      refine ⟨hd, by simp, fun a ha b hb => ?_⟩
      rw [List.mem_singleton.mp hb]
      simpa using hj a ha
    · intro k h1 h2
      simp at h2
      dsimp only
      omega

theorem numberPlanes_spec (ps normals : List Vec) (hp : ∀ p ∈ ps, p ⬝ᵥ p = 1)
    (hd : normals.Pairwise fun x y => ¬ isclose |x ⬝ᵥ y| 1) :
    normals <+: (numberPlanes normals ps).1 ∧ (∀ n ∈ (numberPlanes normals ps).1, n ∈ normals ∨ n ∈ ps) ∧
      ((numberPlanes normals ps).1.Pairwise fun x y => ¬ isclose |x ⬝ᵥ y| 1) ∧
      (numberPlanes normals ps).2.length = ps.length ∧
      (∀ (i : Nat) (p : Vec) (k : Nat), ps[i]? = some p → (numberPlanes normals ps).2[i]? = some k →
        ∃ n, (numberPlanes normals ps).1[k]? = some n ∧ isclose |n ⬝ᵥ p| 1) ∧
      ∀ k, normals.length ≤ k → k < (numberPlanes normals ps).1.length → k ∈ (numberPlanes normals ps).2 := by
  induction ps generalizing normals with
  | nil =>
    refine ⟨List.prefix_rfl, fun n hn => Or.inl hn, hd, rfl, by simp, ?_⟩
    intro k h1 h2
    simp only [numberPlanes] at h2
    omega
  | cons p ps ih =>
    obtain ⟨a1, a2, a3, ⟨n, hn, hc⟩, a5⟩ := numberPlane_spec normals p (hp p (by simp)) hd
    obtain ⟨b1, b2, b3, b4, b5, b6⟩ := ih (numberPlane normals p).1 (fun q hq => hp q (by simp [hq])) a3
    simp only [numberPlanes]
    refine ⟨a1.trans b1, ?_, b3, by simp [b4], ?_, ?_⟩
    · intro n hn
      rcases b2 n hn with h | h
      · rcases a2 n h with h | h
        · exact Or.inl h
        · exact Or.inr (by simp [h])
      · exact Or.inr (by simp [h])
    · intro i q k hq hk
      cases i with
      | zero =>
        simp only [List.getElem?_cons_zero, Option.some.injEq] at hq hk
        subst hq hk
        refine ⟨n, ?_, hc⟩
        obtain ⟨t, ht⟩ := b1
        rw [← ht, List.getElem?_append_left (List.getElem?_eq_some_iff.mp hn).1]
        exact hn
      | succ i =>
        simp only [List.getElem?_cons_succ] at hq hk
        exact b5 i q k hq hk
    · intro k h1 h2
      by_cases hk : k < (numberPlane normals p).1.length
      · rw [← a5 k h1 hk]; simp
      · exact List.mem_cons_of_mem _ (b6 k (by omega) h2)

/-- The state of the plane numbering. -/
structure PlanesOk (L : Lat) : Prop where
  len : L.normalMap.length = L.groups.length
  apart : L.normals.Pairwise fun x y => ¬ isclose |x ⬝ᵥ y| 1
  from_systems : ∀ n ∈ L.normals, ∃ G ∈ L.groups, ∃ s ∈ G.systems, n = s.normal
  rows : ∀ (g : Nat) G idx, L.groups[g]? = some G → L.normalMap[g]? = some idx → idx.length = G.systems.length ∧
    ∀ (i : Nat) s k, G.systems[i]? = some s → idx[i]? = some k →
      ∃ n, L.normals[k]? = some n ∧ isclose |n ⬝ᵥ s.normal| 1
  used : ∀ k < L.normals.length, ∃ idx ∈ L.normalMap, k ∈ idx

theorem reach_planes {hash : Quat → Nat} {asked : Quat → Prop} {L : Lat} (h : Reach hash asked ops dirOf planeOf L) : PlanesOk L := by
  refine reach_induct (P := PlanesOk) ?_ ?_ ?_ h
  · exact ⟨rfl, List.Pairwise.nil, by simp [empty], by simp [empty], by simp [empty]⟩
  · intro L G ih he hG
    obtain ⟨b1, b2, b3, b4, b5, b6⟩ := numberPlanes_spec (G.systems.map Sys.normal) L.normals (by
      intro p hp
      obtain ⟨s, hs, rfl⟩ := List.mem_map.mp hp
      exact (hG s hs).normal) ih.apart
    rw [addGroup, if_neg he]
    refine ⟨by simp [ih.len], b3, ?_, ?_, ?_⟩
    · intro n hn
      rcases b2 n hn with h | h
      · obtain ⟨G', hG', s, hs, rfl⟩ := ih.from_systems n h
        exact ⟨G', by simp [hG'], s, hs, rfl⟩
      · obtain ⟨s, hs, rfl⟩ := List.mem_map.mp h
        exact ⟨G, by simp, s, hs, rfl⟩
    · intro g G' idx hg hi
      dsimp only at hg hi ⊢
      by_cases hlt : g < L.groups.length
      · rw [List.getElem?_append_left hlt] at hg
        rw [List.getElem?_append_left (by rw [ih.len]; exact hlt)] at hi
        obtain ⟨r1, r2⟩ := ih.rows g G' idx hg hi
        refine ⟨r1, fun i s k hs hk => ?_⟩
        obtain ⟨n, hn, hc⟩ := r2 i s k hs hk
        refine ⟨n, ?_, hc⟩
        obtain ⟨t, ht⟩ := b1
        rw [← ht, List.getElem?_append_left (List.getElem?_eq_some_iff.mp hn).1]
        exact hn
      · have hg0 : g = L.groups.length := by
          have := (List.getElem?_eq_some_iff.mp hg).1
          simp at this
          omega
        subst hg0
        rw [List.getElem?_append_right (le_refl _)] at hg
        rw [List.getElem?_append_right (by rw [ih.len]), ih.len] at hi
        simp only [Nat.sub_self, List.getElem?_cons_zero, Option.some.injEq] at hg hi
        subst hg hi
        refine ⟨by simpa using b4, fun i s k hs hk => b5 i s.normal k (by simp [hs]) hk⟩
    · intro k hk
      dsimp only at hk ⊢
      by_cases hlt : k < L.normals.length
      · obtain ⟨idx, hi, hk⟩ := ih.used k hlt
        exact ⟨idx, by simp [hi], hk⟩
      · exact ⟨_, by simp, b6 k (by omega) hk⟩
  · intro L Q ih
    obtain ⟨h1, h2, h3, h4⟩ := cacheRot_groups hash L Q
    refine ⟨by rw [h1, h4]; exact ih.len, by rw [h3]; exact ih.apart, by rw [h1, h3]; exact ih.from_systems,
      by rw [h1, h3, h4]; exact ih.rows, by rw [h3, h4]; exact ih.used⟩

/-- Every system has a plane number below the number of planes, and the numbered plane is parallel to the plane
of the system up to the tolerance. No two numbered planes are parallel up to the tolerance. Every numbered plane
belongs to some system. -/
theorem C97_planes {hash : Quat → Nat} {asked : Quat → Prop} {L : Lat} (h : Reach hash asked ops dirOf planeOf L) :
    (∀ g i s, system L g i = some s → ∃ k n, planeIndex L g i = some k ∧ L.normals[k]? = some n ∧
      n ⬝ᵥ n = 1 ∧ isclose |n ⬝ᵥ s.normal| 1) ∧
    (L.normals.Pairwise fun x y => ¬ isclose |x ⬝ᵥ y| 1) ∧
    ∀ k < L.normals.length, ∃ g i, (∃ s, system L g i = some s) ∧ planeIndex L g i = some k := by
  have P := reach_planes h
  have hok := reach_ok h
  refine ⟨fun g i s hs => ?_, P.apart, fun k hk => ?_⟩
  · simp only [system, Option.bind_eq_some_iff] at hs
    obtain ⟨G, hG, hs⟩ := hs
    have hg := (List.getElem?_eq_some_iff.mp hG).1
    have hm : L.normalMap[g]? = some (L.normalMap[g]'(by rw [P.len]; exact hg)) := List.getElem?_eq_getElem _
    obtain ⟨r1, r2⟩ := P.rows g G _ hG hm
    have hi := (List.getElem?_eq_some_iff.mp hs).1
    have hk := List.getElem?_eq_getElem (l := L.normalMap[g]'(by rw [P.len]; exact hg)) (i := i) (by rw [r1]; exact hi)
    obtain ⟨n, hn, hc⟩ := r2 i s _ hs hk
    refine ⟨_, n, by rw [planeIndex, hm]; exact hk, hn, ?_, hc⟩
    obtain ⟨G', hG', s', hs', rfl⟩ := P.from_systems n (List.mem_of_getElem? hn)
    exact ((hok G' hG').2 s' hs').normal
  · obtain ⟨idx, hi, hk⟩ := P.used k hk
    obtain ⟨g, hg⟩ := List.getElem?_of_mem hi
    obtain ⟨i, hi⟩ := List.getElem?_of_mem hk
    have hlt : g < L.groups.length := by rw [← P.len]; exact (List.getElem?_eq_some_iff.mp hg).1
    have hG := List.getElem?_eq_getElem hlt
    obtain ⟨r1, -⟩ := P.rows g _ idx hG hg
    have : i < (L.groups[g]).systems.length := by rw [← r1]; exact (List.getElem?_eq_some_iff.mp hi).1
    refine ⟨g, i, ⟨(L.groups[g]).systems[i], ?_⟩, by rw [planeIndex, hg]; exact hi⟩
    · rw [system, hG]; exact List.getElem?_eq_getElem this

/-- The systems listed for a plane are exactly those with this plane number, each listed once. -/
theorem C97_plane_systems {hash : Quat → Nat} {asked : Quat → Prop} {L : Lat} (h : Reach hash asked ops dirOf planeOf L) (k : Nat) :
    (planeSystems L k).Nodup ∧
      ∀ g i, (g, i) ∈ planeSystems L k ↔ (∃ s, system L g i = some s) ∧ planeIndex L g i = some k := by
  constructor
  · unfold planeSystems
    rw [List.nodup_flatMap]
    refine ⟨fun g _ => ((List.nodup_range).filter _).map (fun a b h => (Prod.mk.injEq .. ▸ h).2), ?_⟩
    refine List.Pairwise.imp_of_mem ?_ List.nodup_range
    intro a b _ _ hab x hx hy
    simp only [List.mem_map] at hx hy
    obtain ⟨_, _, rfl⟩ := hx
    obtain ⟨_, _, e⟩ := hy
    exact hab (congrArg Prod.fst e).symm
  · intro g i
    simp only [planeSystems, List.mem_flatMap, List.mem_range, List.mem_map, List.mem_filter, decide_eq_true_eq,
      Prod.mk.injEq, system, Option.bind_eq_some_iff, nslip, ngroup]
    constructor
    · rintro ⟨g', hg, i', ⟨hi, hk⟩, rfl, rfl⟩
      rw [List.getElem?_eq_getElem hg] at hi
      simp only [Option.map_some, Option.getD_some] at hi
      exact ⟨⟨_, _, List.getElem?_eq_getElem hg, List.getElem?_eq_getElem hi⟩, hk⟩
    · rintro ⟨⟨s, G, hG, hs⟩, hk⟩
      refine ⟨g, (List.getElem?_eq_some_iff.mp hG).1, i, ⟨?_, hk⟩, rfl, rfl⟩
      rw [hG]
      exact (List.getElem?_eq_some_iff.mp hs).1

end Neml.Lattice
