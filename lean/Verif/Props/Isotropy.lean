import Verif.Props.Elastic
import Verif.Props.Hardening
import Verif.Props.Creep

/-!
# C87: isotropic materials do not prefer a direction

Specification: `rot Q v` is the symmetric tensor `v` turned by the orthogonal matrix `Q`. Turning every
tensor that goes in turns every tensor that comes out, and leaves the scalars alone.
-/

namespace Neml.Flow

open Matrix Neml.Mandel Neml.Elastic Neml.SmallStrain Neml.Creep

/-- An orthogonal matrix. -/
def Orth (Q : Matrix (Fin 3) (Fin 3) ℝ) : Prop := Q * Qᵀ = 1

section rotation

variable {Q : Matrix (Fin 3) (Fin 3) ℝ}

theorem usym_rot (Q : Matrix (Fin 3) (Fin 3) ℝ) (v : Fin 6 → ℝ) : usym (rot Q v) = Q * usym v * Qᵀ := by
  rw [rot, C47_usym_sym]
  rw [transpose_mul, transpose_mul, transpose_transpose, C47_usym_symmetric, Matrix.mul_assoc]

theorem dot_eq_trace (u v : Fin 6 → ℝ) : u ⬝ᵥ v = trace (usym u * usym v) := by
  have h := r2_sq
  simp [usym, dotProduct, Fin.sum_univ_succ, Matrix.trace, Matrix.mul_apply, div_r2]
  grind

theorem rot_dot (hQ : Orth Q) (u v : Fin 6 → ℝ) : rot Q u ⬝ᵥ rot Q v = u ⬝ᵥ v := by
  have hQ' : Qᵀ * Q = 1 := mul_eq_one_comm.mp hQ
  rw [dot_eq_trace, dot_eq_trace, usym_rot, usym_rot]
  have : Q * usym u * Qᵀ * (Q * usym v * Qᵀ) = Q * (usym u * usym v) * Qᵀ := by
    calc _ = Q * usym u * (Qᵀ * Q) * usym v * Qᵀ := by simp only [Matrix.mul_assoc]
      _ = _ := by rw [hQ', Matrix.mul_one]; simp only [Matrix.mul_assoc]
  rw [this, trace_mul_cycle, hQ', Matrix.one_mul]

theorem norm2_rot (hQ : Orth Q) (v : Fin 6 → ℝ) : norm2 (rot Q v) = norm2 v := by
  rw [norm2, norm2, rot_dot hQ]

theorem rot_zero (Q : Matrix (Fin 3) (Fin 3) ℝ) : rot Q 0 = 0 := by
  have := rot_smul Q 0 0; simpa using this

theorem rot_sub (Q : Matrix (Fin 3) (Fin 3) ℝ) (a b : Fin 6 → ℝ) : rot Q (a - b) = rot Q a - rot Q b := by
  have h := rot_add Q a ((-1 : ℝ) • b)
  rw [rot_smul] at h
  simpa [sub_eq_add_neg] using h

theorem rot_sum {n : Nat} (Q : Matrix (Fin 3) (Fin 3) ℝ) (f : Fin n → Fin 6 → ℝ) :
    rot Q (∑ i, f i) = ∑ i, rot Q (f i) := by
  induction n with
  | zero => simp [rot_zero]
  | succ n ih => rw [Fin.sum_univ_succ, Fin.sum_univ_succ, rot_add, ih]

theorem devVec_delta (v : Fin 6 → ℝ) : devVec v = v - ((v 0 + v 1 + v 2) / 3) • delta := by
  ext i
  fin_cases i <;> simp [devVec, delta]

theorem devVec_rot (hQ : Orth Q) (v : Fin 6 → ℝ) : devVec (rot Q v) = rot Q (devVec v) := by
  rw [devVec_delta, devVec_delta, rot_sub, rot_smul, rot_trace Q hQ, rot_delta Q hQ]

theorem normalize_rot (hQ : Orth Q) (eps : ℝ) (v : Fin 6 → ℝ) :
    normalize eps (rot Q v) = rot Q (normalize eps v) := by
  unfold normalize
  rw [norm2_rot hQ]
  split_ifs
  · rw [rot_zero]
  · have : (fun i => v i / norm2 v) = (1 / norm2 v) • v := by ext i; simp; ring
    rw [this, rot_smul]
    ext i; simp; ring

/-- The hardening variables seen by a combined surface, turned. -/
noncomputable def rotQ (Q : Matrix (Fin 3) (Fin 3) ℝ) (q : Q7 → ℝ) : Q7 → ℝ :=
  Sum.elim (fun _ => q (.inl ())) (rot Q fun i => q (.inr i))

/-- The history of a Chaboche rule, turned. -/
noncomputable def rotCH {n : Nat} (Q : Matrix (Fin 3) (Fin 3) ℝ) (a : CH n → ℝ) : CH n → ℝ :=
  Sum.elim (fun _ => a (.inl ())) fun (i, j) => rot Q (back a i) j

theorem shifted_rot (hQ : Orth Q) (s : Fin 6 → ℝ) (q : Q7 → ℝ) :
    shifted (rot Q s) (rotQ Q q) = rot Q (shifted s q) := by
  have h1 : shifted s q = devVec s + fun i => q (.inr i) := rfl
  rw [h1, rot_add, ← devVec_rot hQ]
  rfl

/-- **C87** the J2 surface: same value, turned gradients. -/
theorem C87_surface (hQ : Orth Q) (eps : ℝ) (s : Fin 6 → ℝ) (q : Q7 → ℝ) (T : ℝ) :
    (isoKinJ2 eps).f (rot Q s) (rotQ Q q) T = (isoKinJ2 eps).f s q T ∧
    (isoKinJ2 eps).df_ds (rot Q s) (rotQ Q q) T = rot Q ((isoKinJ2 eps).df_ds s q T) ∧
    (isoKinJ2 eps).df_dq (rot Q s) (rotQ Q q) T = rotQ Q ((isoKinJ2 eps).df_dq s q T) := by
  refine ⟨?_, ?_, ?_⟩
  · simp only [isoKinJ2, shifted_rot hQ, norm2_rot hQ]
    rfl
  · simp only [isoKinJ2, shifted_rot hQ, normalize_rot hQ]
  · simp only [isoKinJ2, shifted_rot hQ, normalize_rot hQ]
    rfl

theorem tr3_rot (hQ : Orth Q) (s : Fin 6 → ℝ) : tr3 (rot Q s) = tr3 s := rot_trace Q hQ s

/-- **C87** the pressure dependent surface: same value, turned gradient. -/
theorem C87_pressure_surface (hQ : Orth Q) (eps : ℝ) (h l : ℝ → ℝ) (s : Fin 6 → ℝ) (q : Q7 → ℝ) (T : ℝ) :
    (isoKinJ2I1 eps h l).f (rot Q s) (rotQ Q q) T = (isoKinJ2I1 eps h l).f s q T ∧
    (isoKinJ2I1 eps h l).df_ds (rot Q s) (rotQ Q q) T = rot Q ((isoKinJ2I1 eps h l).df_ds s q T) := by
  have h1 : ∀ s q, (isoKinJ2I1 eps h l).df_ds s q T = normalize eps (shifted s q) +
      (h T * l T * |tr3 s| ^ (l T - 1)) • delta := by
    intro s q
    ext i
    fin_cases i <;> simp [isoKinJ2I1, delta]
  constructor
  · simp only [isoKinJ2I1, shifted_rot hQ, norm2_rot hQ, tr3_rot hQ]
    rfl
  · rw [h1, h1, shifted_rot hQ, normalize_rot hQ, tr3_rot hQ, rot_add, rot_smul, rot_delta Q hQ]

theorem seq_rot (hQ : Orth Q) (s : Fin 6 → ℝ) : seq (rot Q s) = seq s := by
  rw [seq, seq, devVec_rot hQ, norm2_rot hQ]

theorem eeq_rot (hQ : Orth Q) (e : Fin 6 → ℝ) : eeq (rot Q e) = eeq e := by
  rw [eeq, eeq, norm2_rot hQ]

/-- **C87** multiaxial creep: turned creep rate. -/
theorem C87_creep (hQ : Orth Q) (eps : ℝ) (r : Scalar) (s e : Fin 6 → ℝ) (t T : ℝ) :
    (j2 eps r).f (rot Q s) (rot Q e) t T = rot Q ((j2 eps r).f s e t T) := by
  have h1 : sdir eps (rot Q s) = rot Q (sdir eps s) := by
    unfold sdir
    rw [seq_rot hQ]
    split_ifs
    · rw [rot_zero]
    · have : (fun i => devVec s i / seq s) = (1 / seq s) • devVec s := by ext i; simp; ring
      rw [this, rot_smul, ← devVec_rot hQ]
      ext i; simp; ring
  have h2 : ∀ v c, (fun i => sdir eps v i * c) = c • sdir eps v := fun v c => by ext i; simp; ring
  simp only [j2]
  rw [seq_rot hQ, eeq_rot hQ, h2, h2, rot_smul, h1]

section chab

variable {n : Nat}

theorem back_rot (Q : Matrix (Fin 3) (Fin 3) ℝ) (a : CH n → ℝ) (i : Fin n) :
    back (rotCH Q a) i = rot Q (back a i) := rfl

theorem backstress_rot (Q : Matrix (Fin 3) (Fin 3) ℝ) (a : CH n → ℝ) :
    backstress (rotCH Q a) = rot Q (backstress a) := by
  have h1 : ∀ a : CH n → ℝ, backstress a = ∑ i, back a i := by
    intro a; ext j; simp [backstress, back]
  rw [h1, h1, rot_sum]
  rfl

theorem effStress_rot (hQ : Orth Q) (s : Fin 6 → ℝ) (a : CH n → ℝ) :
    effStress (rot Q s) (rotCH Q a) = rot Q (effStress s a) := by
  have h1 : ∀ (s : Fin 6 → ℝ) (a : CH n → ℝ), effStress s a = devVec s + backstress a := fun _ _ => rfl
  rw [h1, h1, rot_add, devVec_rot hQ, backstress_rot]

variable (eps : ℝ) (iso : ChabIso) (c dc : Fin n → ℝ → ℝ) (gm : Fin n → Gamma)
  (rec : Fin n → ℝ → ℝ → ℝ) (ex : Fin n → ℝ → ℝ)

/-- **C87** Chaboche hardening: turned rates. -/
theorem C87_hardening (hQ : Orth Q) (s : Fin 6 → ℝ) (a : CH n → ℝ) (T : ℝ) :
    (chabBase eps iso c dc gm rec ex).q (rotCH Q a) T =
      rotQ Q ((chabBase eps iso c dc gm rec ex).q a T) ∧
    (chabBase eps iso c dc gm rec ex).h.v (rot Q s) (rotCH Q a) T =
      rotCH Q ((chabBase eps iso c dc gm rec ex).h.v s a T) ∧
    (chabBase eps iso c dc gm rec ex).h_time.v (rot Q s) (rotCH Q a) T =
      rotCH Q ((chabBase eps iso c dc gm rec ex).h_time.v s a T) ∧
    (chabBase eps iso c dc gm rec ex).h_temp.v (rot Q s) (rotCH Q a) T =
      rotCH Q ((chabBase eps iso c dc gm rec ex).h_temp.v s a T) := by
  refine ⟨?_, ?_, ?_, ?_⟩
  · ext (k | j)
    · rfl
    · exact congrFun (backstress_rot Q a) j
  · ext (k | ⟨i, j⟩)
    · rfl
    · have hb : back ((chabBase eps iso c dc gm rec ex).h.v s a T) i =
          (-2 / 3 * c i T) • normalize eps (effStress s a) -
            (√(2 / 3) * (gm i).gamma (a (.inl ())) T) • back a i := by
        ext j; simp [chabBase, back]
      have e1 : rotCH Q ((chabBase eps iso c dc gm rec ex).h.v s a T) (.inr (i, j)) =
          rot Q (back ((chabBase eps iso c dc gm rec ex).h.v s a T) i) j := rfl
      have e2 : (chabBase eps iso c dc gm rec ex).h.v (rot Q s) (rotCH Q a) T (.inr (i, j)) =
          -2 / 3 * c i T * normalize eps (effStress (rot Q s) (rotCH Q a)) j -
            √(2 / 3) * (gm i).gamma (a (.inl ())) T * rot Q (back a i) j := rfl
      rw [e1, e2, hb, rot_sub, rot_smul, rot_smul, ← normalize_rot hQ, effStress_rot hQ]
      rfl
  · ext (k | ⟨i, j⟩)
    · rfl
    · have hb : back ((chabBase eps iso c dc gm rec ex).h_time.v s a T) i =
          (-rec i T (norm2 (back a i))) • back a i := by
        ext j; simp [chabBase, back]
      simp only [rotCH, Sum.elim_inr, hb, rot_smul]
      simp only [chabBase, Sum.elim_inr, Pi.smul_apply, smul_eq_mul]
      rw [← norm2_rot hQ (back a i)]
      rfl
  · ext (k | ⟨i, j⟩)
    · rfl
    · have hb : back ((chabBase eps iso c dc gm rec ex).h_temp.v s a T) i =
          (if c i T = 0 then 0 else -√(2 / 3) * dc i T / c i T) • back a i := by
        ext j; by_cases hc : c i T = 0 <;> simp [chabBase, back, hc]
      simp only [rotCH, Sum.elim_inr, hb, rot_smul]
      by_cases hc : c i T = 0 <;> simp [chabBase, hc]

variable (fl : Fluidity) (m pre : ℝ → ℝ)

/-- **C87** the Chaboche flow rule: same rate, turned direction. -/
theorem C87_flow (hQ : Orth Q) (s : Fin 6 → ℝ) (a : CH n → ℝ) (T : ℝ) :
    let flow := chabocheFlow (isoKinJ2 eps) (chabBase eps iso c dc gm rec ex) fl m pre (.inl ())
    flow.y (rot Q s) (rotCH Q a) T = flow.y s a T ∧
    flow.g.v (rot Q s) (rotCH Q a) T = rot Q (flow.g.v s a T) := by
  have hq := (C87_hardening eps iso c dc gm rec ex hQ s a T).1
  have hs := C87_surface hQ eps s ((chabBase eps iso c dc gm rec ex).q a T) T
  simp only [chabocheFlow]
  rw [hq, hs.1, hs.2.1]
  exact ⟨rfl, rfl⟩

/-- **C87** the complete Chaboche material with isotropic elasticity: turned stress rate, turned history
rates, same plastic power. -/
theorem C87_material (hQ : Orth Q) (el : Elastic ℝ (Fin 6)) (G K : ℝ → ℝ)
    (hel : ∀ T, el.C T = isoC (G T) (K T)) (s : Fin 6 → ℝ) (a : CH n → ℝ) (ed : Fin 6 → ℝ) (T Td : ℝ) :
    let mat := tvp el
      (chabocheFlow (isoKinJ2 eps) (chabBase eps iso c dc gm rec ex) fl m pre (.inl ()))
    mat.s (rot Q s) (rotCH Q a) (rot Q ed) T Td = rot Q (mat.s s a ed T Td) ∧
    mat.a (rot Q s) (rotCH Q a) (rot Q ed) T Td = rotCH Q (mat.a s a ed T Td) ∧
    mat.work_rate (rot Q s) (rotCH Q a) (rot Q ed) T Td = mat.work_rate s a ed T Td := by
  intro mat
  obtain ⟨hy, hg⟩ := C87_flow eps iso c dc gm rec ex fl m pre hQ s a T
  obtain ⟨-, hh, ht, hT⟩ := C87_hardening eps iso c dc gm rec ex hQ s a T
  set flow := chabocheFlow (isoKinJ2 eps) (chabBase eps iso c dc gm rec ex) fl m pre (.inl ()) with hflow
  have hgt : ∀ s a, flow.g_time.v s a T = 0 := fun _ _ => rfl
  have hgT : ∀ s a, flow.g_temp.v s a T = 0 := fun _ _ => rfl
  have hh' : flow.h.v (rot Q s) (rotCH Q a) T = rotCH Q (flow.h.v s a T) := hh
  have ht' : flow.h_time.v (rot Q s) (rotCH Q a) T = rotCH Q (flow.h_time.v s a T) := ht
  have hT' : flow.h_temp.v (rot Q s) (rotCH Q a) T = rotCH Q (flow.h_temp.v s a T) := hT
  refine ⟨?_, ?_, ?_⟩
  · have e1 : ∀ s a ed, mat.s s a ed T Td = el.C T *ᵥ (ed - flow.y s a T • flow.g.v s a T) := by
      intro s a ed
      have e0 : mat.s s a ed T Td = el.C T *ᵥ fun i => ed i - flow.y s a T * flow.g.v s a T i -
          Td * flow.g_temp.v s a T i - flow.g_time.v s a T i := rfl
      rw [e0]
      congr 1
      ext i
      rw [hgt, hgT]
      simp
    rw [e1, e1, hel, hy, hg, ← rot_smul, ← rot_sub, C37_isotropic _ _ _ hQ]
  · have e1 : ∀ s a ed, mat.a s a ed T Td = flow.y s a T • flow.h.v s a T + Td • flow.h_temp.v s a T +
        flow.h_time.v s a T := by
      intro s a ed
      ext i
      simp only [mat, tvp, Pi.add_apply, Pi.smul_apply, smul_eq_mul]; ring
    rw [e1, e1, hy, hh', ht', hT']
    ext (k | ⟨i, j⟩)
    · rfl
    · have e2 : back (flow.y s a T • flow.h.v s a T + Td • flow.h_temp.v s a T + flow.h_time.v s a T) i =
          flow.y s a T • back (flow.h.v s a T) i + Td • back (flow.h_temp.v s a T) i +
            back (flow.h_time.v s a T) i := rfl
      simp only [rotCH, Sum.elim_inr, Pi.add_apply, Pi.smul_apply, smul_eq_mul, e2, rot_add, rot_smul]
  · have e1 : ∀ s a ed, mat.work_rate s a ed T Td = flow.y s a T * (s ⬝ᵥ flow.g.v s a T) := by
      intro s a ed
      have e0 : mat.work_rate s a ed T Td = s ⬝ᵥ inelasticRate flow s a T Td := rfl
      rw [e0]
      simp only [inelasticRate, dotProduct, Finset.mul_sum]
      refine Finset.sum_congr rfl fun i _ => ?_
      rw [hgt, hgT]
      simp only [Pi.zero_apply]
      ring
    rw [e1, e1, hy, hg, rot_dot hQ]

end chab

/-- The steps of an implicit integration: from stress and history through a list of strain rate,
temperature rate, temperature and step length, each step solving the integrator's equations. -/
inductive Path {ι κ : Type} (fl : GenFlow ℝ ι κ) :
    (ι → ℝ) × (κ → ℝ) → List ((ι → ℝ) × ℝ × ℝ × ℝ) → (ι → ℝ) × (κ → ℝ) → Prop
  | nil (x) : Path fl x [] x
  | cons {x y z : (ι → ℝ) × (κ → ℝ)} {ed : ι → ℝ} {Td T dt : ℝ} {rest : List ((ι → ℝ) × ℝ × ℝ × ℝ)}
      (step : giR fl ⟨ed, Td, dt, T, x.1, x.2⟩ (Sum.elim y.1 y.2) = 0)
      (tail : Path fl y rest z) : Path fl x ((ed, Td, T, dt) :: rest) z

/-- **C87** whole histories: if a strain history takes the Chaboche material from one state to another,
the turned strain history takes the turned state to the turned state. -/
theorem C87_histories {n : Nat} (hQ : Orth Q) (eps : ℝ) (iso : ChabIso) (c dc : Fin n → ℝ → ℝ)
    (gm : Fin n → Gamma) (rec : Fin n → ℝ → ℝ → ℝ) (ex : Fin n → ℝ → ℝ) (fl : Fluidity) (m pre : ℝ → ℝ)
    (el : Elastic ℝ (Fin 6)) (G K : ℝ → ℝ) (hel : ∀ T, el.C T = isoC (G T) (K T))
    (x y : (Fin 6 → ℝ) × (CH n → ℝ)) (drive : List ((Fin 6 → ℝ) × ℝ × ℝ × ℝ))
    (h : Path (tvp el (chabocheFlow (isoKinJ2 eps) (chabBase eps iso c dc gm rec ex) fl m pre (.inl ())))
      x drive y) :
    Path (tvp el (chabocheFlow (isoKinJ2 eps) (chabBase eps iso c dc gm rec ex) fl m pre (.inl ())))
      (rot Q x.1, rotCH Q x.2) (drive.map fun d => (rot Q d.1, d.2)) (rot Q y.1, rotCH Q y.2) := by
  induction h with
  | nil x => exact .nil _
  | @cons x y z ed Td T dt rest step tail ih =>
    refine .cons ?_ ih
    obtain ⟨hs, ha, -⟩ := C87_material eps iso c dc gm rec ex fl m pre hQ el G K hel y.1 y.2 ed T Td
    generalize tvp el (chabocheFlow (isoKinJ2 eps) (chabBase eps iso c dc gm rec ex) fl m pre (.inl ())) =
      mat at *
    have e1 : y.1 = x.1 + dt • mat.s y.1 y.2 ed T Td := by
      ext i
      have := congrFun step (.inl i)
      simp only [giR, Sum.elim_inl, Sum.elim_inr, Pi.zero_apply] at this
      simp only [Pi.add_apply, Pi.smul_apply, smul_eq_mul]
      linarith
    have e2 : y.2 = x.2 + dt • mat.a y.1 y.2 ed T Td := by
      ext i
      have := congrFun step (.inr i)
      simp only [giR, Sum.elim_inl, Sum.elim_inr, Pi.zero_apply] at this
      simp only [Pi.add_apply, Pi.smul_apply, smul_eq_mul]
      linarith
    have f1 : rot Q y.1 = rot Q x.1 + dt • mat.s (rot Q y.1) (rotCH Q y.2) (rot Q ed) T Td := by
      rw [hs, ← rot_smul, ← rot_add, ← e1]
    have f2 : rotCH Q y.2 = rotCH Q x.2 + dt • mat.a (rot Q y.1) (rotCH Q y.2) (rot Q ed) T Td := by
      rw [ha]
      nth_rewrite 1 [e2]
      ext (k | ⟨i, j⟩)
      · rfl
      · have e3 : back (x.2 + dt • mat.a y.1 y.2 ed T Td) i =
            back x.2 i + dt • back (mat.a y.1 y.2 ed T Td) i := rfl
        simp only [rotCH, Sum.elim_inr, Pi.add_apply, Pi.smul_apply, smul_eq_mul, e3, rot_add, rot_smul]
    ext (i | i)
    · have := congrFun f1 i
      simp only [Pi.add_apply, Pi.smul_apply, smul_eq_mul] at this
      simp only [giR, Sum.elim_inl, Sum.elim_inr, Pi.zero_apply]
      linarith
    · have := congrFun f2 i
      simp only [Pi.add_apply, Pi.smul_apply, smul_eq_mul] at this
      simp only [giR, Sum.elim_inl, Sum.elim_inr, Pi.zero_apply]
      linarith

end rotation

/-- A rotation that is not the identity, and a tensor it moves. -/
example : Orth !![0, -1, 0; 1, 0, 0; 0, 0, 1] ∧
    rot !![0, -1, 0; 1, 0, 0; 0, 0, 1] ![1, 0, 0, 0, 0, 0] = ![0, 1, 0, 0, 0, 0] := by
  constructor
  · unfold Orth
    ext i j
    fin_cases i <;> fin_cases j <;> simp [Matrix.mul_apply, Fin.sum_univ_succ]
  · ext i
    fin_cases i <;> simp [rot, sym, usym, Matrix.mul_apply, Fin.sum_univ_succ]

/-- A path of the integrator with elastic response: below yield the stress follows the strain. -/
example : Path (tvp (⟨fun _ => isoC 1 1, fun _ => isoS 1 1⟩ : Elastic ℝ (Fin 6))
      (chabocheFlow (isoKinJ2 1) (chaboche true 1 (linearIso (fun _ => 1000) 0) (n := 1) 0 0
        (fun _ => constantGamma 0) 0 0) (constantFluidity fun _ => 1) 0 0 (.inl ())))
    (0, 0) [(![0, 0, 0, 1, 0, 0], 0, 300, 1)] (![0, 0, 0, 2, 0, 0], 0) := by
  have hn : norm2 ![0, 0, 0, 2, 0, 0] = 2 := by
    have : (![0, 0, 0, 2, 0, 0] : Fin 6 → ℝ) ⬝ᵥ ![0, 0, 0, 2, 0, 0] = 2 * 2 := by
      simp [dotProduct, Fin.sum_univ_succ]
    rw [norm2, this, Real.sqrt_mul_self (by norm_num)]
  have hsh : shifted ![0, 0, 0, 2, 0, 0]
      ((chaboche true 1 (linearIso (fun _ => 1000) 0) (n := 1) 0 0 (fun _ => constantGamma 0) 0 0).q 0 300) =
      ![0, 0, 0, 2, 0, 0] := by
    ext i
    fin_cases i <;> simp [shifted, devVec, chaboche, chabBase, backstress]
  have hf : ¬ (isoKinJ2 1).f ![0, 0, 0, 2, 0, 0]
      ((chaboche true 1 (linearIso (fun _ => 1000) 0) (n := 1) 0 0 (fun _ => constantGamma 0) 0 0).q 0 300)
      300 > 0 := by
    simp only [isoKinJ2, hsh, hn]
    have h23 : (1 / 2 : ℝ) ≤ √(2 / 3) := Real.le_sqrt_of_sq_le (by norm_num)
    have hq : (chaboche true 1 (linearIso (fun _ => 1000) 0) (n := 1) 0 0 (fun _ => constantGamma 0) 0 0).q
        0 300 (.inl ()) = -1000 := by simp [chaboche, chabBase, linearIso]
    rw [hq]
    linarith
  refine .cons ?_ (.nil _)
  ext (i | i)
  · simp only [giR, tvp, chabocheFlow, Sum.elim_inl, Sum.elim_inr]
    rw [if_neg hf]
    fin_cases i <;> simp [isoC, mulVec, dotProduct, Fin.sum_univ_succ, Part.zero]
  · simp only [giR, tvp, chabocheFlow, Sum.elim_inl, Sum.elim_inr]
    rw [if_neg hf]
    rcases i with i | ⟨i, j⟩ <;> simp [chaboche, chabBase, Part.zero]

end Neml.Flow
