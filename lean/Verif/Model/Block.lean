import Verif.Model.Mandel

/-!
# Model of `block_evaluate` (src/block.cxx)

Arrays over the points of a block are functions of the point number. The loop over points runs in an
arbitrary order (it is an OpenMP parallel loop), one whole point at a time.
-/

namespace Neml.Block

open Matrix Neml.Mandel

/-- The inputs of one point, strains and stress in the model's notation. -/
structure Input (H : Type) where
  e1 : Fin 6 → ℝ
  e0 : Fin 6 → ℝ
  T1 : ℝ
  T0 : ℝ
  s0 : Fin 6 → ℝ
  h0 : H
  u0 : ℝ
  p0 : ℝ

/-- The buffers one `update_sd` call writes to. -/
structure Buf (H : Type) where
  s : Fin 6 → ℝ
  A : Matrix (Fin 6) (Fin 6) ℝ
  h : H
  u : ℝ
  p : ℝ

/-- `update_sd` at the common times: whether it threw, and the buffers after the call, which after
an error may hold anything and even on success may depend on what was there. -/
abbrev Update (H : Type) := Input H → Buf H → Bool × Buf H

/-- The inputs of one point as the caller gives them, strains and stress as 3 by 3 tensors. -/
structure TensorInput (H : Type) where
  e1 : Matrix (Fin 3) (Fin 3) ℝ
  e0 : Matrix (Fin 3) (Fin 3) ℝ
  T1 : ℝ
  T0 : ℝ
  s0 : Matrix (Fin 3) (Fin 3) ℝ
  h0 : H
  u0 : ℝ
  p0 : ℝ

/-- What the caller finds at one point afterwards. -/
structure Output (H : Type) where
  s : Matrix (Fin 3) (Fin 3) ℝ
  A : Matrix (Fin 9) (Fin 9) ℝ
  h : H
  u : ℝ
  p : ℝ

/-- block.cxx:194-199 `t2m` at one point. -/
noncomputable def t2m (s22 : ℝ) (X : Matrix (Fin 3) (Fin 3) ℝ) : Fin 6 → ℝ :=
  vec9 X ᵥ* t2mArray s22

/-- block.cxx:201-206 `m2t` at one point. -/
noncomputable def m2t (s22 : ℝ) (v : Fin 6 → ℝ) : Matrix (Fin 3) (Fin 3) ℝ :=
  mat9 (v ᵥ* m2tArray s22)

/-- block.cxx:161-163, the conversion of the inputs. -/
noncomputable def toInput {H : Type} (s22 : ℝ) (x : TensorInput H) : Input H :=
  ⟨t2m s22 x.e1, t2m s22 x.e0, x.T1, x.T0, t2m s22 x.s0, x.h0, x.u0, x.p0⟩

/-- block.cxx:171-181, the body of the loop at point `i`. -/
noncomputable def step {H : Type} {n : ℕ} (s22 : ℝ) (upd : Update H) (x : Fin n → TensorInput H)
    (st : Bool × (Fin n → Buf H)) (i : Fin n) : Bool × (Fin n → Buf H) :=
  let r := upd (toInput s22 (x i)) (st.2 i)
  (st.1 || r.1, Function.update st.2 i r.2)

/-- block.cxx:140-192 `block_evaluate`. `out0` is what the output arrays held before, `loc` what the
freshly allocated arrays for stress and tangent hold, `sched` the order in which the points are
processed. -/
noncomputable def blockEvaluate {H : Type} {n : ℕ} (s22 : ℝ) (upd : Update H)
    (x : Fin n → TensorInput H) (out0 : Fin n → Output H)
    (loc : Fin n → (Fin 6 → ℝ) × Matrix (Fin 6) (Fin 6) ℝ) (sched : List (Fin n)) :
    Fin n → Output H :=
  let st := sched.foldl (step s22 upd x)
    (false, fun i => ⟨(loc i).1, (loc i).2, (out0 i).h, (out0 i).u, (out0 i).p⟩)
  fun i =>
    if st.1 then ⟨(out0 i).s, (out0 i).A, (st.2 i).h, (st.2 i).u, (st.2 i).p⟩
    else ⟨m2t s22 (st.2 i).s, m42t4 s22 (st.2 i).A, (st.2 i).h, (st.2 i).u, (st.2 i).p⟩

end Neml.Block
