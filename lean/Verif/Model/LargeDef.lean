import Verif.Model.Mandel

/-!
# Model of the incremental large deformation update of small strain models (src/models.cxx)

The energy and dissipation are handed through from the small strain update unchanged and are left
out.
-/

namespace Neml.LargeDef

open Matrix Neml.Mandel

/-- What a large deformation caller keeps between steps: the stress, and the stored variables, the
first of which is the stress the small strain model returned (`small_stress`,
models.cxx:131 and 161-167). -/
structure State (H : Type) where
  s : Fin 6 → ℝ
  small : Fin 6 → ℝ
  h : H

/-- `update_sd` at fixed temperatures and times: new strain, old strain, old stress, old history to
new stress, new history and tangent; `none` is a thrown error. -/
abbrev SmallUpdate (H : Type) :=
  (Fin 6 → ℝ) → (Fin 6 → ℝ) → (Fin 6 → ℝ) → H →
    Option ((Fin 6 → ℝ) × H × Matrix (Fin 6) (Fin 6) ℝ)

/-- models.cxx:195-230 `calc_tangent_`. `inv` is `invert_mat`. -/
noncomputable def calcTangent
    (inv : Matrix (Fin 9) (Fin 9) ℝ → Option (Matrix (Fin 9) (Fin 9) ℝ))
    (D : Fin 6 → ℝ) (W : Fin 3 → ℝ) (C : Matrix (Fin 6) (Fin 6) ℝ) (S : Fin 6 → ℝ) :
    Option (Matrix (Fin 6) (Fin 6) ℝ × Matrix (Fin 6) (Fin 3) ℝ) :=
  match inv (truesdellMat D W) with
  | none => none
  | some J =>
    let O := truesdellTangentOuter S
    let dL := mandel2full C * idsym
    let T1 := dL + O
    let L := J * T1
    some (full2mandel (L * idsym), (2 : ℝ) • full2skew (L * idskew))

/-- models.cxx:106-139 `update_ld_inc`. -/
noncomputable def ldUpdate {H : Type} (truesdell : Bool) (sd : SmallUpdate H)
    (solve : Matrix (Fin 9) (Fin 9) ℝ → (Fin 9 → ℝ) → Option (Fin 9 → ℝ))
    (inv : Matrix (Fin 9) (Fin 9) ℝ → Option (Matrix (Fin 9) (Fin 9) ℝ))
    (d1 d0 : Fin 6 → ℝ) (w1 w0 : Fin 3 → ℝ) (x : State H) :
    Option (State H × Matrix (Fin 6) (Fin 6) ℝ × Matrix (Fin 6) (Fin 3) ℝ) :=
  let D := if truesdell then d1 - d0 else 0
  let W := w1 - w0
  match sd d1 d0 x.small x.h with
  | none => none
  | some (small1, h1, C) =>
    match truesdellUpdate solve D W x.s (small1 - x.small) with
    | none => none
    | some s1 =>
      match calcTangent inv D W C s1 with
      | none => none
      | some (A, B) => some (⟨s1, small1, h1⟩, A, B)

end Neml.LargeDef
