import Verif.Model.Damage
import Verif.Model.SolveStep

/-!
# Model of the scalar damaged model with its solver

`Model/Damage.lean` takes the nonlinear solver as a parameter. Here it is the Newton iteration of `Model/Newton.lean`,
started where the model starts it.
-/

namespace Neml.DamageStep

open Matrix Neml.SmallStrain Neml.Damage

variable {H : Type}

/-- damage.cxx:154-230 `nparams`, `init_x` and `RJ`: the seven unknowns are the stress and then the damage. An error of
the base model leaves the solver. -/
noncomputable def damSystem (base : Model ℝ (Fin 6) H) (dm : Rule (Fin 6)) (e1 e0 s0 : Fin 6 → ℝ) (w0 : ℝ) (h0 : H)
    (u0 p0 : ℝ) : Newton.System 7 where
  init i := initX dm s0 w0 (SolveStep.ppIndex.symm i)
  RJ x := (damRJ base dm e1 e0 s0 w0 h0 u0 p0 fun a => x (SolveStep.ppIndex a)).map fun r =>
    (fun i => r.1 (SolveStep.ppIndex.symm i), r.2.submatrix SolveStep.ppIndex.symm SolveStep.ppIndex.symm)

/-- damage.cxx:103-106 the call of `solve`. -/
noncomputable def damSolve (base : Model ℝ (Fin 6) H) (dm : Rule (Fin 6))
    (lin : Matrix (Fin 7) (Fin 7) ℝ → (Fin 7 → ℝ) → Option (Fin 7 → ℝ)) (p : Newton.Params) (fuel : ℕ)
    (e1 e0 s0 : Fin 6 → ℝ) (w0 : ℝ) (h0 : H) (u0 p0 : ℝ) : Option (Fin 6 ⊕ Unit → ℝ) :=
  match Newton.newton (damSystem base dm e1 e0 s0 w0 h0 u0 p0) lin p fuel with
  | some (.ok it) => some fun a => it.x (SolveStep.ppIndex a)
  | _ => none

/-- damage.cxx:86-137 `NEMLScalarDamagedModel_sd::update_sd_actual` with its solver. -/
noncomputable def damStep (op : Options (Fin 6)) (base : Model ℝ (Fin 6) H) (dm : Rule (Fin 6))
    (lin : Matrix (Fin 7) (Fin 7) ℝ → (Fin 7 → ℝ) → Option (Fin 7 → ℝ)) (p : Newton.Params) (fuel : ℕ)
    (inv : Matrix (Fin 6) (Fin 6) ℝ → Option (Matrix (Fin 6) (Fin 6) ℝ)) : Model ℝ (Fin 6) (ℝ × H) :=
  damUpdate op base dm (damSolve base dm lin p fuel) inv

end Neml.DamageStep
