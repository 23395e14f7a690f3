import Verif.Model.Driver
import Mathlib.Data.Real.Sqrt
import Mathlib.LinearAlgebra.Matrix.NonsingularInverse

/-!
# Model of the large deformation driver (neml/drivers.py 1578-1641)

The material is a parameter and may raise. Exact reals.
-/

namespace Neml.LargeDriver

open Matrix Neml.Driver

variable {H : Type}

/-- 1607 the increment of the velocity gradient. -/
noncomputable def incL (F0 F1 : Matrix (Fin 3) (Fin 3) ℝ) : Matrix (Fin 3) (Fin 3) ℝ := (F1 - F0) * F1⁻¹

/-- 1608 the strain increment, as a matrix (`sym` puts it into Mandel form). -/
noncomputable def incD (F0 F1 : Matrix (Fin 3) (Fin 3) ℝ) : Matrix (Fin 3) (Fin 3) ℝ :=
  (1 / 2 : ℝ) • (incL F0 F1 + (incL F0 F1)ᵀ)

/-- 1609 the spin increment. -/
noncomputable def incW (F0 F1 : Matrix (Fin 3) (Fin 3) ℝ) : Matrix (Fin 3) (Fin 3) ℝ :=
  (1 / 2 : ℝ) • (incL F0 F1 - (incL F0 F1)ᵀ)

/-- 1630-1635 `sym`. -/
noncomputable def sym (A : Matrix (Fin 3) (Fin 3) ℝ) : Fin 6 → ℝ :=
  ![A 0 0, A 1 1, A 2 2, √2 * A 1 2, √2 * A 0 2, √2 * A 0 1]

/-- 1637-1641 `skew`. -/
def skew (A : Matrix (Fin 3) (Fin 3) ℝ) : Fin 3 → ℝ := ![-A 1 2, A 0 2, -A 0 1]

/-- What `update_ld_inc` gets from `def_grad_driver` (1611-1615); both temperatures are the same. -/
structure InL (H : Type) where
  d1 : Fin 6 → ℝ
  d0 : Fin 6 → ℝ
  w1 : Fin 3 → ℝ
  w0 : Fin 3 → ℝ
  T : ℝ
  t1 : ℝ
  t0 : ℝ
  s0 : Fin 6 → ℝ
  h0 : H
  u0 : ℝ
  p0 : ℝ

/-- What it returns, without the tangents. -/
structure OutL (H : Type) where
  s : Fin 6 → ℝ
  h : H
  u : ℝ
  p : ℝ

/-- The lists of `def_grad_driver` (1592-1599). -/
structure Large (H : Type) where
  time : Series ℝ
  stress : Series (Fin 6 → ℝ)
  F : Series (Matrix (Fin 3) (Fin 3) ℝ)
  D : Series (Fin 6 → ℝ)
  W : Series (Fin 3 → ℝ)
  history : Series H
  energy : Series ℝ
  dissipation : Series ℝ

open Classical in
/-- 1604-1624 one step; an inverse that does not exist raises. -/
noncomputable def Large.step (model : InL H → Option (OutL H)) (F : ℝ → Matrix (Fin 3) (Fin 3) ℝ) (dt T : ℝ)
    (r : Large H) : Option (Large H) :=
  let t := r.time.last + dt
  let F1 := F t
  if F1.det = 0 then none
  else
    let d1 := r.D.last + sym (incD r.F.last F1)
    let w1 := r.W.last + skew (incW r.F.last F1)
    (model ⟨d1, r.D.last, w1, r.W.last, T, t, r.time.last, r.stress.last, r.history.last, r.energy.last,
      r.dissipation.last⟩).map fun o =>
      ⟨r.time.push t, r.stress.push o.s, r.F.push F1, r.D.push d1, r.W.push w1, r.history.push o.h, r.energy.push o.u,
        r.dissipation.push o.p⟩

/-- `n` steps. -/
noncomputable def Large.steps (model : InL H → Option (OutL H)) (F : ℝ → Matrix (Fin 3) (Fin 3) ℝ) (dt T : ℝ) :
    Nat → Large H → Option (Large H)
  | 0, r => some r
  | n + 1, r => (r.step model F dt T).bind fun r' => Large.steps model F dt T n r'

/-- 1578-1628 `def_grad_driver`. -/
noncomputable def defGrad (model : InL H → Option (OutL H)) (init : H) (F : ℝ → Matrix (Fin 3) (Fin 3) ℝ) (tmax T : ℝ)
    (n : Nat) : Option (Large H) :=
  if n = 0 then none
  else Large.steps model F (tmax / n) T n
    ⟨⟨0, []⟩, ⟨0, []⟩, ⟨F 0, []⟩, ⟨0, []⟩, ⟨0, []⟩, ⟨init, []⟩, ⟨0, []⟩, ⟨0, []⟩⟩

end Neml.LargeDriver
