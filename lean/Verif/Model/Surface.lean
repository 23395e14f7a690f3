import Verif.Model.Mandel
import Mathlib.Data.Matrix.ColumnRowPartitioned
import Mathlib.Analysis.SpecialFunctions.Pow.Real

/-!
# Model of the yield surfaces in src/surfaces.cxx and include/surfaces.h

Stresses are Mandel vectors. The hardening variables of a combined surface are indexed by
`Unit ⊕ Fin 6`: `inl ()` is `q[0]`, `inr j` is `q[j+1]`. `eps` is the smallest positive double
distinguished by `normalize_vec`; the theorems hold for every positive value of it.
-/

namespace Neml.Flow

open Matrix Neml.Mandel

/-- surfaces.h: the interface `YieldSurface`: value, gradients and second derivatives. The last
argument is the temperature. -/
structure Surface (ι κ : Type) where
  f : (ι → ℝ) → (κ → ℝ) → ℝ → ℝ
  df_ds : (ι → ℝ) → (κ → ℝ) → ℝ → ι → ℝ
  df_dq : (ι → ℝ) → (κ → ℝ) → ℝ → κ → ℝ
  df_dsds : (ι → ℝ) → (κ → ℝ) → ℝ → Matrix ι ι ℝ
  df_dsdq : (ι → ℝ) → (κ → ℝ) → ℝ → Matrix ι κ ℝ
  df_dqds : (ι → ℝ) → (κ → ℝ) → ℝ → Matrix κ ι ℝ
  df_dqdq : (ι → ℝ) → (κ → ℝ) → ℝ → Matrix κ κ ℝ

/-- math/nemlmath.cxx `norm2_vec`. -/
noncomputable def norm2 (v : Fin 6 → ℝ) : ℝ := √(v ⬝ᵥ v)

/-- math/nemlmath.cxx:818-828 `normalize_vec`. -/
noncomputable def normalize (eps : ℝ) (v : Fin 6 → ℝ) : Fin 6 → ℝ :=
  if |norm2 v| < eps then 0 else fun i => v i / norm2 v

/-- Index set of the hardening variables of the combined surfaces. -/
abbrev Q7 := Unit ⊕ Fin 6

/-- surfaces.cxx:68-72: the deviator of the stress plus the backstress variables. -/
noncomputable def shifted (s : Fin 6 → ℝ) (q : Q7 → ℝ) : Fin 6 → ℝ :=
  fun i => devVec s i + q (.inr i)

/-- surfaces.cxx:105-118: the vectors `iv` and `jv`; identity minus their outer product. -/
noncomputable def devProj : Matrix (Fin 6) (Fin 6) ℝ :=
  1 - vecMulVec ![1 / 3, 1 / 3, 1 / 3, 0, 0, 0] ![1, 1, 1, 0, 0, 0]

/-- surfaces.cxx:65-212 `IsoKinJ2`. -/
noncomputable def isoKinJ2 (eps : ℝ) : Surface (Fin 6) Q7 where
  f s q _ := norm2 (shifted s q) + √(2 / 3) * q (.inl ())
  df_ds s q _ := normalize eps (shifted s q)
  df_dq s q _ := Sum.elim (fun _ => √(2 / 3)) (normalize eps (shifted s q))
  df_dsds s q _ :=
    let n := normalize eps (shifted s q)
    if norm2 (shifted s q) > 0 then (1 / norm2 (shifted s q)) • (devProj - vecMulVec n n) else 0
  df_dsdq s q _ :=
    let n := normalize eps (shifted s q)
    if norm2 (shifted s q) > 0 then
      fromCols 0 ((1 / norm2 (shifted s q)) • (1 - vecMulVec n n)) else 0
  df_dqds s q _ :=
    let n := normalize eps (shifted s q)
    fromRows 0
      (if norm2 (shifted s q) > 0 then (1 / norm2 (shifted s q)) • (devProj - vecMulVec n n) else 0)
  df_dqdq s q _ :=
    let n := normalize eps (shifted s q)
    if norm2 (shifted s q) > 0 then
      fromBlocks 0 0 0 ((1 / norm2 (shifted s q)) • (1 - vecMulVec n n)) else 0

/-- surfaces.cxx:249-447, the mean stress term: `copysign(h |x|^l, x)` for `h ≥ 0`. -/
noncomputable def meanTerm (h l x : ℝ) : ℝ := if 0 ≤ x then |h * |x| ^ l| else -|h * |x| ^ l|

/-- Sum of the three normal components. -/
def tr3 (s : Fin 6 → ℝ) : ℝ := s 0 + s 1 + s 2

/-- surfaces.cxx:249-447 `IsoKinJ2I1`: `h` and `l` are the coefficient functions of temperature. The
second derivatives divide by the norm without a guard. -/
noncomputable def isoKinJ2I1 (eps : ℝ) (h l : ℝ → ℝ) : Surface (Fin 6) Q7 where
  f s q T := norm2 (shifted s q) + √(2 / 3) * q (.inl ()) + meanTerm (h T) (l T) (tr3 s)
  df_ds s q T := fun i => normalize eps (shifted s q) i +
    (if i.val < 3 then h T * l T * |tr3 s| ^ (l T - 1) else 0)
  df_dq s q _ := Sum.elim (fun _ => √(2 / 3)) (normalize eps (shifted s q))
  df_dsds s q T :=
    let n := normalize eps (shifted s q)
    let d := |h T * l T * (l T - 1) * |tr3 s| ^ (l T - 2)|
    let d' := if 0 ≤ tr3 s then d else -d
    (1 / norm2 (shifted s q)) • (devProj - vecMulVec n n) +
      vecMulVec ![d', d', d', 0, 0, 0] ![1, 1, 1, 0, 0, 0]
  df_dsdq s q _ :=
    let n := normalize eps (shifted s q)
    fromCols 0 ((1 / norm2 (shifted s q)) • (1 - vecMulVec n n))
  df_dqds s q _ :=
    let n := normalize eps (shifted s q)
    fromRows 0 ((1 / norm2 (shifted s q)) • (devProj - vecMulVec n n))
  df_dqdq s q _ :=
    let n := normalize eps (shifted s q)
    fromBlocks 0 0 0 ((1 / norm2 (shifted s q)) • (1 - vecMulVec n n))

/-- surfaces.h:154-160 `expand_hist_`: no backstress. -/
def expandHist (q : Unit → ℝ) : Q7 → ℝ := Sum.elim q 0

/-- surfaces.h:59-165 `IsoFunction`: a combined surface used with isotropic hardening only. -/
def isoFunction (base : Surface (Fin 6) Q7) : Surface (Fin 6) Unit where
  f s q T := base.f s (expandHist q) T
  df_ds s q T := base.df_ds s (expandHist q) T
  df_dq s q T := fun _ => base.df_dq s (expandHist q) T (.inl ())
  df_dsds s q T := base.df_dsds s (expandHist q) T
  df_dsdq s q T := Matrix.of fun i _ => base.df_dsdq s (expandHist q) T i (.inl ())
  df_dqds s q T := Matrix.of fun _ j => base.df_dqds s (expandHist q) T (.inl ()) j
  df_dqdq s q T := Matrix.of fun _ _ => base.df_dqdq s (expandHist q) T (.inl ()) (.inl ())

/-- surfaces.h:225-243 `IsoJ2`. -/
noncomputable def isoJ2 (eps : ℝ) : Surface (Fin 6) Unit := isoFunction (isoKinJ2 eps)

end Neml.Flow
