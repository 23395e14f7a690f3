import Verif.Model.Damage

/-!
# Model of the maximum principal stress (src/damage.cxx) and the eigenvalue routines (src/math/nemlmath.cxx)

LAPACK's `dsyev` is a parameter with its documentation as hypothesis (`Lapack.Right` in the properties). A failure of `dsyev`
raises and is not modelled.
-/

namespace Neml.Damage

open Neml.Mandel

/-- The results of `dsyev` for a full symmetric matrix: the eigenvalues, and the nine numbers the eigenvectors are left in. -/
structure Lapack where
  values : Matrix (Fin 3) (Fin 3) ℝ → Fin 3 → ℝ
  vectors : Matrix (Fin 3) (Fin 3) ℝ → Fin 9 → ℝ

/-- nemlmath.cxx:1137-1149 `eigenvalues_sym`. -/
noncomputable def eigenvaluesSym (L : Lapack) (s : Fin 6 → ℝ) : Fin 3 → ℝ := L.values (usym s)

/-- nemlmath.cxx:1151-1163 `eigenvectors_sym`. -/
noncomputable def eigenvectorsSym (L : Lapack) (s : Fin 6 → ℝ) : Fin 9 → ℝ := L.vectors (usym s)

open Classical in
/-- damage.cxx:811-825: the dyad of a vector with itself, over the squared length unless that is zero. -/
noncomputable def unitDyad (v : Fin 3 → ℝ) : Matrix (Fin 3) (Fin 3) ℝ :=
  let nf := v 0 * v 0 + v 1 * v 1 + v 2 * v 2
  let full : Matrix (Fin 3) (Fin 3) ℝ := .of fun i j => v i * v j
  if nf ≠ 0 then .of fun i j => full i j / nf else full

open Classical in
/-- damage.cxx:788-828 `MaxPrincipalEffectiveStress`. -/
noncomputable def maxPrincipal (L : Lapack) : Measure where
  eff s :=
    let eff := eigenvaluesSym L s 2
    if eff < 0 then 0 else eff
  deff s :=
    if eigenvaluesSym L s 2 < 0 then 0
    else
      let vectors := eigenvectorsSym L s
      sym (unitDyad fun i => vectors ⟨6 + i, by omega⟩)

end Neml.Damage
