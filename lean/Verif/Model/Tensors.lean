import Verif.Model.Mandel
import Mathlib.LinearAlgebra.Matrix.NonsingularInverse

/-!
# Model of the tensor classes of src/math/tensors.cxx and include/math/tensors.h

The storage of a tensor is written as a function of its indices: length 3 for `Vector` and `Skew`, 6 for `Symmetric`, 3 by 3
for `RankTwo`, 9 by 9 for `RankFour`, 6 by 6 for `SymSymR4`, 6 by 3 for `SymSkewR4`, 3 by 6 for `SkewSymR4`, 6 by 6 by 6 for
`SymSymSymR6` (row-major storage). `mat_mat` and `mat_vec` are exact matrix products, `invert_mat` is the exact inverse or an
exception. The overloads of an operation are the cases of one function; pairs without an overload give `none`. Ownership of the
storage is not part of this file (see `Model/TensorStore`); printing is not modelled.
-/

namespace Neml.Tensors

open Matrix Neml.Mandel

/-- The tensor classes of order one, two and four (tensors.h:66-537). -/
inductive Ten
  | vec (x : Fin 3 → ℝ)
  | two (A : Matrix (Fin 3) (Fin 3) ℝ)
  | sym (s : Fin 6 → ℝ)
  | skw (w : Fin 3 → ℝ)
  | four (C : Matrix (Fin 9) (Fin 9) ℝ)
  | ss (M : Matrix (Fin 6) (Fin 6) ℝ)
  | sw (M : Matrix (Fin 6) (Fin 3) ℝ)
  | ws (M : Matrix (Fin 3) (Fin 6) ℝ)

/-- tensors.cxx:646-656 `Symmetric(const RankTwo &)`. -/
noncomputable def symOf (A : Matrix (Fin 3) (Fin 3) ℝ) : Fin 6 → ℝ :=
  let S := (1 / 2 : ℝ) • (A + Aᵀ)
  ![S 0 0, S 1 1, S 2 2, S 1 2 * √2, S 0 2 * √2, S 0 1 * √2]

/-- tensors.cxx:658-676 `Symmetric::to_full`. -/
noncomputable def symFull (s : Fin 6 → ℝ) : Matrix (Fin 3) (Fin 3) ℝ :=
  !![s 0, s 5 / √2, s 4 / √2; s 5 / √2, s 1, s 3 / √2; s 4 / √2, s 3 / √2, s 2]

/-- tensors.cxx:858-865 `Skew(const RankTwo &)`. -/
noncomputable def skewOf (A : Matrix (Fin 3) (Fin 3) ℝ) : Fin 3 → ℝ :=
  let S := (1 / 2 : ℝ) • (A - Aᵀ)
  ![-S 1 2, S 0 2, -S 0 1]

/-- tensors.cxx:867-885 `Skew::to_full`. -/
def skewFull (w : Fin 3 → ℝ) : Matrix (Fin 3) (Fin 3) ℝ :=
  !![0, -w 2, w 1; w 2, 0, -w 0; -w 1, w 0, 0]

/-- The products of second order tensors with each other and with vectors: 404-432, 576-619, 728-750, 812-825, 915-937,
987-1000. -/
noncomputable def dot2 : Ten → Ten → Option Ten
  | .two A, .vec x => some (.vec (A *ᵥ x))
  | .vec x, .two A => some (.vec (Aᵀ *ᵥ x))
  | .two A, .two B => some (.two (A * B))
  | .two A, .sym s => some (.two (A * symFull s))
  | .two A, .skw w => some (.two (A * skewFull w))
  | .sym s, .vec x => some (.vec (symFull s *ᵥ x))
  | .vec x, .sym s => some (.vec (symFull s *ᵥ x))
  | .sym s, .two B => some (.two (symFull s * B))
  | .sym s, .skw w => some (.two (symFull s * skewFull w))
  | .sym s, .sym t => some (.sym (symOf (symFull s * symFull t)))
  | .skw w, .vec x => some (.vec (skewFull w *ᵥ x))
  | .vec x, .skw w => some (.vec (skewFull (-w) *ᵥ x))
  | .skw w, .two B => some (.two (skewFull w * B))
  | .skw w, .sym s => some (.two (skewFull w * symFull s))
  | .skw w, .skw u => some (.skw (skewOf (skewFull w * skewFull u)))
  | _, _ => none

/-- 1353-1360, 1569-1576, 1777-1784: the `RankFour` of a fourth order tensor. -/
noncomputable def full4 : Ten → Option (Matrix (Fin 9) (Fin 9) ℝ)
  | .four C => some C
  | .ss M => some (mandel2full M)
  | .sw M => some (skew2full M)
  | .ws M => some (wws2full M)
  | _ => none

/-- The `RankTwo` of a second order tensor. -/
noncomputable def full2 : Ten → Option (Matrix (Fin 3) (Fin 3) ℝ)
  | .two A => some A
  | .sym s => some (symFull s)
  | .skw w => some (skewFull w)
  | _ => none

/-- The products of fourth order tensors with each other and with second order tensors: 1157-1198, 1236-1269, 1362-1404,
1441-1474, 1578-1623, 1661-1694, 1786-1831, 1869-1902. Products in the reduced storage are made for `SymSymR4` only. -/
noncomputable def dot4 : Ten → Ten → Option Ten
  | .ss M, .ss N => some (.ss (M * N))
  | .ss M, .sym s => some (.sym (M *ᵥ s))
  | a, b => (full4 a).bind fun C =>
      match full4 b with
      | some D => some (.four (C * D))
      | none => (full2 b).map fun B => .two (mat9 (C *ᵥ vec9 B))

/-- `operator*` and `dot` of two tensors. -/
noncomputable def mul (a b : Ten) : Option Ten := (dot2 a b).orElse fun _ => dot4 a b

/-- 98-110 `operator*=`, and the `operator*` of all the classes with a scalar. -/
def smul (c : ℝ) : Ten → Ten
  | .vec x => .vec (c • x)
  | .two A => .two (c • A)
  | .sym s => .sym (c • s)
  | .skw w => .skw (c • w)
  | .four C => .four (c • C)
  | .ss M => .ss (c • M)
  | .sw M => .sw (c • M)
  | .ws M => .ws (c • M)

/-- 107-110 `operator/=`, and the `operator/` of all the classes. -/
noncomputable def sdiv (a : Ten) (c : ℝ) : Ten := smul (1 / c) a

/-- 119-124 `negate_`, `opposite`, unary minus. -/
def neg : Ten → Ten
  | .vec x => .vec (-x)
  | .two A => .two (-A)
  | .sym s => .sym (-s)
  | .skw w => .skw (-w)
  | .four C => .four (-C)
  | .ss M => .ss (-M)
  | .sw M => .sw (-M)
  | .ws M => .ws (-M)

/-- 112-117 `add_`, and the `operator+` of all the classes; 510-515, 524-529, 538-543, 552-557 for a `RankTwo` and another
tensor. -/
noncomputable def add : Ten → Ten → Option Ten
  | .vec x, .vec y => some (.vec (x + y))
  | .two A, .two B => some (.two (A + B))
  | .sym s, .sym t => some (.sym (s + t))
  | .skw w, .skw u => some (.skw (w + u))
  | .four C, .four D => some (.four (C + D))
  | .ss M, .ss N => some (.ss (M + N))
  | .sw M, .sw N => some (.sw (M + N))
  | .ws M, .ws N => some (.ws (M + N))
  | .two A, .sym s => some (.two (A + symFull s))
  | .two A, .skw w => some (.two (A + skewFull w))
  | .sym s, .two A => some (.two (A + symFull s))
  | .skw w, .two A => some (.two (A + skewFull w))
  | _, _ => none

/-- The `operator-` of all the classes: 517-522, 531-536, 545-550, 559-564 for a `RankTwo` and another tensor; the others add
the opposite. -/
noncomputable def sub : Ten → Ten → Option Ten
  | .sym s, .two B => some (.two (symFull s + -B))
  | .skw w, .two B => some (.two (skewFull w + -B))
  | a, b => add a (neg b)

/-- The `contract` of second order tensors: 460-475, 752-767, 939-952. -/
noncomputable def contract : Ten → Ten → Option ℝ
  | .sym s, .sym t => some (s ⬝ᵥ t)
  | a, b => (full2 a).bind fun A => (full2 b).map fun B => vec9 A ⬝ᵥ vec9 B

/-- 442-453, 707-710, 910-913, 1141-1150 `transpose`. -/
def transpose : Ten → Option Ten
  | .two A => some (.two Aᵀ)
  | .sym s => some (.sym s)
  | .skw w => some (.skw (-w))
  | .ss M => some (.ss Mᵀ)
  | _ => none

/-- 872-892 of nemlmath.cxx `invert_mat`: an exception for a singular matrix. -/
noncomputable def invertMat {n : ℕ} (A : Matrix (Fin n) (Fin n) ℝ) : Option (Matrix (Fin n) (Fin n) ℝ) :=
  open Classical in if A.det = 0 then none else some A⁻¹

/-- 434-440, 701-705, 1133-1139 `inverse`. -/
noncomputable def inverse : Ten → Option Ten
  | .two A => (invertMat A).map .two
  | .sym s => (invertMat (symFull s)).map fun B => .sym (symOf B)
  | .ss M => (invertMat M).map .ss
  | _ => none

/-- 712-715 `Symmetric::trace`. -/
def trace (s : Fin 6 → ℝ) : ℝ := s 0 + s 1 + s 2

/-- tensors.h:195 `Symmetric::id`. -/
def idSym : Fin 6 → ℝ := ![1, 1, 1, 0, 0, 0]

/-- 717-720 `Symmetric::dev`. -/
noncomputable def dev (s : Fin 6 → ℝ) : Fin 6 → ℝ := s - (trace s / 3) • idSym

/-- tensors.h:387-396 `SymSymR4::id_dev`. -/
noncomputable def idDev : Matrix (Fin 6) (Fin 6) ℝ :=
  !![1 - 1 / 3, -1 / 3, -1 / 3, 0, 0, 0; -1 / 3, 1 - 1 / 3, -1 / 3, 0, 0, 0; -1 / 3, -1 / 3, 1 - 1 / 3, 0, 0, 0;
     0, 0, 0, 1, 0, 0; 0, 0, 0, 0, 1, 0; 0, 0, 0, 0, 0, 1]

/-- 219-222, 455-458, 722-726 `norm`. -/
noncomputable def norm : Ten → Option ℝ
  | .vec x => some (√(x ⬝ᵥ x))
  | .two A => some (√(vec9 A ⬝ᵥ vec9 A))
  | .sym s => some (√(vec9 (symFull s) ⬝ᵥ vec9 (symFull s)))
  | _ => none

/-- 224-235 `Vector::cross`. -/
def cross (a b : Fin 3 → ℝ) : Fin 3 → ℝ := ![a 1 * b 2 - a 2 * b 1, a 2 * b 0 - a 0 * b 2, a 0 * b 1 - a 1 * b 0]

/-- 206-217 `Vector::outer`. -/
def outer (a b : Fin 3 → ℝ) : Matrix (Fin 3) (Fin 3) ℝ := fun i j => a i * b j

/-- 237-244 `Vector::normalize`. -/
noncomputable def normalize (x : Fin 3 → ℝ) : Fin 3 → ℝ := fun i => x i / √(x ⬝ᵥ x)

/-- 1476-1486, 1904-1914 `douter`. -/
def douter : Ten → Ten → Option Ten
  | .sym s, .sym t => some (.ss fun i j => s i * t j)
  | .skw w, .sym t => some (.ws fun i j => w i * t j)
  | _, _ => none

/-- 1101-1126 `to_sym`, `to_symskew`, `to_skewsym`. -/
noncomputable def toSym (C : Matrix (Fin 9) (Fin 9) ℝ) : Ten := .ss (full2mandel C)
/-- 1110-1117. -/
noncomputable def toSymSkew (C : Matrix (Fin 9) (Fin 9) ℝ) : Ten := .sw (full2skew C)
/-- 1119-1126. -/
noncomputable def toSkewSym (C : Matrix (Fin 9) (Fin 9) ℝ) : Ten := .ws (full2wws C)

/-! ## Tensors of order six -/

/-- Storage of a `SymSymSymR6`. -/
abbrev Six := Fin 6 → Fin 6 → Fin 6 → ℝ

/-- 2076-2089 `dot_i`. -/
def dotI (T : Six) (s : Fin 6 → ℝ) : Matrix (Fin 6) (Fin 6) ℝ := fun j k => ∑ i, T i j k * s i
/-- 2091-2104 `dot_j`. -/
def dotJ (T : Six) (s : Fin 6 → ℝ) : Matrix (Fin 6) (Fin 6) ℝ := fun i k => ∑ j, T i j k * s j
/-- 2106-2119 `dot_k`. -/
def dotK (T : Six) (s : Fin 6 → ℝ) : Matrix (Fin 6) (Fin 6) ℝ := fun i j => ∑ k, T i j k * s k
/-- 2156-2169 `outer_product_k`. -/
def outerK (M : Matrix (Fin 6) (Fin 6) ℝ) (s : Fin 6 → ℝ) : Six := fun i j k => M i j * s k

/-! ## Comparison -/

/-- nemlmath.cxx:1106-1109 `isclose` with the tolerances of nemlmath.h:175-176. -/
def isclose (a b : ℝ) : Prop := |a - b| ≤ 1 / 10 ^ 8 + 1 / 10 ^ 5 * |b|

/-- tensors.cxx:126-133 `operator==` for the storage of two tensors. -/
def eqv (a b : List ℝ) : Prop := a.length = b.length ∧ ∀ i, (h : i < a.length) → (h' : i < b.length) → isclose a[i] b[i]

end Neml.Tensors
