import Mathlib.LinearAlgebra.Matrix.NonsingularInverse
import Mathlib.Analysis.Real.Sqrt

/-!
Linear algebra on flat arrays (src/math/nemlmath.cxx).

The arrays of the library hold matrices by rows. The BLAS and LAPACK routines read arrays by columns,
with a leading dimension. An array is a function from positions to numbers. The BLAS routines are
modelled by their reference documentation: what they write where, what they leave alone, and the check
of the leading dimensions, which must be at least one even for empty matrices. A failed check calls
`XERBLA`, the result `none`. The LAPACK solvers are modelled by what they compute in exact arithmetic.

Not modelled: rounding, allocation of the work arrays, strides other than one, arguments that overlap
(no caller passes any).
-/

namespace Neml.Blas

/-- `CINDEX`: position of an entry of a matrix with `n` columns (include/math/nemlmath.h:11). -/
def cindex (i j n : ℕ) : ℕ := j + i * n

section Ring
variable {K : Type*} [CommRing K]

/-- Entry of an array read by columns with leading dimension `ld`, transposed or not (reference BLAS). -/
def entry (tr : Bool) (A : ℕ → K) (ld i j : ℕ) : K := if tr then A (j + i * ld) else A (i + j * ld)

/-- `dgemm`: `C := α op(A) op(B) + β C` (reference BLAS, declared in include/math/nemlmath.h:23). -/
def dgemm (ta tb : Bool) (m n k : ℕ) (α : K) (A : ℕ → K) (lda : ℕ) (B : ℕ → K) (ldb : ℕ) (β : K) (C : ℕ → K)
    (ldc : ℕ) : Option (ℕ → K) :=
  if lda < max 1 (if ta then k else m) ∨ ldb < max 1 (if tb then n else k) ∨ ldc < max 1 m then none
  else some fun p => if p % ldc < m ∧ p / ldc < n then
    α * ∑ l ∈ Finset.range k, entry ta A lda (p % ldc) l * entry tb B ldb l (p / ldc) + β * C p else C p

/-- `dgemv`: `y := α op(A) x + β y` for an `m` by `n` matrix read by columns (reference BLAS, declared in
include/math/nemlmath.h:22). -/
def dgemv (tr : Bool) (m n : ℕ) (α : K) (A : ℕ → K) (lda : ℕ) (x : ℕ → K) (β : K) (y : ℕ → K) :
    Option (ℕ → K) :=
  if lda < max 1 m then none
  else some fun p => if p < (if tr then n else m) then
    α * ∑ l ∈ Finset.range (if tr then m else n), entry tr A lda p l * x l + β * y p else y p

/-- `dger`: `A := A + α x yᵀ` for an `m` by `n` matrix read by columns (reference BLAS, declared in
include/math/nemlmath.h:24). -/
def dger (m n : ℕ) (α : K) (x y A : ℕ → K) (lda : ℕ) : Option (ℕ → K) :=
  if lda < max 1 m then none
  else some fun p => if p % lda < m ∧ p / lda < n then A p + α * x (p % lda) * y (p / lda) else A p

/-- `outer_vec`: two loops that set every entry (nemlmath.cxx:838-845). -/
def outerVec (a : ℕ → K) (na : ℕ) (b : ℕ → K) (nb : ℕ) (C : ℕ → K) : ℕ → K :=
  (List.range na).foldl (fun C i => (List.range nb).foldl (fun C j =>
    Function.update C (cindex i j nb) (a i * b j)) C) C

/-- `outer_update` (nemlmath.cxx:848-852). -/
def outerUpdate (a : ℕ → K) (na : ℕ) (b : ℕ → K) (nb : ℕ) (C : ℕ → K) : Option (ℕ → K) :=
  dger nb na 1 b a C nb

/-- `outer_update_minus` (nemlmath.cxx:854-858). -/
def outerUpdateMinus (a : ℕ → K) (na : ℕ) (b : ℕ → K) (nb : ℕ) (C : ℕ → K) : Option (ℕ → K) :=
  dger nb na (-1) b a C nb

/-- `mat_vec` (nemlmath.cxx:860-864). -/
def matVec (A : ℕ → K) (m : ℕ) (b : ℕ → K) (n : ℕ) (c : ℕ → K) : Option (ℕ → K) :=
  dgemv true n m 1 A n b 0 c

/-- `mat_vec_trans` (nemlmath.cxx:866-870). -/
def matVecTrans (A : ℕ → K) (m : ℕ) (b : ℕ → K) (n : ℕ) (c : ℕ → K) : Option (ℕ → K) :=
  dgemv false m n 1 A m b 0 c

/-- `mat_mat` (nemlmath.cxx:894-898). -/
def matMat (m n k : ℕ) (A B C : ℕ → K) : Option (ℕ → K) :=
  dgemm false false n m k 1 B n A k 0 C n

/-- `mat_mat_ABT` (nemlmath.cxx:900-905). -/
def matMatABT (m n k : ℕ) (A B C : ℕ → K) : Option (ℕ → K) :=
  dgemm true false n m k 1 B k A k 0 C n

/-- `rotate_matrix`; `temp` is the work array as `new` returns it (nemlmath.cxx:1111-1126). -/
def rotateMatrix (m n : ℕ) (A B C temp : ℕ → K) : Option (ℕ → K) :=
  match dgemm true false m n n 1 A n B n 0 temp m with
  | none => none
  | some temp => dgemm false false m m n 1 temp m A n 0 C m

/-- The table of `qmult_vec` (nemlmath.cxx:1082-1101). -/
def qtable (B : ℕ → K) : ℕ → K
  | 0 => B 0 | 4 => -B 1 | 8 => -B 2 | 12 => -B 3
  | 1 => B 1 | 5 => B 0 | 9 => B 3 | 13 => -B 2
  | 2 => B 2 | 6 => -B 3 | 10 => B 0 | 14 => B 1
  | 3 => B 3 | 7 => B 2 | 11 => -B 1 | 15 => B 0
  | _ => 0

/-- `qmult_vec` (nemlmath.cxx:1079-1104). -/
def qmultVec (As B : ℕ → K) (n : ℕ) (Cs : ℕ → K) : Option (ℕ → K) :=
  dgemm false false 4 n 4 1 (qtable B) 4 As 4 0 Cs 4

end Ring

section Field
variable {K : Type*} [Field K]

/-- How a call that factors a matrix ends: the new contents of the array, the exception `LinalgError`
with the contents it leaves, or `XERBLA`. -/
inductive Out (K : Type*) where
  | ok (x : ℕ → K)
  | error (x : ℕ → K)
  | illegal

/-- The `n` by `n` matrix that LAPACK sees in an array (reference LAPACK). -/
def byColumns (n : ℕ) (A : ℕ → K) : Matrix (Fin n) (Fin n) K := Matrix.of fun i j => A (i + j * n)

open Classical in
/-- `dgesv` with one right hand side and leading dimension `n`: the flag `info` and the array of the
unknowns, which is not touched when the matrix is singular (reference LAPACK, declared in
include/math/nemlmath.h:21). -/
noncomputable def dgesv (n : ℕ) (A x : ℕ → K) : Option (ℕ × (ℕ → K)) :=
  if n < 1 then none
  else if (byColumns n A).det = 0 then some (1, x)
  else some (0, fun p => if h : p < n then ((byColumns n A)⁻¹.mulVec fun i => x i) ⟨p, h⟩ else x p)

open Classical in
/-- `dgetrf` followed by `dgetri`: the flag `info` and the array, with the inverse, or with what the
factorisation left there, `lu`, when the matrix is singular (reference LAPACK, declared in
include/math/nemlmath.h:19-20). -/
noncomputable def dgetri (lu : (ℕ → K) → ℕ → K) (n : ℕ) (A : ℕ → K) : Option (ℕ × (ℕ → K)) :=
  if n < 1 then none
  else if (byColumns n A).det = 0 then some (1, lu A)
  else some (0, fun p => if h : p % n < n ∧ p / n < n then (byColumns n A)⁻¹ ⟨p % n, h.1⟩ ⟨p / n, h.2⟩ else A p)

/-- `invert_mat` (nemlmath.cxx:872-892). -/
noncomputable def invertMat (lu : (ℕ → K) → ℕ → K) (A : ℕ → K) (n : ℕ) : Out K :=
  match dgetri lu n A with
  | none => .illegal
  | some (info, A) => if info > 0 then .error A else .ok A

/-- The transposed copy that `solve_mat` and `condition` make; `B` is the array as `new` returns it
(nemlmath.cxx:911-916, 938-943). -/
def transposed (A : ℕ → K) (n : ℕ) (B : ℕ → K) : ℕ → K :=
  (List.range n).foldl (fun B i => (List.range n).foldl (fun B j =>
    Function.update B (cindex i j n) (A (cindex j i n))) B) B

/-- `solve_mat` (nemlmath.cxx:907-924). -/
noncomputable def solveMat (A : ℕ → K) (n : ℕ) (x B : ℕ → K) : Out K :=
  match dgesv n (transposed A n B) x with
  | none => .illegal
  | some (info, x) => if info > 0 then .error x else .ok x

end Field

section Real

/-- The largest column sum, the norm `dgecon` uses when asked for "1" (reference LAPACK). -/
noncomputable def norm1 {n : ℕ} (M : Matrix (Fin n) (Fin n) ℝ) : ℝ := ⨆ j, ∑ i, |M i j|

/-- The norm in `condition`: the loop over the rows (nemlmath.cxx:946-955). -/
noncomputable def anorm (A : ℕ → ℝ) (n : ℕ) : ℝ :=
  (List.range n).foldl (fun a i =>
    let csum := (List.range n).foldl (fun c j => c + |A (cindex i j n)|) 0
    if csum > a then csum else a) 0

/-- `condition` of a matrix that is not singular. `dgecon` returns the reciprocal of the norm it is given
times an estimate of the norm of the inverse, here taken to be exact (nemlmath.cxx:929-975). -/
noncomputable def condition (A : ℕ → ℝ) (n : ℕ) (B : ℕ → ℝ) : ℝ :=
  let rcond := 1 / (anorm A n * norm1 (byColumns n (transposed A n B))⁻¹)
  1 / rcond

/-- `usym` (nemlmath.cxx:750-761). -/
noncomputable def usym (v : ℕ → ℝ) : ℕ → ℝ
  | 0 => v 0
  | 1 => v 5 / √2
  | 2 => v 4 / √2
  | 3 => v 5 / √2
  | 4 => v 1
  | 5 => v 3 / √2
  | 6 => v 4 / √2
  | 7 => v 3 / √2
  | 8 => v 2
  | _ => 0

/-- `I1` (nemlmath.cxx:1165-1168). -/
def i1 (s : ℕ → ℝ) : ℝ := s 0 + s 1 + s 2

/-- `I2`; `F2` is the work array as it is found on the stack (nemlmath.cxx:1170-1182). -/
noncomputable def i2 (s F2 : ℕ → ℝ) : Option ℝ :=
  let F := usym s
  let tr1 := F 0 + F 4 + F 8
  match matMat 3 3 3 F F F2 with
  | none => none
  | some F2 =>
    let tr2 := F2 0 + F2 4 + F2 8
    some (1 / 2 * (tr1 * tr1 - tr2))

end Real
end Neml.Blas
