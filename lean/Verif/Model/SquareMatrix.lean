import Mathlib.Algebra.BigOperators.Group.List.Basic
import Mathlib.Algebra.BigOperators.Fin
import Mathlib.Algebra.Ring.Basic
import Mathlib.Logic.Function.Basic

/-!
# Model of matrices and vectors (src/math/matrix.cxx, include/math/matrix.h, src/math/matrix_wrap.cxx)

The memory of a matrix is a function on addresses; `junk` is what the allocation leaves there. Exceptions are `none`.
Reading a list of parameters past its end does not happen (the sizes are checked before); the model reads zero there.
-/

namespace Neml.SquareMatrix

variable {K : Type} [Semiring K]

/-- The memory of a matrix. -/
abbrev Mem (K : Type) := ℕ → K

/-- nemlmath.h:11 `CINDEX`. -/
def cindex (i j n : ℕ) : ℕ := j + i * n

/-- `std::fill` of the first `n` numbers. -/
def fill (n : ℕ) (x : K) (d : Mem K) : Mem K := fun k => if k < n then x else d k

/-- matrix.cxx:77-85 `operator()`, Python's `M(i, j)`, of an `m` by `n` matrix. -/
def call (m _n : ℕ) (d : Mem K) (i j : ℕ) : K := d (cindex i j m)

/-- matrix_wrap.cxx:44-53: the entry of the array that Python sees, from shape and strides. -/
def view (_m n : ℕ) (d : Mem K) (i j : ℕ) : K := d (i * n + j)

/-- nemlmath.cxx:860-864 `mat_vec`: `dgemv` with the transposed `n` by `m` matrix stored by columns. -/
def matVec (d : Mem K) (_m : ℕ) (b : Mem K) (n : ℕ) : Mem K := fun i => ((List.range n).map fun k => d (k + i * n) * b k).sum

/-- matrix.cxx:68-75 `matvec`, for vectors of length `nb` and `nr`. -/
def matvec (m n : ℕ) (d : Mem K) (nb : ℕ) (b : Mem K) (nr : ℕ) : Option (Mem K) :=
  if nb ≠ n ∨ nr ≠ m then none else some (matVec d m b n)

/-- matrix.cxx:61-66 `dot`: the result and its length. -/
def dot (m n : ℕ) (d : Mem K) (nb : ℕ) (b : Mem K) : Option (ℕ × Mem K) := (matvec m n d nb b m).map fun r => (m, r)

/-- matrix.cxx:142-148 `setup_id_`. -/
def setupId (m : ℕ) (d : Mem K) : Mem K :=
  (List.range m).foldl (fun d i => Function.update d (cindex i i m) 1) (fill (m * m) 0 d)

/-- matrix.cxx:150-160 `setup_diagonal_`. -/
def setupDiagonal (m : ℕ) (data : List K) (d : Mem K) : Option (Mem K) :=
  if data.length ≠ m then none
  else some ((List.range m).foldl (fun d i => Function.update d (cindex i i m) (data.getD i 0)) (fill (m * m) 0 d))

/-- matrix.cxx:210-220 `check_blocks_`. -/
def checkBlocks (m : ℕ) (blocks : List ℕ) : Bool := blocks.foldl (· + ·) 0 = m

/-- matrix.cxx:172-180, the loops of `setup_diagonal_blocks_` from `ci` and `cb` on. -/
def diagonalLoop (m : ℕ) (data : List K) (blocks : List ℕ) (st : ℕ × ℕ × Mem K) : ℕ × ℕ × Mem K :=
  blocks.foldl (fun st bs =>
    let s := (List.range bs).foldl (fun (s : ℕ × Mem K) _ =>
      (s.1 + 1, Function.update s.2 (cindex s.1 s.1 m) (data.getD st.2.1 0))) (st.1, st.2.2)
    (s.1, st.2.1 + 1, s.2)) st

/-- matrix.cxx:162-182 `setup_diagonal_blocks_`. -/
def setupDiagonalBlocks (m : ℕ) (data : List K) (blocks : List ℕ) (d : Mem K) : Option (Mem K) :=
  if blocks.length ≠ data.length then none
  else if ¬ checkBlocks m blocks then none
  else some (diagonalLoop m data blocks (0, 0, fill (m * m) 0 d)).2.2

/-- matrix.cxx:222-228 `offsets_`. -/
def offsets (blocks : List ℕ) : List ℕ := blocks.scanl (· + ·) 0

/-- The numbers from `a` below `b`, for `for (i = a; i < b; i++)`. -/
def upTo (a b : ℕ) : List ℕ := List.range' a (b - a)

/-- matrix.cxx:184-208 `setup_block_`; it does not clear the memory first. -/
def setupBlock (m : ℕ) (data : List K) (blocks : List ℕ) (d : Mem K) : Option (Mem K) :=
  if data.length ≠ blocks.length * blocks.length then none
  else if ¬ checkBlocks m blocks then none
  else
    let o := offsets blocks
    some ((List.range blocks.length).foldl (fun d bi => (List.range blocks.length).foldl (fun d bj =>
      (upTo (o.getD bi 0) (o.getD (bi + 1) 0)).foldl (fun d i =>
        (upTo (o.getD bj 0) (o.getD (bj + 1) 0)).foldl (fun d j =>
          Function.update d (cindex i j m) (data.getD (cindex bi bj blocks.length) 0)) d) d) d) d)

/-- matrix.cxx:87-121, the constructor of `SquareMatrix`. -/
def build (m : ℕ) (type : String) (data : List K) (blocks : List ℕ) (junk : Mem K) : Option (Mem K) :=
  if type = "zero" then some (fill (m * m) 0 junk)
  else if type = "identity" then some (setupId m junk)
  else if type = "diagonal" then setupDiagonal m data junk
  else if type = "diagonal_blocks" then setupDiagonalBlocks m data blocks junk
  else if type = "block" then setupBlock m data blocks junk
  else if type = "dense" then
    if data.length ≠ m * m then none else some fun k => if k < data.length then data.getD k 0 else junk k
  else none

end Neml.SquareMatrix
