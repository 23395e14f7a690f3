import Mathlib.Data.Real.Basic
import Mathlib.Data.List.Forall2
import Mathlib.Algebra.BigOperators.Group.List.Basic

/-!
# Model of how arrays pass from Python to C++ and back (include/pyhelp.h and the `*_wrap.cxx` files)

An array is a window into a buffer: a place to start, a shape and a step for each dimension, counted in entries; steps may be
negative. This, and the conversion of arguments by pybind11, is outside the repository and modelled as documented: an argument
of type `array_t<double, c_style>` is the caller's array if it holds doubles in rows one after the other without gaps, and a copy
of that kind otherwise. Memory is given by buffers; a place outside a buffer, or in memory given back, is `none`.
-/

namespace Neml.PyArrays

/-- Memory: buffers and places. -/
abbrev Mem := ℕ → ℤ → Option ℝ

/-- A numpy array. -/
structure Arr where
  buf : ℕ
  off : ℤ
  shape : List ℕ
  strides : List ℤ
  double : Bool

/-- The place of an entry, as Python computes it. -/
def addr (off : ℤ) : List ℕ → List ℤ → ℤ
  | i :: is, s :: ss => addr off is ss + i * s
  | _, _ => off

/-- The entry Python shows at an index. -/
def Arr.entry (m : Mem) (a : Arr) (idx : List ℕ) : Option ℝ := m a.buf (addr a.off idx a.strides)

/-- The steps of an array without gaps. -/
def cStrides : List ℕ → List ℤ
  | [] => []
  | _ :: ns => (ns.prod : ℤ) :: cStrides ns

/-- numpy's flag `C_CONTIGUOUS`: the step does not matter for a dimension of length one. -/
def contiguous : List ℕ → List ℤ → Bool
  | [], [] => true
  | n :: ns, s :: ss => (n == 1 || s == (ns.prod : ℤ)) && contiguous ns ss
  | _, _ => false

/-- The index of the entry number `k` in rows. -/
def unflatten : List ℕ → ℕ → List ℕ
  | [], _ => []
  | _ :: ns, k => k / ns.prod :: unflatten ns (k % ns.prod)

/-- The caller's array goes through as it is. -/
def Arr.direct (a : Arr) : Bool := a.double && contiguous a.shape a.strides

/-- pybind11 conversion to `array_t<double, c_style>`: the array itself or a copy in the buffer `fresh`. -/
def ensure (m : Mem) (fresh : ℕ) (a : Arr) : Mem × Arr :=
  if a.direct then (m, a)
  else
    (fun b i => if b = fresh then (if 0 ≤ i ∧ i < a.shape.prod then a.entry m (unflatten a.shape i.toNat) else none) else m b i,
     { buf := fresh, off := 0, shape := a.shape, strides := cStrides a.shape, double := true })

/-- pyhelp.h:35-38 `arr2ptr` of an array that is already of the right kind: entry `k` behind the pointer. -/
def readPtr (m : Mem) (a : Arr) (k : ℕ) : Option ℝ := m a.buf (a.off + k)

/-- Writing the entries `0` to `n - 1` behind the pointer. -/
def writePtr (m : Mem) (a : Arr) (n : ℕ) (w : ℕ → ℝ) : Mem :=
  fun b i => if b = a.buf ∧ a.off ≤ i ∧ i < a.off + n then some (w (i - a.off).toNat) else m b i

/-- models_wrap.cxx:24-35 and the other wrappers: entry `k` of an argument, as C++ sees it. No length is checked. -/
def argument (m : Mem) (fresh : ℕ) (a : Arr) (k : ℕ) : Option ℝ := readPtr (ensure m fresh a).1 (ensure m fresh a).2 k

/-- block_wrap.cxx:50-160: what memory is like after a function that fills its argument (`s_np1`, `h_np1`, `A_np1`, `u_np1`,
`p_np1`; also `set_orientation_passive_batch` and `set_orientation_active_batch` in batch_wrap.cxx) has returned. -/
def fillArgument (m : Mem) (fresh : ℕ) (a : Arr) (w : ℕ → ℝ) : Mem :=
  writePtr (ensure m fresh a).1 (ensure m fresh a).2 a.shape.prod w

/-- history_wrap.cxx:37-41 `copy_data` with pyhelp.h:35-38: the argument need not be without gaps, so that `arr2ptr` makes a copy
of an array with gaps, which is given back when it returns. `k` is below the size of the history; no length is checked. -/
def copyData (m : Mem) (a : Arr) (k : ℕ) : Option ℝ := if contiguous a.shape a.strides then readPtr m a k else none

/-- pyhelp.h:88-105 `alloc_tensor`: the loop from the last dimension; steps and number of entries. An empty shape reads before the
start of the vector. -/
def allocTensor : List ℕ → Option (List ℕ × ℕ)
  | [] => none
  | [n] => some ([1], n)
  | n :: m :: ns =>
    match allocTensor (m :: ns) with
    | some (s :: ss, total) => some (s * m :: s :: ss, total * n)
    | _ => none

/-- pyhelp.h:41-53 `alloc_vec`, 56-69 `alloc_mat`, 72-85 `alloc_3d`: shapes and steps. -/
def allocSteps : List ℕ → Option (List ℕ)
  | [_] => some [1]
  | [_, n] => some [n, 1]
  | [_, n, o] => some [n * o, o, 1]
  | _ => none

/-- The shapes of the arguments of block_wrap.cxx:50-65. -/
structure BlockShapes where
  e1 : List ℕ
  e0 : List ℕ
  T1 : List ℕ
  T0 : List ℕ
  s1 : List ℕ
  s0 : List ℕ
  h1 : List ℕ
  h0 : List ℕ
  A1 : List ℕ
  u1 : List ℕ
  u0 : List ℕ
  p1 : List ℕ
  p0 : List ℕ

/-- All of them. -/
def BlockShapes.all (b : BlockShapes) : List (List ℕ) :=
  [b.e1, b.e0, b.T1, b.T0, b.s1, b.s0, b.h1, b.h0, b.A1, b.u1, b.u0, b.p1, b.p0]

/-- block_wrap.cxx:67-70 `gets(a, d) != n`; only called with a dimension the array has. -/
def wrongAt (s : List ℕ) (d n : ℕ) : Bool := s.getD d 0 != n

/-- block_wrap.cxx:72-131: `some true` goes on, `some false` throws, `none` reads the first length of an array without
dimensions. -/
def blockCheck (nhist : ℕ) (b : BlockShapes) : Option Bool :=
  match b.e1.head? with
  | none => none
  | some n =>
    if b.all.any (fun s => s.head? == none) then none
    else if b.all.any (fun s => s.head? != some n) then some false
    else if b.e1.length != 3 || wrongAt b.e1 1 3 || wrongAt b.e1 2 3 then some false
    else if b.e0.length != 3 || wrongAt b.e0 1 3 || wrongAt b.e0 2 3 then some false
    else if b.T1.length != 1 then some false
    else if b.T0.length != 1 then some false
    else if b.s1.length != 3 || wrongAt b.s1 1 3 || wrongAt b.s1 2 3 then some false
    else if b.s0.length != 3 || wrongAt b.s0 1 3 || wrongAt b.s0 2 3 then some false
    else if b.h1.length != 2 || wrongAt b.h1 1 nhist then some false
    else if b.h0.length != 2 || wrongAt b.h0 1 nhist then some false
    else if b.A1.length != 5 || wrongAt b.A1 1 3 || wrongAt b.A1 2 3 || wrongAt b.A1 3 3 || wrongAt b.A1 4 3 then some false
    else if b.u1.length != 1 then some false
    else if b.u0.length != 1 then some false
    else if b.p1.length != 1 then some false
    else if b.p0.length != 1 then some false
    else some true

end Neml.PyArrays
