import Mathlib.Logic.Function.Basic
import Mathlib.Algebra.Order.Field.Basic
import Mathlib.Data.Option.NAry

/-!
# Model of the storage of tensors, rotations and histories

`Tensor` (src/math/tensors.cxx:11-124), `Quaternion` (src/math/rotations.cxx:15-82, 354-358, 585-592) and `History`
(src/history.cxx:8-201) either own an array from `new double[]` or refer to memory of somebody else. The model is a machine on a
heap of blocks. A cell holds `none` while its value is indeterminate. Objects and blocks have numbers as names; the name of a block
is never used again. A program is a list of operations on the objects. Its outcome is a state, an exception, or undefined behaviour
(memory that is not there, deleting what was not allocated with `new`). `std::copy` reads all before it writes (the ranges of two
operands that overlap partly are not treated element by element). Arrays of the caller stay alive. The maps of names of a history
are not part of this file (see `Model/History`).
-/

namespace Neml.TensorStore

/-- The three classes that may own their memory. -/
inductive Cls
  | ten
  | quat
  | hist
  deriving DecidableEq

/-- The fields of an object: `n_` or `size_`, `storesize_` of a history, `istore_` or `store_`, `s_`, `quat_` or `storage_` as
block and offset (none for a null or indeterminate pointer). tensors.h:56-59, rotations.h:95-96, history.h:243-246. -/
structure Obj where
  cls : Cls
  n : ℕ
  cap : ℕ
  own : Bool
  ptr : Option (ℕ × ℕ)

/-- Blocks alive with their length, whether a block belongs to the caller, the cells, the next block, the objects alive. -/
structure St (K : Type) where
  len : ℕ → Option ℕ
  user : ℕ → Bool
  cell : ℕ → ℕ → Option K
  next : ℕ
  obj : ℕ → Option Obj

/-- Outcome of an operation. -/
inductive Out (K : Type)
  | ok (s : St K)
  | exc (s : St K)
  | ub

variable {K : Type} [Field K]

/-- The `n` cells from `p` on are there. -/
def valid (s : St K) (p : Option (ℕ × ℕ)) (n : ℕ) : Bool :=
  n == 0 || match p with
    | some (b, o) => match s.len b with
      | some l => decide (o + n ≤ l)
      | none => false
    | none => false

/-- Cell `i` from `p` on. -/
def get (s : St K) (p : Option (ℕ × ℕ)) (i : ℕ) : Option K :=
  match p with
  | some (b, o) => s.cell b (o + i)
  | none => none

/-- Write `n` cells from `p` on. -/
def store (s : St K) (p : Option (ℕ × ℕ)) (n : ℕ) (f : ℕ → Option K) : St K :=
  match p with
  | some (b, o) => { s with cell := fun c i => if c = b ∧ o ≤ i ∧ i < o + n then f (i - o) else s.cell c i }
  | none => s

/-- `new double[l]`, with the values written to it. -/
def alloc (s : St K) (user : Bool) (l : ℕ) (f : ℕ → Option K) : St K :=
  { s with
    len := Function.update s.len s.next (some l)
    user := Function.update s.user s.next user
    cell := fun c i => if c = s.next then f i else s.cell c i
    next := s.next + 1 }

/-- An object comes into being or changes its fields. -/
def bind (s : St K) (x : ℕ) (o : Option Obj) : St K := { s with obj := Function.update s.obj x o }

/-- `delete []` on the pointer: only on the start of a block from `new` that is alive. -/
def del (s : St K) (p : Option (ℕ × ℕ)) : Option (St K) :=
  match p with
  | some (b, 0) => if (s.len b).isSome && !s.user b then some { s with len := Function.update s.len b none } else none
  | _ => none

/-- The loop of `add_` (tensors.cxx:112-117) and of `History::operator+=` (history.cxx:192-201), cell by cell. -/
def addLoop (s : St K) (p q : Option (ℕ × ℕ)) : ℕ → St K
  | 0 => s
  | n + 1 =>
    let t := addLoop s p q n
    match p with
    | some (b, o) => store t (some (b, o + n)) 1 fun _ => Option.map₂ (· + ·) (get t p n) (get t q n)
    | none => t

/-- The operations. Scalars, names and pointers are given by the program. -/
inductive Op (K : Type)
  /-- An array of the caller. -/
  | caller (v : List K)
  /-- Tensor(n), Tensor(vector) (tensors.cxx:11-16, 37-42); Quaternion(), Quaternion(vector) (rotations.cxx:15-28); History()
  (history.cxx:8-13). -/
  | make (x : ℕ) (c : Cls) (v : List K)
  /-- Tensor(double *, n) (44-54), Quaternion(double *) (30-34), History(double *) and the entries added to it (50-60). -/
  | view (x : ℕ) (c : Cls) (p : Option (ℕ × ℕ)) (n : ℕ)
  /-- Copy constructor: tensors.cxx:18-23, rotations.cxx:36-46, history.cxx:24-35. -/
  | copy (x y : ℕ)
  /-- Move constructor: tensors.cxx:25-35, rotations.cxx:48-58, history.cxx:37-48. -/
  | move (x y : ℕ)
  /-- Copy assignment: tensors.cxx:64-75, rotations.cxx:68-75, history.cxx:70-84. -/
  | assign (x y : ℕ)
  /-- Move assignment: tensors.cxx:82-96, rotations.cxx:77-82, history.cxx:103-115. -/
  | moveAssign (x y : ℕ)
  /-- Destructor: tensors.cxx:56-62, rotations.cxx:60-66, history.cxx:62-68. -/
  | destroy (x : ℕ)
  /-- `operator*=` and `scalar_multiply`: tensors.cxx:98-105, history.cxx:185-190. -/
  | scale (x : ℕ) (c : K)
  /-- `+=`. -/
  | add (x y : ℕ)
  /-- `copy_data`: tensors.cxx:77-80, history.cxx:138-141. -/
  | copyData (x : ℕ) (p : Option (ℕ × ℕ))
  /-- `History::add`, the memory part: history.cxx:157-174. -/
  | grow (x : ℕ) (k : ℕ)
  /-- `History::increase_store`: 176-183; called from outside by `derivative` (history.h:200) and `history_derivative`
  (history.cxx:271). -/
  | reserve (x : ℕ) (m : ℕ)
  /-- `History::set_data`: 127-136. -/
  | setData (x : ℕ) (p : Option (ℕ × ℕ))
  /-- `History::make_store`: 148-155. -/
  | makeStore (x : ℕ)
  /-- `History::deepcopy` (117-125), `Orientation::deepcopy` (rotations.cxx:585-592). -/
  | deepcopy (x y : ℕ)

/-- An object of its own with the cells of another. -/
def own (s : St K) (x : ℕ) (o : Obj) : Out K :=
  if valid s o.ptr o.n then
    .ok (bind (alloc s false o.n (get s o.ptr)) x (some ⟨o.cls, o.n, o.n, true, some (s.next, 0)⟩))
  else .ub

/-- The copying part of the assignments. -/
def copyOver (s : St K) (a b : Obj) : Out K :=
  if valid s a.ptr a.n && valid s b.ptr b.n then .ok (store s a.ptr a.n (get s b.ptr)) else .ub

/-- `increase_store` to `m` cells of a history that goes on with `k` cells: the cells in use are copied, the others are
indeterminate, the old array is deleted. -/
def regrow (s : St K) (x : ℕ) (o : Obj) (k m : ℕ) : Out K :=
  if valid s o.ptr o.n && decide (o.n ≤ m) then
    match del (alloc s false m fun i => if i < o.n then get s o.ptr i else none) o.ptr with
    | some t => .ok (bind t x (some { o with n := k, cap := m, ptr := some (s.next, 0) }))
    | none => .ub
  else .ub

/-- One operation. Names that are not there stand for programs the compiler rejects. -/
def step (s : St K) : Op K → Out K
  | .caller v => .ok (alloc s true v.length fun i => v[i]?)
  | .make x c v => .ok (bind (alloc s false v.length fun i => v[i]?) x (some ⟨c, v.length, v.length, true, some (s.next, 0)⟩))
  | .view x c p n => .ok (bind s x (some ⟨c, n, 0, false, p⟩))
  | .copy x y => match s.obj y with
    | some o => if o.own || o.cls == .ten then own s x o else .ok (bind s x (some { o with cap := o.n }))
    | none => .ub
  | .move x y => match s.obj y with
    | some o => if o.own then own s x o else .ok (bind s x (some { o with cap := o.n }))
    | none => .ub
  | .assign x y => match s.obj x, s.obj y with
    | some a, some b => if a.n ≠ b.n then .exc s else if x = y then .ok s else copyOver s a b
    | _, _ => .ub
  | .moveAssign x y => match s.obj x, s.obj y with
    | some a, some b =>
      if a.n ≠ b.n then .exc s
      else if a.cls = .ten ∧ b.own = false then .ok (bind s x (some { a with ptr := b.ptr }))
      else copyOver s a b
    | _, _ => .ub
  | .destroy x => match s.obj x with
    | some o => if o.own then
        match del s o.ptr with
        | some t => .ok (bind t x none)
        | none => .ub
      else .ok (bind s x none)
    | none => .ub
  | .scale x c => match s.obj x with
    | some o => if valid s o.ptr o.n then .ok (store s o.ptr o.n fun i => (get s o.ptr i).map (· * c)) else .ub
    | none => .ub
  | .add x y => match s.obj x, s.obj y with
    | some a, some b => if a.n ≠ b.n then .exc s
      else if valid s a.ptr a.n && valid s b.ptr b.n then .ok (addLoop s a.ptr b.ptr a.n) else .ub
    | _, _ => .ub
  | .copyData x p => match s.obj x with
    | some o => if valid s o.ptr o.n && valid s p o.n then .ok (store s o.ptr o.n (get s p)) else .ub
    | none => .ub
  | .grow x k => match s.obj x with
    | some o => if o.own && decide (o.cap < o.n + k) then regrow s x o (o.n + k) (o.n + k)
      else .ok (bind s x (some { o with n := o.n + k }))
    | none => .ub
  | .reserve x m => match s.obj x with
    | some o => regrow s x o o.n m
    | none => .ub
  | .setData x p => match s.obj x with
    | some o => if o.own then
        match del s o.ptr with
        | some t => .ok (bind t x (some { o with own := false, cap := 0, ptr := p }))
        | none => .ub
      else .ok (bind s x (some { o with ptr := p }))
    | none => .ub
  | .makeStore x => match s.obj x with
    | some o => if o.own then .ok s
      else .ok (bind (alloc s false o.n fun _ => none) x (some { o with own := true, cap := o.n, ptr := some (s.next, 0) }))
    | none => .ub
  | .deepcopy x y => match s.obj y with
    | some o => own s x o
    | none => .ub

/-- A program; an exception is taken to be caught after the operation. -/
def run (s : St K) : List (Op K) → Out K
  | [] => .ok s
  | op :: ops => match step s op with
    | .ok t => run t ops
    | .exc t => run t ops
    | .ub => .ub

/-- Before the program starts. -/
def init : St K := ⟨fun _ => none, fun _ => false, fun _ _ => none, 0, fun _ => none⟩

end Neml.TensorStore
