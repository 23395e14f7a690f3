import Mathlib.Data.List.Basic
import Mathlib.Algebra.Ring.Defs

/-!
# Model of the `History` container (include/history.h, src/history.cxx)

The flat storage that the C++ object points to is a region of a memory `Mem`
(address -> value), so that owning objects, views and copies can be told apart.

Simplifications:
* `delete []` is not modelled (released cells just stay in the memory);
* freshly allocated cells hold whatever the memory held there, i.e. an arbitrary
  value, as `new double[n]` does;
* the checks compiled out by the macro PRODUCTION are on, as in the default build.
-/

namespace Neml.Hist

/-- include/history.h:15-24 `enum StorageType`. -/
inductive STy
  | vector | scalar | ranktwo | symmetric | skew | rot | symsym | blank
  deriving DecidableEq, Repr

/-- include/history.h:37-44 `storage_size`; TYPE_BLANK is not in the map, so
`storage_size.at(TYPE_BLANK)` throws (`none`). -/
def STy.size? : STy → Option Nat
  | .vector => some 3
  | .scalar => some 1
  | .ranktwo => some 9
  | .symmetric => some 6
  | .skew => some 3
  | .rot => some 4
  | .symsym => some 36
  | .blank => none

/-- include/history.h:50-62 `derivative_type`; missing entries throw (`none`). -/
def derivTy : STy → STy → Option STy
  | .scalar, .scalar => some .scalar
  | .scalar, .vector => some .vector
  | .scalar, .ranktwo => some .ranktwo
  | .scalar, .symmetric => some .symmetric
  | .scalar, .skew => some .skew
  | .scalar, .rot => some .rot
  | .symmetric, .scalar => some .symmetric
  | .symmetric, .symmetric => some .symsym
  | _, _ => none

/-- The C++ exceptions raised by this file, plus `ub` for undefined behaviour
(a read outside a `std::vector`). -/
inductive Err
  | nameExists      -- history.cxx:227-236
  | noSuchName      -- history.cxx:238-248
  | wrongType       -- history.cxx:250-260
  | sizeMismatch    -- history.cxx:72-75, 105-108, 194-196
  | outOfRange      -- `std::unordered_map::at` on a missing key
  | notContiguous   -- history.cxx:292-294
  | notMultipleOfSix -- history.cxx:371-373
  | ub
  deriving DecidableEq, Repr

/-! ## Memory -/

/-- Memory: contents and the first address never handed out. -/
structure Mem (K : Type) where
  cell : Nat → K
  brk : Nat

variable {K : Type}

/-- `new double[n]`: fresh addresses, contents unspecified. -/
def Mem.alloc (m : Mem K) (n : Nat) : Nat × Mem K :=
  (m.brk, { m with brk := m.brk + n })

/-- `std::copy(src, src+n, dst)` for regions that do not overlap (or are equal). -/
def Mem.copy (m : Mem K) (src dst n : Nat) : Mem K :=
  { m with cell := fun a => if dst ≤ a ∧ a < dst + n then m.cell (src + (a - dst)) else m.cell a }

/-- `std::fill(dst, dst+n, v)`. -/
def Mem.fill (m : Mem K) (dst n : Nat) (v : K) : Mem K :=
  { m with cell := fun a => if dst ≤ a ∧ a < dst + n then v else m.cell a }

/-- Store a list of values from address `dst` on. -/
def Mem.put (m : Mem K) (dst : Nat) (vs : List K) : Mem K :=
  { m with cell := fun a => if dst ≤ a ∧ a < dst + vs.length then (vs[a - dst]?).getD (m.cell a)
                            else m.cell a }

/-- The `n` values from address `src` on. -/
def Mem.slice (m : Mem K) (src n : Nat) : List K :=
  (List.range n).map (fun i => m.cell (src + i))

/-! ## The object -/

/-- The name maps of a `History`: include/history.h:248-250 (`loc_`, `type_`,
`order_`) and `size_` (line 243). The unordered maps are partial functions. -/
structure Layout where
  order : List String
  loc : String → Option Nat
  typ : String → Option STy
  size : Nat

/-- include/history.h:242-251: a `History` object. `base` is the pointer `storage_`. -/
structure Obj extends Layout where
  storesize : Nat
  store : Bool
  base : Nat

/-- `unordered_map::insert({k,v})`: keeps an existing entry. -/
def mapInsert {β : Type} (f : String → Option β) (k : String) (v : β) : String → Option β :=
  fun x => match f x with
    | some w => some w
    | none => if x = k then some v else none

/-- `unordered_map::insert(other.begin(), other.end())`: existing keys win. -/
def mapInsertAll {β : Type} (f g : String → Option β) : String → Option β :=
  fun x => match f x with
    | some w => some w
    | none => g x

/-- An empty layout. -/
def Layout.empty : Layout := ⟨[], fun _ => none, fun _ => none, 0⟩

/-- include/history.h:222-223 `contains`. -/
def Layout.contains (h : Layout) (name : String) : Bool := (h.loc name).isSome

/-- history.cxx:157-164 `add`, map part (the size grows in `resize`, 166-174). -/
def Layout.add (h : Layout) (name : String) (ty : STy) (n : Nat) : Except Err Layout :=
  if h.contains name then .error .nameExists
  else .ok { order := h.order ++ [name],
             loc := mapInsert h.loc name h.size,
             typ := mapInsert h.typ name ty,
             size := h.size + n }

/-- history.cxx:8-13 `History()`. -/
def new (m : Mem K) : Obj × Mem K :=
  let (p, m) := m.alloc 0
  ({ Layout.empty with storesize := 0, store := true, base := p }, m)

/-- history.cxx:50-60 `History(double * data)`. -/
def view (data : Nat) : Obj :=
  { Layout.empty with storesize := 0, store := false, base := data }

/-- history.cxx:176-183 `increase_store`. -/
def increaseStore (m : Mem K) (h : Obj) (newsize : Nat) : Obj × Mem K :=
  let (p, m) := m.alloc newsize
  let m := m.copy h.base p h.size
  ({ h with storesize := newsize, base := p }, m)

/-- history.cxx:166-172 `resize`, the allocation part (before `size_ += inc`). -/
def reserve (m : Mem K) (h : Obj) (inc : Nat) : Obj × Mem K :=
  if h.store ∧ h.size + inc > h.storesize then increaseStore m h (h.size + inc) else (h, m)

/-- history.cxx:157-174 `add` with `resize`. -/
def add (m : Mem K) (h : Obj) (name : String) (ty : STy) (n : Nat) : Except Err (Obj × Mem K) :=
  match h.toLayout.add name ty n with
  | .error e => .error e
  | .ok l =>
    let (h', m') := reserve m h n
    .ok ({ h' with toLayout := l }, m')

/-- include/history.h:107-111 `add<T>(name)`: the size comes from `storage_size`. -/
def addT (m : Mem K) (h : Obj) (name : String) (ty : STy) : Except Err (Obj × Mem K) :=
  match ty.size? with
  | none => .error .outOfRange
  | some n => add m h name ty n

/-- history.cxx:220-225 `copy_maps`. -/
def Layout.copyMaps (h other : Layout) : Layout :=
  { h with loc := mapInsertAll h.loc other.loc,
           typ := mapInsertAll h.typ other.typ,
           order := other.order }

/-- history.cxx:24-48 copy and move constructors. -/
def copyCtor (m : Mem K) (other : Obj) : Obj × Mem K :=
  if other.store then
    let (p, m) := m.alloc other.size
    let m := m.copy other.base p other.size
    ({ ({ Layout.empty with size := other.size } : Layout).copyMaps other.toLayout with
        storesize := other.size, store := true, base := p }, m)
  else
    ({ ({ Layout.empty with size := other.size } : Layout).copyMaps other.toLayout with
        storesize := other.size, store := false, base := other.base }, m)

/-- history.cxx:70-84, 103-115 `operator=`. -/
def assign (m : Mem K) (h other : Obj) : Except Err (Obj × Mem K) :=
  if h.size ≠ other.size then .error .sizeMismatch
  else .ok ({ h with toLayout := h.toLayout.copyMaps other.toLayout },
            m.copy other.base h.base h.size)

/-- history.cxx:94-96: the loop `for var in other.order: loc_[var] += offset`. -/
def shiftLocs (loc : String → Option Nat) (names : List String) (offset : Nat) :
    String → Option Nat :=
  names.foldl (fun f v => fun x => if x = v then some (((f x).getD 0) + offset) else f x) loc

/-- history.cxx:86-101 `add_union`. -/
def addUnion (m : Mem K) (h other : Obj) : Obj × Mem K :=
  let offset := h.size
  let (h', m) := reserve m h other.size
  let l : Layout :=
    { order := h.order ++ other.order,
      typ := mapInsertAll h.typ other.typ,
      loc := shiftLocs (mapInsertAll h.loc other.loc) other.order offset,
      size := h.size + other.size }
  let m := m.copy other.base (h'.base + offset) other.size
  ({ h' with toLayout := l }, m)

/-- history.cxx:117-125 `deepcopy`. -/
def deepcopy (m : Mem K) (h : Obj) : Obj × Mem K :=
  let (n, m) := new m
  let (n, m) := reserve m n h.size
  let n := { n with size := n.size + h.size }
  let m := m.copy h.base n.base h.size
  ({ n with toLayout := n.toLayout.copyMaps h.toLayout }, m)

/-- history.cxx:127-136 `set_data`. -/
def setData (h : Obj) (input : Nat) : Obj :=
  if h.store then { h with store := false, storesize := 0, base := input }
  else { h with base := input }

/-- history.cxx:138-141 `copy_data`. -/
def copyData (m : Mem K) (h : Obj) (input : Nat) : Mem K := m.copy input h.base h.size

/-- history.cxx:148-155 `make_store`: the new storage is not filled. -/
def makeStore (m : Mem K) (h : Obj) : Obj × Mem K :=
  if h.store then (h, m)
  else
    let (p, m) := m.alloc h.size
    ({ h with store := true, storesize := h.size, base := p }, m)

/-- history.cxx:185-190 `scalar_multiply`. -/
def scalarMultiply [Mul K] (m : Mem K) (h : Obj) (c : K) : Mem K :=
  { m with cell := fun a => if h.base ≤ a ∧ a < h.base + h.size then m.cell a * c else m.cell a }

/-- history.cxx:192-201 `operator+=` (distinct storage). -/
def plusEq [Add K] (m : Mem K) (h other : Obj) : Except Err (Mem K) :=
  if h.size ≠ other.size then .error .sizeMismatch
  else
    .ok { m with
      cell := fun a =>
        if h.base ≤ a ∧ a < h.base + h.size then m.cell a + m.cell (other.base + (a - h.base))
        else m.cell a }

/-- history.cxx:262-266 `zero`. -/
def zero [Zero K] (m : Mem K) (h : Obj) : Mem K := m.fill h.base h.size 0

/-! ## Reading and writing variables -/

/-- include/history.h:121-127 `get<T>(name)` followed by a read of the entries of
the returned view. (The normalization done by the `Orientation` view is not
modelled.) -/
def get (m : Mem K) (h : Obj) (name : String) (ty : STy) : Except Err (List K) :=
  match h.loc name, h.typ name with
  | none, _ => .error .noSuchName
  | some _, none => .error .outOfRange
  | some p, some t =>
    if t = ty then
      match ty.size? with
      | none => .error .outOfRange
      | some n => .ok (m.slice (h.base + p) n)
    else .error .wrongType

/-- `get<T>(name) = value`: writes the entries through the view
(include/history.h:121-127, 256-263 and the copy assignment of the tensor
classes). `value` must have the length of the type. -/
def set (m : Mem K) (h : Obj) (name : String) (ty : STy) (v : List K) : Except Err (Mem K) :=
  match h.loc name, h.typ name with
  | none, _ => .error .noSuchName
  | some _, none => .error .outOfRange
  | some p, some t =>
    if t = ty then
      if ty.size? = some v.length then .ok (m.put (h.base + p) v) else .error .sizeMismatch
    else .error .wrongType

/-- history.cxx:386-389 `size_of_entry`. -/
def sizeOfEntry (h : Layout) (name : String) : Option Nat := (h.typ name).bind STy.size?

/-! ## Derived histories -/

/-- Add a list of variables one after the other. -/
def addAll (m : Mem K) (h : Obj) : List (String × STy × Nat) → Except Err (Obj × Mem K)
  | [] => .ok (h, m)
  | (name, ty, n) :: rest =>
    match add m h name ty n with
    | .error e => .error e
    | .ok (h', m') => addAll m' h' rest

/-- The (name, type, storage size) triple of a variable; throws like
`storage_size.at(type_.at(name))`. -/
def entry (h : Layout) (name : String) : Except Err (String × STy × Nat) :=
  match h.typ name with
  | none => .error .outOfRange
  | some t => match t.size? with
    | none => .error .outOfRange
    | some n => .ok (name, t, n)

/-- Triples of a list of variables; throws if any lookup throws. -/
def entries (h : Layout) : List String → Except Err (List (String × STy × Nat))
  | [] => .ok []
  | n :: ns =>
    match entry h n with
    | .error e => .error e
    | .ok x => match entries h ns with
      | .error e => .error e
      | .ok xs => .ok (x :: xs)

/-- history.cxx:203-218 `copy_blank`. (The adds are done after all lookups; the
order matters only for which of two errors is reported.) -/
def copyBlank [Zero K] (m : Mem K) (h : Obj) (exclude : List String) :
    Except Err (Obj × Mem K) :=
  match entries h.toLayout (h.order.filter (fun x => !exclude.contains x)) with
  | .error e => .error e
  | .ok es =>
    let (c, m) := new m
    match addAll m c es with
    | .error e => .error e
    | .ok (c, m) => .ok (c, zero m c)

/-- The variables of a `history_derivative`: history.cxx:273-280. -/
def derivEntry (h other : Layout) (i1 i2 : String) : Except Err (String × STy × Nat) :=
  match h.typ i1, other.typ i2 with
  | some t1, some t2 => match derivTy t1 t2 with
    | none => .error .outOfRange
    | some t => match t.size? with
      | none => .error .outOfRange
      | some n => .ok (i1 ++ "_" ++ i2, t, n)
  | _, _ => .error .outOfRange

/-- The double loop of history.cxx:273-280 as the list of name pairs it visits. -/
def pairs (a b : List String) : List (String × String) :=
  a.flatMap (fun x => b.map (fun y => (x, y)))

/-- Triples of all pairs. -/
def derivEntries (h other : Layout) :
    List (String × String) → Except Err (List (String × STy × Nat))
  | [] => .ok []
  | (a, b) :: ns =>
    match derivEntry h other a b with
    | .error e => .error e
    | .ok x => match derivEntries h other ns with
      | .error e => .error e
      | .ok xs => .ok (x :: xs)

/-- history.cxx:268-285 `history_derivative`. -/
def historyDerivative [Zero K] (m : Mem K) (h other : Obj) : Except Err (Obj × Mem K) :=
  match derivEntries h.toLayout other.toLayout (pairs h.order other.order) with
  | .error e => .error e
  | .ok es =>
    let (d, m) := new m
    let (d, m) := increaseStore m d (h.size * other.size)
    match addAll m d es with
    | .error e => .error e
    | .ok (d, m) => .ok (d, zero m d)

/-- history.cxx:342-354 `subset`: the loop. -/
def subsetLoop (m : Mem K) (h : Obj) (acc : Obj) : List String → Except Err (Obj × Mem K)
  | [] => .ok (acc, m)
  | v :: vs =>
    match h.loc v with
    | none => .error .noSuchName
    | some p =>
      match entry h.toLayout v with
      | .error e => .error e
      | .ok (_, t, n) =>
        match add m acc v t n with
        | .error e => .error e
        | .ok (acc', m') =>
          match acc'.loc v with
          | none => .error .outOfRange
          | some q => subsetLoop (m'.copy (h.base + p) (acc'.base + q) n) h acc' vs

/-- history.cxx:342-354 `subset`. -/
def subset (m : Mem K) (h : Obj) (vars : List String) : Except Err (Obj × Mem K) :=
  let (n, m) := new m
  subsetLoop m h n vars

/-- history.cxx:356-365 `reorder`. If `vars` misses variables the copy reads past
the end of the temporary's storage (`ub`). -/
def reorder (m : Mem K) (h : Obj) (vars : List String) : Except Err (Obj × Mem K) :=
  match subset m h vars with
  | .error e => .error e
  | .ok (n, m) =>
    if n.size < h.size then .error .ub
    else .ok ({ h with toLayout := h.toLayout.copyMaps n.toLayout }, m.copy n.base h.base h.size)

/-- history.cxx:290-295: is `sep` a prefix of the order? A `sep` longer than the
order reads past the end of the vector. -/
def checkPrefix : List String → List String → Except Err Unit
  | [], _ => .ok ()
  | _ :: _, [] => .error .ub
  | s :: ss, o :: os => if s = o then checkPrefix ss os else .error .notContiguous

/-- history.cxx:287-340 `split`. The flag `after` selects the part. -/
def split (m : Mem K) (h : Obj) (sep : List String) (after : Bool) : Except Err (Obj × Mem K) :=
  match checkPrefix sep h.order with
  | .error e => .error e
  | .ok () =>
    let i := sep.length
    if (i = h.order.length ∧ after = true) ∨ (i = 0 ∧ after = false) then
      if h.store then let (n, m) := new m; .ok (n, m)
      else .ok ({ Layout.empty with storesize := 0, store := false, base := 0 }, m)
    else
      let names := if after then h.order.drop i else h.order.take i
      match entries h.toLayout names with
      | .error e => .error e
      | .ok es =>
        match addAll m { Layout.empty with storesize := 0, store := false, base := 0 } es with
        | .error e => .error e
        | .ok (res, m) =>
          match names with
          | [] => .error .ub
          | first :: _ =>
            match h.loc first with
            | none => .error .outOfRange
            | some p =>
              if h.store then
                let (res, m) := makeStore m res
                .ok (res, copyData m res (h.base + p))
              else .ok (setData res (h.base + p), m)

/-- history.cxx:367-384 `postmultiply`. `mat_mat(m, n, k, A, B, C)` (nemlmath.cxx)
is `C = A B` for row-major `A` (m x k), `B` (k x n); `T` is the 6x6 matrix
`T.data()`, row-major. -/
def postmultiply [Zero K] [Add K] [Mul K] (m : Mem K) (h : Obj) (T : Nat → Nat → K) :
    Except Err (Obj × Mem K) :=
  if h.size % 6 ≠ 0 then .error .notMultipleOfSix
  else
    let (n, m1) := deepcopy m h
    .ok (n, { m1 with
      cell := fun a =>
        if n.base ≤ a ∧ a < n.base + h.size then
          ((List.range 6).map (fun k =>
            m1.cell (h.base + ((a - n.base) / 6 * 6 + k)) * T k ((a - n.base) % 6))).sum
        else m1.cell a })

/-- history.cxx:391-414 `unravel_hh`: the assignments made, as (array index,
storage address) pairs in execution order; `array` is `size x size`, row-major. -/
def unravelPairs (h base : Obj) : List (String × String) → Except Err (List (Nat × Nat))
  | [] => .ok []
  | (n1, n2) :: rest =>
    match entry base.toLayout n1, base.loc n1, entry base.toLayout n2, base.loc n2,
      h.loc (n1 ++ "_" ++ n2) with
    | .ok (_, _, s1), some o1, .ok (_, _, s2), some o2, some start =>
      match unravelPairs h base rest with
      | .error e => .error e
      | .ok r => .ok (((List.range s1).flatMap (fun i => (List.range s2).map (fun j =>
          ((o1 + i) * base.size + (o2 + j), h.base + start + (i * s2 + j))))) ++ r)
    | _, _, _, _, _ => .error .outOfRange

/-- history.cxx:391-414 `unravel_hh`: the array after the loop. -/
def unravel (m : Mem K) (h base : Obj) (array : Nat → K) : Except Err (Nat → K) :=
  match unravelPairs h base (pairs base.order base.order) with
  | .error e => .error e
  | .ok ps => .ok (ps.foldl (fun A p => fun x => if x = p.1 then m.cell p.2 else A x) array)

/-- history.cxx:422-436 `formatted_names`. -/
def formattedNames (h : Layout) : Except Err (List String) :=
  match entries h h.order with
  | .error e => .error e
  | .ok es => .ok (es.flatMap (fun x =>
      if x.2.2 = 1 then [x.1] else (List.range x.2.2).map (fun i => x.1 ++ "_" ++ toString i)))

end Neml.Hist
