import Verif.Model.Walker

/-!
# Model of the flat arrays of `WrappedViscoPlasticFlowRule` (src/walker.cxx:1494-1665)

A rule written with named internal variables fills named blocks; the wrapper lays the blocks over the flat arrays of
the `ViscoPlasticFlowRule` interface. Memory is a function from addresses. The variables are given by their sizes
(1 or 6) in the order of the layout; the blocks of a derivative history follow each other in the same order
(history.h:182-206, property C01). `dh_da` goes through `unravel_hh` and is in `Model/History.lean`.
-/

namespace Neml.Wrapped

/-- Memory. -/
abbrev Mem := ℕ → ℝ

/-- A block of the derivative by the stress, or of the derivative of a direction: its variable has `size` entries,
and entry `6 i + j` of the block is `val i j` (`Symmetric`: one row, `SymSymR4`: six rows, row major). -/
structure Block where
  size : ℕ
  val : ℕ → ℕ → ℝ

/-- Assign to the block at address `o`. -/
def store (m : Mem) (o : ℕ) (b : Block) : Mem :=
  fun a => if o ≤ a ∧ a < o + 6 * b.size then b.val ((a - o) / 6) ((a - o) % 6) else m a

/-- walker.cxx:1565-1570 and 1546-1549 with history.h:182-206: the blocks of a derivative history laid over memory
from the address `o`, and each of them assigned by the rule. -/
def fill : List Block → ℕ → Mem → Mem
  | [], _, m => m
  | b :: bs, o, m => fill bs (o + 6 * b.size) (store m o b)

/-- The number of history entries. -/
def nhist (bs : List Block) : ℕ := (bs.map Block.size).sum

/-- walker.cxx:1565-1570 `dh_ds`: the blocks are laid over the array itself. -/
def dhds (bs : List Block) (dhv : Mem) : Mem := fill bs 0 dhv

/-- walker.cxx:1551-1553: the transposing copy, one entry. -/
def copyOne (nh : ℕ) (temp dgv : Mem) (i j : ℕ) : Mem :=
  fun a => if a = j * nh + i then temp (i * 6 + j) else dgv a

/-- walker.cxx:1551-1553: the transposing copy. -/
def copyT (nh : ℕ) (temp dgv : Mem) : Mem :=
  (List.range nh).foldl (fun d i => (List.range 6).foldl (fun d j => copyOne nh temp d i j) d) dgv

/-- walker.cxx:1543-1555 `dg_da`; `temp` is the temporary array as `new` returns it. -/
def dgda (bs : List Block) (temp dgv : Mem) : Mem := copyT (nhist bs) (fill bs 0 temp) dgv

/-- What a rule knows about the derivative of the flow direction by one of its variables. -/
inductive Der
  /-- by a number: one entry for each component of the direction -/
  | scalar (d : ℕ → ℝ)
  /-- by a symmetric tensor: `d c e` is the derivative of component `c` of the direction by entry `e` -/
  | sym (d : ℕ → ℕ → ℝ)

/-- The derivative of component `c` of the direction by entry `e` of the variable. -/
def Der.deriv : Der → ℕ → ℕ → ℝ
  | .scalar d, c, _ => d c
  | .sym d, c, e => d c e

/-- The block a rule assigns (walker.cxx:1942-1951): a `Symmetric`, or a `SymSymR4` whose rows belong to the
direction. -/
def Der.block : Der → Block
  | .scalar d => ⟨1, fun _ j => d j⟩
  | .sym d => ⟨6, d⟩

/-- walker.cxx:1942-1951 `WalkerFlowRule::dg_da`: the variables `alpha`, `R`, `D` and `n` backstresses, where `G` is
the value of `G_`. -/
def walkerDers (n : ℕ) (G : Matrix (Fin 6) (Fin 6) ℝ) : List Der :=
  [.scalar fun _ => 0, .scalar fun _ => 0, .scalar fun _ => 0] ++
    List.replicate n (.sym fun i j => if h : i < 6 ∧ j < 6 then -G ⟨i, h.1⟩ ⟨j, h.2⟩ else 0)

end Neml.Wrapped
