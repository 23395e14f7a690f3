import Mathlib.Analysis.SpecialFunctions.Pow.Real
import Mathlib.Data.Real.Sign
import Mathlib.Algebra.Order.Floor.Ring

/-!
# Model of the set-up functions for vessel sections (neml/axisym.py 13-274)

Temperature cycles through the wall, the time steps that go with them, meshes and the rectangle rule. Exact reals. What
raises, or gives infinite or undefined numbers (rates of zero, a cycle of no length), is `none`.
-/

namespace Neml.Vessel

/-- The arguments that describe the cycle: temperatures, heating and cooling rates (axisym.py:30-31: the cooling rate is
the heating rate if none is given; here both are given), holds and delay. -/
structure Cycle where
  T1 : ℝ
  T2 : ℝ
  hot : ℝ
  cold : ℝ
  hold : ℝ
  together : ℝ
  delay : ℝ

namespace Cycle

variable (c : Cycle)

/-- axisym.py:33, 137. -/
def dT : ℝ := c.T2 - c.T1

/-- axisym.py:34, 138. -/
noncomputable def thot : ℝ := |c.dT / c.hot|

/-- axisym.py:35, 139. -/
noncomputable def tcold : ℝ := |c.dT / c.cold|

/-- axisym.py:36, 140. -/
noncomputable def period : ℝ := c.thot + c.hold + c.tcold + c.together

/-- axisym.py:41, 145: the time since the begin of the cycle (`%` of a positive period). -/
noncomputable def phase (t : ℝ) : ℝ := (t - c.delay) - c.period * ⌊(t - c.delay) / c.period⌋

/-- axisym.py:43-50, 147-154 `Tright`, as a function of the phase. -/
noncomputable def right (s : ℝ) : ℝ :=
  if s < c.thot then c.T1 + s * c.hot * Real.sign c.dT
  else if s < c.thot + c.hold then c.T2
  else if s < c.thot + c.hold + c.tcold then c.T2 - (s - c.thot - c.hold) * c.cold * Real.sign c.dT
  else c.T1

/-- axisym.py:13-56 `generate_thickness_gradient`. -/
noncomputable def gradient (ri ro r t : ℝ) : Option ℝ :=
  if c.hot = 0 ∨ c.cold = 0 then none
  else if t < c.delay then some c.T1
  else if c.period = 0 ∨ ro - ri = 0 then none
  else
    let xi := (r - ri) / (ro - ri)
    some ((1 - xi) * c.T1 + xi * c.right (c.phase t))

end Cycle

/-- `list(times[-1] + np.linspace(0, d, n + 1)[1:])`, from the last time (axisym.py:95-106). -/
noncomputable def spread (t d : ℝ) (n : ℕ) : List ℝ :=
  (List.range n).map fun k : ℕ => t + ((k : ℝ) + 1) * (d / n)

/-- `times.extend(...)` of a nonempty list, the first time and the later ones being kept apart. -/
noncomputable def extend (first : ℝ) (l : List ℝ) (d : ℝ) (n : ℕ) : List ℝ :=
  l ++ spread ((first :: l).getLast (by simp)) d n

/-- axisym.py:58-64: the numbers of steps. -/
structure Counts where
  heat : ℕ
  hold : ℕ
  cool : Option ℕ
  together : Option ℕ
  delay : Option ℕ
  cycles : ℕ

/-- axisym.py:84-85. -/
def Counts.coolN (n : Counts) : ℕ := n.cool.getD n.heat

/-- axisym.py:98-106: one cycle. -/
noncomputable def oneCycle (c : Cycle) (n : Counts) (l : List ℝ) : List ℝ :=
  let a := extend 0 l (|c.T2 - c.T1| / c.hot) n.heat
  let b := if 0 < c.hold then extend 0 a c.hold n.hold else a
  let d := extend 0 b (|c.T2 - c.T1| / c.cold) n.coolN
  if 0 < c.together then extend 0 d c.together (n.together.getD 0) else d

/-- axisym.py:58-108 `generate_standard_timesteps` (the list starts with zero). -/
noncomputable def timesteps (c : Cycle) (n : Counts) : Option (List ℝ) :=
  if c.delay ≠ 0 ∧ n.delay = none then none
  else if c.together ≠ 0 ∧ n.together = none then none
  else if c.hot = 0 ∨ c.cold = 0 then none
  else
    let start := if 0 < c.delay then extend 0 [] c.delay (n.delay.getD 0) else []
    some (0 :: (oneCycle c n)^[n.cycles] start)

/-- `np.cumsum(np.insert(Rs, 0, 0.0))` (axisym.py:160, 162), from a given start. -/
def cumFrom (s : ℝ) : List ℝ → List ℝ
  | [] => [s]
  | a :: l => s :: cumFrom (s + a) l

/-- `np.interp` for increasing abscissae (axisym.py:164). -/
noncomputable def interp (x : ℝ) : List (ℝ × ℝ) → ℝ
  | [] => 0
  | [p] => p.2
  | p :: q :: l => if x < p.1 then p.2
    else if x < q.1 then (q.2 - p.2) / (q.1 - p.1) * (x - p.1) + p.2
    else interp x (q :: l)

/-- `np.diff` (axisym.py:156, 252). -/
def diff (rs : List ℝ) : List ℝ := List.zipWith (fun b a => b - a) rs.tail rs

/-- axisym.py:156: the thermal resistances of the layers. -/
noncomputable def resist (rs ks : List ℝ) : List ℝ := List.zipWith (fun d k => d / k) (diff rs) ks

/-- axisym.py:159-162: the temperatures of the interfaces. -/
noncomputable def faces (rs ks : List ℝ) (T1 Tr : ℝ) (flip : Bool) : List ℝ :=
  let Rs := resist rs ks
  (cumFrom 0 Rs).map fun s => if flip then T1 + (1 - s / Rs.sum) * (Tr - T1) else T1 + s / Rs.sum * (Tr - T1)

/-- axisym.py:110-166 `generate_multimaterial_thickness_gradient`. -/
noncomputable def Cycle.layered (c : Cycle) (rs ks : List ℝ) (flip : Bool) (r t : ℝ) : Option ℝ :=
  if rs.length ≠ ks.length + 1 then none
  else if c.hot = 0 ∨ c.cold = 0 then none
  else if t < c.delay then some c.T1
  else if c.period = 0 ∨ 0 ∈ ks ∨ (resist rs ks).sum = 0 then none
  else some (interp r (rs.zip (faces rs ks c.T1 (c.right (c.phase t)) flip)))

/-- axisym.py:186, 188: `np.linspace(a, b, n + 1)[1:]`. -/
noncomputable def segment (n : ℕ) (a b : ℝ) : List ℝ :=
  (List.range n).map fun k : ℕ => a + ((k : ℝ) + 1) * ((b - a) / n)

/-- axisym.py:193-208: a biased segment; `np.linspace(0, 1, m + 1)` is `j / m`. -/
noncomputable def biased (p : ℝ) (n : ℕ) (a b : ℝ) : List ℝ :=
  let m : ℕ := if n % 2 = 0 then n / 2 else (n + 1) / 2
  let x1 := (List.range m).map fun j : ℕ => (((j : ℝ) + 1) / m) ^ p
  let x2 := (List.range m).map fun j : ℕ => 1 - ((j : ℝ) / m) ^ p + 1
  let xss := if n % 2 = 0 then x1 ++ x2.reverse else x1.dropLast ++ x2.reverse
  xss.map fun x => x / 2 * (b - a) + a

/-- axisym.py:185, 190: with or without a bias. -/
noncomputable def kind : Option ℝ → ℕ → ℝ → ℝ → List ℝ
  | none => segment
  | some p => biased p

/-- axisym.py:187-188, 192-209: the segments one after the other. -/
noncomputable def segments (seg : ℕ → ℝ → ℝ → List ℝ) : List ℝ → List ℕ → List ℝ
  | a :: b :: rs, n :: ns => seg n a b ++ segments seg (b :: rs) ns
  | _, _ => []

/-- axisym.py:168-213 `mesh`, for as many counts as segments (otherwise, or without a segment, the code raises or leaves
segments out; in the constructors that use it axisym.py:237-240 has been checked). `bias` is the exponent, if there is a
bias. -/
noncomputable def mesh (rs : List ℝ) (ns : List ℕ) (bias : Option ℝ) : Option (List ℝ) :=
  match rs with
  | [] => none
  | r :: _ =>
    if ns = [] ∨ rs.length ≠ ns.length + 1 then none
    else some (r :: segments (kind bias) rs ns)

/-- axisym.py:262-274 `rect`: points and weights. -/
noncomputable def rect (n : ℕ) : List (ℝ × ℝ) :=
  (List.range n).map fun k : ℕ => (((-1 + (k : ℝ) * (2 / n)) + (-1 + ((k : ℝ) + 1) * (2 / n))) / 2, 2 / n)

end Neml.Vessel
