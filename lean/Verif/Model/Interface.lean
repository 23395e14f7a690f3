import Verif.Model.Mandel

/-!
# Model of the C interface and of the Abaqus user material

src/cinterface.cxx and util/abaqus/nemlumat.f. Exact reals. An exception in the library is `none`. Memory is the number of
models that were created and not yet destroyed. The names of the file and of the model, which the user material fixes in
its source, are part of the parameter `load`.
-/

namespace Neml.Interface

open Matrix

/-! ## The C interface -/

/-- The calls that report through the status variable, each with whether the library threw. -/
inductive Call
  | create (ok : Bool)
  | destroy (ok : Bool)
  | elasticStrains (ok : Bool)
  | initStore (ok : Bool)
  | update (ok : Bool)

/-- Whether the library completed the call. -/
def Call.ok : Call → Bool
  | .create b | .destroy b | .elasticStrains b | .initStore b | .update b => b

/-- cinterface.cxx:4-28, 40-50, 62-88, what a call leaves in the status variable that held `ier`. -/
def status (ier : ℤ) : Call → ℤ
  | .create ok => if ok then 0 else -1
  | .destroy ok => if ok then 0 else -1
  | .elasticStrains ok => if ok then ier else -1
  | .initStore ok => if ok then ier else -1
  | .update ok => if ok then ier else -1

/-- The status variable after a sequence of calls that share it. -/
def statusAfter (ier : ℤ) (l : List Call) : ℤ := l.foldl status ier

/-- cinterface.cxx:30-38 `alpha_nemlmodel`. -/
def alpha (r : Option ℝ) : ℝ := r.getD (-1)

/-- cinterface.cxx:52-60 `nstore_nemlmodel`. -/
def nstore (r : Option ℕ) : ℤ := (r.map fun n => (n : ℤ)).getD (-1)

/-! ## The user material -/

/-- nemlumat.f:100-105 `imap`, from zero. -/
def imap : Fin 6 → Fin 6 := ![0, 1, 2, 5, 4, 3]

/-- nemlumat.f:109-114 `smult`. -/
noncomputable def smult : Fin 6 → ℝ := ![1, 1, 1, √2, √2, √2]

/-- nemlumat.f:118-123 `emult`. -/
noncomputable def emult : Fin 6 → ℝ := ![1, 1, 1, √2 / 2, √2 / 2, √2 / 2]

/-- nemlumat.f:1-17 `convertv`. -/
def convertv (input : Fin 6 → ℝ) (indexes : Fin 6 → Fin 6) (multipliers : Fin 6 → ℝ) : Fin 6 → ℝ :=
  fun i => input (indexes i) * multipliers i

/-- nemlumat.f:19-35 `bconvertv`; the loop assigns `res(indexes(i))` in order. -/
noncomputable def bconvertv (input : Fin 6 → ℝ) (indexes : Fin 6 → Fin 6) (multipliers : Fin 6 → ℝ)
    (res : Fin 6 → ℝ) : Fin 6 → ℝ :=
  (List.finRange 6).foldl (fun r i => Function.update r (indexes i) (input i / multipliers (indexes i))) res

/-- nemlumat.f:37-55 `bconvertt`. -/
noncomputable def bconvertt (input : Matrix (Fin 6) (Fin 6) ℝ) (indexes : Fin 6 → Fin 6) (multi multj : Fin 6 → ℝ)
    (res : Matrix (Fin 6) (Fin 6) ℝ) : Matrix (Fin 6) (Fin 6) ℝ :=
  (List.finRange 6).foldl (fun r i => (List.finRange 6).foldl (fun r j => r.updateRow (indexes i)
    (Function.update (r (indexes i)) (indexes j) (input i j / (multi (indexes i) * multj (indexes j))))) r) res

/-- The arguments of the stress update (nemlumat.f:154-169). -/
structure Step (n : ℕ) where
  eNew : Fin 6 → ℝ
  eOld : Fin 6 → ℝ
  TNew : ℝ
  TOld : ℝ
  tNew : ℝ
  tOld : ℝ
  sOld : Fin 6 → ℝ
  hOld : Fin n → ℝ
  uOld : ℝ
  pOld : ℝ

/-- The results of the stress update. `A` is the matrix of the library, row by row. -/
structure Out (n : ℕ) where
  s : Fin 6 → ℝ
  h : Fin n → ℝ
  A : Matrix (Fin 6) (Fin 6) ℝ
  u : ℝ
  p : ℝ

/-- What Abaqus hands over to be changed. -/
structure Aba (n : ℕ) where
  stress : Fin 6 → ℝ
  statev : Fin n → ℝ
  ddsdde : Matrix (Fin 6) (Fin 6) ℝ
  sse : ℝ
  spd : ℝ
  scd : ℝ
  pnewdt : ℝ

/-- What Abaqus hands over to be read. -/
structure Given where
  stran : Fin 6 → ℝ
  dstran : Fin 6 → ℝ
  time : ℝ
  dtime : ℝ
  temp : ℝ
  dtemp : ℝ

/-- nemlumat.f:154-166, the arguments of the update. -/
noncomputable def arguments {n : ℕ} (g : Given) (a : Aba n) : Step n where
  eNew := convertv (g.stran + g.dstran) imap emult
  eOld := convertv g.stran imap emult
  TNew := g.temp + g.dtemp
  TOld := g.temp
  tNew := g.time + g.dtime
  tOld := g.time
  sOld := convertv a.stress imap smult
  hOld := a.statev
  uOld := a.sse + a.spd
  pOld := a.spd

/-- nemlumat.f:183-188. Fortran reads the matrix column by column, so the library's matrix arrives transposed and is
transposed again. -/
noncomputable def results {n : ℕ} (a : Aba n) (o : Out n) : Aba n where
  stress := bconvertv o.s imap smult a.stress
  statev := o.h
  ddsdde := bconvertt o.Aᵀᵀ imap smult emult a.ddsdde
  sse := o.u - o.p
  spd := o.p
  scd := 0
  pnewdt := a.pnewdt

/-- nemlumat.f:57-199 `UMAT`, with the number of models alive before; `none` is the `stop` that ends Abaqus. -/
noncomputable def umat {n : ℕ} {M : Type} (load : Option M) (update : M → Step n → Option (Out n)) (g : Given)
    (a : Aba n) (alive : ℕ) : Option (Aba n × ℕ) :=
  load.map fun m =>
    match update m (arguments g a) with
    | none => ({ a with pnewdt := 0.5 }, alive + 1)
    | some o => (results a o, alive + 1 - 1)

/-- A sequence of calls, each with its own arguments. -/
noncomputable def umats {n : ℕ} {M : Type} (load : Option M) (update : M → Step n → Option (Out n)) :
    List (Given × Aba n) → ℕ → Option ℕ
  | [], alive => some alive
  | (g, a) :: l, alive => (umat load update g a alive).bind fun r => umats load update l r.2

end Neml.Interface
