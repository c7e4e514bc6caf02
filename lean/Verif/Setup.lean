import Verif.Construct

/-!
# Problem hierarchy, communicators, application base class, logging

Models of `/repo/src/pymgrit/core/simple_setup_problem.py`, `split.py`, `application.py` and of
`Mgrit.log_info`.
-/

set_option linter.unusedSectionVars false

namespace Pymgrit

/-! ## simple_setup_problem -/

/-- Exceptions of `simple_setup_problem`: `ValueError: slice step cannot be zero`, and the
`IndexError` of `tmp_t[0]` for an empty grid. -/
inductive SetupError where
  | zeroStep
  | emptyGrid
deriving DecidableEq

/-- The elements `xs[0], xs[m], xs[2m], …` for `m ≥ 1`; their number is `⌈len(xs)/m⌉`. -/
def stride {α : Type} (xs : List α) (m : Nat) : List α :=
  (List.range ((xs.length + m - 1) / m)).filterMap fun k => xs[k * m]?

/-- Python's `xs[::c]`: from the front for positive, from the back for negative steps. -/
def pySlice {α : Type} (xs : List α) (c : Int) : Except SetupError (List α) :=
  if c = 0 then .error .zeroStep
  else if 0 < c then .ok (stride xs c.toNat)
  else .ok (stride xs.reverse c.natAbs)

/-- The time attributes of an `Application` (application.py:46-70). -/
structure App (T : Type) where
  t : List T
  tStart : T
  tEnd : T
  nt : Nat

/-- Loop of `simple_setup_problem` (simple_setup_problem.py:34-41).  `copy.deepcopy(problem)`: the
attributes other than the time grid are those of the finest problem. -/
def setupLoop {T : Type} (c : Int) : Nat → List (App T) → Except SetupError (List (App T))
  | 0, acc => .ok acc
  | k + 1, acc => do
    let tmp ← pySlice ((acc.getLast?.map App.t).getD []) c
    match tmp.head?, tmp.getLast? with
    | some a, some b => setupLoop c k (acc ++ [⟨tmp, a, b, tmp.length⟩])
    | _, _ => .error .emptyGrid

/-- `simple_setup_problem` (simple_setup_problem.py:15-43): the list of problems, and whether the
warning of lines 29-32 is issued. -/
def simpleSetup {T : Type} (p : App T) (level c : Int) : Except SetupError (List (App T) × Bool) := do
  let w ← pySlice p.t (c * level)
  let ps ← setupLoop c (level - 1).toNat [p]
  return (ps, decide (w.length = 1))

/-! ## split_communicator -/

/-- `comm.Split(color, key=rank)`: the processes of the same colour, in the order of their ranks. -/
def splitComm (size : Nat) (color : Nat → Nat) (r : Nat) : List Nat :=
  (List.range size).filter fun q => decide (color q = color r)

/-- `comm_x` of process `r` (split.py:24-28): colour `rank // splitting`. -/
def spaceComm (size s r : Nat) : List Nat := splitComm size (fun q => q / s) r

/-- `comm_t` of process `r` (split.py:25-29): colour `rank % splitting`. -/
def timeComm (size s r : Nat) : List Nat := splitComm size (fun q => q % s) r

/-- `Get_rank()` of process `r` in a communicator. -/
def rankIn (c : List Nat) (r : Nat) : Nat := c.idxOf r

/-! ## log_info -/

/-- Does a process with these ranks and sizes write the message (mgrit.py:247-259)?  `space` is
`none` without spatial parallelism, otherwise the rank in the space communicator. -/
def writesLog (timeRank timeSize : Nat) (space : Option Nat) : Bool :=
  decide (timeRank + 1 = timeSize) &&
  match space with
  | some k => decide (k = 0)
  | none => true

/-! ## The collective of the global criterion -/

/-- Outcome on one process of lines 428-431 of `convergence_criterion`: nothing is computed, the
norm of the gathered values, or the `TypeError` of iterating over `None`. -/
inductive CritOut (N : Type) where
  | skip
  | value (x : N)
  | typeError
deriving DecidableEq

/-- `tmp = MPI.COMM_WORLD.gather(val, root=0)`; `if self.comm_time_rank == 0: … norm …`
(mgrit.py:428-431) on world rank `r` of `size`, with time rank `timeRank`; `val q` is the list
computed by world rank `q`.  `gather` returns `None` except on the root. -/
def globalNorm {N : Type} (size : Nat) (norm : List N → N) (val : Nat → List N) (timeRank r : Nat) :
    CritOut N :=
  let tmp : Option (List (List N)) := if r = 0 then some ((List.range size).map val) else none
  if timeRank = 0 then
    match tmp with
    | some xs => .value (norm xs.flatten)
    | none => .typeError
  else .skip

/-! ## Application -/

/-- Exceptions of constructing an application. -/
inductive AppError where
  | noInterval
  | wrongType
  | emptyInterval
  | missing (attr : String)
deriving DecidableEq

/-- The argument `t_interval`: `None`, a NumPy array, or something else. -/
inductive IntervalArg (T : Type) where
  | none
  | array (ts : List T)
  | other

/-- `Application.__init__` (application.py:49-70); `linspace` is NumPy's. -/
def appInit {T : Type} (linspace : T → T → Nat → List T) (tStart tStop : Option T) (nt : Option Nat)
    (iv : IntervalArg T) : Except AppError (App T) :=
  match iv with
  | .none =>
    match tStart, tStop, nt with
    | some a, some b, some n => .ok ⟨linspace a b n, a, b, n⟩
    | _, _, _ => .error .noInterval
  | .other => .error .wrongType
  | .array ts =>
    match ts.head?, ts.getLast? with
    | some a, some b => .ok ⟨ts, a, b, ts.length⟩
    | _, _ => .error .emptyInterval

/-- `MetaApplication.__call__` (application.py:23-28): after the constructor of the subclass, which
sets the attributes `attrs`, the required ones are checked in order. -/
def appCall {A : Type} (obj : Except AppError (A × List String)) : Except AppError A := do
  let (a, attrs) ← obj
  match ["vector_template", "vector_t_start"].find? fun n => decide (n ∉ attrs) with
  | some n => .error (.missing n)
  | none => return a

end Pymgrit
