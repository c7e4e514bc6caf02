import Mathlib.Logic.Relation
import Mathlib.Data.Fintype.Basic
import Mathlib.Algebra.BigOperators.Fin
import Mathlib.Algebra.Order.Field.Rat
import Mathlib.Tactic.Ring
import Mathlib.Tactic.Linarith

/-!
# The optimization workflow of the induction machine

Model of examples/optimize_geometry_im/optimization_workflow.py:128-247: process 0 runs the optimizer, which evaluates the
objective function; an evaluation writes the mesh, tells the workers to start and waits for their result.  The workers run
the solver on a communicator of their own, reading the mesh from the file system while they run.

* optimizer (`pybobyqa.solve`) – an arbitrary strategy: it stops or asks for the value at a point and goes on depending on
  the value
* `MPI.COMM_WORLD.bcast` – the root appends to a queue of every other process and goes on; the others wait for the front of
  their queue.  All processes call the broadcasts in the same order, so there is one queue per root and process
* `run_mgrit` – reads the mesh any given number of times, at any time, and ends with an `allgather` of all workers
  (optimization_workflow.py:46, the last communication of `AtMgritCustomized.solve`), which nobody leaves before everybody
  has entered; the result depends on everything that was read.  The communication of the solver before that is left out:
  it only restricts the order of the steps

At least one worker, i.e. two processes (optimization_workflow.py:12).
-/

namespace Pymgrit.Opt

/-- An optimizer: it stops, or evaluates the objective function at `x` and goes on depending on the value
(optimization_workflow.py:242-243). -/
inductive Strat (X O : Type)
  | done
  | ask (x : X) (k : O → Strat X O)

/-- The parts that are not looked into.  `n + 1` workers; `reads i` – how often worker `i` reads the mesh during one run;
`run` – the result of `run_mgrit` (optimization_workflow.py:198-201) from what the workers read; `obj` – the objective
function (optimization_workflow.py:155-156); `raises` – whether `run_mgrit` ends in an exception. -/
structure Flow (X R O : Type) where
  n : Nat
  reads : Fin (n + 1) → Nat
  run : (Fin (n + 1) → List X) → R
  obj : R → O
  raises : Bool

/-- Where process 0 is: in the optimizer; behind `create_mesh` (optimization_workflow.py:164-166); behind the first broadcast
(:179), waiting for the second (:182); behind the last broadcast (:244). -/
inductive Master (X O : Type)
  | think (s : Strat X O)
  | meshed (x : X) (k : O → Strat X O)
  | waiting (x : X) (k : O → Strat X O)
  | stopped

/-- Where a worker is (optimization_workflow.py:190-208): waiting for the first broadcast; in `run_mgrit`, having read `seen`;
in the `allgather`; behind it, in front of the second broadcast; behind the loop; ended by an exception. -/
inductive Worker (X : Type)
  | idle
  | run (seen : List X)
  | gather
  | left
  | ended
  | crashed

variable {X R O : Type}

/-- `disk` – the mesh; `hist` – the evaluations so far; `contrib i` – what worker `i` contributed to each `allgather`;
`flags`, `resM`, `resW` – broadcasts that process 0 / the last worker has sent and that have not been received. -/
structure St (F : Flow X R O) where
  disk : Option X
  m : Master X O
  hist : List (X × O)
  w : Fin (F.n + 1) → Worker X
  contrib : Fin (F.n + 1) → List (List X)
  flags : Fin (F.n + 1) → List Bool
  resM : List R
  resW : Fin (F.n + 1) → List R

variable {F : Flow X R O}

/-- Start (optimization_workflow.py:241-247). -/
def start (F : Flow X R O) (s : Strat X O) : St F where
  disk := none
  m := .think s
  hist := []
  w := fun _ => .idle
  contrib := fun _ => []
  flags := fun _ => []
  resM := []
  resW := fun _ => []

/-- The result of the run that worker `i` has just finished: that of the `allgather` it left last. -/
def St.result (s : St F) (i : Fin (F.n + 1)) : R := F.run fun j => (s.contrib j).getD ((s.contrib i).length - 1) []

/-- One step of one process. -/
inductive Step : St F → St F → Prop
  /-- `create_mesh` (optimization_workflow.py:164-166). -/
  | mesh {s : St F} {x k} : s.m = .think (.ask x k) → Step s { s with disk := some x, m := .meshed x k }
  /-- `MPI.COMM_WORLD.bcast(0, root=0)` (optimization_workflow.py:179). -/
  | go {s : St F} {x k} : s.m = .meshed x k →
      Step s { s with m := .waiting x k, flags := fun i => s.flags i ++ [false] }
  /-- `obj, obj2 = MPI.COMM_WORLD.bcast([1, 1], root=...)` and the objective function (optimization_workflow.py:182-187). -/
  | get {s : St F} {x k r rs} : s.m = .waiting x k → s.resM = r :: rs →
      Step s { s with m := .think (k (F.obj r)), hist := s.hist ++ [(x, F.obj r)], resM := rs }
  /-- `MPI.COMM_WORLD.bcast(1, root=0)` (optimization_workflow.py:244). -/
  | stop {s : St F} : s.m = .think .done → Step s { s with m := .stopped, flags := fun i => s.flags i ++ [true] }
  /-- `finished = MPI.COMM_WORLD.bcast(finished, root=0)`, not finished (optimization_workflow.py:194-198). -/
  | begin {s : St F} {i fs} : s.w i = .idle → s.flags i = false :: fs →
      Step s { s with w := Function.update s.w i (.run []), flags := Function.update s.flags i fs }
  /-- The same, finished (optimization_workflow.py:194-196). -/
  | quit {s : St F} {i fs} : s.w i = .idle → s.flags i = true :: fs →
      Step s { s with w := Function.update s.w i .ended, flags := Function.update s.flags i fs }
  /-- The solver reads the mesh. -/
  | read {s : St F} {i seen x} : s.w i = .run seen → seen.length < F.reads i → s.disk = some x →
      Step s { s with w := Function.update s.w i (.run (seen ++ [x])) }
  /-- Entering the `allgather` (optimization_workflow.py:46). -/
  | enter {s : St F} {i seen} : F.raises = false → s.w i = .run seen → seen.length = F.reads i →
      Step s { s with w := Function.update s.w i .gather,
                      contrib := Function.update s.contrib i (s.contrib i ++ [seen]) }
  /-- Leaving the `allgather`: everybody has entered it. -/
  | leave {s : St F} {i} : s.w i = .gather → (∀ j, (s.contrib i).length ≤ (s.contrib j).length) →
      Step s { s with w := Function.update s.w i .left }
  /-- `MPI.COMM_WORLD.bcast([tr, jl], root=MPI.COMM_WORLD.Get_size() - 1)` on the last worker
  (optimization_workflow.py:208). -/
  | send {s : St F} : s.w (Fin.last F.n) = .left →
      Step s { s with w := Function.update s.w (Fin.last F.n) .idle
                      resM := s.resM ++ [s.result (Fin.last F.n)]
                      resW := fun i => if i = Fin.last F.n then s.resW i
                        else s.resW i ++ [s.result (Fin.last F.n)] }
  /-- The same on the other workers. -/
  | recv {s : St F} {i r rs} : i ≠ Fin.last F.n → s.w i = .left → s.resW i = r :: rs →
      Step s { s with w := Function.update s.w i .idle, resW := Function.update s.resW i rs }
  /-- An exception in `run_mgrit`. -/
  | crash {s : St F} {i seen} : F.raises = true → s.w i = .run seen → seen.length = F.reads i →
      Step s { s with w := Function.update s.w i .crashed }

/-- Executions of `n` steps. -/
inductive Exec (s0 : St F) : Nat → St F → Prop
  | nil : Exec s0 0 s0
  | step {n s s'} : Exec s0 n s → Step s s' → Exec s0 (n + 1) s'

/-- What the run returns for the mesh of `x`. -/
def Flow.value (F : Flow X R O) (x : X) : R := F.run fun j => List.replicate (F.reads j) x

/-- Specification: the evaluations of the optimizer with the objective function as a function of the point. -/
def seq (f : X → O) : Strat X O → List (X × O)
  | .done => []
  | .ask x k => (x, f x) :: seq f (k (f x))

/-! ### The region of the objective function -/

/-- `np.argmin`, going on at index `i` with the smallest value `b` so far, at index `bi`. -/
def argminFrom : List ℚ → ℚ → Nat → Nat → Nat
  | [], _, bi, _ => bi
  | d :: ds, b, bi, i => if d < b then argminFrom ds d i (i + 1) else argminFrom ds b bi (i + 1)

/-- `np.argmin`: the first index of the smallest value (0 stands for the exception on an empty array). -/
def argmin : List ℚ → Nat
  | [] => 0
  | d :: ds => argminFrom ds d 0 1

/-- `find_nearest`, the index (optimization_workflow.py:38-41). -/
def findNearest (t : List ℚ) (value : ℚ) : Nat := argmin (t.map fun x => |x - value|)

/-- `tr` and `jl` (optimization_workflow.py:48-52): the mean from the nearest point on; `vals` – the value at every time
point. -/
def regionMean (t vals : List ℚ) (region : ℚ) : ℚ :=
  let tail := vals.drop (findNearest t (t.getLastD 0 - region))
  tail.sum / tail.length

end Pymgrit.Opt
