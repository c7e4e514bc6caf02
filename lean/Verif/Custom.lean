import Verif.JlSolver
import Verif.EndToEnd2

/-!
# A solver with a user-defined stopping criterion

Model of `MgritCustomized` (`/repo/examples/example_convergence_criterion.py`), the documented way to replace the stopping
criterion: a subclass of `Mgrit` overriding `convergence_criterion`.  The relaxation and cycles are those of `Mgrit`; the
arrays are the ones of the run on one process (`Verif.Dist3` proves that those of several processes are the same), the
criterion is modelled on any number of processes, each with the C-points `setupLevel` gives it.
-/

namespace Pymgrit
namespace Custom
open Sys Cfg Jl

/-- State of a run: the arrays, `self.last_it` of every process (one row per C-point), `self.conv`, `self.solve_iter`. -/
structure CRun (V F : Type) where
  st : GState V
  last : Nat → List (List F)
  conv : Nat → F
  iter : Nat

variable {V K T N F : Type} [LinearOrder T] [Inhabited T] [Field F] [LinearOrder F]

/-- `new` of process `r` (example_convergence_criterion.py:44-52): the components `comp k` of the vectors at its C-points;
entry `j` of the array of the process is the value at its time `self.t[0][j]`. -/
def newRows {d : Nat} (E : Cfg V K T N) (comp : Fin d → V → F) (st : GState V) (r : Nat) : List (List F) :=
  (E.info r 0).idxC.map fun j => List.ofFn fun k => comp k (st.u 0 ((grid E.ts 0).idxOf (tAt (E.info r 0).t j)))

/-- `tmp` of one process (example_convergence_criterion.py:42-55); `last_it` is replaced by zeros if the number of rows
differs.  Vectors have at least one component (otherwise `np.max` raises). -/
def localValue (d : Nat) (last new : List (List F)) : F :=
  let last := if last.length ≠ new.length then List.replicate new.length (List.replicate d 0) else last
  if 0 < new.length then
    100 * npMax (((List.zipWith (List.zipWith relChange) last new).flatten).map fun x => |(|x|)|)
  else 0

/-- The number stored by all processes (example_convergence_criterion.py:57-60). -/
def value (d P : Nat) (last new : Nat → List (List F)) : F :=
  npMax ((List.range P).map fun r => |localValue d (last r) (new r)|)

variable {d : Nat} (E : Cfg V K T N) (comp : Fin d → V → F)

/-- `convergence_criterion` (example_convergence_criterion.py:32-61). -/
def criterion (it : Nat) (s : CRun V F) : CRun V F :=
  { s with conv := Function.update s.conv it (value d E.P s.last (newRows E comp s.st))
           last := newRows E comp s.st }

variable [Add V] [Sub V] [SMul K V] [One K] [Sub K] [Zero N]

/-- The constructor (example_convergence_criterion.py:21-30): that of `Mgrit`, with `self.conv` all zeros (mgrit.py:158),
then an empty `last_it` and a first call of the criterion. -/
def construct : CRun V F :=
  criterion E comp 0 { st := (afterConstructor E).st, last := fun _ => [], conv := fun _ => 0, iter := 0 }

/-- Body of the loop in `solve` up to the stopping test (mgrit.py:604-608). -/
def body (it : Nat) (s : CRun V F) : CRun V F :=
  criterion E comp (it + 1) { s with st := E.sys.fineIteration E.sys.forwardSolve E.cyc it s.st, iter := it + 1 }

/-- Loop of `solve` (mgrit.py:603-634) with the inherited stopping test; `k` passes of the loop remain. -/
def loop (tol : F) : Nat → Nat → CRun V F → CRun V F
  | 0, _, s => s
  | k + 1, it, s =>
    let s := body E comp it s
    if s.conv (it + 1) < tol ∨ it + 1 = E.maxIter then s else loop tol k (it + 1) s

/-- `MgritCustomized(problem=..., tol=tol).solve()` (example_convergence_criterion.py:74). -/
def solve (tol : F) : CRun V F := loop E comp tol E.maxIter 0 (construct E comp)

/-- `self.conv[np.where(self.conv != 0)]` (mgrit.py:645). -/
def history (E : Cfg V K T N) (s : CRun V F) : List F :=
  ((List.range (E.maxIter + 1)).map s.conv).filter fun x => decide (x ≠ 0)

end Custom
end Pymgrit
