import Verif.PropsDist

/-!
# Programs that use several solvers

A program that is executed by all processes (as under `mpiexec`) creates solvers and calls their `solve()` in any order; it may
decide how to go on from what `solve()` returned.  Every solver has its own arrays and tags, which start at the same numbers
(mgrit.py:192-195), and all use the same communicator, so that messages of different solvers can be in the same channel at the
same time: the processes do not wait for each other between two solvers.
-/

set_option linter.unusedSectionVars false

namespace Pymgrit

variable {V K T N : Type}

/-- A program: create a solver (`Mgrit(...)`, mgrit.py:26-240), call `solve()` of the solver created as number `i`
(mgrit.py:604-646) and go on depending on the number of iterations and the recorded values. -/
inductive Script (V K T N : Type)
  | done
  | new (E : Cfg V K T N) (k : Script V K T N)
  | solve (i : Nat) (k : Nat → (Nat → N) → Script V K T N)

namespace Script
variable [LinearOrder T] [Inhabited T] [Add V] [Sub V] [SMul K V] [One K] [Sub K] [Zero N]

/-- The program on process `r` (mgrit.py:26-240, 604-646); `st` – the solvers created so far.  Its result: the solvers at the end. -/
def prog (r : Nat) : Script V K T N → List (Cfg V K T N × PState V N) →
    Prog (Msg V N) (List (Cfg V K T N × PState V N))
  | done, st => .ret st
  | new E k, st => (E.setupP r (E.initState (fun r l => off E.ts E.P l r) r)).bind fun s => k.prog r (st ++ [(E, s)])
  | solve i k, st =>
    match st[i]? with
    | none => .fail "IndexError"
    | some (E, s) => (E.solveP r s).bind fun s' => (k s'.solveIter s'.conv).prog r (st.set i (E, s'))

/-- The same program with solvers on one process, one after the other. -/
def serial : Script V K T N → List (Cfg V K T N × Run V N) → List (Cfg V K T N × Run V N)
  | done, st => st
  | new E k, st => k.serial (st ++ [(E, E.sys.setup E.ctl E.sys.forwardSolve (Run.init E.start E.zero E.guess))])
  | solve i k, st =>
    match st[i]? with
    | none => st
    | some (E, R) =>
      let R' := E.sys.solve E.ctl E.sys.forwardSolve R
      (k R'.iter R'.conv).serial (st.set i (E, R'))

/-- The solvers that are created use `P` processes and meet the requirements of C20, and `solve()` is only called of solvers
that exist - in the course the program takes on one process. -/
def Fits (P : Nat) : Script V K T N → List (Cfg V K T N × Run V N) → Prop
  | done, _ => True
  | new E k, st => (E.P = P ∧ E.Good) ∧
      k.Fits P (st ++ [(E, E.sys.setup E.ctl E.sys.forwardSolve (Run.init E.start E.zero E.guess))])
  | solve i k, st =>
    match st[i]? with
    | none => False
    | some (E, R) =>
      let R' := E.sys.solve E.ctl E.sys.forwardSolve R
      (k R'.iter R'.conv).Fits P (st.set i (E, R'))

/-- Start of the program on `P` processes. -/
def start (P : Nat) (p : Script V K T N) : Conf P (Msg V N) (List (Cfg V K T N × PState V N)) :=
  ⟨fun r => p.prog r [], Chans.empty⟩

/-- Solvers that are created and solved one after another, each once; `i` have been created before. -/
def chain : Nat → List (Cfg V K T N) → Script V K T N
  | _, [] => done
  | i, E :: Es => new E (solve i fun _ _ => chain (i + 1) Es)

end Script

end Pymgrit
