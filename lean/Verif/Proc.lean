import Verif.Net
import Verif.Seq
import Verif.Grid

/-!
# The program of one time process

Function-by-function model of `/repo/src/pymgrit/core/mgrit.py` as run by one MPI process, with its
local arrays (ghost point at local index 0 on ranks > 0), its tag counters and its messages.

Not modelled: timing, logging, `MPI_TAG_UB`.  `MPI.COMM_WORLD` in `convergence_criterion` is taken
to be the time communicator (no spatial parallelism; see `Verif.Setup` for the other case).
Python lists are total functions; `Verif.PropsGrid` proves that all indices used are in range.
-/

namespace Pymgrit

/-- Contents of a message. -/
inductive Payload (V N : Type) where
  | vec (x : V)
  | flag (b : Bool)
  | nums (xs : List N)
  | num (x : N)
  | unit

/-- A message: `data`, and with a local criterion `[data, self.finished[0]]` (mgrit.py:708-712; with
a global criterion `fin` is `false` and not looked at).  `lvl` and `op` are annotations for the
proofs (they are not part of the code's message): the level and `op_id` of the sending call. -/
structure Msg (V N : Type) where
  data : Payload V N
  fin : Bool
  lvl : Nat
  op : Nat

/-- Static configuration of a solver run, equal on all processes: the constructor arguments
(mgrit.py:33-37) and the problem data.

* `ts` – `problem[l].t` for all levels; `step l x t t'` – `problem[l].step(u_start, t_start, t_stop)`
* `start l` – `problem[l].vector_t_start`; `zero l` – `vector_template.clone_zero()`
* `guess i` – initial guess at fine point `i`: `clone_zero()` or `clone_rand()` (mgrit.py:847-850)
* `tnorm` – `np.linalg.norm(.., ord=self.t_norm)`, `ltTol x` – `x < self.tol`
* `ord` – iteration order of the set of F-points, see `setupLevel`
* `instr` – `false` is the code; `true` adds the check that a received message was sent by the
  matching call (same level and `op_id`), used to state that tags never mix up messages. -/
structure Cfg (V K T N : Type) where
  ts : List (List T)
  step : Nat → V → T → T → V
  R : Nat → V → V
  I : Nat → V → V
  cf : Nat → Nat
  w : K
  start : Nat → V
  zero : Nat → V
  guess : Nat → V
  cyc : Sys.Cycle
  nested : Bool
  maxIter : Nat
  convCrit : Nat
  norm : V → N
  tnorm : List N → N
  ltTol : N → Bool
  outLvl : Nat
  ord : Nat → Nat → List Nat → List Nat
  P : Nat
  instr : Bool

/-- State of one process (mgrit.py:146-228). `outs` records the calls of `output_fcn`: iteration
number `solve_iter` and the fine-level array at the time of the call. -/
structure PState (V N : Type) where
  u : Nat → Nat → V
  v : Nat → Nat → V
  g : Nat → Nat → V
  tagS : Nat → Nat → Nat
  tagR : Nat → Nat → Nat
  sf : Nat → Nat → Bool
  saved : Nat → V
  conv : Nat → N
  fin : Bool
  finIt : Option Nat
  pre : Bool
  preIt : Option Nat
  solveIter : Nat
  outs : List (Nat × (Nat → V))

/-- `a[l][i] = x`. -/
def upd2 {A : Type} (a : Nat → Nat → A) (l i : Nat) (x : A) : Nat → Nat → A :=
  Function.update a l (Function.update (a l) i x)

namespace PState
variable {V N : Type}
def setU (s : PState V N) (l i : Nat) (x : V) : PState V N := { s with u := upd2 s.u l i x }
def setG (s : PState V N) (l i : Nat) (x : V) : PState V N := { s with g := upd2 s.g l i x }
end PState

namespace Cfg

variable {V K T N : Type} [LinearOrder T] [Inhabited T] (E : Cfg V K T N)

/-- `self.lvl_max` (mgrit.py:148). -/
def L : Nat := E.ts.length

/-- Grid information of process `r` on level `l`. -/
def info (r l : Nat) : LvlInfo T := setupLevel E.ts E.P (E.ord r l) r l

/-- `self.global_conv_crit` (mgrit.py:184). -/
def global : Bool := decide (E.convCrit = 0 ∨ E.convCrit = 1)

/-- `len(self.u[lvl])` (mgrit.py:846-856: one vector per entry of `self.t[lvl]`). -/
def len (r l : Nat) : Nat := (E.info r l).t.length

/-- Python's `i - 1` as an index into an array of length `n`: `-1` is the last entry. -/
def pyPrev (n i : Nat) : Nat := if i = 0 then n - 1 else i - 1

/-- `send` (mgrit.py:704-713); a destination `-99` would be an MPI error. -/
def sendP (dst : Option Nat) (l op : Nat) (x : Payload V N) (s : PState V N) :
    Prog (Msg V N) (PState V N) :=
  match dst with
  | none => .fail "invalid destination"
  | some d =>
    .send d (s.tagS l op) ⟨x, if E.global then false else s.fin, l, op⟩
      (.ret { s with tagS := upd2 s.tagS l op (s.tagS l op + 1) })

/-- `receive` (mgrit.py:693-702). -/
def recvP (src : Option Nat) (l op : Nat) (s : PState V N) :
    Prog (Msg V N) (Payload V N × PState V N) :=
  match src with
  | none => .fail "invalid source"
  | some q =>
    .recv q (s.tagR l op) fun m =>
      if E.instr && !(decide (m.lvl = l) && decide (m.op = op)) then .fail "message mismatch"
      else .ret (m.data,
        { s with tagR := upd2 s.tagR l op (s.tagR l op + 1)
                 sf := if E.global then s.sf else upd2 s.sf l op m.fin })

/-- `self.u[lu][0].unpack(self.receive(..))`. -/
def recvU (src : Option Nat) (l op lu : Nat) (s : PState V N) : Prog (Msg V N) (PState V N) :=
  (E.recvP src l op s).bind fun p =>
    match p.1 with
    | .vec x => .ret (p.2.setU lu 0 x)
    | _ => .fail "unpack of wrong data"

section ops
variable [Add V]

/-- Time integration from the previous local point, with FAS right-hand side on coarse levels
(mgrit.py:320-327 and the same expression in `c_relax`, `forward_solve`). -/
def stepAt (r l j : Nat) (u : Nat → V) : V :=
  E.step l (u (pyPrev (E.len r l) j)) (tAt (E.info r l).t (pyPrev (E.len r l) j))
    (tAt (E.info r l).t j)

def propAt (r l j : Nat) (s : PState V N) : V :=
  if l = 0 then E.stepAt r l j (s.u l) else s.g l j + E.stepAt r l j (s.u l)

/-- Body of the loop over F-points (mgrit.py:314-331). -/
def fBody (r l : Nat) (s : PState V N) (j : Nat) : Prog (Msg V N) (PState V N) :=
  let J := E.info r l
  (if J.commFront && decide (J.idxF.min? = some j) && !s.sf l 1 then
    E.recvU J.getFrom l 1 l s else .ret s).bind fun s =>
  let s := s.setU l j (E.propAt r l j s)
  if J.commBack && decide (J.idxF.max? = some j) then
    E.sendP J.sendTo l 1 (.vec (s.u l j)) s else .ret s

/-- `f_relax` (mgrit.py:292-333). -/
def fRelaxP (r l : Nat) (s : PState V N) : Prog (Msg V N) (PState V N) :=
  let J := E.info r l
  (if J.lastC then E.sendP J.sendTo l 0 (.vec (s.u l (E.len r l - 1))) s else .ret s).bind fun s =>
  (if J.firstF && !s.sf l 0 then E.recvU J.getFrom l 0 l s else .ret s).bind fun s =>
  Prog.forIn' J.idxF (E.fBody r l) s

/-- Loop of `c_relax` over the C-points (mgrit.py:355-368). -/
def cLoop [SMul K V] [One K] [Sub K] (r l : Nat) (s : PState V N) : PState V N :=
  (E.info r l).idxC.foldl (fun s j => if j ≠ 0 ∨ r ≠ 0 then
    s.setU l j (E.w • E.propAt r l j s + (1 - E.w) • s.u l j) else s) s

/-- `c_relax` (mgrit.py:335-370). -/
def cRelaxP [SMul K V] [One K] [Sub K] (r l : Nat) (s : PState V N) :
    Prog (Msg V N) (PState V N) :=
  let J := E.info r l
  (if J.lastF then E.sendP J.sendTo l 2 (.vec (s.u l (E.len r l - 1))) s else .ret s).bind fun s =>
  (if J.firstC && !s.sf l 2 then E.recvU J.getFrom l 2 l s else .ret s).bind fun s =>
  .ret (E.cLoop r l s)

/-- `forward_solve` (mgrit.py:459-486). -/
def forwardSolveP (r l : Nat) (s : PState V N) : Prog (Msg V N) (PState V N) :=
  let J := E.info r l
  (if J.getFrom.isSome && !s.sf l 5 then E.recvU J.getFrom l 5 l s else .ret s).bind fun s =>
  let s := (List.range' 1 (E.len r l - 1)).foldl (fun s j => s.setU l j (E.propAt r l j s)) s
  if J.sendTo.isSome then E.sendP J.sendTo l 5 (.vec (s.u l (J.idx.getLastD 0))) s else .ret s

/-- Restriction loop of `fas_residual` (mgrit.py:498-500). -/
def restrictLoop (r l : Nat) (s : PState V N) : PState V N :=
  (E.info r l).idxC.zipIdx.foldl (fun s ci =>
    s.setU (l + 1) (if r = 0 then ci.2 else ci.2 + 1) (E.R l (s.u l ci.1))) s

/-- Loop computing the FAS right-hand side (mgrit.py:523-547). -/
def fasLoop [Sub V] (r l : Nat) (s : PState V N) : PState V N :=
  (E.info r l).idxC.zipIdx.foldl (fun s ci =>
    if ci.2 ≠ 0 ∨ r ≠ 0 then
      let k := (E.info r (l + 1)).idx.getD ci.2 0
      let coarse := E.stepAt r (l + 1) k (s.v (l + 1))
      if l = 0 then
        s.setG (l + 1) k (E.R l (E.stepAt r l ci.1 (s.u l) - s.u l ci.1) + s.v (l + 1) k - coarse)
      else
        s.setG (l + 1) k
          (E.R l (s.g l ci.1 - s.u l ci.1 + E.stepAt r l ci.1 (s.u l)) + s.v (l + 1) k - coarse)
    else s) s

/-- `fas_residual` (mgrit.py:488-549). -/
def fasResidualP [Sub V] (r l : Nat) (s : PState V N) : Prog (Msg V N) (PState V N) :=
  let J := E.info r l
  let J1 := E.info r (l + 1)
  let s := E.restrictLoop r l s
  (if J.lastF then E.sendP J.sendTo l 3 (.vec (s.u l (E.len r l - 1))) s else .ret s).bind fun s =>
  (if J.firstC && !s.sf l 3 then E.recvU J.getFrom l 3 l s else .ret s).bind fun s =>
  (if J1.sendTo.isSome then
    E.sendP J1.sendTo l 4 (.vec (s.u (l + 1) (J1.idx.getLastD 0))) s else .ret s).bind fun s =>
  (if J1.getFrom.isSome && !s.sf l 4 then
    E.recvU J1.getFrom l 4 (l + 1) s else .ret s).bind fun s =>
  let s := { s with v := Function.update s.v (l + 1) (s.u (l + 1)) }
  .ret (E.fasLoop r l s)

/-- `error_correction` (mgrit.py:715-726).  The code indexes the coarse arrays with
`self.index_local[lvl][i]` (not `lvl + 1`). -/
def errorCorrectionP [Sub V] (r l : Nat) (s : PState V N) : PState V N :=
  (E.info r l).idxC.zipIdx.foldl (fun s ci =>
    if ci.2 ≠ 0 ∨ r ≠ 0 then
      let k := (E.info r l).idx.getD ci.2 0
      s.setU l ci.1 (s.u l ci.1 + E.I l (s.u (l + 1) k - s.v (l + 1) k))
    else s) s

/-- `for _ in range(k)` with a communicating body. -/
def timesP {M α : Type} (f : α → Prog M α) : Nat → α → Prog M α
  | 0, s => .ret s
  | k + 1, s => (f s).bind (timesP f k)

variable [Sub V] [SMul K V] [One K] [Sub K]

/-- V-cycle part of `iteration` (mgrit.py:261-290); `d = lvl_max - 1 - l`, see `Sys.vcyc`. -/
def vcycP (r : Nat) : Nat → Nat → Nat → Bool → PState V N → Prog (Msg V N) (PState V N)
  | 0, l, _, _, s => E.forwardSolveP r l s
  | d + 1, l, it, firstF, s =>
    (if (0 < l ∨ (it = 0 ∧ l = 0)) ∧ firstF then E.fRelaxP r l s else .ret s).bind fun s =>
    (timesP (fun s => (E.cRelaxP r l s).bind (E.fRelaxP r l)) (E.cf l) s).bind fun s =>
    (E.fasResidualP r l s).bind fun s =>
    (vcycP r d (l + 1) it true s).bind fun s =>
    E.fRelaxP r l (E.errorCorrectionP r l s)

/-- `iteration` (mgrit.py:261-290). -/
def iterationP (r : Nat) : Nat → Nat → Sys.Cycle → Nat → Bool → PState V N →
    Prog (Msg V N) (PState V N)
  | 0, l, _, _, _, s => E.forwardSolveP r l s
  | d + 1, l, cyc, it, firstF, s =>
    (if (0 < l ∨ (it = 0 ∧ l = 0)) ∧ firstF then E.fRelaxP r l s else .ret s).bind fun s =>
    (timesP (fun s => (E.cRelaxP r l s).bind (E.fRelaxP r l)) (E.cf l) s).bind fun s =>
    (E.fasResidualP r l s).bind fun s =>
    (iterationP r d (l + 1) cyc it true s).bind fun s =>
    (E.fRelaxP r l (E.errorCorrectionP r l s)).bind fun s =>
    if l ≠ 0 ∧ cyc = Sys.Cycle.F then E.vcycP r (d + 1) l it false s else .ret s

/-- Interpolation loop of `nested_iteration` (mgrit.py:560-563). -/
def interpolateP (r l : Nat) (s : PState V N) : PState V N :=
  (E.info r (l + 1)).idx.zipIdx.foldl (fun s ki =>
    if ki.2 ≠ 0 ∨ r ≠ 0 then
      s.setU l ((E.info r l).idxC.getD ki.2 0) (E.I l (s.u (l + 1) ki.1))
    else s) s

/-- Level loop of `nested_iteration` (mgrit.py:559-566). -/
def nestedLoopP (r : Nat) : Nat → PState V N → Prog (Msg V N) (PState V N)
  | 0, s => .ret s
  | l + 1, s =>
    let s := E.interpolateP r l s
    (if 0 < l then E.iterationP r (E.L - 1 - l) l Sys.Cycle.V 0 true s else .ret s).bind fun s =>
    nestedLoopP r l s

/-- `nested_iteration` (mgrit.py:551-566). -/
def nestedIterationP (r : Nat) (s : PState V N) : Prog (Msg V N) (PState V N) :=
  (E.forwardSolveP r (E.L - 1) s).bind (E.nestedLoopP r (E.L - 1))

/-- `compute_residual` (mgrit.py:387-413). -/
def residualP (r : Nat) (s : PState V N) : Prog (Msg V N) (List N × PState V N) :=
  let J := E.info r 0
  (if J.lastF then E.sendP J.sendTo 0 7 (.vec (s.u 0 (E.len r 0 - 1))) s else .ret s).bind fun s =>
  (if J.firstC && !s.sf 0 7 then E.recvU J.getFrom 0 7 0 s else .ret s).bind fun s =>
  .ret ((J.idxC.filter fun j => decide (r ≠ 0 ∨ j ≠ 0)).map fun j =>
    E.norm (E.stepAt r 0 j (s.u 0) - s.u 0 j), s)

/-- `compute_jump` (mgrit.py:372-385). -/
def jumpP (r : Nat) (s : PState V N) : List N × PState V N :=
  (((E.info r 0).idxC.filter fun j => decide (r ≠ 0 ∨ j ≠ 0)).map fun j =>
    E.norm (s.u 0 j - s.saved j), { s with saved := s.u 0 })

/-- Gather to rank 0 followed by a broadcast from rank 0, as messages with tags outside the range
used by `send` (those start at 50000): every rank sends `x`, rank 0 applies `f` to the list of all
contributions in rank order and sends the result to everybody. -/
def collectP (r : Nat) (tag : Nat) (x : Payload V N) (f : List (Payload V N) → Payload V N) :
    Prog (Msg V N) (Payload V N) :=
  if r = 0 then
    (Prog.forIn' (List.range' 1 (E.P - 1)) (fun acc q =>
      .recv q tag fun m => .ret (acc ++ [m.data])) [x]).bind fun xs =>
    (Prog.forIn' (List.range' 1 (E.P - 1)) (fun _ q =>
      .send q (tag + 1) ⟨f xs, false, 0, 8⟩ (.ret ())) ()).bind fun _ => .ret (f xs)
  else
    .send 0 tag ⟨x, false, 0, 8⟩ (.recv 0 (tag + 1) fun m => .ret m.data)

/-- `self.comm_time.barrier()`. -/
def barrierP (r : Nat) : Prog (Msg V N) Unit :=
  (E.collectP r 2 .unit fun _ => .unit).bind fun _ => .ret ()

/-- All norms of all processes, in rank order: `[item for sublist in tmp for item in sublist]`
(mgrit.py:430). -/
def allNums (xs : List (Payload V N)) : List N :=
  xs.flatMap fun
    | .nums ys => ys
    | _ => []

/-- `convergence_criterion` (mgrit.py:415-457). -/
def convergenceP (r it : Nat) (s : PState V N) : Prog (Msg V N) (PState V N) :=
  (if E.convCrit = 0 ∨ E.convCrit = 2 then E.residualP r s else .ret (E.jumpP r s)).bind fun vs =>
  let val := vs.1
  let s := vs.2
  if E.global then
    (E.collectP r 0 (.nums val) fun xs => .num (E.tnorm (allNums xs))).bind fun p =>
    match p with
    | .num x => .ret { s with conv := Function.update s.conv it x }
    | _ => .fail "wrong data"
  else
    (if 0 < r ∧ s.sf 0 6 = false then
      (E.recvP (some (r - 1)) 0 6 s).bind fun p =>
        match p.1 with
        | .flag b => .ret { p.2 with pre := b, preIt := if b then some it else p.2.preIt }
        | _ => .fail "wrong data"
     else .ret s).bind fun s =>
    let s := { s with fin := s.pre && (val.all E.ltTol || decide (it = E.maxIter)), finIt := some it }
    (if r + 1 < E.P then E.sendP (some (r + 1)) 0 6 (.flag s.fin) s else .ret s).bind fun s =>
    .ret { s with conv := Function.update s.conv it (E.tnorm val) }

/-- Sending part of `clean_up` with a local criterion, one level (mgrit.py:651-662). -/
def cleanSend (r : Nat) (s : PState V N) (l : Nat) : Prog (Msg V N) (PState V N) :=
  let J := E.info r l
  let J1 := E.info r (l + 1)
  let last : PState V N → Payload V N := fun s => .vec (s.u l (E.len r l - 1))
  (if J.lastC then E.sendP J.sendTo l 0 (last s) s else .ret s).bind fun s =>
  (if J.commBack then E.sendP J.sendTo l 1 (last s) s else .ret s).bind fun s =>
  (if J.lastF then E.sendP J.sendTo l 2 (last s) s else .ret s).bind fun s =>
  (if J.lastF then E.sendP J.sendTo l 3 (last s) s else .ret s).bind fun s =>
  if J1.sendTo.isSome then
    E.sendP J1.sendTo l 4 (.vec (s.u l (J.idxC.getLastD 0))) s else .ret s

/-- Receiving part of `clean_up` with a local criterion, one level (mgrit.py:673-684). -/
def cleanRecv (r : Nat) (s : PState V N) (l : Nat) : Prog (Msg V N) (PState V N) :=
  let J := E.info r l
  let J1 := E.info r (l + 1)
  (if J.firstF && !s.sf l 0 then E.recvU J.getFrom l 0 l s else .ret s).bind fun s =>
  (if J.commFront && !s.sf l 1 then E.recvU J.getFrom l 1 l s else .ret s).bind fun s =>
  (if J.firstC && !s.sf l 2 then E.recvU J.getFrom l 2 l s else .ret s).bind fun s =>
  (if J.firstC && !s.sf l 3 then E.recvU J.getFrom l 3 l s else .ret s).bind fun s =>
  if J1.getFrom.isSome && !s.sf l 4 then
    (E.recvP J1.getFrom l 4 s).bind fun p => .ret p.2 else .ret s

/-- `clean_up` (mgrit.py:648-691). -/
def cleanUpP (r : Nat) (s : PState V N) : Prog (Msg V N) (PState V N) :=
  .wait <|
  if E.global then .ret s
  else
    (Prog.forIn' (List.range (E.L - 1)) (E.cleanSend r) s).bind fun s =>
    let Jc := E.info r (E.L - 1)
    (if Jc.sendTo.isSome then
      E.sendP Jc.sendTo (E.L - 1) 5 (.vec (s.u (E.L - 1) (Jc.idx.getLastD 0))) s
     else .ret s).bind fun s =>
    (if (E.info r 0).lastF then
      E.sendP (some (r + 1)) 0 7 (.vec (s.u 0 (E.len r 0 - 1))) s else .ret s).bind fun s =>
    (if s.finIt = s.preIt then
      (Prog.forIn' (List.range (E.L - 1)) (E.cleanRecv r) s).bind fun s =>
      (if Jc.getFrom.isSome && !s.sf (E.L - 1) 5 then
        E.recvU Jc.getFrom (E.L - 1) 5 (E.L - 1) s else .ret s).bind fun s =>
      (if (E.info r 0).firstC && !s.sf 0 7 then
        E.recvU (E.info r 0).getFrom 0 7 0 s else .ret s)
     else .ret s).bind fun s =>
    .wait (.ret s)

/-- A call of `output_fcn`. -/
def outputP (s : PState V N) : PState V N := { s with outs := s.outs ++ [(s.solveIter, s.u 0)] }

/-- Loop of `solve` (mgrit.py:603-635); `k` is the number of remaining iterations. -/
def solveLoopP (r : Nat) : Nat → Nat → PState V N → Prog (Msg V N) (PState V N)
  | 0, _, s => .ret s
  | k + 1, it, s =>
    (E.iterationP r (E.L - 1) 0 E.cyc it true { s with solveIter := it + 1 }).bind fun s =>
    (E.convergenceP r (it + 1) s).bind fun s =>
    let s := if E.outLvl = 2 then outputP s else s
    if E.ltTol (s.conv (it + 1)) ∨ it + 1 = E.maxIter then
      if E.global then E.cleanUpP r s
      else if (s.fin && s.pre) ∨ it + 1 = E.maxIter then E.cleanUpP r s
      else solveLoopP r k (it + 1) s
    else solveLoopP r k (it + 1) s

/-- `solve` (mgrit.py:590-646), without the returned dictionary (see `convHistory`). -/
def solveP (r : Nat) (s : PState V N) : Prog (Msg V N) (PState V N) :=
  (E.solveLoopP r E.maxIter 0 s).bind fun s =>
  (E.barrierP r).bind fun _ =>
  .ret (if E.outLvl = 1 then outputP s else s)

/-- Initial state: `create_u_v_g` (mgrit.py:840-858), tags (192-195), flags (196, 224-228).  On
process `r` local index `j` holds global point `j` minus the ghost offset; the guess of the code
does not depend on the point (`clone_zero`) or is random. `offs` is that offset. -/
def initState [Zero N] (offs : Nat → Nat → Nat) (r : Nat) : PState V N :=
  { u := fun l j =>
      if r = 0 ∧ j = 0 then E.start l
      else if l = 0 then E.guess (j + offs r l) else E.zero l
    v := fun l _ => E.zero l
    g := fun l _ => E.zero l
    tagS := fun _ op => 50000 * (op + 1)
    tagR := fun _ op => 50000 * (op + 1)
    sf := fun _ _ => false
    saved := fun _ => E.zero 0
    conv := fun _ => 0
    fin := false
    finIt := none
    pre := decide (r = 0)
    preIt := if r = 0 then some 0 else none
    solveIter := 0
    outs := [] }

/-- The rest of the constructor after the parameter checks (mgrit.py:140-245). -/
def setupP (r : Nat) (s : PState V N) : Prog (Msg V N) (PState V N) :=
  (E.barrierP r).bind fun _ =>
  (if E.nested then E.nestedIterationP r s else .ret s).bind fun s =>
  let s := if E.convCrit = 1 ∨ E.convCrit = 3 then { s with saved := s.u 0 } else s
  (if E.maxIter = 0 then E.barrierP r else .ret ()).bind fun _ =>
  .ret (if E.outLvl = 2 then outputP s else s)

/-- Constructor followed by `solve()`. -/
def mainP (r : Nat) (s : PState V N) : Prog (Msg V N) (PState V N) :=
  (E.setupP r s).bind (E.solveP r)

end ops

/-- The `'conv'` entry of the dictionary returned by `solve` (mgrit.py:645):
`self.conv[np.where(self.conv != 0)]` with `self.conv` of length `max_iter + 1`. -/
def convHistory [Zero N] [DecidableEq N] (s : PState V N) : List N :=
  ((List.range (E.maxIter + 1)).map s.conv).filter fun x => decide (x ≠ 0)

end Cfg
end Pymgrit
