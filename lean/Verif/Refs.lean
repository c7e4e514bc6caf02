import Verif.Proc

/-!
# The program of one process with vector objects instead of vectors

`Verif.Proc` treats the entries of `self.u`, `self.v`, `self.g` as values.  In the code they are references
to objects of a user-defined class: an assignment stores a reference, `u[l][0].unpack(..)` changes an object
in place, `clone()` creates an object, and a function of the user may return a new object, the object it was
given, or may change the object it was given.  This file models the same functions of
`/repo/src/pymgrit/core/mgrit.py` on that level.

Simplification: objects that no variable refers to after a statement (intermediate results of an expression)
are not kept, except the results of calls of the user's functions.
-/

namespace Pymgrit

/-- Identity of an object: number of the statement that created it, and level and index in the list. -/
structure Addr where
  blk : Nat
  lvl : Nat
  ix : Nat
deriving DecidableEq

/-- What a function of the user does with the object it is given. -/
inductive Beh where
  /-- returns a new object -/
  | fresh
  /-- returns the object it was given -/
  | same
  /-- changes the object it was given and returns it -/
  | inPlace
deriving DecidableEq

/-- Behaviour of the user's functions: `S l` of `problem[l].step`, `R l` and `I l` of
`transfer[l].restriction` and `transfer[l].interpolation`, possibly depending on the argument. -/
structure User (V T : Type) where
  S : Nat → V → T → T → Beh
  R : Nat → V → Beh
  I : Nat → V → Beh

/-- State of one process: the objects, and the attributes of the solver with references to them.
`next` – number of the next creating statement; `outs` – what the output function saw (`obj.outs` is not
used). -/
structure RState (V N : Type) where
  heap : Addr → V
  next : Nat
  obj : PState Addr N
  outs : List (Nat × (Nat → V))

namespace RState
variable {V N : Type}

/-- Create an object. -/
def alloc (ρ : RState V N) (x : V) : Addr × RState V N :=
  (⟨ρ.next, 0, 0⟩, { ρ with heap := Function.update ρ.heap ⟨ρ.next, 0, 0⟩ x, next := ρ.next + 1 })

/-- `[item.clone() for item in xs]` (mgrit.py:235, 384, 520). -/
def cloneList (ρ : RState V N) (xs : Nat → Addr) : (Nat → Addr) × RState V N :=
  (fun j => ⟨ρ.next, 0, j⟩,
    { ρ with heap := fun a => if a.blk = ρ.next then ρ.heap (xs a.ix) else ρ.heap a
             next := ρ.next + 1 })

/-- Call of a function of the user. -/
def call (ρ : RState V N) (b : Beh) (f : V → V) (a : Addr) : Addr × RState V N :=
  match b with
  | .fresh => ρ.alloc (f (ρ.heap a))
  | .same => (a, ρ)
  | .inPlace => (a, { ρ with heap := Function.update ρ.heap a (f (ρ.heap a)) })

/-- `self.u[l][j] = a`. -/
def setU (ρ : RState V N) (l j : Nat) (a : Addr) : RState V N := { ρ with obj := ρ.obj.setU l j a }

/-- `self.g[l][j] = a`. -/
def setG (ρ : RState V N) (l j : Nat) (a : Addr) : RState V N := { ρ with obj := ρ.obj.setG l j a }

/-- `self.u[l][0].unpack(x)`: changes the object. -/
def unpack (ρ : RState V N) (l : Nat) (x : V) : RState V N :=
  { ρ with heap := Function.update ρ.heap (ρ.obj.u l 0) x }

/-- The values a process sees through its references. -/
def vals (ρ : RState V N) : PState V N :=
  { u := fun l j => ρ.heap (ρ.obj.u l j)
    v := fun l j => ρ.heap (ρ.obj.v l j)
    g := fun l j => ρ.heap (ρ.obj.g l j)
    tagS := ρ.obj.tagS
    tagR := ρ.obj.tagR
    sf := ρ.obj.sf
    saved := fun j => ρ.heap (ρ.obj.saved j)
    conv := ρ.obj.conv
    fin := ρ.obj.fin
    finIt := ρ.obj.finIt
    pre := ρ.obj.pre
    preIt := ρ.obj.preIt
    solveIter := ρ.obj.solveIter
    outs := ρ.outs }

end RState

namespace Cfg

variable {V K T N : Type} [LinearOrder T] [Inhabited T] (E : Cfg V K T N) (U : User V T)

/-- `send` (mgrit.py:704-713).  `isend` of mpi4py serializes the object at once. -/
def sendR (dst : Option Nat) (l op : Nat) (x : Payload V N) (ρ : RState V N) :
    Prog (Msg V N) (RState V N) :=
  match dst with
  | none => .fail "invalid destination"
  | some d =>
    .send d (ρ.obj.tagS l op) ⟨x, if E.global then false else ρ.obj.fin, l, op⟩
      (.ret { ρ with obj := { ρ.obj with tagS := upd2 ρ.obj.tagS l op (ρ.obj.tagS l op + 1) } })

/-- `receive` (mgrit.py:693-702). -/
def recvR (src : Option Nat) (l op : Nat) (ρ : RState V N) :
    Prog (Msg V N) (Payload V N × RState V N) :=
  match src with
  | none => .fail "invalid source"
  | some q =>
    .recv q (ρ.obj.tagR l op) fun m =>
      if E.instr && !(decide (m.lvl = l) && decide (m.op = op)) then .fail "message mismatch"
      else .ret (m.data,
        { ρ with obj := { ρ.obj with
            tagR := upd2 ρ.obj.tagR l op (ρ.obj.tagR l op + 1)
            sf := if E.global then ρ.obj.sf else upd2 ρ.obj.sf l op m.fin } })

/-- `self.u[lu][0].unpack(self.receive(..))`. -/
def recvUR (src : Option Nat) (l op lu : Nat) (ρ : RState V N) : Prog (Msg V N) (RState V N) :=
  (E.recvR src l op ρ).bind fun p =>
    match p.1 with
    | .vec x => .ret (p.2.unpack lu x)
    | _ => .fail "unpack of wrong data"

section ops
variable [Add V]

/-- `self.step[l](u_start=arr[j - 1], t_start=self.t[l][j - 1], t_stop=self.t[l][j])`. -/
def stepR (r l j : Nat) (arr : Nat → Addr) (ρ : RState V N) : Addr × RState V N :=
  ρ.call (U.S l (ρ.heap (arr (pyPrev (E.len r l) j))) (tAt (E.info r l).t (pyPrev (E.len r l) j))
      (tAt (E.info r l).t j))
    (fun x => E.step l x (tAt (E.info r l).t (pyPrev (E.len r l) j)) (tAt (E.info r l).t j))
    (arr (pyPrev (E.len r l) j))

/-- Time integration, with FAS right-hand side on coarse levels (mgrit.py:320-327 and the same
expression in `c_relax`, `forward_solve`). -/
def propR (r l j : Nat) (ρ : RState V N) : Addr × RState V N :=
  let p := E.stepR U r l j (ρ.obj.u l) ρ
  if l = 0 then p else p.2.alloc (p.2.heap (p.2.obj.g l j) + p.2.heap p.1)

/-- Body of the loop over F-points (mgrit.py:314-331). -/
def fBodyR (r l : Nat) (ρ : RState V N) (j : Nat) : Prog (Msg V N) (RState V N) :=
  let J := E.info r l
  (if J.commFront && decide (J.idxF.min? = some j) && !ρ.obj.sf l 1 then
    E.recvUR J.getFrom l 1 l ρ else .ret ρ).bind fun ρ =>
  let p := E.propR U r l j ρ
  let ρ := p.2.setU l j p.1
  if J.commBack && decide (J.idxF.max? = some j) then
    E.sendR J.sendTo l 1 (.vec (ρ.heap (ρ.obj.u l j))) ρ else .ret ρ

/-- `f_relax` (mgrit.py:292-333). -/
def fRelaxR (r l : Nat) (ρ : RState V N) : Prog (Msg V N) (RState V N) :=
  let J := E.info r l
  (if J.lastC then E.sendR J.sendTo l 0 (.vec (ρ.heap (ρ.obj.u l (E.len r l - 1)))) ρ
    else .ret ρ).bind fun ρ =>
  (if J.firstF && !ρ.obj.sf l 0 then E.recvUR J.getFrom l 0 l ρ else .ret ρ).bind fun ρ =>
  Prog.forIn' J.idxF (E.fBodyR U r l) ρ

/-- Loop of `c_relax` over the C-points (mgrit.py:355-368). -/
def cLoopR [SMul K V] [One K] [Sub K] (r l : Nat) (ρ : RState V N) : RState V N :=
  (E.info r l).idxC.foldl (fun ρ j => if j ≠ 0 ∨ r ≠ 0 then
    let p := E.propR U r l j ρ
    let q := p.2.alloc (E.w • p.2.heap p.1 + (1 - E.w) • p.2.heap (p.2.obj.u l j))
    q.2.setU l j q.1 else ρ) ρ

/-- `c_relax` (mgrit.py:335-370). -/
def cRelaxR [SMul K V] [One K] [Sub K] (r l : Nat) (ρ : RState V N) :
    Prog (Msg V N) (RState V N) :=
  let J := E.info r l
  (if J.lastF then E.sendR J.sendTo l 2 (.vec (ρ.heap (ρ.obj.u l (E.len r l - 1)))) ρ
    else .ret ρ).bind fun ρ =>
  (if J.firstC && !ρ.obj.sf l 2 then E.recvUR J.getFrom l 2 l ρ else .ret ρ).bind fun ρ =>
  .ret (E.cLoopR U r l ρ)

/-- `forward_solve` (mgrit.py:459-486). -/
def forwardSolveR (r l : Nat) (ρ : RState V N) : Prog (Msg V N) (RState V N) :=
  let J := E.info r l
  (if J.getFrom.isSome && !ρ.obj.sf l 5 then E.recvUR J.getFrom l 5 l ρ else .ret ρ).bind fun ρ =>
  let ρ := (List.range' 1 (E.len r l - 1)).foldl
    (fun ρ j => let p := E.propR U r l j ρ; p.2.setU l j p.1) ρ
  if J.sendTo.isSome then
    E.sendR J.sendTo l 5 (.vec (ρ.heap (ρ.obj.u l (J.idx.getLastD 0)))) ρ else .ret ρ

/-- Restriction loop of `fas_residual` (mgrit.py:498-500): stores what `restriction` returns. -/
def restrictLoopR (r l : Nat) (ρ : RState V N) : RState V N :=
  (E.info r l).idxC.zipIdx.foldl (fun ρ ci =>
    let p := ρ.call (U.R l (ρ.heap (ρ.obj.u l ci.1))) (E.R l) (ρ.obj.u l ci.1)
    p.2.setU (l + 1) (if r = 0 then ci.2 else ci.2 + 1) p.1) ρ

/-- Loop computing the FAS right-hand side (mgrit.py:523-547). -/
def fasLoopR [Sub V] (r l : Nat) (ρ : RState V N) : RState V N :=
  (E.info r l).idxC.zipIdx.foldl (fun ρ ci =>
    if ci.2 ≠ 0 ∨ r ≠ 0 then
      let k := (E.info r (l + 1)).idx.getD ci.2 0
      -- fine step, argument of the restriction
      let p := E.stepR U r l ci.1 (ρ.obj.u l) ρ
      let q := p.2.alloc (if l = 0 then p.2.heap p.1 - p.2.heap (p.2.obj.u l ci.1)
        else p.2.heap (p.2.obj.g l ci.1) - p.2.heap (p.2.obj.u l ci.1) + p.2.heap p.1)
      let a := q.2.call (U.R l (q.2.heap q.1)) (E.R l) q.1
      let b := a.2.alloc (a.2.heap a.1 + a.2.heap (a.2.obj.v (l + 1) k))
      -- coarse step
      let c := E.stepR U r (l + 1) k (b.2.obj.v (l + 1)) b.2
      let d := c.2.alloc (c.2.heap b.1 - c.2.heap c.1)
      d.2.setG (l + 1) k d.1
    else ρ) ρ

/-- `self.v[l] = [item.clone() for item in self.u[l]]` (mgrit.py:520). -/
def cloneVR (l : Nat) (ρ : RState V N) : RState V N :=
  let p := ρ.cloneList (ρ.obj.u l)
  { p.2 with obj := { p.2.obj with v := Function.update p.2.obj.v l p.1 } }

/-- `fas_residual` (mgrit.py:488-549). -/
def fasResidualR [Sub V] (r l : Nat) (ρ : RState V N) : Prog (Msg V N) (RState V N) :=
  let J := E.info r l
  let J1 := E.info r (l + 1)
  let ρ := E.restrictLoopR U r l ρ
  (if J.lastF then E.sendR J.sendTo l 3 (.vec (ρ.heap (ρ.obj.u l (E.len r l - 1)))) ρ
    else .ret ρ).bind fun ρ =>
  (if J.firstC && !ρ.obj.sf l 3 then E.recvUR J.getFrom l 3 l ρ else .ret ρ).bind fun ρ =>
  (if J1.sendTo.isSome then
    E.sendR J1.sendTo l 4 (.vec (ρ.heap (ρ.obj.u (l + 1) (J1.idx.getLastD 0)))) ρ
    else .ret ρ).bind fun ρ =>
  (if J1.getFrom.isSome && !ρ.obj.sf l 4 then
    E.recvUR J1.getFrom l 4 (l + 1) ρ else .ret ρ).bind fun ρ =>
  .ret (E.fasLoopR U r l (cloneVR (l + 1) ρ))

/-- `error_correction` (mgrit.py:715-726). -/
def errorCorrectionR [Sub V] (r l : Nat) (ρ : RState V N) : RState V N :=
  (E.info r l).idxC.zipIdx.foldl (fun ρ ci =>
    if ci.2 ≠ 0 ∨ r ≠ 0 then
      let k := (E.info r l).idx.getD ci.2 0
      let p := ρ.alloc (ρ.heap (ρ.obj.u (l + 1) k) - ρ.heap (ρ.obj.v (l + 1) k))
      let q := p.2.call (U.I l (p.2.heap p.1)) (E.I l) p.1
      let a := q.2.alloc (q.2.heap (q.2.obj.u l ci.1) + q.2.heap q.1)
      a.2.setU l ci.1 a.1
    else ρ) ρ

variable [Sub V] [SMul K V] [One K] [Sub K]

/-- V-cycle part of `iteration` (mgrit.py:261-290). -/
def vcycR (r : Nat) : Nat → Nat → Nat → Bool → RState V N → Prog (Msg V N) (RState V N)
  | 0, l, _, _, ρ => E.forwardSolveR U r l ρ
  | d + 1, l, it, firstF, ρ =>
    (if (0 < l ∨ (it = 0 ∧ l = 0)) ∧ firstF then E.fRelaxR U r l ρ else .ret ρ).bind fun ρ =>
    (timesP (fun ρ => (E.cRelaxR U r l ρ).bind (E.fRelaxR U r l)) (E.cf l) ρ).bind fun ρ =>
    (E.fasResidualR U r l ρ).bind fun ρ =>
    (vcycR r d (l + 1) it true ρ).bind fun ρ =>
    E.fRelaxR U r l (E.errorCorrectionR U r l ρ)

/-- `iteration` (mgrit.py:261-290). -/
def iterationR (r : Nat) : Nat → Nat → Sys.Cycle → Nat → Bool → RState V N →
    Prog (Msg V N) (RState V N)
  | 0, l, _, _, _, ρ => E.forwardSolveR U r l ρ
  | d + 1, l, cyc, it, firstF, ρ =>
    (if (0 < l ∨ (it = 0 ∧ l = 0)) ∧ firstF then E.fRelaxR U r l ρ else .ret ρ).bind fun ρ =>
    (timesP (fun ρ => (E.cRelaxR U r l ρ).bind (E.fRelaxR U r l)) (E.cf l) ρ).bind fun ρ =>
    (E.fasResidualR U r l ρ).bind fun ρ =>
    (iterationR r d (l + 1) cyc it true ρ).bind fun ρ =>
    (E.fRelaxR U r l (E.errorCorrectionR U r l ρ)).bind fun ρ =>
    if l ≠ 0 ∧ cyc = Sys.Cycle.F then E.vcycR U r (d + 1) l it false ρ else .ret ρ

/-- Interpolation loop of `nested_iteration` (mgrit.py:560-563): stores what `interpolation` returns. -/
def interpolateR (r l : Nat) (ρ : RState V N) : RState V N :=
  (E.info r (l + 1)).idx.zipIdx.foldl (fun ρ ki =>
    if ki.2 ≠ 0 ∨ r ≠ 0 then
      let p := ρ.call (U.I l (ρ.heap (ρ.obj.u (l + 1) ki.1))) (E.I l) (ρ.obj.u (l + 1) ki.1)
      p.2.setU l ((E.info r l).idxC.getD ki.2 0) p.1
    else ρ) ρ

/-- Level loop of `nested_iteration` (mgrit.py:559-566). -/
def nestedLoopR (r : Nat) : Nat → RState V N → Prog (Msg V N) (RState V N)
  | 0, ρ => .ret ρ
  | l + 1, ρ =>
    let ρ := E.interpolateR U r l ρ
    (if 0 < l then E.iterationR U r (E.L - 1 - l) l Sys.Cycle.V 0 true ρ else .ret ρ).bind fun ρ =>
    nestedLoopR r l ρ

/-- `nested_iteration` (mgrit.py:551-566). -/
def nestedIterationR (r : Nat) (ρ : RState V N) : Prog (Msg V N) (RState V N) :=
  (E.forwardSolveR U r (E.L - 1) ρ).bind (E.nestedLoopR U r (E.L - 1))

/-- `compute_residual` (mgrit.py:387-413). -/
def residualR (r : Nat) (ρ : RState V N) : Prog (Msg V N) (List N × RState V N) :=
  let J := E.info r 0
  (if J.lastF then E.sendR J.sendTo 0 7 (.vec (ρ.heap (ρ.obj.u 0 (E.len r 0 - 1)))) ρ
    else .ret ρ).bind fun ρ =>
  (if J.firstC && !ρ.obj.sf 0 7 then E.recvUR J.getFrom 0 7 0 ρ else .ret ρ).bind fun ρ =>
  .ret (J.idxC.foldl (fun (xs : List N × RState V N) j =>
    if r ≠ 0 ∨ j ≠ 0 then
      let p := E.stepR U r 0 j (xs.2.obj.u 0) xs.2
      (xs.1 ++ [E.norm (p.2.heap p.1 - p.2.heap (p.2.obj.u 0 j))], p.2)
    else xs) ([], ρ))

/-- `self.save_values_last_iter = [item.clone() for item in self.u[0]]` (mgrit.py:235, 384). -/
def saveR (ρ : RState V N) : RState V N :=
  let p := ρ.cloneList (ρ.obj.u 0)
  { p.2 with obj := { p.2.obj with saved := p.1 } }

/-- `compute_jump` (mgrit.py:372-385). -/
def jumpR (r : Nat) (ρ : RState V N) : List N × RState V N :=
  (((E.info r 0).idxC.filter fun j => decide (r ≠ 0 ∨ j ≠ 0)).map fun j =>
    E.norm (ρ.heap (ρ.obj.u 0 j) - ρ.heap (ρ.obj.saved j)), saveR ρ)

/-- `convergence_criterion` (mgrit.py:415-457). -/
def convergenceR (r it : Nat) (ρ : RState V N) : Prog (Msg V N) (RState V N) :=
  (if E.convCrit = 0 ∨ E.convCrit = 2 then E.residualR U r ρ else .ret (E.jumpR r ρ)).bind fun vs =>
  let val := vs.1
  let ρ := vs.2
  if E.global then
    (E.collectP r 0 (.nums val) fun xs => .num (E.tnorm (allNums xs))).bind fun p =>
    match p with
    | .num x => .ret { ρ with obj := { ρ.obj with conv := Function.update ρ.obj.conv it x } }
    | _ => .fail "wrong data"
  else
    (if 0 < r ∧ ρ.obj.sf 0 6 = false then
      (E.recvR (some (r - 1)) 0 6 ρ).bind fun p =>
        match p.1 with
        | .flag b => .ret { p.2 with obj := { p.2.obj with
            pre := b, preIt := if b then some it else p.2.obj.preIt } }
        | _ => .fail "wrong data"
     else .ret ρ).bind fun ρ =>
    let ρ := { ρ with obj := { ρ.obj with
      fin := ρ.obj.pre && (val.all E.ltTol || decide (it = E.maxIter)), finIt := some it } }
    (if r + 1 < E.P then E.sendR (some (r + 1)) 0 6 (.flag ρ.obj.fin) ρ else .ret ρ).bind fun ρ =>
    .ret { ρ with obj := { ρ.obj with conv := Function.update ρ.obj.conv it (E.tnorm val) } }

/-- Sending part of `clean_up` with a local criterion, one level (mgrit.py:651-662). -/
def cleanSendR (r : Nat) (ρ : RState V N) (l : Nat) : Prog (Msg V N) (RState V N) :=
  let J := E.info r l
  let J1 := E.info r (l + 1)
  let last : RState V N → Payload V N := fun ρ => .vec (ρ.heap (ρ.obj.u l (E.len r l - 1)))
  (if J.lastC then E.sendR J.sendTo l 0 (last ρ) ρ else .ret ρ).bind fun ρ =>
  (if J.commBack then E.sendR J.sendTo l 1 (last ρ) ρ else .ret ρ).bind fun ρ =>
  (if J.lastF then E.sendR J.sendTo l 2 (last ρ) ρ else .ret ρ).bind fun ρ =>
  (if J.lastF then E.sendR J.sendTo l 3 (last ρ) ρ else .ret ρ).bind fun ρ =>
  if J1.sendTo.isSome then
    E.sendR J1.sendTo l 4 (.vec (ρ.heap (ρ.obj.u l (J.idxC.getLastD 0)))) ρ else .ret ρ

/-- Receiving part of `clean_up` with a local criterion, one level (mgrit.py:673-684); the message of
operation 4 goes to a new object that is dropped. -/
def cleanRecvR (r : Nat) (ρ : RState V N) (l : Nat) : Prog (Msg V N) (RState V N) :=
  let J := E.info r l
  let J1 := E.info r (l + 1)
  (if J.firstF && !ρ.obj.sf l 0 then E.recvUR J.getFrom l 0 l ρ else .ret ρ).bind fun ρ =>
  (if J.commFront && !ρ.obj.sf l 1 then E.recvUR J.getFrom l 1 l ρ else .ret ρ).bind fun ρ =>
  (if J.firstC && !ρ.obj.sf l 2 then E.recvUR J.getFrom l 2 l ρ else .ret ρ).bind fun ρ =>
  (if J.firstC && !ρ.obj.sf l 3 then E.recvUR J.getFrom l 3 l ρ else .ret ρ).bind fun ρ =>
  if J1.getFrom.isSome && !ρ.obj.sf l 4 then
    (E.recvR J1.getFrom l 4 ρ).bind fun p => .ret p.2 else .ret ρ

/-- `clean_up` (mgrit.py:648-691). -/
def cleanUpR (r : Nat) (ρ : RState V N) : Prog (Msg V N) (RState V N) :=
  .wait <|
  if E.global then .ret ρ
  else
    (Prog.forIn' (List.range (E.L - 1)) (E.cleanSendR r) ρ).bind fun ρ =>
    let Jc := E.info r (E.L - 1)
    (if Jc.sendTo.isSome then
      E.sendR Jc.sendTo (E.L - 1) 5 (.vec (ρ.heap (ρ.obj.u (E.L - 1) (Jc.idx.getLastD 0)))) ρ
     else .ret ρ).bind fun ρ =>
    (if (E.info r 0).lastF then
      E.sendR (some (r + 1)) 0 7 (.vec (ρ.heap (ρ.obj.u 0 (E.len r 0 - 1)))) ρ
     else .ret ρ).bind fun ρ =>
    (if ρ.obj.finIt = ρ.obj.preIt then
      (Prog.forIn' (List.range (E.L - 1)) (E.cleanRecvR r) ρ).bind fun ρ =>
      (if Jc.getFrom.isSome && !ρ.obj.sf (E.L - 1) 5 then
        E.recvUR Jc.getFrom (E.L - 1) 5 (E.L - 1) ρ else .ret ρ).bind fun ρ =>
      (if (E.info r 0).firstC && !ρ.obj.sf 0 7 then
        E.recvUR (E.info r 0).getFrom 0 7 0 ρ else .ret ρ)
     else .ret ρ).bind fun ρ =>
    .wait (.ret ρ)

/-- A call of `output_fcn`: it looks at the values. -/
def outputR (ρ : RState V N) : RState V N :=
  { ρ with outs := ρ.outs ++ [(ρ.obj.solveIter, fun j => ρ.heap (ρ.obj.u 0 j))] }

/-- Loop of `solve` (mgrit.py:603-635). -/
def solveLoopR (r : Nat) : Nat → Nat → RState V N → Prog (Msg V N) (RState V N)
  | 0, _, ρ => .ret ρ
  | k + 1, it, ρ =>
    (E.iterationR U r (E.L - 1) 0 E.cyc it true
      { ρ with obj := { ρ.obj with solveIter := it + 1 } }).bind fun ρ =>
    (E.convergenceR U r (it + 1) ρ).bind fun ρ =>
    let ρ := if E.outLvl = 2 then outputR ρ else ρ
    if E.ltTol (ρ.obj.conv (it + 1)) ∨ it + 1 = E.maxIter then
      if E.global then E.cleanUpR r ρ
      else if (ρ.obj.fin && ρ.obj.pre) ∨ it + 1 = E.maxIter then E.cleanUpR r ρ
      else solveLoopR r k (it + 1) ρ
    else solveLoopR r k (it + 1) ρ

/-- `solve` (mgrit.py:590-646). -/
def solveR (r : Nat) (ρ : RState V N) : Prog (Msg V N) (RState V N) :=
  (E.solveLoopR U r E.maxIter 0 ρ).bind fun ρ =>
  (E.barrierP r).bind fun _ =>
  .ret (if E.outLvl = 1 then outputR ρ else ρ)

/-- State before the constructor creates its vectors: `mine a` are the objects of the user (block 0), of
which `⟨0, l, 0⟩` is `problem[l].vector_t_start` and `⟨0, l, 1⟩` is `problem[l].vector_template`.
`create_u_v_g` (mgrit.py:840-858) creates new objects for all entries of `u`, `v`, `g`, on rank 0 the
initial value by `clone()`. -/
def initR [Zero N] (offs : Nat → Nat → Nat) (mine : Addr → V) (r : Nat) : RState V N :=
  { heap := fun a =>
      if a.blk = 0 then mine a
      else if a.blk = 1 then
        (if r = 0 ∧ a.ix = 0 then mine ⟨0, a.lvl, 0⟩
          else if a.lvl = 0 then E.guess (a.ix + offs r a.lvl) else E.zero a.lvl)
      else E.zero a.lvl
    next := 5
    obj := { u := fun l j => ⟨1, l, j⟩
             v := fun l j => ⟨2, l, j⟩
             g := fun l j => ⟨3, l, j⟩
             tagS := fun _ op => 50000 * (op + 1)
             tagR := fun _ op => 50000 * (op + 1)
             sf := fun _ _ => false
             saved := fun j => ⟨4, 0, j⟩
             conv := fun _ => 0
             fin := false
             finIt := none
             pre := decide (r = 0)
             preIt := if r = 0 then some 0 else none
             solveIter := 0
             outs := [] }
    outs := [] }

/-- The rest of the constructor (mgrit.py:140-245). -/
def setupR (r : Nat) (ρ : RState V N) : Prog (Msg V N) (RState V N) :=
  (E.barrierP r).bind fun _ =>
  (if E.nested then E.nestedIterationR U r ρ else .ret ρ).bind fun ρ =>
  let ρ := if E.convCrit = 1 ∨ E.convCrit = 3 then saveR ρ else ρ
  (if E.maxIter = 0 then E.barrierP r else .ret ()).bind fun _ =>
  .ret (if E.outLvl = 2 then outputR ρ else ρ)

/-- Constructor followed by `solve()`. -/
def mainR (r : Nat) (ρ : RState V N) : Prog (Msg V N) (RState V N) :=
  (E.setupR U r ρ).bind (E.solveR U r)

end ops
end Cfg
end Pymgrit
