import Verif.Proc
import Verif.Hier
import Verif.Dist3
import Mathlib.Data.List.Dedup

/-!
# The parameter checks of the constructor

Model of `Mgrit.__init__` (`/repo/src/pymgrit/core/mgrit.py:33-245`) up to the point where the grids
are set up: the checks in source order, with the exceptions as values, and the normalised
parameters.  In the loop over the levels (mgrit.py:206-222) only what can raise an exception is kept: the
first difference of the C-points, and the initial value, which process 0 writes to the first of its points.
-/

set_option linter.unusedSectionVars false

namespace Pymgrit

variable {T : Type} [LinearOrder T] [Inhabited T]

/-- The argument `cf_iter`: an `int`, a `list` of integers, or anything else. -/
inductive CfArg where
  | int (k : Int)
  | list (ks : List Int)
  | other
deriving DecidableEq

/-- The arguments of the constructor that are checked (mgrit.py:33-37).  `ts` are the time grids of
`problem`, `transfers` is `len(transfer)` if given, `P` the size of `comm_time` and `rank` the process. -/
structure Args (T : Type) where
  ts : List (List T)
  transfers : Option Nat
  cycle : String
  outLvl : Int
  tNorm : Int
  convCrit : Int
  cfIter : CfArg
  maxIter : Int
  P : Nat
  rank : Nat

/-- The exceptions of the constructor.  `negativeDim` is NumPy's error for `np.zeros` of a negative
size, `indexError l` the `IndexError` of `np.diff(tmp_cpts)[0]`, `noPoint l` that of `self.u[lvl][0] = ..` on a
process without points (mgrit.py:858). -/
inductive CtorError where
  | transfers
  | morePoints (lvl : Nat)
  | cycle
  | outLvl
  | notNested (lvl : Nat)
  | norm
  | crit
  | cfShort
  | cfType
  | processes
  | negativeDim
  | indexError (lvl : Nat)
  | noPoint (lvl : Nat)
deriving DecidableEq

/-- What the constructor keeps: `self.cf_iter`, `self.t_norm` (as 1, 2 or 3 for the infinity norm),
`self.conv_crit`, `self.cycle_type`, `self.output_lvl`, length of `self.conv` minus one. -/
structure Params where
  cf : List Int
  tNorm : Nat
  convCrit : Nat
  cyc : Sys.Cycle
  outLvl : Nat
  convLen : Nat

/-- `if c: raise e`. -/
def raiseIf (c : Prop) [Decidable c] (e : CtorError) : Except CtorError Unit :=
  if c then .error e else .ok ()

/-- `for i in range(a, a + n): if c(i): raise e(i)`. -/
def raiseFor (c : Nat → Prop) [DecidablePred c] (e : Nat → CtorError) :
    Nat → Nat → Except CtorError Unit
  | _, 0 => .ok ()
  | a, n + 1 => if c a then .error (e a) else raiseFor c e (a + 1) n

/-- `for l in range(a, a + n): body(l)`. -/
def forLevels (body : Nat → Except CtorError Unit) : Nat → Nat → Except CtorError Unit
  | _, 0 => .ok ()
  | a, n + 1 => do
    body a
    forLevels body (a + 1) n

/-- `len(set(a).intersection(set(b)))` (mgrit.py:98). -/
def interSize (a b : List T) : Nat := (b.dedup.filter fun x => decide (x ∈ a)).length

/-- Normalisation of `cf_iter` (mgrit.py:114-125). -/
def normCf (L : Nat) : CfArg → Except CtorError (List Int)
  | .int k => .ok (List.replicate L k)
  | .list ks => if ks.length < L - 1 then .error .cfShort else .ok ks
  | .other => .error .cfType

/-- One pass of the loop over the levels (mgrit.py:206-222), as far as it can raise an exception:
`np.diff(tmp_cpts)[0]` (mgrit.py:212-213; `np.where(np.in1d(..))` is `allC`), and on process 0 the assignment of the
initial value to the first entry of `self.u[lvl]` (mgrit.py:857-858), which has no entries if the process has no
point on the level. -/
def levelChecks (a : Args T) (l : Nat) : Except CtorError Unit := do
  raiseIf (l + 1 < a.ts.length ∧ (allC a.ts l).length < 2) (.indexError l)
  raiseIf (a.rank = 0 ∧ localPts a.ts a.P a.rank l = []) (.noPoint l)

/-- `Mgrit.__init__` (mgrit.py:76-222): checks in source order.  `len(problem)` is at least one after
the first check. -/
def construct (a : Args T) : Except CtorError Params := do
  let L := a.ts.length
  let ntr := a.transfers.getD (L - 1)
  raiseIf (L ≠ ntr + 1) .transfers
  raiseFor (fun i => npts a.ts i < npts a.ts (i + 1)) (fun i => .morePoints (i + 1)) 0 (L - 1)
  raiseIf (a.cycle ≠ "V" ∧ a.cycle ≠ "F") .cycle
  raiseIf (a.outLvl ≠ 0 ∧ a.outLvl ≠ 1 ∧ a.outLvl ≠ 2) .outLvl
  raiseFor (fun l => interSize (grid a.ts (l - 1)) (grid a.ts l) ≠ npts a.ts l) .notNested 1 (L - 1)
  raiseIf (a.tNorm ≠ 1 ∧ a.tNorm ≠ 2 ∧ a.tNorm ≠ 3) .norm
  raiseIf (a.convCrit ≠ 0 ∧ a.convCrit ≠ 1 ∧ a.convCrit ≠ 2 ∧ a.convCrit ≠ 3) .crit
  let cf ← normCf L a.cfIter
  raiseIf (npts a.ts 0 < a.P) .processes
  raiseIf (a.maxIter + 1 < 0) .negativeDim
  forLevels (levelChecks a) 0 L
  return { cf := cf
           tNorm := a.tNorm.toNat
           convCrit := a.convCrit.toNat
           cyc := if a.cycle = "F" then .F else .V
           outLvl := a.outLvl.toNat
           convLen := a.maxIter.toNat }

/-- `range(self.cf_iter[lvl])` (mgrit.py:276): number of CF-relaxations on a level; `range` of a
negative number is empty. -/
def Params.cfCount (p : Params) (l : Nat) : Nat := (p.cf.getD l 0).toNat

end Pymgrit
