import Verif.Trace
import Verif.Construct
import Verif.Split
import Mathlib.Data.Rat.Defs
import Mathlib.Algebra.Order.Ring.Rat

/-!
# `MgritWithPlots`

Model of what the plot functions of `/repo/src/pymgrit/core/mgrit_with_plots.py` draw: positions, heights and texts.
Colours, fonts and axes decorations are not modelled.
-/

namespace Pymgrit
namespace Plot

/-- Exceptions of the plot functions: `TypeError` of `list * str` (mgrit_with_plots.py:120), `UnboundLocalError` of
`tmp_coarse` (mgrit_with_plots.py:99). -/
inductive Err | typeError | unbound
  deriving DecidableEq, Repr

/-- `plot` (mgrit_with_plots.py:19-25): process 0 of `comm_time` calls the function; with spatial parallelism only if
`self.comm_space == 0`, which compares a communicator with an integer and is false.  `none`: nothing is drawn. -/
def plot {α : Type} (timeRank : Nat) (spatial : Bool) (f : Except Err α) : Except Err (Option α) :=
  if timeRank = 0 then
    if spatial then .ok none else f.map some
  else .ok none

/-- A text in the cycle plot: position, height above the coarsest level, text. -/
structure Node where
  x : Nat
  h : Nat
  text : List Char
  deriving DecidableEq, Repr

/-- `np.linspace(-i, i, 2 * i + 1)` (mgrit_with_plots.py:152, 157, 161): the integers from `-i` to `i`. -/
def lins (i : Nat) : List Int := (List.range (2 * i + 1)).map fun k : Nat => (k : Int) - i

/-- `np.linspace(-lvl_max + 1, 0, lvl_max)[:-1]` (mgrit_with_plots.py:159). -/
def desc (L : Nat) : List Int := ((List.range L).map fun k : Nat => (k : Int) - (L - 1 : Nat)).dropLast

/-- `result_nes` (mgrit_with_plots.py:150-153). -/
def resultNes (L : Nat) : List Int := (List.range (L - 1)).flatMap lins ++ [((L - 1 : Nat) : Int)]

/-- `result_iter` (mgrit_with_plots.py:155-161). -/
def resultIter (L : Nat) : Sys.Cycle → List Int
  | .V => lins (L - 1)
  | .F => desc L ++ (List.range L).flatMap lins

/-- `'F' + self.cf_iter * 'CF'` (mgrit_with_plots.py:120): an integer repeats the string (a negative one gives the
empty string), a list raises `TypeError`. -/
def down : CfArg → Except Err (List Char)
  | .int k => .ok ('F' :: (List.replicate k.toNat ['C', 'F']).flatten)
  | _ => .error .typeError

/-- The text of one node in `mask` (mgrit_with_plots.py:118-123), `d` being the text of the descending nodes. -/
def label (d : List Char) (r : Int) : List Char := if r < 0 then d else if r = 0 then ['S'] else ['F']

/-- `mask` (mgrit_with_plots.py:118-123). -/
def mask (cf : CfArg) (result : List Int) : Except Err (List (List Char)) := do
  let d ← down cf
  return result.map (label d)

/-- The texts of a part of the plot at the heights `np.abs(result)`, from position `x0` on
(mgrit_with_plots.py:138-141). -/
def place (x0 : Nat) (result : List Int) (strings : List (List Char)) : List Node :=
  (result.zip strings).zipIdx.map fun p => ⟨x0 + p.2, p.1.1.natAbs, p.1.2⟩

/-- `strings[-1] = ''` (mgrit_with_plots.py:129). -/
def clearLast (strings : List (List Char)) : List (List Char) := strings.dropLast ++ [[]]

/-- `strings[0] = strings[0][1:]` (mgrit_with_plots.py:137). -/
def dropFirst : List (List Char) → List (List Char)
  | [] => []
  | s :: ss => s.tail :: ss

/-- `plot_part` with `nest_it=True` (mgrit_with_plots.py:125-142). -/
def partNes (cf : CfArg) (result : List Int) : Except Err (List Node) := do
  let strings ← mask cf result
  return place 0 result (clearLast strings)

/-- `plot_part` with `nest_it=False` (mgrit_with_plots.py:125-142). -/
def partIter (cf : CfArg) (iter lenNes : Nat) (result : List Int) : Except Err (List Node) := do
  let strings ← mask cf result
  return place (iter * result.length + lenNes) result (if iter ≠ 0 then dropFirst strings else strings)

/-- The loop over the iterations (mgrit_with_plots.py:162-165). -/
def parts (cf : CfArg) (lenNes : Nat) (result : List Int) : List Nat → Except Err (List (List Node))
  | [] => .ok []
  | i :: is => do
    let p ← partIter cf i lenNes result
    let ps ← parts cf lenNes result is
    return p :: ps

/-- `plot_cyc` (mgrit_with_plots.py:117-181): the texts of nested iteration (empty without it) and of each iteration. -/
def cycleFig (L : Nat) (cyc : Sys.Cycle) (nes : Bool) (cf : CfArg) (iterations : Nat) :
    Except Err (List Node × List (List Node)) := do
  let n ← if nes then partNes cf (resultNes L) else .ok []
  let p ← parts cf (if nes then (resultNes L).length else 0) (resultIter L cyc) (List.range iterations)
  return (n, p)

/-- `plot_cycle` (mgrit_with_plots.py:115-183). -/
def plotCycle (timeRank : Nat) (spatial : Bool) (L : Nat) (cyc : Sys.Cycle) (nes : Bool) (cf : CfArg)
    (iterations : Nat) : Except Err (Option (List Node × List (List Node))) :=
  plot timeRank spatial (cycleFig L cyc nes cf iterations)

/-- A box of the distribution plot: left end, width, row (0 is the coarsest level), number of the process in the legend. -/
structure Box where
  left : ℚ
  width : ℚ
  row : Nat
  proc : Nat

/-- The boxes (mgrit_with_plots.py:68-85): in row 0 one box over all points, labelled with process 0. -/
def boxes (n P L : Nat) : List Box :=
  let split := splitInto n P
  (List.range L).flatMap fun i =>
    if i ≠ 0 then
      (List.range split.length).map fun j =>
        ⟨((split.take j).sum : ℚ) - 1 / 4, (split.getD j 0 : ℚ) - 1 / 4, i, j⟩
    else if split.length = 0 then [] else [⟨((split.take 0).sum : ℚ) - 1 / 4, (split.sum : ℚ) - 1 / 4, i, 0⟩]

/-- A vertical tick: position, row, long or short. -/
structure Tick where
  x : Nat
  row : Nat
  long : Bool
  deriving DecidableEq, Repr

section
variable {T : Type} [LinearOrder T] [Inhabited T]

/-- `np.where(np.in1d(self.problem[0].t, self.problem[i].t))[0]` (mgrit_with_plots.py:94-95). -/
def inFine (ts : List (List T)) (i : Nat) : List Nat :=
  (List.range (npts ts 0)).filter fun j => decide (tAt (grid ts 0) j ∈ grid ts i)

/-- The inner loop for one level (mgrit_with_plots.py:98-102). -/
def levelTicks (ts : List (List T)) (coarse fine : List Nat) (i : Nat) : List Tick :=
  (List.range (npts ts 0)).filterMap fun j =>
    if j ∈ coarse then some ⟨j, ts.length - 1 - i, true⟩
    else if j ∈ fine then some ⟨j, ts.length - 1 - i, false⟩
    else none

/-- The loop over the levels (mgrit_with_plots.py:92-102); `coarse` is the local variable `tmp_coarse`, unbound at
first. -/
def tickLoop (ts : List (List T)) : Option (List Nat) → List Nat → Except Err (List Tick)
  | _, [] => .ok []
  | coarse, i :: is =>
    let coarse := if i ≠ ts.length - 1 then some (inFine ts (i + 1)) else coarse
    match coarse with
    | none => if npts ts 0 = 0 then tickLoop ts none is else .error .unbound
    | some c => do
      let rest ← tickLoop ts (some c) is
      return levelTicks ts c (inFine ts i) i ++ rest

/-- `plot_parallel_distribution` (mgrit_with_plots.py:44-113): boxes and ticks. -/
def distFig (ts : List (List T)) (P : Nat) : Except Err (List Box × List Tick) := do
  let t ← tickLoop ts none (List.range ts.length)
  return (boxes (npts ts 0) P ts.length, t)

end

/-- `plot_convergence` (mgrit_with_plots.py:27-42): the points of the curve, the values that are not zero numbered
from 1 on. -/
def convPoints {N : Type} [Zero N] [DecidableEq N] (conv : List N) : List (Nat × N) :=
  ((conv.filter (· ≠ 0)).zipIdx 1).map fun p => (p.2, p.1)

end Plot
end Pymgrit
