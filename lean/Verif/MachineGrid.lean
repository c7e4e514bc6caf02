import Verif.Double
import Verif.Setup

/-!
# Time grids of the induction machine experiments

The functions `run_*` of `examples/induction_machine/induction_machine.py` build the finest grid in two steps: `nt = n + 1` equidistant
points, of which only every `m`-th point and its predecessor are kept; the coarser levels are equidistant grids of their own.
-/

namespace Pymgrit.MachineGrid

open Double

/-- `first_level`: every `m`-th index and, except for the first, its predecessor, in ascending order
(examples/induction_machine/induction_machine.py:149-151; the same lines at 234-236, 318-320, 375-377, 433-435, 518-520, 575-577);
`len` – the number of points of the complete grid.  NumPy's `sort` of integers is modelled by a merge sort: equal keys are
indistinguishable. -/
def firstLevel (len m : Nat) : List Nat :=
  (stride (List.range len) m ++ ((stride (List.range len) m).drop 1).map (· - 1)).mergeSort fun i j => decide (i ≤ j)

/-- `machine_0.t[first_level]` (induction_machine.py:152). -/
def thinned (t : List ℚ) (m : Nat) : List ℚ := (firstLevel t.length m).map (tAt t)

/-- The time grids of the hierarchy (induction_machine.py:139-187): the thinned grid of `n + 1` points, then the equidistant grids with
the numbers of intervals `ns`. -/
def machineLevels (a b : ℚ) (n m : Nat) (ns : List Nat) : List (List ℚ) :=
  thinned (linspace a b n) m :: ns.map (linspace a b)

/-- Time stepping along a grid: the values at all points, each computed by one call of `step()` from the previous point
(`forward_solve` on level 0 without the communication, mgrit.py:472-477). -/
def march {V : Type} (step : V → ℚ → ℚ → V) : V → List ℚ → List V
  | _, [] => []
  | v, [_] => [v]
  | v, t :: t' :: ts => v :: march step (step v t t') (t' :: ts)

end Pymgrit.MachineGrid
