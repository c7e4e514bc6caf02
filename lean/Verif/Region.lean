import Verif.JlSolver
import Verif.Workflow

/-!
# The criterion of the optimization workflow

Model of `convergence_criterion` of `AtMgritCustomized` and of the values its `solve` gathers
(`/repo/examples/optimize_geometry_im/optimization_workflow.py:43-72`).  The points of the finest level are distributed as in
`Mgrit` (at_mgrit.py:98-147 has the text of mgrit.py:737-801 there).
-/

namespace Pymgrit.Opt
open Jl

/-- `flat_list` (optimization_workflow.py:45-47, 56-58): the values of all processes, in the order of the ranks; `f t` – the
value at the point with time `t`. -/
def gathered {A : Type} (ts : List (List ℚ)) (P : Nat) (ord : Nat → Nat → List Nat → List Nat) (f : ℚ → A) : List A :=
  (List.range P).flatMap fun r =>
    let J := setupLevel ts P (ord r 0) r 0
    J.idx.map fun j => f (tAt J.t j)

/-- The value written to `self.conv[iteration]` (optimization_workflow.py:62-71); `last` – `self.last_it`. -/
def regionValue (t : List ℚ) (region : ℚ) (last new : List ℚ) : ℚ :=
  let k := findNearest t (t.getLastD 0 - region)
  100 * npMax ((List.zipWith relChange (last.drop k) (new.drop k)).map fun x => |x|)

/-- A call of `convergence_criterion` (optimization_workflow.py:55-72): the value, and `self.last_it` afterwards. -/
def criterion (ts : List (List ℚ)) (P : Nat) (ord : Nat → Nat → List Nat → List Nat) (region : ℚ) (last : List ℚ) (jl : ℚ → ℚ) :
    ℚ × List ℚ :=
  let new := gathered ts P ord jl
  (regionValue (grid ts 0) region last new, new)

/-- The calls with the losses `jls` one after the other, the first one by the constructor with zeros as last values
(optimization_workflow.py:34-35; mgrit.py:608). -/
def history (ts : List (List ℚ)) (P : Nat) (ord : Nat → Nat → List Nat → List Nat) (region : ℚ) (last : List ℚ) :
    List (ℚ → ℚ) → List ℚ
  | [] => []
  | jl :: jls =>
    let r := criterion ts P ord region last jl
    r.1 :: history ts P ord region r.2 jls

end Pymgrit.Opt
