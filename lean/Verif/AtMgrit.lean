import Verif.Driver
import Verif.Grid

/-!
# AT-MGRIT

Model of `/repo/src/pymgrit/core/at_mgrit.py`: the coarsest-level solver on one process, and the group
communication of the run on several processes.  Everything else is inherited from `Mgrit`.
-/

namespace Pymgrit

namespace Sys
variable {V K : Type} [Add V] (S : Sys V K)

/-- Value computed for coarsest point `p` (at_mgrit.py:80-84): start from the old value (`tmp_u_arr` is
a copy made before the loop) at `max(0, p - k + 1)` and step through
`range(max(1, p - k + 2), p + 1)`. -/
def atPoint (k l : Nat) (s : GState V) (p : Nat) : V :=
  (List.range' (max 1 (p + 2 - k)) (p + 1 - max 1 (p + 2 - k))).foldl
    (fun x i => s.g l i + S.Φ l i x) (s.u l (p + 1 - k))

/-- `AtMgrit.forward_solve` on one process (at_mgrit.py:36-87): nothing for a single level (line 44),
otherwise the local solves (78-85).  For `k = 0` the code reads `tmp_u_arr[p + 1]`, at the last point
beyond the end (see `C35_in_range`). -/
def atForward (k l : Nat) (s : GState V) : GState V :=
  if S.L = 1 then s
  else s.setU l ((List.range (S.n l)).foldl
    (fun u p => Function.update u p (S.atPoint k l s p)) (s.u l))

end Sys

/-! ## Several processes

`own` is `self.comm_coarsest_level`, the process of every coarsest point; `cp r` is
`self.cpts[lvl]` on process `r`; `P` is the number of processes, at least two.  Points are written as
indices into the coarsest grid; the code identifies them by their times, which are distinct.
Distances `k ≥ 1` only. -/

namespace At

/-- `self.comm_coarsest_level` (at_mgrit.py:176-179): the first process whose last fine time is not
before the point. -/
def ownList {T : Type} [LinearOrder T] [Inhabited T] (ts : List (List T)) (P : Nat) : List Nat :=
  (grid ts (ts.length - 1)).map (searchSorted (splitTimes ts P))

/-- `self.cpts[-1]` of process `r` (at_mgrit.py:109-120): all local points of the coarsest level. -/
def cpList {T : Type} [LinearOrder T] [Inhabited T] (ts : List (List T)) (P r : Nat) : List Nat :=
  localPts ts P r (ts.length - 1)

/-- The check of at_mgrit.py:183-185.  `c_points_per_proc` are the numbers of points of the processes
that have any, in rank order.  If only the first process has too many points the construction of the
error message fails. -/
def check (own : List Nat) : Except String Unit :=
  if own.any (fun r => decide (r ≠ own.headD 0) && decide (1 < own.count r)) then
    .error "Too many points on proc"
  else if 2 < own.count (own.headD 0) then .error "IndexError"
  else .ok ()

/-- `tmp_comm_coarsest_level` (at_mgrit.py:187-190). -/
def members (own : List Nat) : List Nat :=
  if own.count (own.headD 0) = 2 then own.tail else own

/-- `idx` (at_mgrit.py:194). -/
def idx (own : List Nat) (r : Nat) : Nat := (members own).idxOf r

/-- `color_black` (at_mgrit.py:195). -/
def black (k : Nat) (own : List Nat) (r : Nat) : Nat := idx own r / k

/-- `color_green` (at_mgrit.py:196-199). -/
def green (k : Nat) (own : List Nat) (r : Nat) : Nat :=
  if idx own r % k = k - 1 then black k own r + 1 else black k own r

/-- Members of the communicator of process `r` after `Split(color, key=rank)` (at_mgrit.py:213-217):
the processes with its colour in rank order; processes without coarsest points have colour
`UNDEFINED` and belong to none. -/
def group (P : Nat) (own : List Nat) (color : Nat → Nat) (r : Nat) : List Nat :=
  (List.range P).filter fun q => decide (q ∈ members own ∧ color q = color r)

/-- `data = data_black + data_green` (at_mgrit.py:47-55) on process `r`: the processes whose
contributions it gets.  `data_green` is the `data_black` of the first process of the green
communicator. -/
def sources (k P : Nat) (own : List Nat) (r : Nat) : List Nat :=
  group P own (black k own) r ++
    group P own (black k own) ((group P own (green k own) r).headD 0)

/-- `self.local_coarse_grid` (at_mgrit.py:200-210). -/
def window (k : Nat) (own : List Nat) (cp : Nat → List Nat) (r : Nat) : List Nat :=
  let first := (cp r).getD 0 0
  let last := if r ≠ 0 then first
    else if own.count (own.headD 0) = 1 then first else (cp r).getD 1 0
  List.range' (first + 1 - k) (last + 1 - (first + 1 - k))

/-- The point a process contributes (at_mgrit.py:48). -/
def lastC (cp : Nat → List Nat) (r : Nat) : Nat := (cp r).getLastD 0

section
variable {V : Type} [Add V]

/-- The loop at_mgrit.py:57-64 over the gathered data: `tmp_uu` and `g_coarsest`. -/
def gather (w : List Nat) (u g : Nat → V) (data : List Nat) (x : V × (Nat → V)) : V × (Nat → V) :=
  data.foldl (fun x p =>
    if p ∈ w then
      (if w.idxOf p = 0 then u p else x.1, Function.update x.2 (w.idxOf p) (g p))
    else x) x

/-- `AtMgrit.forward_solve` on process `r` of several that has coarsest points (at_mgrit.py:45-76):
the new value of its last coarsest point.  `u`, `g` are the values of the coarsest level, `Φ i` the
step to point `i`, `start` is `vector_t_start`.  `gc` is the attribute `g_coarsest`, `none` if it has
not been created. -/
def solve (k P : Nat) (own : List Nat) (cp : Nat → List Nat) (Φ : Nat → V → V) (u g : Nat → V)
    (start : V) (gc : Option (Nat → V)) (r : Nat) : Except String V :=
  let w := window k own cp r
  let data := (sources k P own r).map (lastC cp)
  match gc with
  | none =>
    if data.any (fun p => decide (p ∈ w)) ∨ 1 < w.length then .error "AttributeError: g_coarsest"
    else .ok start
  | some g0 =>
    let x := gather w u g data (start, g0)
    .ok ((List.range' 1 (w.length - 1)).foldl (fun y i => x.2 i + Φ (w.getD i 0) y) x.1)

/-- `g_coarsest` when `forward_solve` runs.  The constructor (at_mgrit.py:16-34) does not set it, and
`create_coarsest_level` (219-227), which does, is called nowhere in the package. -/
def gCoarsest : Option (Nat → V) := none

end
end At
end Pymgrit
