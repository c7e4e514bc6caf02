import Verif.Split
import Verif.SeqLemmas
import Mathlib.Order.Basic
import Mathlib.Order.Defs.LinearOrder

/-!
# Grid hierarchy and communication pattern

Model of `setup_points_and_comm_info` (`/repo/src/pymgrit/core/mgrit.py:742-827`), statement by
statement.  Times are elements of an arbitrary linear order `T` (floating-point comparison of
non-NaN values is one); NumPy arrays are lists; `-99` for "no partner" is `none`.
-/

namespace Pymgrit

variable {T : Type} [LinearOrder T] [Inhabited T]

/-- `problem[l].t` of a hierarchy. -/
def grid (ts : List (List T)) (l : Nat) : List T := ts.getD l []

/-- `len(problem[l].t)`. -/
def npts (ts : List (List T)) (l : Nat) : Nat := (grid ts l).length

/-- `a[i]` for a non-negative index (the default stands for an `IndexError`; never reached). -/
def tAt (g : List T) (i : Nat) : T := g.getD i default

/-- `a[i]` with Python's meaning of negative indices. -/
def pyAt (g : List T) (i : Int) : T := if i < 0 then tAt g (g.length - i.natAbs) else tAt g i.toNat

/-- `all_cpts` (mgrit.py:767-770): the points that are also on the next level; all points on the
coarsest level (`m = 1` there, mgrit.py:219). -/
def allC (ts : List (List T)) (l : Nat) : List Nat :=
  if l + 1 ≠ ts.length then
    (List.range (npts ts l)).filter fun i => decide (tAt (grid ts l) i ∈ grid ts (l + 1))
  else List.range (npts ts l)

/-- `all_fpts` (mgrit.py:771), used for membership tests only. -/
def allF (ts : List (List T)) (l : Nat) : List Nat :=
  (List.range (npts ts l)).filter fun i => decide (i ∉ allC ts l)

/-- `all_pts` of process `r` (mgrit.py:756-764). -/
def localPts (ts : List (List T)) (P r l : Nat) : List Nat :=
  let t0 := grid ts 0
  let bf := splitPoints t0.length P r
  let p0 := ((List.range t0.length).drop bf.2).take bf.1
  if l = 0 then p0
  else
    let intStart := tAt t0 (p0.headD 0)
    let intStop := tAt t0 (p0.getLastD 0)
    (List.range (npts ts l)).filter fun i =>
      decide (intStart ≤ tAt (grid ts l) i) && decide (tAt (grid ts l) i ≤ intStop)

/-- `fpts2` (mgrit.py:774-776): `groupby` splits the sequence into maximal runs of consecutive
numbers; the list of runs is reversed and flattened. -/
def visit (fs : List Nat) : List Nat := (fs.splitBy fun a b => a + 1 == b).reverse.flatten

/-- `np.nonzero(xs[:, None] == all_pts_with_ghost)[1]` (mgrit.py:800-802). -/
def locOf (wg : List Int) (xs : List Nat) : List Nat :=
  xs.flatMap fun (p : Nat) => (wg.zipIdx.filter fun q => decide (q.1 = (p : Int))).map (·.2)

/-- The loop of NumPy's `searchsorted` (binary search with side `left`) between `lo` and `hi`.  The first argument
bounds the number of rounds. -/
def searchLoop (xs : List T) (x : T) : Nat → Nat → Nat → Nat
  | 0, lo, _ => lo
  | k + 1, lo, hi =>
    if lo < hi then
      let mid := lo + (hi - lo) / 2
      if tAt xs mid < x then searchLoop xs x k (mid + 1) hi else searchLoop xs x k lo mid
    else lo

/-- `np.searchsorted(split, x)` (mgrit.py:823, 825). -/
def searchSorted (xs : List T) (x : T) : Nat := searchLoop xs x xs.length 0 xs.length

/-- `split` (mgrit.py:816-817): time of the last fine point of every process. -/
def splitTimes (ts : List (List T)) (P : Nat) : List T :=
  (List.range P).map fun q => tAt (grid ts 0) (firstPt (npts ts 0) P (q + 1) - 1)

/-- `x - 1 in xs` for a non-negative `x` and a list of non-negative numbers. -/
def predIn (x : Nat) (xs : List Nat) : Bool := decide (1 ≤ x) && decide (x - 1 ∈ xs)

/-- What `setup_points_and_comm_info` stores for one level. -/
structure LvlInfo (T : Type) where
  /-- `all_pts` (not stored by the code) -/
  pts : List Nat
  /-- `self.cpts[lvl]` -/
  cpts : List Nat
  /-- `self.t[lvl]` -/
  t : List T
  commFront : Bool
  commBack : Bool
  /-- `self.index_local[lvl]` -/
  idx : List Nat
  /-- `self.index_local_c[lvl]` -/
  idxC : List Nat
  /-- `self.index_local_f[lvl]` -/
  idxF : List Nat
  firstC : Bool
  firstF : Bool
  lastC : Bool
  lastF : Bool
  sendTo : Option Nat
  getFrom : Option Nat

/-- Second half of `setup_points_and_comm_info` (mgrit.py:781-827): everything computed from the local
points `pts`, their C-points `cpts`, the F-points `fpts` in set-iteration order, and
`all_pts_with_ghost` (`wg`, integers because the code may produce `-1`). -/
def mkLevel (ts : List (List T)) (P r l : Nat) (pts cpts fpts : List Nat) (wg : List Int) :
    LvlInfo T :=
  let g := grid ts l
  let n := npts ts l
  let aC := allC ts l
  let aF := allF ts l
  let fpts2 := visit fpts
  let t := wg.map (pyAt g)
  let first := pts.headD 0
  let last := pts.getLastD 0
  let tFirst := t.headD default
  let tLast := t.getLastD default
  { pts := pts
    cpts := cpts
    t := t
    commFront := match fpts.min? with
      | some m => predIn m aF
      | none => false
    commBack := match fpts.max? with
      | some m => decide (m + 1 ∈ aF)
      | none => false
    idx := locOf wg pts
    idxC := locOf wg cpts
    idxF := locOf wg fpts2
    firstC := decide (pts ≠ []) && decide (first ∈ cpts) && decide (first ≠ 0) && predIn first aF
    firstF := decide (pts ≠ []) && decide (first ∈ fpts2) && predIn first aC
    lastC := decide (pts ≠ []) && decide (last ∈ cpts) && decide (last + 1 ≠ n) &&
      decide (last + 1 ∈ aF)
    lastF := decide (pts ≠ []) && decide (last ∈ fpts2) && decide (last + 1 ≠ n) &&
      decide (last + 1 ∈ aC)
    sendTo :=
      if wg ≠ [] ∧ tLast ≠ g.getLastD default then
        some (searchSorted (splitTimes ts P) (tAt g (g.idxOf tLast + 1)))
      else none
    getFrom :=
      if wg ≠ [] ∧ ((r ≠ 0 ∧ pts ≠ []) ∨ tFirst ≠ (grid ts 0).headD default) then
        some (searchSorted (splitTimes ts P) tFirst)
      else none }

/-- `setup_points_and_comm_info` (mgrit.py:742-827) on process `r` of `P`.  `ord` is the order in
which Python iterates over the set `set(all_pts) - set(cpts)` (mgrit.py:773), given its elements;
it is left open because it is an implementation detail of CPython. -/
def setupLevel (ts : List (List T)) (P : Nat) (ord : List Nat → List Nat) (r l : Nat) : LvlInfo T :=
  let pts := localPts ts P r l
  let cpts := pts.filter fun i => decide (i ∉ allF ts l)
  let fpts := ord (pts.filter fun i => decide (i ∉ cpts))
  let wg : List Int :=
    if r ≠ 0 ∧ pts ≠ [] then (((pts.headD 0 : Nat) : Int) - 1) :: pts.map Int.ofNat
    else pts.map Int.ofNat
  mkLevel ts P r l pts cpts fpts wg

/-- Hierarchies the constructor is meant for: strictly increasing, non-empty time grids, every
coarse point on the next finer grid, common initial time. -/
structure Valid (ts : List (List T)) : Prop where
  pos : 0 < ts.length
  ne0 : grid ts 0 ≠ []
  sorted : ∀ l, (grid ts l).Pairwise (· < ·)
  nested : ∀ l, l + 1 < ts.length → ∀ x ∈ grid ts (l + 1), x ∈ grid ts l
  start : ∀ l, l < ts.length → (grid ts l).head? = (grid ts 0).head?

/-! ### Sanity checks of the model against the expected data of the project's own test
(`/repo/tests/core/test_mgrit.py`, `test_setup_points_and_comm_info`); these are tests, not proofs. -/

section sanity

/-- `[0, 1, …, 64]`, `[0, 4, …, 64]`, `[0, 16, …, 64]`. -/
def testGrid : List (List Nat) :=
  [List.range 65, (List.range 17).map (4 * ·), (List.range 5).map (16 * ·)]

#guard (List.range 7).map (fun r => (List.range 3).map fun l => (setupLevel testGrid 7 id r l).cpts)
  = [[[0, 4, 8], [0], [0]], [[12, 16], [4], [1]], [[20, 24, 28], [], []], [[32, 36], [8], [2]],
     [[40, 44], [], []], [[48, 52], [12], [3]], [[56, 60, 64], [16], [4]]]
#guard (List.range 7).map (fun r => (List.range 3).map fun l =>
    (setupLevel testGrid 7 id r l).sendTo)
  = [[some 1, some 1, some 1], [some 2, some 2, some 3], [some 3, some 3, none],
     [some 4, some 4, some 5], [some 5, some 5, none], [some 6, some 6, some 6], [none, none, none]]
#guard (List.range 7).map (fun r => (List.range 3).map fun l =>
    (setupLevel testGrid 7 id r l).getFrom)
  = [[none, none, none], [some 0, some 0, some 0], [some 1, some 1, none], [some 2, some 2, some 1],
     [some 3, some 3, none], [some 4, some 4, some 3], [some 5, some 5, some 5]]
#guard (List.range 7).map (fun r => (List.range 3).map fun l => (setupLevel testGrid 7 id r l).idxC)
  = [[[0, 4, 8], [0], [0]], [[3, 7], [2], [1]], [[1, 5, 9], [], []], [[4, 8], [1], [1]],
     [[3, 7], [], []], [[2, 6], [1], [1]], [[1, 5, 9], [3], [1]]]
#guard (setupLevel testGrid 7 id 0 0).idxF = [9, 5, 6, 7, 1, 2, 3]
#guard (setupLevel testGrid 7 id 1 0).idxF = [8, 9, 10, 4, 5, 6, 1, 2]
#guard (List.range 7).map (fun r => (List.range 3).map fun l =>
    (setupLevel testGrid 7 id r l).commFront)
  = [[false, false, false], [true, true, false], [false, false, false], [false, false, false],
     [true, true, false], [true, false, false], [false, true, false]]
#guard (List.range 7).map (fun r => (List.range 3).map fun l =>
    (setupLevel testGrid 7 id r l).commBack)
  = [[true, true, false], [false, false, false], [false, false, false], [true, true, false],
     [true, false, false], [false, true, false], [false, false, false]]
#guard (List.range 7).map (fun r => (List.range 3).map fun l =>
    (setupLevel testGrid 7 id r l).firstC)
  = [[false, false, false], [false, false, false], [true, false, false], [false, true, false],
     [false, false, false], [false, true, false], [true, false, false]]
#guard (List.range 7).map (fun r => (List.range 3).map fun l =>
    (setupLevel testGrid 7 id r l).firstF)
  = [[false, false, false], [false, false, false], [false, true, false], [true, false, false],
     [false, false, false], [false, false, false], [false, false, false]]
#guard (List.range 7).map (fun r => (List.range 3).map fun l =>
    (setupLevel testGrid 7 id r l).lastF)
  = [[false, false, false], [true, false, false], [false, true, false], [false, false, false],
     [false, true, false], [true, false, false], [false, false, false]]
#guard (List.range 7).map (fun r => (List.range 3).map fun l =>
    (setupLevel testGrid 7 id r l).lastC)
  = [[false, false, false], [false, true, false], [true, false, false], [false, false, false],
     [false, false, false], [false, false, false], [false, false, false]]
#guard (List.range 7).map (fun r => (List.range 3).map fun l => (setupLevel testGrid 7 id r l).idx)
  = [[[0, 1, 2, 3, 4, 5, 6, 7, 8, 9], [0, 1, 2], [0]],
     [[1, 2, 3, 4, 5, 6, 7, 8, 9, 10], [1, 2], [1]],
     [[1, 2, 3, 4, 5, 6, 7, 8, 9], [1, 2, 3], []], [[1, 2, 3, 4, 5, 6, 7, 8, 9], [1, 2], [1]],
     [[1, 2, 3, 4, 5, 6, 7, 8, 9], [1, 2], []], [[1, 2, 3, 4, 5, 6, 7, 8, 9], [1, 2], [1]],
     [[1, 2, 3, 4, 5, 6, 7, 8, 9], [1, 2, 3], [1]]]

end sanity

end Pymgrit
