import Verif.Grid

/-!
# CPython's sets of non-negative integers

`setup_points_and_comm_info` iterates over `set(all_pts) - set(cpts)` (mgrit.py:773, at_mgrit.py:121);
the visiting order of F-points follows from the order in which CPython iterates over that set.  This file
models the hash tables of CPython 3.7 and later (`Objects/setobject.c`; not part of `/repo`, written from
knowledge of that source).  The hash of a non-negative integer (also of `numpy.int64`) is the integer.

A table is the list of its slots, its length is a power of two, `x & mask` is `x % length`.  Dummy entries
(left by removals) are only present at the end of `set_difference`, where nothing is inserted any more: they
are modelled as free slots, their number enters the resize test only.
-/

namespace Pymgrit.PySet

/-- Slots of a hash table (`so->table`): `none` is a free slot. -/
abbrev Tab := List (Option Nat)

/-- The keys in the order of iteration (`setiter_iternext`: table order); their number is `so->used`. -/
def keys (t : Tab) : List Nat := t.filterMap id

/-- The probe loop of `set_add_entry` and `set_insert_clean`: look at slot `i` and, if that does not pass
the end of the table, the `LINEAR_PROBES = 9` slots after it, for the first one satisfying `ok`; then
continue at `5 * i + 1 + perturb` with `perturb` shifted by `PERTURB_SHIFT = 5`.  `fuel` bounds the number
of rounds; `findSlot_free` proves that the bound used below is never reached. -/
def findSlot (t : Tab) (ok : Option Nat → Bool) : Nat → Nat → Nat → Option Nat
  | 0, _, _ => none
  | fuel + 1, i, perturb =>
    match (List.range' i (if i + 9 ≤ t.length - 1 then 10 else 1)).find?
        (fun j => (t[j]?.map ok).getD false) with
    | some j => some j
    | none => findSlot t ok fuel ((i * 5 + 1 + perturb / 32) % t.length) (perturb / 32)

/-- Slot for `x`, starting at its hash. -/
def slotFor (t : Tab) (ok : Option Nat → Bool) (x : Nat) : Option Nat :=
  findSlot t ok (x + t.length + 1) (x % t.length) x

/-- `set_insert_clean`: the first free slot of the probe sequence. -/
def insertClean (t : Tab) (x : Nat) : Tab :=
  match slotFor t (fun s => s.isNone) x with
  | some j => t.set j (some x)
  | none => t

/-- New size in `set_table_resize`: doubling from `PySet_MINSIZE = 8` until it exceeds `minused`. -/
def grow : Nat → Nat → Nat → Nat
  | 0, _, n => n
  | f + 1, m, n => if n ≤ m then grow f m (2 * n) else n

/-- Empty table with room for `minused`. -/
def sized (minused : Nat) : Tab := List.replicate (grow (minused + 1) minused 8) none

/-- `set_table_resize`: all keys, in table order, into a new table. -/
def resize (t : Tab) (minused : Nat) : Tab := (keys t).foldl insertClean (sized minused)

/-- Argument of `set_table_resize` after an insertion or removal. -/
def want (used : Nat) : Nat := if 50000 < used then used * 2 else used * 4

/-- `set_add_entry`: the first slot of the probe sequence that is free or holds the key; grow if at least
three fifths are filled. -/
def add (t : Tab) (x : Nat) : Tab :=
  match slotFor t (fun s => s.isNone || s == some x) x with
  | some j =>
    if t[j]? = some (some x) then t
    else
      let t' := t.set j (some x)
      let fill := (keys t').length
      if fill * 5 < (t.length - 1) * 3 then t' else resize t' (want fill)
  | none => t

/-- The empty set: `PySet_MINSIZE = 8` slots. -/
def empty : Tab := List.replicate 8 none

/-- `set(xs)`: `set_update_internal` adds one element after the other. -/
def ofList (xs : List Nat) : Tab := xs.foldl add empty

/-- `set_copy`: `set_merge` into the empty set; one resize at the start, tables of equal size are copied,
otherwise the keys are inserted in table order. -/
def copy (t : Tab) : Tab :=
  let used := (keys t).length
  let t0 := if 21 ≤ used * 5 then sized (used * 2) else empty
  if t0.length = t.length then t else (keys t).foldl insertClean t0

/-- `set_difference`: if the second set is small, copy the first and remove (`set_copy_and_difference`,
with a resize if more than a quarter of the table are dummies); otherwise add the remaining keys to the
empty set, in the order of iteration. -/
def diff (a b : Tab) : Tab :=
  if (keys b).length < (keys a).length / 4 then
    let c := copy a
    let r := c.map fun s => s.filter fun x => decide (x ∉ keys b)
    let dummies := (keys c).length - (keys r).length
    if dummies ≤ (c.length - 1) / 4 then r else resize r (want (keys r).length)
  else ((keys a).filter fun x => decide (x ∉ keys b)).foldl add empty

/-- `fpts = np.array(list(set(all_pts) - set(cpts)))` (mgrit.py:773). -/
def setMinus (pts cpts : List Nat) : List Nat := keys (diff (ofList pts) (ofList cpts))

/-- The order of the F-points of process `r` on level `l` under CPython, as needed by `setupLevel`: the
local points without the C-points, whatever remains being the F-points. -/
def order {T : Type} [LinearOrder T] [Inhabited T] (ts : List (List T)) (P r l : Nat) (fpts : List Nat) :
    List Nat :=
  setMinus (localPts ts P r l) ((localPts ts P r l).filter fun i => decide (i ∉ fpts))

/-! Tests of the model against CPython 3.11 (not proofs). -/
#guard setMinus (List.range 10) [0, 2, 3, 4, 5, 6, 7] = [8, 1, 9]
#guard setMinus (List.range' 82 9) [83, 84, 85, 86, 87, 88] = [89, 82, 90]
#guard setMinus (List.range' 51 41) [51, 56, 57, 60, 61, 62, 63, 65, 67, 71, 72, 73, 74, 75, 76, 77, 78,
  79, 80, 81, 82, 85, 87, 88, 89, 90] = [64, 66, 68, 69, 70, 91, 83, 52, 53, 54, 55, 84, 86, 58, 59]

end Pymgrit.PySet
