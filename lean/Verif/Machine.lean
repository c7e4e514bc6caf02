import Mathlib.Algebra.Ring.Defs
import Mathlib.Data.List.Basic
import Mathlib.Order.Defs.LinearOrder

/-!
# Induction machine: vector and grid transfer

Model of `VectorMachine.get_values`/`set_values` (vector_machine.py) and of `GridTransferMachine`
(grid_transfer_machine.py).  The transfer data are arbitrary: how they are computed from mesh files
(helper.py) is modelled in `Mesh`.
-/

namespace Pymgrit.Machine

variable {α : Type}

/-- Python's interpretation of a slice bound for a sequence of length `n`. -/
def bound (n : Nat) (i : Int) : Nat := if i < 0 then (n + i).toNat else min n i.toNat

/-- `xs[i:j]`; `none` for an omitted bound. -/
def slice (xs : List α) (i j : Option Int) : List α :=
  let a := match i with | some i => bound xs.length i | none => 0
  let b := match j with | some j => bound xs.length j | none => xs.length
  (xs.take b).drop a

/-- `VectorMachine` (vector_machine.py:17-37): the three arrays with the sizes given to the
constructor, and the eight scalars. -/
structure Vec (α : Type) where
  frontSize : Nat
  middleSize : Nat
  backSize : Nat
  front : List α
  middle : List α
  back : List α
  scal : List α

/-- Do the arrays have the declared sizes?  The constructor makes it so. -/
def Vec.Fits (v : Vec α) : Prop :=
  v.front.length = v.frontSize ∧ v.middle.length = v.middleSize ∧ v.back.length = v.backSize

/-- `get_values` (vector_machine.py:137-143). -/
def Vec.getValues (v : Vec α) : List α := v.front ++ v.middle ++ v.back

/-- `set_values` (vector_machine.py:145-161). -/
def Vec.setValues (v : Vec α) (values scal : List α) : Vec α :=
  { v with front := slice values none (some v.frontSize)
           middle := slice values (some v.frontSize) (some (-(v.backSize : Int)))
           back := slice values (some (-(v.backSize : Int))) none
           scal := scal }

/-- The entries of `transfer_data` used (helper.py:483-496). -/
structure Data (α : Type) where
  sizeStart : Nat
  sizeStop : Nat
  mapInner : List Nat
  mapOuter : List Nat
  mapInnerNew : List Nat
  mapOuterNew : List Nat
  vtxInner : List (List Nat)
  wtsInner : List (List α)
  vtxOuter : List (List Nat)
  wtsOuter : List (List α)
  addInner : Nat
  addOuter : Nat

/-- `xs[idx]` for an integer array (`IndexError` if out of range). -/
def takeIdx (xs : List α) (idx : List Nat) : Except String (List α) :=
  idx.mapM fun i => match xs[i]? with
    | some x => .ok x
    | none => .error "IndexError"

/-- `xs[idx] = vals` for an integer array. -/
def scatter (xs : List α) (idx : List Nat) (vals : List α) : Except String (List α) :=
  if idx.length ≠ vals.length then .error "ValueError"
  else if idx.any fun i => decide (xs.length ≤ i) then .error "IndexError"
  else .ok ((idx.zip vals).foldl (fun xs iv => xs.set iv.1 iv.2) xs)

/-- `compute_mesh_transfer` (helper.py:201-218) with `dif2 = 0`: weighted sums of the values at the
vertices; `nan` where a weight is negative. -/
def meshTransfer [Semiring α] [LT α] [DecidableLT α] (nan : α) (values : List α)
    (vtx : List (List Nat)) (wts : List (List α)) (dif : Nat) : Except String (List α) :=
  let work := values ++ List.replicate dif 0
  (vtx.zip wts).mapM fun vw => do
    let xs ← takeIdx work vw.1
    return if vw.2.any fun w => decide (w < 0) then nan else (List.zipWith (· * ·) xs vw.2).sum

/-- `restriction` (grid_transfer_machine.py:48-58). -/
def restriction (d : Data α) (u : Vec α) : Vec α :=
  { u with middle := slice u.middle none (some d.sizeStart)
           middleSize := d.sizeStart }

/-- `interpolation` (grid_transfer_machine.py:60-83).  `np.zeros` of a negative size raises; the
assignment to `new_middle[:len(u.u_middle)]` raises unless the slice has the length of `u.u_middle` or
that is one (broadcasting). -/
def interpolation [Semiring α] [LT α] [DecidableLT α] (nan : α) (d : Data α) (u : Vec α) :
    Except String (Vec α) := do
  if d.sizeStop < d.sizeStart then throw "ValueError"
  let newMiddle := List.replicate (d.sizeStop - d.sizeStart) (0 : α)
  let inner ← meshTransfer nan (← takeIdx u.middle d.mapInner) d.vtxInner d.wtsInner d.addInner
  let outer ← meshTransfer nan (← takeIdx u.middle d.mapOuter) d.vtxOuter d.wtsOuter d.addOuter
  if newMiddle.length < u.middle.length ∧ u.middle.length ≠ 1 then throw "ValueError"
  let newMiddle := (u.middle ++ newMiddle.drop u.middle.length).take newMiddle.length
  let newMiddle ← scatter newMiddle d.mapInnerNew inner
  let newMiddle ← scatter newMiddle d.mapOuterNew outer
  return { u with middle := u.middle ++ newMiddle
                  middleSize := (u.middle ++ newMiddle).length }

end Pymgrit.Machine
