import Mathlib.Logic.Function.Basic
import Mathlib.Algebra.Group.Defs

/-!
# Vector classes

A heap model of the vector classes: Python objects whose fields are numbers or references to arrays.
Two families:

* rebinding classes – `VectorHeat1D` (heat_1d.py:15-127), `VectorHeat2D` (heat_2d.py:17-137),
  `VectorAdvection1D` (advection_1d.py:14-66), `VectorAllenCahn2D` (allen_cahn.py:13-129),
  `VectorBrusselator` (brusselator.py:12-61), `VectorHeat1D2Pts` (vector_heat_1d_2pts.py:13-134),
  `VectorMachine` (vector_machine.py:11-188), `VectorDahlquist` (dahlquist.py:13-55) and
  `VectorArenstorfOrbit` (arenstorf_orbit.py:14-77): `clone` gives a new object that refers to the same
  arrays, `set_values` and `unpack` let the fields refer to other arrays;
* copying classes – `VectorPetsc` (vector_petsc.py:18-126) and `VectorFiredrake`
  (vector_firedrake.py:17-140): `clone` copies the array, `unpack` writes into the existing array.

One field per array or number: `[ref]` for the single-array classes, `[ref, ref, num]` (values and
`dtau`) for `VectorHeat1D2Pts`, three references and eight numbers for `VectorMachine`, numbers only
for `VectorDahlquist` and `VectorArenstorfOrbit`.  The `size` attributes, which no method but
`clone_zero` uses, are the lengths of the arrays.  `clone_rand` is a constructor call with other data
and covered by `new`.
-/

namespace Pymgrit.Heap

variable {α : Type}

/-- A field of an object. -/
inductive Field (α : Type)
  | ref (a : Nat)
  | num (x : α)
  deriving DecidableEq

/-- Contents of a field: an array or a number. -/
inductive Val (α : Type)
  | arr (xs : List α)
  | num (x : α)
  deriving DecidableEq

/-- The memory: arrays by address, objects by identity; the first `na` addresses and `no` objects are in
use. -/
structure Mem (α : Type) where
  arr : Nat → List α
  na : Nat
  obj : Nat → List (Field α)
  no : Nat

/-- What one sees of an object: `get_values()` and the other attributes. -/
def Field.val (m : Mem α) : Field α → Val α
  | .ref a => .arr (m.arr a)
  | .num x => .num x

def Mem.val (m : Mem α) (o : Nat) : List (Val α) := (m.obj o).map (Field.val m)

/-- Create fresh arrays with the given contents; returns the fields referring to them. -/
def Mem.alloc (m : Mem α) : List (Val α) → Mem α × List (Field α)
  | [] => (m, [])
  | .num x :: vs =>
    let r := m.alloc vs
    (r.1, .num x :: r.2)
  | .arr xs :: vs =>
    let r := { m with arr := Function.update m.arr m.na xs
                      na := m.na + 1 }.alloc vs
    (r.1, .ref m.na :: r.2)

/-- A new object with the given fields. -/
def Mem.push (m : Mem α) (fs : List (Field α)) : Mem α :=
  { m with obj := Function.update m.obj m.no fs
           no := m.no + 1 }

/-- A new object with fresh arrays. -/
def Mem.fresh (m : Mem α) (vs : List (Val α)) : Mem α :=
  let r := m.alloc vs
  r.1.push r.2

/-- Let the fields of object `o` be `fs`. -/
def Mem.bind (m : Mem α) (o : Nat) (fs : List (Field α)) : Mem α :=
  { m with obj := Function.update m.obj o fs }

/-- Write the contents into the arrays the fields refer to. -/
def Mem.store (m : Mem α) : List (Field α) → List (Val α) → Mem α
  | .ref a :: fs, .arr xs :: vs =>
    { m with arr := Function.update m.arr a xs }.store fs vs
  | _ :: fs, _ :: vs => m.store fs vs
  | _, _ => m

/-- Pointwise operation on contents. -/
def Val.map₂ (f : α → α → α) : Val α → Val α → Val α
  | .arr xs, .arr ys => .arr (List.zipWith f xs ys)
  | .num x, .num y => .num (f x y)
  | v, _ => v

def Val.map (f : α → α) : Val α → Val α
  | .arr xs => .arr (xs.map f)
  | .num x => .num (f x)

/-- `np.zeros` of the same shape. -/
def Val.zero [Zero α] : Val α → Val α
  | .arr xs => .arr (List.replicate xs.length 0)
  | .num _ => .num 0

/-- The two families of classes. -/
inductive Kind | rebind | copy
  deriving DecidableEq

/-- Operations of a program that uses vectors.  `assign o p` is `o.set_values(p.get_values())`,
`write o i xs` the user's own in-place change of the array `o.get_values()`. -/
inductive Op (α : Type)
  | new (vs : List (Val α))
  | clone (o : Nat)
  | cloneZero (o : Nat)
  | add (f : α → α → α) (o p : Nat)
  | mul (f : α → α) (o : Nat)
  | setValues (o : Nat) (vs : List (Val α))
  | unpack (o : Nat) (vs : List (Val α))
  | assign (o p : Nat)
  | write (o i : Nat) (xs : List α)

/-- `o.pack()` (heat_1d.py:117, vector_machine.py:163, ...), as the receiver of the message sees it:
the contents (mpi4py pickles them when the message is sent). -/
def Mem.pack (m : Mem α) (o : Nat) : List (Val α) := m.val o

/-- Effect of an operation (line references for `VectorHeat1D` and `VectorPetsc`).  New objects get the
identity `m.no`. -/
def Mem.step [Zero α] (k : Kind) (m : Mem α) : Op α → Mem α
  -- `__init__` (heat_1d.py:19-27; vector_petsc.py:23-32)
  | .new vs => m.fresh vs
  -- `clone` (heat_1d.py:70-78: set_values(self.get_values()); vector_petsc.py:69-76: deepcopy)
  | .clone o => match k with
    | .rebind => m.push (m.obj o)
    | .copy => m.fresh (m.val o)
  -- `clone_zero` (heat_1d.py:80-86; vector_petsc.py:78-85)
  | .cloneZero o => m.fresh ((m.val o).map Val.zero)
  -- `__add__`, `__sub__` (heat_1d.py:29-49; vector_petsc.py:34-50)
  | .add f o p => m.fresh (List.zipWith (Val.map₂ f) (m.val o) (m.val p))
  -- `__mul__` (heat_1d.py:51-60; vector_petsc.py:52-59)
  | .mul f o => m.fresh ((m.val o).map (Val.map f))
  -- `set_values` with a new array (heat_1d.py:98-104; vector_petsc.py:96-102)
  | .setValues o vs =>
    let r := m.alloc vs
    r.1.bind o r.2
  -- `unpack` of a received message (heat_1d.py:122-128; vector_petsc.py:120-126)
  | .unpack o vs => match k with
    | .rebind =>
      let r := m.alloc vs
      r.1.bind o r.2
    | .copy => m.store (m.obj o) vs
  | .assign o p => m.bind o (m.obj p)
  | .write o i xs => match (m.obj o)[i]? with
    | some (.ref a) => { m with arr := Function.update m.arr a xs }
    | _ => m

/-- A program. -/
def Mem.run [Zero α] (k : Kind) (m : Mem α) (ops : List (Op α)) : Mem α := ops.foldl (Mem.step k) m

/-- `pack` and `unpack` of `VectorHeat1D2Pts` (vector_heat_1d_2pts.py:117-134): `dtau` is not part of
the message. -/
structure Pair (α : Type) where
  first : List α
  second : List α
  dtau : α

def Pair.pack (v : Pair α) : List (List α) := [v.first, v.second]

def Pair.unpack (v : Pair α) : List (List α) → Except String (Pair α)
  | a :: b :: _ => .ok { v with first := a, second := b }
  | _ => .error "IndexError"

end Pymgrit.Heap
