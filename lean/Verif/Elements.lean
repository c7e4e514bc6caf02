import Verif.PropsMshFile
import Mathlib.Data.List.Dedup

/-!
# Induction machine: lines and triangles of a mesh file

Model of `get_elements`, `check_version` and the part of `get_arrays` that uses lines and triangles
(`/repo/src/pymgrit/induction_machine/helper.py`), and of the whole constructor of `GridTransferMachine`.  Files are lists of
lines split at white space, as in `Verif.Mesh`.
-/

namespace Pymgrit.Mesh

/-- The loop over the blocks (helper.py:272-282): a block starts with a line whose last word is the number of its elements; the
length of the first of them decides.  `int` raises `ValueError` for other text; numbers are not negative. -/
def elemBlocks (int : String → Except String Nat) (ele : List Line) : Except String (List Line × List Line) :=
  match ele with
  | [] => .ok ([], [])
  | hd :: tl =>
    match hd.getLast? with
    | none => .error "IndexError"
    | some w => do
      let num ← int w
      match tl.head? with
      | none => .error "IndexError"
      | some row =>
        let r ← elemBlocks int (tl.drop num)
        if row.length = 3 then return (tl.take num ++ r.1, r.2)
        else if row.length = 4 then return (r.1, tl.take num ++ r.2)
        else return r
termination_by ele.length
decreasing_by simp only [List.length_drop, List.length_cons]; omega

/-- Names of the nodes of a line and of a triangle. -/
abbrev Pair := String × String
abbrev Triple := String × String × String

/-- One line element (helper.py:289-292). -/
def addLine (d : List (String × Pair) × List (String × String)) (row : Line) :
    Except String (List (String × Pair) × List (String × String)) :=
  match row with
  | r0 :: r1 :: r2 :: _ => .ok (dictSet d.1 r0 (r1, r2), dictSet d.2 (r1 ++ " " ++ r2) r0)
  | _ => .error "IndexError"

/-- One triangle (helper.py:294-297). -/
def addTriangle (d : List (String × Triple) × List (String × String)) (row : Line) :
    Except String (List (String × Triple) × List (String × String)) :=
  match row with
  | r0 :: r1 :: r2 :: r3 :: _ => .ok (dictSet d.1 r0 (r1, r2, r3), dictSet d.2 (r1 ++ " " ++ r2 ++ " " ++ r3) r0)
  | _ => .error "IndexError"

/-- `get_elements` (helper.py:252-297): lines, triangles, and both with keys and values exchanged (the key is the text with the
names of the nodes). -/
def getElements (int : String → Except String Nat) (content : List Line) :
    Except String (List (String × Pair) × List (String × Triple) × List (String × String) × List (String × String)) := do
  let start := lastPos content "$Elements"
  let stop := lastPos content "$EndElements"
  let (ls, ts) ← elemBlocks int (Machine.slice content (some (start + 2 : Nat)) (some (stop : Nat)))
  let (l, lr) ← ls.foldlM addLine ([], [])
  let (t, tr) ← ts.foldlM addTriangle ([], [])
  return (l, t, lr, tr)

/-- The sorted list `boundary_nodes` (helper.py:334-340). -/
def boundaryNodes (lines : List (String × Pair)) : List String :=
  ((lines.flatMap fun e => [e.2.1, e.2.2]).dedup).mergeSort

/-- `ind[name]` (helper.py:326-332): position among the nodes. -/
def nodePos {β : Type} (nodes : List (String × β)) (name : String) : Except String Nat :=
  match nodes.findIdx? fun e => decide (e.1 = name) with
  | some i => .ok i
  | none => .error "KeyError"

/-- Positions of the nodes of a triangle (helper.py:352-354). -/
def triPos {β : Type} (nodes : List (String × β)) (e : String × Triple) : Except String (Nat × Nat × Nat) := do
  let a ← nodePos nodes e.2.1
  let b ← nodePos nodes e.2.2.1
  let c ← nodePos nodes e.2.2.2
  return (a, b, c)

/-- The points of the boundary and the array `elecom` (helper.py:342-354). -/
def elemArrays {K : Type} (nodes : List (String × (K × K))) (lines : List (String × Pair)) (elements : List (String × Triple)) :
    Except String (List (K × K) × List (Nat × Nat × Nat)) := do
  let bou ← (boundaryNodes lines).mapM fun n => dictGet nodes n
  let ec ← elements.mapM (triPos nodes)
  return (bou, ec)

/-- `check_version` (helper.py:193-199). -/
def checkVersion (content : List Line) : Except String Unit :=
  match content[1]? with
  | none => .error "IndexError"
  | some row => match row[0]? with
    | none => .error "IndexError"
    | some v => if v ≠ "4" then .error "Exception" else .ok ()

variable {K : Type} [Field K] [LinearOrder K]

/-- `compute_data` (helper.py:164-191) with the errors that lines and triangles cause. -/
def computeAll (G : Geo K) (float : String → Except String K) (int : String → Except String Nat) (pre msh : List Line)
    (newStart : Nat) : Except String (Info K) := do
  let (cu, uc, b) ← preFile pre
  let nodes ← getNodes float msh
  let el ← getElements int msh
  let _ ← elemArrays nodes el.1 el.2.1
  computeData G cu uc b nodes newStart

/-- The constructor of `GridTransferMachine` (grid_transfer_machine.py:27-46). -/
def construct (G : Geo K) (float : String → Except String K) (int : String → Except String Nat)
    (del : List (K × K) → Tri K) (preC mshC preF mshF : List Line) : Except String (Machine.Data K) := do
  checkVersion mshC
  let c ← computeAll G float int preC mshC 0
  checkVersion mshF
  let f ← computeAll G float int preF mshF c.nCor
  return factors G del c f

end Pymgrit.Mesh
