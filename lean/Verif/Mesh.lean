import Verif.Machine
import Mathlib.Algebra.Order.Field.Basic

/-!
# Induction machine: transfer data from mesh files

Model of the part of `/repo/src/pymgrit/induction_machine/helper.py` that computes the transfer data of
`GridTransferMachine`, and of its constructor (grid_transfer_machine.py:27-46).  Files are lists of lines
split at white space.  Coordinates are elements of a linearly ordered field; printing and reading of
numbers is exact (`float` below).  Qhull's triangulation is an arbitrary function.
-/

namespace Pymgrit.Mesh

/-! ### Dictionaries -/

/-- `d[k] = v` for a Python dictionary as the list of its items in insertion order. -/
def dictSet {κ β : Type} [DecidableEq κ] : List (κ × β) → κ → β → List (κ × β)
  | [], k, v => [(k, v)]
  | (k', v') :: d, k, v => if k' = k then (k, v) :: d else (k', v') :: dictSet d k v

/-- `d[k]`. -/
def dictGet {κ β : Type} [DecidableEq κ] (d : List (κ × β)) (k : κ) : Except String β :=
  match d.find? fun e => decide (e.1 = k) with
  | some e => .ok e.2
  | none => .error "KeyError"

/-! ### Reading of files -/

/-- A line of a file, split at white space. -/
abbrev Line := List String

/-- `pre_file` (helper.py:138-161): the dictionaries `cor_to_un`, `un_to_cor` and the list `boundary`.
`content[9:-35]` are the lines `rows`; a line with fewer than five entries raises an `IndexError`. -/
def preFile (content : List Line) :
    Except String (List (String × String) × List (String × String) × List String) :=
  (Machine.slice content (some 9) (some (-35))).foldlM (fun d row =>
    match row[1]?, row[4]? with
    | some a, some b =>
      if b ≠ "0" ∧ b ≠ "-1" ∧ b ≠ "1" then
        .ok (dictSet d.1 a b, dictSet d.2.1 b a, d.2.2)
      else .ok (d.1, d.2.1, d.2.2 ++ [a])
    | _, _ => .error "IndexError") ([], [], [])

/-- Last position of a line equal to `key`, else 0 (helper.py:231-237; a line
is compared after splitting). -/
def lastPos (content : List Line) (key : String) : Nat :=
  content.zipIdx.foldl (fun a li => if li.1 = [key] then li.2 else a) 0

/-- `get_nodes` (helper.py:221-249); the second dictionary (points to nodes) is not used for the
transfer and not modelled.  `float` raises `ValueError` for other text. -/
def getNodes {K : Type} (float : String → Except String K) (content : List Line) :
    Except String (List (String × (K × K))) :=
  let start := lastPos content "$Nodes"
  let stop := lastPos content "$EndNodes"
  (Machine.slice content (some (start + 2 : Nat)) (some (stop : Nat))).foldlM (fun d row =>
    match row with
    | r0 :: r1 :: rest =>
      if r1 ≠ "0" ∧ r1 ≠ "1" ∧ r1 ≠ "2" then do
        let x ← float r1
        match rest with
        | r2 :: _ => do
          let y ← float r2
          return dictSet d r0 (x, y)
        | [] => .error "IndexError"
      else .ok d
    | _ => .ok d) []

/-! ### Grid information -/

variable {K : Type} [Field K] [LinearOrder K]

/-- Geometry (helper.py:300-308, 374-403): `rad` is `cart2pol`, `ir` the radius `inner_r`, `e1 = 1e-9`,
`e2 = 1e-7`. -/
structure Geo (K : Type) where
  rad : K × K → K
  ir : K
  e1 : K
  e2 : K

/-- `abs(r) - 1e-9 < abs(inner_r)` (helper.py:388, 394, 400). -/
def Geo.inner (G : Geo K) (p : K × K) : Bool := decide (|G.rad p| - G.e1 < |G.ir|)

/-- `abs(r) > abs(inner_r) + 1e-7` (helper.py:390, 396, 402). -/
def Geo.outer (G : Geo K) (p : K × K) : Bool := decide (|G.rad p| > |G.ir| + G.e2)

/-- `p in arr` for a row `p` and an array `arr` of rows in numpy: `(arr == p).any()`, which is true if
*one* coordinate of one row agrees. -/
def npIn (p : K × K) (arr : List (K × K)) : Bool :=
  arr.any fun q => decide (q.1 = p.1) || decide (q.2 = p.2)

/-- `a[k] = i; k = k + 1` for an array of length `size` of which the first entries have been written. -/
def put (size : Nat) (a : List Nat) (i : Nat) : Except String (List Nat) :=
  if a.length < size then .ok (a ++ [i]) else .error "IndexError"

/-- The same under a condition. -/
def putIf (t : Bool) (size : Nat) (a : List Nat) (i : Nat) : Except String (List Nat) :=
  if t then put size a i else .ok a

/-- Entries not written are zero (`np.zeros`). -/
def pad (size : Nat) (a : List Nat) : List Nat := a ++ List.replicate (size - a.length) 0

/-- Loop over the new unknowns (helper.py:411-419). -/
def mapNew (inn out pts : List (K × K)) : Except String (List Nat × List Nat) := do
  let r ← pts.zipIdx.foldlM (fun (ab : List Nat × List Nat) pi =>
    if npIn pi.1 inn then do
      let a ← put inn.length ab.1 pi.2
      return (a, ab.2)
    else if npIn pi.1 out then do
      let b ← put out.length ab.2 pi.2
      return (ab.1, b)
    else return ab) ([], [])
  return (pad inn.length r.1, pad out.length r.2)

/-- Loop over all unknowns (helper.py:421-432). -/
def mapAll (inn out pts : List (K × K)) : Except String (List Nat × List Nat) := do
  let r ← pts.zipIdx.foldlM (fun (ab : List Nat × List Nat) pi => do
    let a ← putIf (npIn pi.1 inn) inn.length ab.1 pi.2
    let b ← putIf (npIn pi.1 out) out.length ab.2 pi.2
    return (a, b)) ([], [])
  return (pad inn.length r.1, pad out.length r.2)

/-- The results of `compute_data` used by the transfer (helper.py:164-191, 434-458). -/
structure Info (K : Type) where
  nCor : Nat
  unknown : List (K × K)
  unknownCom : List (K × K)
  unknownNew : List (K × K)
  mapInner : List Nat
  mapOuter : List Nat
  mapInnerNew : List Nat
  mapOuterNew : List Nat

/-- `compute_data` and `get_arrays` (helper.py:164-191, 311-458), with the dictionaries already read.
The lines and elements of the mesh are read by the code but not used for the transfer; they are
modelled separately in `Verif.Elements` (with the `KeyError` of a node that was not read). -/
def computeData (G : Geo K) (corToUn unToCor : List (String × String)) (boundary : List String)
    (nodes : List (String × (K × K))) (newStart : Nat) : Except String (Info K) := do
  let unknown ← unToCor.mapM fun e => dictGet nodes e.2
  let bnd ← boundary.mapM fun b => dictGet nodes b
  let unknownNew := unknown.drop newStart
  let mn ← mapNew (unknownNew.filter G.inner) (unknownNew.filter G.outer) unknownNew
  let ma ← mapAll (unknown.filter G.inner) (unknown.filter G.outer) unknown
  return { nCor := corToUn.length, unknown := unknown, unknownCom := unknown ++ bnd
           unknownNew := unknownNew, mapInner := ma.1, mapOuter := ma.2
           mapInnerNew := mn.1, mapOuterNew := mn.2 }

/-! ### Interpolation weights -/

/-- A triangulation as computed by `scipy.spatial.Delaunay`: the vertices of the triangles as
positions in the list of points, and `find_simplex` (`none` is -1: no triangle contains the point). -/
structure Tri (K : Type) where
  simplices : List (Nat × Nat × Nat)
  find : K × K → Option Nat

/-- `tri.simplices[simplex]`; index -1 is the last triangle. -/
def Tri.vertices (D : Tri K) (p : K × K) : Nat × Nat × Nat :=
  match D.find p with
  | some i => D.simplices.getD i (0, 0, 0)
  | none => D.simplices.getLastD (0, 0, 0)

/-- `tri.transform` applied to `p - v2`: the barycentric coordinates belonging to `v0` and `v1`
(inverse of the matrix with columns `v0 - v2`, `v1 - v2`). -/
def bary (v0 v1 v2 p : K × K) : K × K :=
  let det := (v0.1 - v2.1) * (v1.2 - v2.2) - (v1.1 - v2.1) * (v0.2 - v2.2)
  (((v1.2 - v2.2) * (p.1 - v2.1) - (v1.1 - v2.1) * (p.2 - v2.2)) / det,
   ((v0.1 - v2.1) * (p.2 - v2.2) - (v0.2 - v2.2) * (p.1 - v2.1)) / det)

/-- `wts[wts < 0] = 0`. -/
def clip (w : K) : K := if w < 0 then 0 else w

/-- `interp_weights` (helper.py:500-518) for one point. -/
def weights (D : Tri K) (xyz : List (K × K)) (p : K × K) : List Nat × List K :=
  let v := D.vertices p
  let b := bary (xyz.getD v.1 (0, 0)) (xyz.getD v.2.1 (0, 0)) (xyz.getD v.2.2 (0, 0)) p
  ([v.1, v.2.1, v.2.2], [clip b.1, clip b.2, clip (1 - (b.1 + b.2))])

/-- `interpolation_factors` (helper.py:461-497); `del` computes the triangulation of a list of points. -/
def factors (G : Geo K) (del : List (K × K) → Tri K) (c f : Info K) : Machine.Data K :=
  let comI := c.unknownCom.filter G.inner
  let comO := c.unknownCom.filter G.outer
  let wI := (f.unknownNew.filter G.inner).map (weights (del comI) comI)
  let wO := (f.unknownNew.filter G.outer).map (weights (del comO) comO)
  { sizeStart := c.nCor, sizeStop := f.nCor
    mapInner := c.mapInner, mapOuter := c.mapOuter
    mapInnerNew := f.mapInnerNew, mapOuterNew := f.mapOuterNew
    vtxInner := wI.map (·.1), wtsInner := wI.map (·.2)
    vtxOuter := wO.map (·.1), wtsOuter := wO.map (·.2)
    addInner := comI.length - (c.unknown.filter G.inner).length
    addOuter := comO.length - (c.unknown.filter G.outer).length }

/-- Constructor of `GridTransferMachine` (grid_transfer_machine.py:27-46) without the version check, from
the contents of the four files. -/
def transfer (G : Geo K) (float : String → Except String K) (del : List (K × K) → Tri K)
    (preC mshC preF mshF : List Line) : Except String (Machine.Data K) := do
  let (cu, uc, b) ← preFile preC
  let c ← computeData G cu uc b (← getNodes float mshC) 0
  let (cu', uc', b') ← preFile preF
  let f ← computeData G cu' uc' b' (← getNodes float mshF) c.nCor
  return factors G del c f

end Pymgrit.Mesh
