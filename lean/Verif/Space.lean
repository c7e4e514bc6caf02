import Verif.Apps

/-!
# Spatial meshes and spatial coarsening

Model of the spatial meshes built by the constructors of the shipped applications and of the transfer between
two spatial meshes of `examples/example_spatial_coarsening.py`, in exact arithmetic over a field.  Arrays are
lists.
-/

namespace Pymgrit.Space

variable {K : Type} [Field K]

/-! ## Meshes -/

/-- `np.linspace(a, b, n)`. -/
def linspace (a b : K) (n : Nat) : List K := (List.range n).map fun i : Nat => a + (i : K) * ((b - a) / ((n : K) - 1))

/-- `x[1] - x[0]`. -/
def spacing : List K → Except String K
  | x0 :: x1 :: _ => .ok (x1 - x0)
  | _ => .error "IndexError"

/-- `Heat1D.__init__`, mesh (heat_1d.py:154-157; the same in heat_1d_2pts_bdf1.py:42-45 and
heat_1d_2pts_bdf2.py:43-46): `self.x`, `self.nx` and `self.dx`. -/
def heat1dMesh (xStart xEnd : K) (nx : Nat) : Except String (List K × Nat × K) := do
  let x := ((linspace xStart xEnd nx).drop 1).dropLast
  let dx ← spacing x
  return (x, nx - 2, dx)

/-- `Advection1D.__init__`, mesh (advection_1d.py:84-89): `self.x`, `self.nx` and `self.dx`. -/
def advectionMesh (xStart xEnd : K) (nx : Nat) : Except String (List K × Nat × K) := do
  let x := (linspace xStart xEnd nx).dropLast
  let dx ← spacing x
  return (x, nx - 1, dx)

/-- `Heat2D.__init__`, mesh in one direction (heat_2d.py:179-186): `self.x`, `self.nx` and `self.dx`, or
`self.y`, `self.ny` and `self.dy`. -/
def heat2dMesh (xStart xEnd : K) (nx : Nat) : Except String (List K × Nat × K) := do
  let x := linspace xStart xEnd nx
  let dx ← spacing x
  return (x, nx, dx)

/-- `AllenCahn.__init__`, mesh in both directions (allen_cahn.py:156-157, 164, 167): `self.x`, `self.nx` and
`self.dx`. -/
def allenCahnMesh (nx : Nat) : Except String (List K × Nat × K) :=
  if nx = 0 then .error "ZeroDivisionError" else .ok (linspace (-1 / 2) (1 / 2) nx, nx, 1 / nx)

/-! ## Transfer -/

/-- `GridTransferHeat.restriction` (example_spatial_coarsening.py:33-56).  `int((len(sol) - 1) / 2)` is 0 for
an empty array. -/
def restriction (sol : List K) : List K :=
  (List.range ((sol.length - 1) / 2)).map fun i =>
    sol.getD (2 * i) 0 * 1 / 4 + sol.getD (2 * i + 1) 0 * 1 / 2 + sol.getD (2 * i + 2) 0 * 1 / 4

/-- `ret[j] += x`. -/
def addAt (ret : List K) (j : Nat) (x : K) : List K := ret.set j (ret.getD j 0 + x)

/-- `GridTransferHeat.interpolation` (example_spatial_coarsening.py:59-82). -/
def interpolation (sol : List K) : List K :=
  (List.range sol.length).foldl (fun ret i =>
    let s := sol.getD i 0
    addAt (addAt (addAt ret (i * 2) (1 / 2 * s)) (i * 2 + 1) s) (i * 2 + 2) (1 / 2 * s))
    (List.replicate (sol.length * 2 + 1) 0)

end Pymgrit.Space
