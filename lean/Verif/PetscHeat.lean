import Verif.PropsPetsc
import Mathlib.Analysis.SpecialFunctions.Trigonometric.Basic

/-!
# The PETSc heat equation: right-hand side, start value and step

Model of the rest of `HeatPetsc` (`/repo/src/pymgrit/petsc/heat_2D_petsc.py`; `examples/toms/example_3_petsc.py` contains
the same class).  A vector of the grid is a function of the index pair, of which only the values with `i < mx` and `j < my`
exist.  Real arithmetic; the Krylov solver is exact; the distribution over a space communicator (`xs`, `xe`, `ys`, `ye`)
is not modelled: one process owns the whole grid.
-/

namespace Pymgrit.Petsc

open Real

/-- Attributes set by the constructor (heat_2D_petsc.py:41-46), on the unit square. -/
noncomputable def Heat.make (mx my : Nat) (a : ℝ) : Heat ℝ where
  mx := mx
  my := my
  a := a
  dx := 1 / ((mx : ℝ) - 1)
  dy := 1 / ((my : ℝ) - 1)

variable (P : Heat ℝ)

/-- `HeatPetsc.rhs` (heat_2D_petsc.py:168-178); `freq` is `self.freq`. -/
noncomputable def Heat.rhs (freq : Nat) (t : ℝ) (i j : Nat) : ℝ :=
  -sin (π * freq * i * P.dx) * sin (π * freq * j * P.dy) * (sin t - P.a * 2 * (π * freq) ^ 2 * cos t)

/-- `HeatPetsc.u_exact` (heat_2D_petsc.py:180-193); the start value of the problem is `u_exact(0)`
(heat_2D_petsc.py:51). -/
noncomputable def Heat.uExact (freq : Nat) (t : ℝ) (q : Nat × Nat) : ℝ :=
  sin (π * freq * q.1 * P.dx) * sin (π * freq * q.2 * P.dy) * cos t

/-- Row `(i, j)` of `HeatPetsc.get_id` (heat_2D_petsc.py:125-147). -/
def Heat.idRow (i j : Nat) : List ((Nat × Nat) × ℝ) := [((i, j), 1)]

/-- `HeatPetsc.compute_rhs` (heat_2D_petsc.py:149-166). -/
noncomputable def Heat.computeRhs (freq : Nat) (u : Nat × Nat → ℝ) (t0 t1 : ℝ) (i j : Nat) : ℝ :=
  u (i, j) + (t1 - t0) * P.rhs freq t1 i j

/-- `HeatPetsc.step` (heat_2D_petsc.py:65-81): `cached` is `self.dt` before the call, `x` the result.  The matrix of the
system belongs to `useDt cached (t1 - t0)`, the right-hand side to `t1 - t0`. -/
def Heat.Step (freq : Nat) (cached : ℝ) (u : Nat × Nat → ℝ) (t0 t1 : ℝ) (x : Nat × Nat → ℝ) : Prop :=
  ∀ i j, i < P.mx → j < P.my →
    useDt cached (t1 - t0) * applyRow (P.row i j) x + applyRow (Heat.idRow i j) x = P.computeRhs freq u t0 t1 i j

/-! ## Transfer between the grids

`GridTransferPetsc` applies the two matrices PETSc creates for a grid and its refinement.  PETSc is not part of the
repository; the matrices are those documented for distributed arrays without periodic boundaries: injection, and piecewise
bilinear interpolation.  A grid with `mx` times `my` points is refined to `2 mx - 1` times `2 my - 1` points. -/

/-- The grid after `DMDA.refine()` (examples/petsc4py/example_heat_2d_petsc.py:48). -/
noncomputable def Heat.refined (mx my : Nat) (a : ℝ) : Heat ℝ := Heat.make (2 * mx - 1) (2 * my - 1) a

/-- `GridTransferPetsc.restriction` (heat_2D_petsc.py:211, 214-222). -/
def restriction (u : Nat × Nat → ℝ) : Nat × Nat → ℝ := fun q => u (2 * q.1, 2 * q.2)

/-- `GridTransferPetsc.interpolation` (heat_2D_petsc.py:210, 224-232): the mean of the four coarse points around a fine
point, two or four of which coincide if an index is even. -/
noncomputable def interpolation (u : Nat × Nat → ℝ) : Nat × Nat → ℝ := fun q =>
  (u (q.1 / 2, q.2 / 2) + u ((q.1 + 1) / 2, q.2 / 2) + u (q.1 / 2, (q.2 + 1) / 2) +
    u ((q.1 + 1) / 2, (q.2 + 1) / 2)) / 4

end Pymgrit.Petsc
