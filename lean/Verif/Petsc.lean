import Verif.PropsApps2

/-!
# The PETSc applications

Model of the assembled operators and of the solver cache of `/repo/src/pymgrit/petsc/heat_2D_petsc.py`
and `/repo/src/pymgrit/petsc/gray_scott_2d_petsc.py`.  A sparse row is the list of the
`setValueStencil` calls for it; for at least three points per direction the column positions of a row
are distinct, so inserting the values one after the other is the same as listing them.  KSP and SNES are
exact solvers; the distribution of the grid over a space communicator is not modelled.
-/

namespace Pymgrit.Petsc
open Apps

variable {K : Type} [Field K]

/-- Parameters of `HeatPetsc` (heat_2D_petsc.py:40-48). -/
structure Heat (K : Type) where
  mx : Nat
  my : Nat
  a : K
  dx : K
  dy : K

/-- Row `(i, j)` of `HeatPetsc.get_a` (heat_2D_petsc.py:100-123). -/
def Heat.row (P : Heat K) (i j : Nat) : List ((Nat × Nat) × K) :=
  let fx := P.a / P.dx ^ 2
  let fy := P.a / P.dy ^ 2
  if i = 0 ∨ j = 0 ∨ i = P.mx - 1 ∨ j = P.my - 1 then [((i, j), 0)]
  else
    let diag := 2 * (fx + fy)
    [((i, j - 1), -fx), ((i - 1, j), -fy), ((i, j), diag), ((i + 1, j), -fy), ((i, j + 1), -fx)]

/-- A sparse row applied to a grid function (matrix-vector product). -/
def applyRow {X : Type} (r : List (X × K)) (u : X → K) : K := (r.map fun e => e.2 * u e.1).sum

/-- `np.isclose(a, b)` with the default tolerances `rtol = 1e-5`, `atol = 1e-8`. -/
def isclose [LinearOrder K] (a b : K) : Prop := |a - b| ≤ 1 / 10 ^ 8 + 1 / 10 ^ 5 * |b|

instance [LinearOrder K] (a b : K) : Decidable (isclose a b) := by unfold isclose; infer_instance

/-- The operator cache of `HeatPetsc.step` (heat_2D_petsc.py:76-78; the same in
gray_scott_2d_petsc.py:85-87 for IMEX): `cached` is `self.dt`; the result is the step size whose
operator the solver uses, which is also the new value of `self.dt`. -/
def useDt [LinearOrder K] (cached dt : K) : K := if ¬ isclose cached dt then dt else cached

/-- `self.dt` after a sequence of calls, from the value set in the constructor
(heat_2D_petsc.py:63). -/
def cacheAfter [LinearOrder K] (dt0 : K) (calls : List K) : K := calls.foldl useDt dt0

/-- Parameters of `GrayScott` (gray_scott_2d_petsc.py:28-42). -/
structure GS (K : Type) where
  mx : Nat
  my : Nat
  du : K
  dv : K
  a : K
  b : K
  dx : K
  dy : K

/-- A grid point of the periodic grid and a field number (0 or 1, as a `Bool`). -/
abbrev Pt (P : GS K) : Type := (Fin P.mx × Fin P.my) × Bool

/-- Row of `GrayScott.compute_matrix` (gray_scott_2d_petsc.py:123-169); `f` is the field of the row. -/
def GS.spaceRow (P : GS K) (q : Pt P) : List (Pt P × K) :=
  let i := q.1.1
  let j := q.1.2
  let f := q.2
  let d := if f then P.dv else P.du
  [(((i, j), f), d * (-2 / P.dx ^ 2 - 2 / P.dy ^ 2)),
   (((i, pred j), f), d / P.dy ^ 2), (((i, succ j), f), d / P.dy ^ 2),
   (((pred i, j), f), d / P.dx ^ 2), (((succ i, j), f), d / P.dx ^ 2)]

/-- `GrayScott.formFunction` (gray_scott_2d_petsc.py:218-240); `dt` is `self.dt`. -/
def GS.function (P : GS K) (dt : K) (x : Pt P → K) (q : Pt P) : K :=
  let i := q.1.1
  let j := q.1.2
  let xx := fun f => x ((succ i, j), f) - 2 * x ((i, j), f) + x ((pred i, j), f)
  let yy := fun f => x ((i, pred j), f) - 2 * x ((i, j), f) + x ((i, succ j), f)
  let u := x ((i, j), false)
  let v := x ((i, j), true)
  if q.2 then
    v - dt * (P.dv * (xx true / P.dx ^ 2 + yy true / P.dy ^ 2) + u * v ^ 2 - P.b * v)
  else
    u - dt * (P.du * (xx false / P.dx ^ 2 + yy false / P.dy ^ 2) - u * v ^ 2 + P.a * (1 - u))

/-- Row of `GrayScott.formJacobian` (gray_scott_2d_petsc.py:242-302). -/
def GS.jacRow (P : GS K) (dt : K) (x : Pt P → K) (q : Pt P) : List (Pt P × K) :=
  let i := q.1.1
  let j := q.1.2
  let u := x ((i, j), false)
  let v := x ((i, j), true)
  if q.2 then
    [(((i, j), true), 1 - dt * (P.dv * (-2 / P.dx ^ 2 - 2 / P.dy ^ 2) + 2 * u * v - P.b)),
     (((i, j), false), -dt * v ^ 2),
     (((i, pred j), true), -dt * P.dv / P.dy ^ 2), (((i, succ j), true), -dt * P.dv / P.dy ^ 2),
     (((pred i, j), true), -dt * P.dv / P.dy ^ 2), (((succ i, j), true), -dt * P.dv / P.dy ^ 2)]
  else
    [(((i, j), false), 1 - dt * (P.du * (-2 / P.dx ^ 2 - 2 / P.dy ^ 2) - v ^ 2 - P.a)),
     (((i, j), true), dt * 2 * u * v),
     (((i, pred j), false), -dt * P.du / P.dx ^ 2), (((i, succ j), false), -dt * P.du / P.dx ^ 2),
     (((pred i, j), false), -dt * P.du / P.dx ^ 2), (((succ i, j), false), -dt * P.du / P.dx ^ 2)]

end Pymgrit.Petsc
