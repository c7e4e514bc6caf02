import Verif.Petsc
import Mathlib.Analysis.SpecialFunctions.Trigonometric.Basic

/-!
# Time steps and initial value of the Gray-Scott application

Model of the rest of `/repo/src/pymgrit/petsc/gray_scott_2d_petsc.py`: grid spacings, initial value and the three time
integration methods.  The Krylov solver (`ksp.solve`) and the Newton solver (`snes.solve`) are relations: they return some
vector that satisfies the equation.  The distribution of the grid over a space communicator is not modelled.
-/

namespace Pymgrit.Petsc
open Apps

/-- `GrayScott.__init__` (gray_scott_2d_petsc.py:28-42): grid with `mx` times `my` points, `dx = L / mx`, `dy = L / my`. -/
def GS.make {K : Type} [Field K] (mx my : Nat) (du dv a b L : K) : GS K where
  mx := mx
  my := my
  du := du
  dv := dv
  a := a
  b := b
  dx := L / mx
  dy := L / my

/-- Second component of `GrayScott.initial_guess` at the point `(x, y) = (i dx, j dy)`
(gray_scott_2d_petsc.py:319-323). -/
noncomputable def GS.bump (x y : ℝ) : ℝ :=
  if 1 ≤ x ∧ x ≤ 15 / 10 ∧ 1 ≤ y ∧ y ≤ 15 / 10 then
    (Real.sin (4 * Real.pi * x)) ^ 2 * (Real.sin (4 * Real.pi * y)) ^ 2 / 4
  else 0

/-- `GrayScott.initial_guess` (gray_scott_2d_petsc.py:311-325), stored as `vector_t_start`. -/
noncomputable def GS.initialGuess (P : GS ℝ) (q : Pt P) : ℝ :=
  let v := GS.bump ((q.1.1 : Nat) * P.dx) ((q.1.2 : Nat) * P.dy)
  if q.2 then v else 1 - 2 * v

variable {K : Type} [Field K]

/-- `GrayScott.compute_rhs_imex` (gray_scott_2d_petsc.py:198-216). -/
def GS.rhsImex (P : GS K) (dt : K) (x : Pt P → K) (q : Pt P) : K :=
  let u := x (q.1, false)
  let v := x (q.1, true)
  if q.2 then v + dt * (u * v ^ 2 - P.b * v) else u + dt * (-u * v ^ 2 + P.a * (1 - u))

/-- The explicit branch of `GrayScott.step` (gray_scott_2d_petsc.py:97-112). -/
def GS.explicit (P : GS K) (dt : K) (x : Pt P → K) (q : Pt P) : K :=
  let u := x (q.1, false)
  let v := x (q.1, true)
  let f := applyRow (P.spaceRow q) x
  if q.2 then v + dt * (f + u * v ^ 2 - P.b * v) else u + dt * (f - u * v ^ 2 + P.a * (1 - u))

/-- The values of `method` (gray_scott_2d_petsc.py:45-48). -/
inductive GSMethod | IMPL | IMEX | EXPL
  deriving DecidableEq, Repr

/-- `GrayScott.step` (gray_scott_2d_petsc.py:74-113) with exact solvers: `x` is a possible result from `x0` with the step
size `dt = t_stop - t_start`.  `IMPL`: `snes.solve` finds a vector with `formFunction(x) = x0`; `IMEX`: `ksp.solve` one with
`(id - dt * space_disc) x = rhs` (the cache of `ksp.setOperators` is modelled by `useDt`, here it holds `dt`). -/
def GS.Step (P : GS K) (m : GSMethod) (dt : K) (x0 x : Pt P → K) : Prop :=
  match m with
  | .IMPL => P.function dt x = x0
  | .IMEX => ∀ q, x q - dt * applyRow (P.spaceRow q) x = P.rhsImex dt x0 q
  | .EXPL => x = P.explicit dt x0

/-- One pass of Newton's method as `snes.solve` performs it for the equation `formFunction(x) = x0`: the matrix of
`formJacobian` is used for the linear system. -/
def GS.Newton (P : GS K) (dt : K) (x0 x y : Pt P → K) : Prop :=
  ∀ q, applyRow (P.jacRow dt x q) (fun p => y p - x p) = x0 q - P.function dt x q

end Pymgrit.Petsc
