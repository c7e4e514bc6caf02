import Mathlib.MeasureTheory.Integral.IntervalIntegral.Basic
import Mathlib.Data.Fin.VecNotation

/-!
# Burgers' equation with Firedrake in one dimension

`Burgers1D` of `src/pymgrit/firedrake/burgers_firedrake.py` on a periodic interval: quadratic Lagrange elements in space,
backward Euler in time.  Integrals over cells are integrals over `[0, 1]` (Firedrake's quadrature is exact here, the
integrand is a polynomial of degree 5); Newton's method is replaced by the equation it solves.
-/

namespace Pymgrit.Burgers

/-- `FunctionSpace(mesh, "Lagrange", 2)` (burgers_firedrake.py:36) on a periodic interval of `n` cells: values at the left
end points and at the midpoints of the cells. -/
abbrev P2 (n : Nat) := (Fin n → ℝ) × (Fin n → ℝ)

/-- The quadratic polynomial with values `a`, `m`, `b` at `0`, `1/2`, `1`. -/
noncomputable def shape (a m b ξ : ℝ) : ℝ := a * ((1 - ξ) * (1 - 2 * ξ)) + m * (4 * ξ * (1 - ξ)) + b * (ξ * (2 * ξ - 1))

/-- Its derivative. -/
noncomputable def dshape (a m b ξ : ℝ) : ℝ := a * (4 * ξ - 3) + m * (4 - 8 * ξ) + b * (4 * ξ - 1)

variable {n : Nat} [NeZero n]

/-- Value of a function in cell `k` at relative position `ξ`; the right end point of the last cell is the left one of the
first (`PeriodicIntervalMesh`, example_burgers_firedrake.py:30). -/
noncomputable def val (u : P2 n) (k : Fin n) (ξ : ℝ) : ℝ := shape (u.1 k) (u.2 k) (u.1 (k + 1)) ξ

/-- `u.dx(0)` in cell `k` of length `h k`. -/
noncomputable def der (h : Fin n → ℝ) (u : P2 n) (k : Fin n) (ξ : ℝ) : ℝ :=
  dshape (u.1 k) (u.2 k) (u.1 (k + 1)) ξ / h k

/-- `... * dx`. -/
noncomputable def dx (h : Fin n → ℝ) (f : Fin n → ℝ → ℝ) : ℝ := ∑ k, h k * ∫ ξ in (0 : ℝ)..1, f k ξ

/-- The form `f` (burgers_firedrake.py:46-48) for the new values `u1`, the old ones `u0` and the test function `v`. -/
noncomputable def form (h : Fin n → ℝ) (nu dt : ℝ) (u1 u0 v : P2 n) : ℝ :=
  dx h fun k ξ => ((val u1 k ξ - val u0 k ξ) / dt) * val v k ξ + val u1 k ξ * der h u1 k ξ * val v k ξ
    + nu * der h u1 k ξ * der h v k ξ

/-- `Burgers1D.step` (burgers_firedrake.py:62-75): `u1` is a solution of the nonlinear variational problem. -/
def step (h : Fin n → ℝ) (nu : ℝ) (u0 : P2 n) (t t' : ℝ) (u1 : P2 n) : Prop := ∀ v, form h nu (t' - t) u1 u0 v = 0

end Pymgrit.Burgers
