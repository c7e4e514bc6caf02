import Mathlib.Analysis.SpecialFunctions.Trigonometric.Basic

/-! Data of the example scripts for the heat equation: right-hand sides, initial conditions and the solutions the
scripts state.  Real arithmetic; the scripts evaluate the same formulas in floating point on arrays.  The argument order
is that of the model: time first. -/

namespace Pymgrit.Shipped

open Real

/-- `rhs` of `examples/example_heat_1d.py:20-31`, `examples/example_heat_1d_bdf2.py:21-31`,
`examples/example_spatial_coarsening.py:86-97`, `examples/example_weighted_jacobi.py:20-31`,
`examples/toms/example_1_heat1d.py:21-32`, `examples/at_mgrit/runme_error_heat1d.py:99-105` and
`examples/at_mgrit/runme_heat1d_m_k.py:18-24`. -/
noncomputable def rhs1 (t x : ℝ) : ℝ := -sin (π * x) * (sin t - 1 * π ^ 2 * cos t)

/-- `init_cond` of the same scripts (`examples/example_heat_1d.py:33-41`). -/
noncomputable def init1 (x : ℝ) : ℝ := sin (π * x)

/-- `exact_sol` of `examples/example_heat_1d_bdf2.py:43-52` and `examples/toms/example_1_heat1d.py:44-45`, the solution
named in the documentation of the other scripts. -/
noncomputable def exact1 (t x : ℝ) : ℝ := sin (π * x) * cos t

/-- `rhs` of `examples/example_heat_2d.py:40-51`; `xEnd`, `yEnd` and `a` are variables of the script
(`example_heat_2d.py:36-38`). -/
def rhs2 (xEnd yEnd a t x y : ℝ) : ℝ :=
  5 * x * (xEnd - x) * y * (yEnd - y) + 10 * a * t * (y * (yEnd - y) + x * (xEnd - x))

/-- `exact_sol` of `examples/example_heat_2d.py:53-63`. -/
def exact2 (xEnd yEnd t x y : ℝ) : ℝ := 5 * t * x * (xEnd - x) * y * (yEnd - y)

end Pymgrit.Shipped
