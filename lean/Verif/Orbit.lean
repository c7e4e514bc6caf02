import Mathlib.Analysis.SpecialFunctions.Pow.Real

/-!
# Model of the Arenstorf orbit problem

`/repo/src/pymgrit/arenstorf_orbit/arenstorf_orbit.py`.  The time integrator (SciPy's `solve_ivp`) is not
modelled; the right-hand side given to it is.
-/

namespace Pymgrit.Orbit

/-- `arenstorf(t, y, a, b)` (arenstorf_orbit.py:78-88); `t` is not used there. -/
noncomputable def arenstorf (y : Fin 4 → ℝ) (a b : ℝ) : Fin 4 → ℝ :=
  let d1 := ((y 0 + a) ^ 2 + y 1 ^ 2) ^ (3 / 2 : ℝ)
  let d2 := ((y 0 - b) ^ 2 + y 1 ^ 2) ^ (3 / 2 : ℝ)
  ![y 2,
    y 3,
    y 0 + 2 * y 3 - b * (y 0 + a) / d1 - a * (y 0 - b) / d2,
    y 1 - 2 * y 2 - b * y 1 / d1 - a * y 1 / d2]

/-- The right-hand side as documented (arenstorf_orbit.py:92-100), where the second distance is taken from
`(a, 0)` instead of `(b, 0)`. -/
noncomputable def documented (y : Fin 4 → ℝ) (a b : ℝ) : Fin 4 → ℝ :=
  let d1 := ((y 0 + a) ^ 2 + y 1 ^ 2) ^ (3 / 2 : ℝ)
  let d2 := ((y 0 - a) ^ 2 + y 1 ^ 2) ^ (3 / 2 : ℝ)
  ![y 2,
    y 3,
    y 0 + 2 * y 3 - b * (y 0 + a) / d1 - a * (y 0 - b) / d2,
    y 1 - 2 * y 2 - b * y 1 / d1 - a * y 1 / d2]

end Pymgrit.Orbit
