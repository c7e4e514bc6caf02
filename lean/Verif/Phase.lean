import Verif.Apps
import Verif.Space
import Mathlib.Analysis.SpecialFunctions.Trigonometric.Deriv
import Mathlib.Analysis.Real.Pi.Bounds
import Mathlib.Analysis.SpecialFunctions.Sqrt

/-!
# Model of the start value and of the radii of `AllenCahn`

allen_cahn.py, over the real numbers (`numpy` doubles replaced by exact arithmetic).
-/

namespace Pymgrit.Apps.AllenCahn

variable (P : AllenCahn ℝ)

/-- `self.x = np.linspace(start=-0.5, stop=0.5, num=self.nx)` (allen_cahn.py:167) -/
noncomputable def coord (i : Nat) : ℝ := (Space.linspace (-1 / 2) (1 / 2) P.nx).getD i 0

/-- `initial_guess` (allen_cahn.py:231-244): the loops write every entry once. -/
noncomputable def initialGuess (radius : ℝ) : P.Vec := fun q =>
  Real.tanh ((radius - √(P.coord q.1 ^ 2 + P.coord q.2 ^ 2)) / (√2 * P.eps))

/-- `exact_radius` (allen_cahn.py:246-252) -/
noncomputable def exactRadius (radius t : ℝ) : ℝ := √(max (radius ^ 2 - 2 * t) 0)

/-- `compute_radius` (allen_cahn.py:254-260) -/
noncomputable def computeRadius (u : P.Vec) : ℝ :=
  √(((Finset.univ.filter fun q => 0 ≤ u q).card : ℝ) / Real.pi) * P.dx

end Pymgrit.Apps.AllenCahn
