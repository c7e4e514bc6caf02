import Verif.Split
import Mathlib.Data.Int.Log
import Mathlib.Data.Rat.Floor
import Mathlib.Algebra.Order.Field.Rat

/-!
# Double precision in the time grids and in the distribution

* `rnd` – rounding of a result to the nearest double (53 bits, ties to even), as IEEE 754 and Python prescribe for `+`, `-`, `*`,
  `/` of doubles and for `/` of integers; without overflow and without subnormal numbers
* `linspace` – `np.linspace(start, stop, num)` as used for the time grid (application.py:61)
* `splitInto64` – `split_into` (mgrit.py:829-838) with its divisions in double precision
-/

namespace Pymgrit.Double

/-- Nearest integer, ties to even. -/
def rne (y : ℚ) : ℤ :=
  if y - ⌊y⌋ < 1 / 2 then ⌊y⌋ else if 1 / 2 < y - ⌊y⌋ then ⌊y⌋ + 1 else if ⌊y⌋ % 2 = 0 then ⌊y⌋ else ⌊y⌋ + 1

/-- Distance of two neighbouring doubles at `x`. -/
def ulp (x : ℚ) : ℚ := 2 ^ (Int.log 2 |x| - 52)

/-- Nearest double. -/
def rnd (x : ℚ) : ℚ := if x = 0 then 0 else (rne (x / ulp x) : ℚ) * ulp x

/-- `np.linspace(a, b, num)` for doubles `a`, `b` and `num = n + 1 ≥ 2` (application.py:61): NumPy computes
`arange(0, num) * ((stop - start) / (num - 1)) + start` and sets the last entry to `stop`. -/
def linspace (a b : ℚ) (n : Nat) : List ℚ :=
  (List.range n).map (fun i : Nat => rnd (rnd ((i : ℚ) * rnd (rnd (b - a) / n)) + a)) ++ [b]

/-- The time grids of the levels if each application is constructed with `t_start`, `t_stop` and its own `nt`
(application.py:57-61); `ns` – the numbers of intervals. -/
def levels (a b : ℚ) (ns : List Nat) : List (List ℚ) := ns.map (linspace a b)

/-- `split_into` (mgrit.py:829-838) in double precision. -/
def splitInto64 (n P : Nat) : List Nat :=
  List.replicate (n % P) ⌊rnd (rnd ((n : ℚ) / P) + 1)⌋₊ ++ List.replicate (P - n % P) ⌊rnd ((n : ℚ) / P)⌋₊

/-- Level by level, the number of intervals is divided by a power of two. -/
def Halved : List Nat → Prop
  | [] => True
  | [n] => 0 < n
  | m :: n :: ns => (∃ k, m = 2 ^ k * n) ∧ Halved (n :: ns)

end Pymgrit.Double
