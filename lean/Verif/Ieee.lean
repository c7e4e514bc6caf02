import Verif.Double

/-!
# Double precision numbers with infinities and NaN, and the norms of NumPy

* `rnd64` – rounding to the nearest double (ties to even), with subnormal numbers; overflow in `Dbl.ofRat`
* `Dbl` – a double: a number, an infinity, or NaN, with the arithmetic of IEEE 754 (the sign of zero is left out)
* `IsNorm` – the results `np.linalg.norm(x, ord)` may have for a vector `x` and `ord` 1, None, inf
  (mgrit.py:430-431, 455; the option `t_norm` is translated in mgrit.py:182)

The order in which NumPy and the BLAS library add, and whether they fuse multiplication and addition, depends on the length
and the machine, so sums are relations that allow every order and grouping (`Summed`, `SquaresSummed`).
-/

namespace Pymgrit.Ieee
open Pymgrit.Double (rne)

/-- Distance of neighbouring doubles at `x ≥ 0`; the subnormal numbers below `2^-1022` are spaced by `2^-1074`. -/
def ulp64 (x : ℚ) : ℚ := 2 ^ max (Int.log 2 x - 52) (-1074)

/-- Nearest double, without overflow. -/
def rnd64 (x : ℚ) : ℚ :=
  if 0 ≤ x then (rne (x / ulp64 x) : ℚ) * ulp64 x else -((rne (-x / ulp64 (-x)) : ℚ) * ulp64 (-x))

/-- A double; `inf true` is `-inf`. -/
inductive Dbl
  | nan
  | inf (neg : Bool)
  | fin (x : ℚ)
deriving DecidableEq

namespace Dbl

/-- Rounding with overflow. -/
def ofRat (x : ℚ) : Dbl := if |rnd64 x| < 2 ^ 1024 then fin (rnd64 x) else inf (decide (x < 0))

/-- Addition. -/
def add : Dbl → Dbl → Dbl
  | nan, _ => nan
  | _, nan => nan
  | inf a, inf b => if a = b then inf a else nan
  | inf a, fin _ => inf a
  | fin _, inf b => inf b
  | fin x, fin y => ofRat (x + y)

/-- Change of sign. -/
def neg : Dbl → Dbl
  | nan => nan
  | inf a => inf !a
  | fin x => fin (-x)

/-- Multiplication. -/
def mul : Dbl → Dbl → Dbl
  | nan, _ => nan
  | _, nan => nan
  | inf a, inf b => inf (a != b)
  | inf a, fin y => if y = 0 then nan else inf (a != decide (y < 0))
  | fin x, inf b => if x = 0 then nan else inf (decide (x < 0) != b)
  | fin x, fin y => ofRat (x * y)

instance : Add Dbl := ⟨add⟩
instance : Sub Dbl := ⟨fun x y => add x (neg y)⟩
instance : Mul Dbl := ⟨mul⟩
instance : Zero Dbl := ⟨fin 0⟩
instance : One Dbl := ⟨fin 1⟩

/-- Multiplication and addition with one rounding. -/
def fma : Dbl → Dbl → Dbl → Dbl
  | fin x, fin y, fin a => ofRat (x * y + a)
  | x, y, a => add (mul x y) a

/-- Absolute value. -/
def abs : Dbl → Dbl
  | nan => nan
  | inf _ => inf false
  | fin x => fin |x|

/-- The comparison `x < y`; it is false if one of both is NaN. -/
def lt : Dbl → Dbl → Bool
  | nan, _ => false
  | _, nan => false
  | inf a, inf b => a && !b
  | inf a, fin _ => a
  | fin _, inf b => !b
  | fin x, fin y => decide (x < y)

/-- `np.maximum`: NaN if one of both is NaN. -/
def max : Dbl → Dbl → Dbl
  | nan, _ => nan
  | _, nan => nan
  | x, y => if lt x y then y else x

/-- The number is one of the doubles (and not an arbitrary rational number). -/
def Ok (x : Dbl) : Prop := ∀ q, x = fin q → rnd64 q = q

/-- A number: neither infinite nor NaN. -/
def IsNum (x : Dbl) : Prop := ∃ q, x = fin q

end Dbl

open Dbl

/-- `v` is a result of adding the entries of a list, in any order and grouping. -/
inductive Summed : List Dbl → Dbl → Prop
  | nil : Summed [] 0
  | one (x : Dbl) : Summed [x] x
  | add {xs ys zs : List Dbl} {a b : Dbl} (ha : Summed xs a) (hb : Summed ys b) (hz : zs.Perm (xs ++ ys)) :
      Summed zs (a + b)

/-- `v` is a result of adding the squares of the entries (`x.dot(x)`), with or without fused operations. -/
inductive SquaresSummed : List Dbl → Dbl → Prop
  | nil : SquaresSummed [] 0
  | one (x : Dbl) : SquaresSummed [x] (x * x)
  | fused {xs zs : List Dbl} {a : Dbl} (x : Dbl) (ha : SquaresSummed xs a) (hz : zs.Perm (x :: xs)) :
      SquaresSummed zs (fma x x a)
  | add {xs ys zs : List Dbl} {a b : Dbl} (ha : SquaresSummed xs a) (hb : SquaresSummed ys b)
      (hz : zs.Perm (xs ++ ys)) : SquaresSummed zs (a + b)

/-- `v` is a square root of `s ≥ 0`: no double lies strictly between `v` and the exact root (correct rounding as
prescribed by IEEE 754 is a special case). -/
inductive Root : Dbl → Dbl → Prop
  | nan : Root nan nan
  | inf : Root (inf false) (inf false)
  | fin {s r : ℚ} (hr : 0 ≤ r) (hrep : rnd64 r = r) (h1 : ∀ t, 0 ≤ t → rnd64 t = t → t * t ≤ s → t ≤ r)
      (h2 : ∀ t, 0 ≤ t → rnd64 t = t → s ≤ t * t → r ≤ t) : Root (fin s) (fin r)

/-- The largest entry (`abs(x).max()`); NumPy raises an exception for the empty vector, here 0. -/
def maxOf : List Dbl → Dbl
  | [] => 0
  | x :: xs => xs.foldl Dbl.max x

/-- The values of the option `t_norm`. -/
inductive TNorm
  | one
  | two
  | sup
deriving DecidableEq

/-- How far an entry may exceed the tolerance because squares and roots are rounded. -/
def TNorm.slack : TNorm → ℚ
  | .two => 1 + 1 / 2 ^ 53
  | _ => 1

/-- `v` is a result of `np.linalg.norm(xs, ord)`: `abs(x).sum()` for 1, `sqrt(x.dot(x))` for None, `abs(x).max()` for inf. -/
def IsNorm : TNorm → List Dbl → Dbl → Prop
  | .one, xs, v => Summed (xs.map Dbl.abs) v
  | .two, xs, v => ∃ s, SquaresSummed xs s ∧ Root s v
  | .sup, xs, v => v = maxOf (xs.map Dbl.abs)

end Pymgrit.Ieee
