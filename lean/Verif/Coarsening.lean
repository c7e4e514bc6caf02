import Verif.Petsc
import Verif.PropsSetup

/-!
# What the constructor and the run information say about the coarsening

* `diffs`, `factor`, `warns` – mgrit.py:211-217: `self.m` and the warning about non-uniform coarsening
* `maxDt` – mgrit.py:576-577, the line `max dt` of `ouput_run_information`
-/

namespace Pymgrit

variable {T : Type} [LinearOrder T] [Inhabited T]

/-- `np.diff(tmp_cpts)` (mgrit.py:212-213). -/
def diffs (cs : List Nat) : List Int := List.zipWith (fun a b : Nat => (b : Int) - a) cs cs.tail

/-- `self.m[lvl]` of a level that is not the coarsest one (mgrit.py:211-214), printed as `coarsening factors`
(mgrit.py:579); `np.diff(tmp_cpts)[0]` raises `IndexError` if there is only one C-point. -/
def factor (ts : List (List T)) (l : Nat) : Except String Int :=
  match diffs (allC ts l) with
  | [] => .error "IndexError"
  | d :: _ => .ok d

/-- Whether process `r` issues the warning `Non-uniform coarsening between level …` (mgrit.py:215-217). -/
def warns (ts : List (List T)) (l r : Nat) : Bool :=
  !((diffs (allC ts l)).all fun d => decide (Petsc.isclose (d : ℚ) ((diffs (allC ts l)).headD 0 : ℚ))) && decide (r = 0)

/-- `np.max(t[1:] - t[:-1])` (mgrit.py:576-577); `none` is the `ValueError` for an empty array. -/
def maxDt {K : Type} [Sub K] [Max K] (t : List K) : Option K := (List.zipWith (fun a b => b - a) t t.tail).max?

end Pymgrit
