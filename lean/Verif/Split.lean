import Mathlib.Data.List.Basic
import Mathlib.Data.Nat.Basic
import Mathlib.Tactic.Common
import Mathlib.Algebra.BigOperators.Group.List.Basic
import Mathlib.Tactic.Ring

/-! Distribution of the fine time points over the processes. -/

namespace Pymgrit

/-- `split_into` (mgrit.py:829-838).  `int(a / b + 1)` is modelled by exact integer division, i.e.
floating-point rounding of `number_points / number_processes` is not modelled (it cannot matter
below 2^51 points, `Double.C130_split`).  `P = 0` does not occur (an MPI communicator has at least one process). -/
def splitInto (n P : Nat) : List Nat :=
  List.replicate (n % P) (n / P + 1) ++ List.replicate (P - n % P) (n / P)

/-- `split_points` (mgrit.py:728-740): block size and first index of a process. -/
def splitPoints (n P r : Nat) : Nat × Nat :=
  let split := splitInto n P
  (split.getD r 0, if 0 < split.getD r 0 then (split.take r).sum else 0)

/-- First global index of process `r` on the fine level: `np.cumsum(split_into(..))[r-1]`. -/
def firstPt (n P r : Nat) : Nat := ((splitInto n P).take r).sum

theorem splitInto_length {n P : Nat} (hP : 0 < P) : (splitInto n P).length = P := by
  have := Nat.mod_lt n hP
  simp [splitInto]; omega

theorem splitInto_getD {n P r : Nat} (hr : r < P) :
    (splitInto n P).getD r 0 = n / P + if r < n % P then 1 else 0 := by
  have := Nat.mod_lt n (show 0 < P by omega)
  simp only [splitInto, List.getD_eq_getElem?_getD]
  by_cases h : r < n % P
  · rw [List.getElem?_append_left (by simpa using h)]
    simp [h]
  · rw [List.getElem?_append_right (by simpa using h)]
    simp only [List.length_replicate, List.getElem?_replicate]
    rw [if_pos (by omega)]
    simp [h]

theorem firstPt_zero (n P : Nat) : firstPt n P 0 = 0 := by simp [firstPt]

theorem firstPt_succ {n P r : Nat} (hr : r < P) :
    firstPt n P (r + 1) = firstPt n P r + (splitInto n P).getD r 0 := by
  have hlen : r < (splitInto n P).length := by rw [splitInto_length (by omega)]; exact hr
  unfold firstPt
  rw [List.take_add_one, List.sum_append]
  simp [List.getElem?_eq_getElem hlen]

theorem firstPt_eq {n P r : Nat} (hr : r ≤ P) : firstPt n P r = r * (n / P) + min r (n % P) := by
  induction r with
  | zero => simp [firstPt_zero]
  | succ r ih =>
    rw [firstPt_succ (by omega), ih (by omega), splitInto_getD (by omega), Nat.add_mul]
    split <;> omega

theorem firstPt_last {n P : Nat} (hP : 0 < P) : firstPt n P P = n := by
  have := Nat.mod_lt n hP
  rw [firstPt_eq (Nat.le_refl P), Nat.min_eq_right (by omega), Nat.div_add_mod]

theorem firstPt_lt {n P r : Nat} (hPn : P ≤ n) (hr : r < P) :
    firstPt n P r < firstPt n P (r + 1) := by
  have hpos : 0 < n / P := Nat.div_pos hPn (by omega)
  rw [firstPt_succ hr, splitInto_getD hr]
  omega

theorem firstPt_strictMono {n P : Nat} (hPn : P ≤ n) {r r' : Nat} (h : r < r') (hr' : r' ≤ P) :
    firstPt n P r < firstPt n P r' := by
  induction r' with
  | zero => omega
  | succ r' ih =>
    rcases Nat.lt_or_eq_of_le (Nat.le_of_lt_succ h) with h1 | rfl
    · exact Nat.lt_trans (ih h1 (by omega)) (firstPt_lt hPn (by omega))
    · exact firstPt_lt hPn (by omega)

theorem firstPt_mono {n P : Nat} (hPn : P ≤ n) {r r' : Nat} (h : r ≤ r') (hr' : r' ≤ P) :
    firstPt n P r ≤ firstPt n P r' := by
  rcases Nat.lt_or_eq_of_le h with h1 | rfl
  · exact Nat.le_of_lt (firstPt_strictMono hPn h1 hr')
  · exact Nat.le_refl _

theorem splitPoints_eq {n P r : Nat} (hPn : P ≤ n) (hr : r < P) :
    splitPoints n P r = (firstPt n P (r + 1) - firstPt n P r, firstPt n P r) := by
  have h1 := firstPt_succ (n := n) hr
  have h2 := firstPt_lt hPn hr
  unfold splitPoints
  simp only
  rw [if_pos (by omega), h1, Nat.add_sub_cancel_left]
  rfl

end Pymgrit
