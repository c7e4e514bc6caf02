import Verif.PropsRedundant4
import Mathlib.Algebra.Module.Basic

/-!
# C140: relaxation on the level above the copy
-/

namespace Pymgrit.Redundant

open Sys

variable {V K : Type} [AddCommGroup V] [Ring K] [Module K V] {S : Sys V K}

/-- C140.  One process, no damping of the C-relaxation (`weight_c = 1`, the default): on a level whose points are all C-points, one
C-relaxation (mgrit.py:335-370) already is the sequential solution (mgrit.py:459-486).  The level below it has nothing left to correct. -/
theorem C140_relaxation_solves {l : Nat} (hC : S.C l = List.range (S.n l)) (hw : S.w = 1) (s : GState V) :
    S.cRelax l s = S.forwardSolve l s := by
  have e : (List.range (S.n l)).filter (· ≠ 0) = List.range' 1 (S.n l - 1) := by
    cases h : S.n l with
    | zero => rfl
    | succ n =>
      rw [List.range_eq_range', List.range'_succ, List.filter_cons_of_neg (by simp), Nat.zero_add, List.filter_eq_self.2]
      · rfl
      · intro i hi
        rw [List.mem_range'_1] at hi
        simp only [ne_eq, decide_not, Bool.not_eq_eq_eq_not, Bool.not_true, decide_eq_false_iff_not]
        omega
  unfold cRelax forwardSolve
  rw [hC, e, hw]
  simp only [one_smul, sub_self, zero_smul, add_zero]

/-- The hypotheses hold for the second level of `plain`. -/
example : (plain 1).sys.C 1 = List.range ((plain 1).sys.n 1) ∧ (plain 1).sys.w = 1 ∧ (plain 1).sys.n 1 = 7 := by
  refine ⟨by decide +kernel, rfl, by decide +kernel⟩

end Pymgrit.Redundant
