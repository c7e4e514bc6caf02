import Verif.Hier
import Mathlib.Algebra.Module.Basic
import Mathlib.Algebra.Ring.Int.Defs
import Mathlib.Algebra.Order.Group.Int

/-! A concrete three-level configuration, used to show that the hypotheses of the theorems are met. -/

namespace Pymgrit

/-- Times `0..8`, coarsened by two twice. -/
def exGrid : List (List Nat) := [[0, 1, 2, 3, 4, 5, 6, 7, 8], [0, 2, 4, 6, 8], [0, 4, 8]]

theorem exGrid_valid : Valid exGrid where
  pos := by decide
  ne0 := by decide
  sorted := by
    intro l
    match l with
    | 0 => decide
    | 1 => decide
    | 2 => decide
    | _ + 3 => exact List.Pairwise.nil
  nested := by
    intro l hl
    match l with
    | 0 => decide
    | 1 => decide
    | _ + 2 => exact absurd hl (by simp [exGrid])
  start := by
    intro l hl
    match l with
    | 0 => rfl
    | 1 => rfl
    | 2 => rfl
    | _ + 3 => exact absurd hl (by simp [exGrid])

/-- A nonlinear problem `u ↦ u*u + t` with integer values on three levels, copying transfers, one
CF-relaxation, weight one, residual criterion. -/
def exCfg (P : Nat) : Cfg Int Int Nat Int where
  ts := exGrid
  step := fun l x t0 t1 => x * x + (t1 : Int) - (t0 : Int) + l
  R := fun _ x => x
  I := fun _ x => x
  cf := fun _ => 1
  w := 1
  start := fun _ => 1
  zero := fun _ => 0
  guess := fun i => (i : Int)
  cyc := Sys.Cycle.F
  nested := true
  maxIter := 5
  convCrit := 0
  norm := fun x => |x|
  tnorm := fun xs => (xs.map fun x => |x|).sum
  ltTol := fun x => decide (x < 1)
  outLvl := 2
  ord := fun _ _ xs => xs
  P := P
  instr := false

theorem exSys_wf (P : Nat) : (exCfg P).sys.WF := (exCfg P).sys_wf exGrid_valid

end Pymgrit
