import Verif.PropsRedundant3

/-!
# C140 with the default arguments

`example_gray_scott_2d_petsc.py:40` passes only the problems and the communicators, so nested iteration, V-cycles and one
FCF-relaxation are used (mgrit.py:34-35).  The difference of `C140_counterexample` is there as well.
-/

namespace Pymgrit.Redundant

/-- Three levels built like those of the example (example_gray_scott_2d_petsc.py:34-36) with 13 points, the same integrator on all levels
(explicit Euler for `x' = x` with an additional constant) and the default arguments (mgrit.py:33-37) apart from one iteration
without a tolerance and the 1-norm as `t_norm`, which has integer values. -/
def plain (P : Nat) : Cfg Int Int Nat Int :=
  { exCfg P with
    ts := [List.range 13, stride (List.range 13) 2, stride (List.range 13) 2]
    guess := fun _ => 0
    nested := true
    cyc := Sys.Cycle.V
    cf := fun _ => 1
    maxIter := 1
    convCrit := 0
    outLvl := 0
    ltTol := fun _ => false
    step := fun _ x t0 t1 => (1 + (t1 : Int) - (t0 : Int)) * x + 1 }

/-- A value and the recorded residual norm of a process. -/
def shown (j : Nat) : Prog (Msg Int Int) (PState Int Int) → Option (Int × Int)
  | .ret s => some (s.u 0 j, s.conv 1)
  | _ => none

/-- C140 fails on two processes with the default arguments: with the third level every execution ends with 223 at point 8 and records
1140, without it with 403 and 1200. -/
theorem C140_defaults_counterexample {c c' : Conf 2 (Msg Int Int) (PState Int Int)}
    (h1 : Steps (startConf (plain 2)) c) (hc : ∀ d, ¬ Step c d)
    (h1' : Steps (startConf (cut (plain 2))) c') (hc' : ∀ d, ¬ Step c' d) :
    ((plain 2).info 1 0).pts[1]? = some 8 ∧ ((cut (plain 2)).info 1 0).pts[1]? = some 8 ∧
    ((plain 2).info 1 0).idx[1]? = some 2 ∧ ((cut (plain 2)).info 1 0).idx[1]? = some 2 ∧
    (∃ s, c.prog 1 = Prog.ret s ∧ s.u 0 2 = 223 ∧ s.conv 1 = 1140) ∧
    (∃ s, c'.prog 1 = Prog.ret s ∧ s.u 0 2 = 403 ∧ s.conv 1 = 1200) := by
  refine ⟨by decide +kernel, by decide +kernel, by decide +kernel, by decide +kernel, ?_, ?_⟩
  · set res := (exec 2 1000 20 ((List.range 2).map fun r => (plain 2).mainP r
      ((plain 2).initState (fun r l => off (plain 2).ts 2 l r) r)) []).1 with hres
    have hall : res.all isRet = true := by decide +kernel
    have e1 : shown 2 (res.getD 1 (.fail "")) = some (223, 1140) := by decide +kernel
    have hp : c.prog 1 = res.getD 1 (.fail "") := exec_final (plain 2) 1000 20 res rfl hall h1 hc (1 : Fin 2)
    clear_value res
    rw [hp]
    revert e1
    cases res.getD 1 (.fail "") <;> simp +contextual [shown]
  · set res := (exec 2 1000 20 ((List.range 2).map fun r => (cut (plain 2)).mainP r
      ((cut (plain 2)).initState (fun r l => off (cut (plain 2)).ts 2 l r) r)) []).1 with hres
    have hall : res.all isRet = true := by decide +kernel
    have e1 : shown 2 (res.getD 1 (.fail "")) = some (403, 1200) := by decide +kernel
    have hp : c'.prog 1 = res.getD 1 (.fail "") := exec_final (cut (plain 2)) 1000 20 res rfl hall h1' hc' (1 : Fin 2)
    clear_value res
    rw [hp]
    revert e1
    cases res.getD 1 (.fail "") <;> simp +contextual [shown]

/-! ## The conditions are needed -/

/-- `thrice` on one process, F-relaxation only, with another integrator on the repeated level. -/
def otherStep : Cfg Int Int Nat Int := { thrice 1 with cf := fun _ => 0, step := fun l x t0 t1 => (2 + l) * x + (t1 : Int) - (t0 : Int) }

/-- `thrice` on one process, F-relaxation only, with a transfer from the repeated level that does not copy. -/
def otherTransfer : Cfg Int Int Nat Int := { thrice 1 with cf := fun _ => 0, I := fun l x => if l = 1 then 2 * x else x }

/-- C140.  On one process a level with repeated time points does change the result if its integrator differs from that of the level
above, or if the transfer between the two does not copy: neither condition can be left out. -/
theorem C140_conditions_needed :
    (grid otherStep.ts 2 = grid otherStep.ts 1 ∧ (∀ x, otherStep.R 1 x = x) ∧ (∀ x, otherStep.I 1 x = x) ∧
      (serialRun otherStep).st.u 0 8 ≠ (serialRun (cut otherStep)).st.u 0 8) ∧
    (grid otherTransfer.ts 2 = grid otherTransfer.ts 1 ∧ (∀ x, otherTransfer.R 1 x = x) ∧ otherTransfer.step 2 = otherTransfer.step 1 ∧
      (serialRun otherTransfer).st.u 0 8 ≠ (serialRun (cut otherTransfer)).st.u 0 8) :=
  ⟨⟨rfl, fun _ => rfl, fun _ => rfl, by decide +kernel⟩, rfl, fun _ => rfl, rfl, by decide +kernel⟩

end Pymgrit.Redundant
