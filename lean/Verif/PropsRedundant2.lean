import Verif.PropsRedundant
import Verif.EndToEnd2
import Verif.PropsDist
import Verif.Setup

/-!
# C140 for the parallel solver

On the level above the copy every point is a C-point, so with more than one process a process boundary separates neighbouring C-points.
The condition of `Good` then fails, and so does the claim: `C140_counterexample`.
-/

namespace Pymgrit.Redundant

open Sys Cfg

variable {V K T N : Type} [LinearOrder T] [Inhabited T]

/-- The same configuration without the coarsest level: `problem[:-1]` as argument of the constructor (mgrit.py:33). -/
def cut (E : Cfg V K T N) : Cfg V K T N := { E with ts := E.ts.dropLast }

theorem grid_dropLast {ts : List (List T)} {l k : Nat} (hL : ts.length = l + 2) (hk : k ≤ l) : grid ts.dropLast k = grid ts k := by
  unfold grid
  rw [List.getD_eq_getElem?_getD, List.getD_eq_getElem?_getD, List.getElem?_dropLast, if_pos (by omega)]

theorem npts_dropLast {ts : List (List T)} {l k : Nat} (hL : ts.length = l + 2) (hk : k ≤ l) : npts ts.dropLast k = npts ts k := by
  unfold npts; rw [grid_dropLast hL hk]

theorem allC_dropLast {ts : List (List T)} {l k : Nat} (hL : ts.length = l + 2) (hk : k < l) : allC ts k = allC ts.dropLast k := by
  have h1 : k + 1 ≠ ts.length := by omega
  have h2 : k + 1 ≠ ts.dropLast.length := by rw [List.length_dropLast]; omega
  unfold allC
  rw [if_pos h1, if_pos h2, npts_dropLast hL hk.le, grid_dropLast hL hk.le, grid_dropLast hL hk]

theorem copy_sys (E : Cfg V K T N) {l : Nat} (hL : E.ts.length = l + 2) (hg : grid E.ts (l + 1) = grid E.ts l)
    (hR : ∀ x, E.R l x = x) (hI : ∀ x, E.I l x = x) (hs : E.step (l + 1) = E.step l) : Copy E.sys l where
  top := hL.symm
  points := by
    show allC E.ts l = List.range (npts E.ts l)
    unfold allC
    rw [if_pos (by omega), List.filter_eq_self]
    intro i hi
    rw [List.mem_range] at hi
    rw [hg, decide_eq_true_eq, tAt, List.getD_eq_getElem?_getD, List.getElem?_eq_getElem hi]
    exact List.getElem_mem hi
  restr := hR
  interp := hI
  step := by
    intro i x
    show E.step (l + 1) x (tAt (grid E.ts (l + 1)) (i - 1)) (tAt (grid E.ts (l + 1)) i) = _
    rw [hg, hs]
    rfl

theorem without_sys (E : Cfg V K T N) {l : Nat} (hL : E.ts.length = l + 2) : Without E.sys (cut E).sys l where
  L := hL
  L' := by show E.ts.dropLast.length = l + 1; rw [List.length_dropLast]; omega
  n := (npts_dropLast hL le_rfl).symm
  C := fun k hk => allC_dropLast hL hk
  F := fun k hk => by
    show allF E.ts k = allF E.ts.dropLast k
    unfold allF
    rw [allC_dropLast hL hk, npts_dropLast hL hk.le]
  R := fun _ _ => rfl
  I := fun _ _ => rfl
  cf := fun _ _ => rfl
  step := fun k hk => by
    funext i x
    show E.step k x (tAt (grid E.ts k) (i - 1)) (tAt (grid E.ts k) i)
      = E.step k x (tAt (grid E.ts.dropLast k) (i - 1)) (tAt (grid E.ts.dropLast k) i)
    rw [grid_dropLast hL hk]
  w := rfl

variable [AddCommGroup V] [SMul K V] [One K] [Sub K] [Zero N]

theorem constructor_st (E : Cfg V K T N) :
    (afterConstructor E).st = if E.nested then E.sys.nestedIteration E.sys.forwardSolve (Run.init (N := N) E.start E.zero E.guess).st
      else (Run.init (N := N) E.start E.zero E.guess).st := by
  unfold afterConstructor setup
  simp only [Cfg.ctl]
  by_cases h0 : E.nested = true <;> by_cases h1 : E.convCrit = 1 <;> by_cases h2 : E.outLvl = 2 <;> simp [h0, h1, h2, Run.output]

theorem after_iterates (E : Cfg V K T N) (k : Nat) :
    after E.sys E.nested E.cyc (Run.init (N := N) E.start E.zero E.guess).st k =
      iterates E.sys E.sys.forwardSolve E.cyc k (afterConstructor E).st := by
  induction k with
  | zero => simp only [after, iterates, constructor_st]
  | succ k ih => simp only [after, iterates, ih]

/-- On one process there is no boundary between C-points. -/
theorem good_one {E : Cfg V K T N} (h : E.Base) (hP : E.P = 1) (hg : E.global = true) : E.Good where
  toBase := h
  glob := hg
  noCC := by
    intro r l hr hl h0
    have : r = 0 := by omega
    subst this
    rw [h.lo_zero (by omega)] at h0
    exact absurd h0 (lt_irrefl _)

/-- C140.  For every order of the communication: if the coarsest level repeats the time points and the time integrator of the level
above, the values returned by the solver are those of the same number of iterations without that level.

Missing: more than one process.  `Good` requires that no process boundary separates neighbouring C-points, and level `l` consists of
C-points only, so apart from steps that ignore their start value this is a statement about one process (`good_one`). -/
theorem C140_returned_partial {E : Cfg V K T N} (h : E.Good) (hmax : 0 < E.maxIter) {l : Nat} (hl : 0 < l) (hL : E.ts.length = l + 2)
    (hg : grid E.ts (l + 1) = grid E.ts l) (hR : ∀ x, E.R l x = x) (hI : ∀ x, E.I l x = x) (hs : E.step (l + 1) = E.step l)
    {c : Conf E.P (Msg V N) (PState V N)} (h1 : Steps (startConf E) c) (hc : ∀ d, ¬ Step c d)
    (r : Fin E.P) (s : PState V N) (hr : c.prog r = Prog.ret s) (k i j : Nat)
    (hi : (E.info r 0).pts[k]? = some i) (hj : (E.info r 0).idx[k]? = some j) :
    s.u 0 j = (iterates (cut E).sys (cut E).sys.forwardSolve E.cyc s.solveIter (afterConstructor (cut E)).st).u 0 i := by
  obtain ⟨-, -, -, -, hv⟩ := returned h hmax h1 hc r s hr
  obtain ⟨-, e⟩ := hv k i j hi hj
  have key := (C140_no_effect (sys_wf E h.valid) (copy_sys E hL hg hR hI hs) (without_sys E hL) hl E.nested E.cyc
    (Run.init (N := N) E.start E.zero E.guess).st s.solveIter).1 0 (Nat.zero_le _)
  rw [e, ← after_iterates E, key]
  exact congrFun (congrFun (congrArg GState.u (after_iterates (cut E) s.solveIter)) 0) i

/-- The hierarchy of the example (example_gray_scott_2d_petsc.py:35-36) repeats its second level. -/
theorem C140_example (t : List T) : grid [t, stride t 2, stride t 2] 2 = grid [t, stride t 2, stride t 2] 1 := rfl

/-! ## Two processes -/

/-- Three levels built like those of the example (example_gray_scott_2d_petsc.py:34-36), with 9 points and a scalar problem, one iteration. -/
def thrice (P : Nat) : Cfg Int Int Nat Int :=
  { exCfg P with
    ts := [List.range 9, stride (List.range 9) 2, stride (List.range 9) 2]
    nested := false
    maxIter := 1
    outLvl := 0
    ltTol := fun _ => false
    step := fun l x t0 t1 => (if l = 0 then 2 else 3) * x + (t1 : Int) - (t0 : Int) }

theorem thrice_valid : Valid ([List.range 9, stride (List.range 9) 2, stride (List.range 9) 2] : List (List Nat)) where
  pos := by decide
  ne0 := by decide
  sorted := by
    intro l
    match l with
    | 0 => decide
    | 1 => decide
    | 2 => decide
    | _ + 3 => exact List.Pairwise.nil
  nested := by
    intro l hl
    match l with
    | 0 => decide
    | 1 => decide
    | _ + 2 => exact absurd hl (by simp)
  start := by
    intro l hl
    match l with
    | 0 => rfl
    | 1 => rfl
    | 2 => rfl
    | _ + 3 => exact absurd hl (by simp)

theorem thrice_base (P : Nat) (hP : 0 < P) (h9 : P ≤ 9) : (thrice P).Base where
  valid := thrice_valid
  Ppos := hP
  PN := h9
  ord := fun _ _ hr hl => ordOK_id thrice_valid h9 hl hr

/-- The hypotheses of `C140_returned_partial` hold for it on one process. -/
example : (thrice 1).Good ∧ 0 < (thrice 1).maxIter ∧ (thrice 1).ts.length = 1 + 2 ∧ grid (thrice 1).ts 2 = grid (thrice 1).ts 1 ∧
    (∀ x, (thrice 1).R 1 x = x) ∧ (∀ x, (thrice 1).I 1 x = x) ∧ (thrice 1).step 2 = (thrice 1).step 1 :=
  ⟨good_one (thrice_base 1 (by decide) (by decide)) rfl rfl, by decide, rfl, rfl, fun _ => rfl, fun _ => rfl, rfl⟩

/-- Those of `C140_no_effect`. -/
example : Copy (thrice 1).sys 1 ∧ Without (thrice 1).sys (cut (thrice 1)).sys 1 :=
  ⟨copy_sys _ rfl rfl (fun _ => rfl) (fun _ => rfl) rfl, without_sys _ rfl⟩

/-- What a process returned for the local index `j` of the finest level. -/
def valueAt (j : Nat) : Prog (Msg Int Int) (PState Int Int) → Option Int
  | .ret s => some (s.u 0 j)
  | _ => none

/-- C140 fails on two processes.  One iteration of the three levels: every execution ends with the value 47 at point 6.  Without the
third level every execution on two processes ends with 107, and so does one process with or without it. -/
theorem C140_counterexample {c c' : Conf 2 (Msg Int Int) (PState Int Int)}
    (h1 : Steps (startConf (thrice 2)) c) (hc : ∀ d, ¬ Step c d)
    (h1' : Steps (startConf (cut (thrice 2))) c') (hc' : ∀ d, ¬ Step c' d) :
    ((thrice 2).info 1 0).pts[1]? = some 6 ∧ ((cut (thrice 2)).info 1 0).pts[1]? = some 6 ∧
    ((thrice 2).info 1 0).idx[1]? = some 2 ∧ ((cut (thrice 2)).info 1 0).idx[1]? = some 2 ∧
    (∃ s, c.prog 1 = Prog.ret s ∧ s.u 0 2 = 47) ∧ (∃ s, c'.prog 1 = Prog.ret s ∧ s.u 0 2 = 107) ∧
    (serialRun (thrice 1)).st.u 0 6 = 107 ∧ (serialRun (cut (thrice 1))).st.u 0 6 = 107 := by
  refine ⟨by decide +kernel, by decide +kernel, by decide +kernel, by decide +kernel, ?_, ?_, by decide +kernel, by decide +kernel⟩
  · set res := (exec 2 1000 20 ((List.range 2).map fun r => (thrice 2).mainP r
      ((thrice 2).initState (fun r l => off (thrice 2).ts 2 l r) r)) []).1 with hres
    have hall : res.all isRet = true := by decide +kernel
    have e1 : valueAt 2 (res.getD 1 (.fail "")) = some 47 := by decide +kernel
    have hp : c.prog 1 = res.getD 1 (.fail "") := exec_final (thrice 2) 1000 20 res rfl hall h1 hc (1 : Fin 2)
    clear_value res
    rw [hp]
    revert e1
    cases res.getD 1 (.fail "") <;> simp +contextual [valueAt]
  · set res := (exec 2 1000 20 ((List.range 2).map fun r => (cut (thrice 2)).mainP r
      ((cut (thrice 2)).initState (fun r l => off (cut (thrice 2)).ts 2 l r) r)) []).1 with hres
    have hall : res.all isRet = true := by decide +kernel
    have e1 : valueAt 2 (res.getD 1 (.fail "")) = some 107 := by decide +kernel
    have hp : c'.prog 1 = res.getD 1 (.fail "") := exec_final (cut (thrice 2)) 1000 20 res rfl hall h1' hc' (1 : Fin 2)
    clear_value res
    rw [hp]
    revert e1
    cases res.getD 1 (.fail "") <;> simp +contextual [valueAt]

end Pymgrit.Redundant
