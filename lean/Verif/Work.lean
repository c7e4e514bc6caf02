import Verif.Trace
import Verif.SeqLemmas
import Verif.Driver
import Mathlib.Tactic.Ring

/-!
# Counting the calls of `step()`

The sweeps of `Verif.Seq` with a counter per level that goes up with every call of `step()`.
-/

namespace Pymgrit
namespace Sys

/-- Number of calls of `step[l]` per level `l`. -/
abbrev Calls := Nat → Nat

/-- One more call of `step[l]`. -/
def call (l : Nat) (c : Calls) : Calls := Function.update c l (c l + 1)

variable {V K : Type} (S : Sys V K)

section
variable [Add V]

/-- A loop `for i in idx: u[i] = f(u, i)` with one call of `step[l]` per index. -/
def sweepN (l : Nat) (idx : List Nat) (f : (Nat → V) → Nat → V) (p : (Nat → V) × Calls) : (Nat → V) × Calls :=
  idx.foldl (fun p i => (Function.update p.1 i (f p.1 i), call l p.2)) p

/-- `f_relax` (mgrit.py:292-333) with counter. -/
def fRelaxN (l : Nat) (p : GState V × Calls) : GState V × Calls :=
  let q := sweepN l (S.F l) (fun u i => S.prop p.1.g l i (u (i - 1))) (p.1.u l, p.2)
  (p.1.setU l q.1, q.2)

/-- `forward_solve` (mgrit.py:459-486) with counter. -/
def forwardSolveN (l : Nat) (p : GState V × Calls) : GState V × Calls :=
  let q := sweepN l (List.range' 1 (S.n l - 1)) (fun u i => S.prop p.1.g l i (u (i - 1))) (p.1.u l, p.2)
  (p.1.setU l q.1, q.2)

/-- `c_relax` (mgrit.py:335-370) with counter. -/
def cRelaxN [SMul K V] [One K] [Sub K] (l : Nat) (p : GState V × Calls) : GState V × Calls :=
  let q := sweepN l ((S.C l).filter (· ≠ 0))
    (fun u i => S.w • S.prop p.1.g l i (u (i - 1)) + (1 - S.w) • u i) (p.1.u l, p.2)
  (p.1.setU l q.1, q.2)

/-- `fas_residual` (mgrit.py:488-549) with counter: a call of `step[l]` and one of `step[l + 1]` per C-point other than
the initial one (mgrit.py:529-547). -/
def fasResidualN [Sub V] (l : Nat) (p : GState V × Calls) : GState V × Calls :=
  let s := p.1
  let u1 : Nat → V := (S.C l).zipIdx.foldl
    (fun (u : Nat → V) ck => Function.update u ck.2 (S.R l (s.u l ck.1))) (s.u (l + 1))
  let q : (Nat → V) × Calls := (S.C l).zipIdx.foldl
    (fun (q : (Nat → V) × Calls) ck => if ck.2 = 0 then q else
      (Function.update q.1 ck.2
        (S.fasRes s l ck.1 + u1 ck.2 - S.Φ (l + 1) ck.2 (u1 (ck.2 - 1))), call (l + 1) (call l q.2))) (s.g (l + 1), p.2)
  ({ u := Function.update s.u (l + 1) u1
     v := Function.update s.v (l + 1) u1
     g := Function.update s.g (l + 1) q.1 }, q.2)

/-- The operations with counter; the correction and the interpolation call no `step()` (mgrit.py:715-726, 560-563). -/
def opN [Sub V] [SMul K V] [One K] [Sub K] : OpKind → Nat → GState V × Calls → GState V × Calls
  | .fRelax => S.fRelaxN
  | .cRelax => S.cRelaxN
  | .fas => S.fasResidualN
  | .corr => fun l p => (S.errorCorrection l p.1, p.2)
  | .solve => S.forwardSolveN
  | .interp => fun l p => (S.interpolate l p.1, p.2)

/-- `iteration` on the finest level (mgrit.py:606) with counter. -/
def iterationN [Sub V] [SMul K V] [One K] [Sub K] (cyc : Cycle) (it : Nat) (p : GState V × Calls) : GState V × Calls :=
  Trace.iteration S.cf S.opN (S.L - 1) 0 cyc it true p

/-- `nested_iteration` (mgrit.py:551-566) with counter. -/
def nestedN [Sub V] [SMul K V] [One K] [Sub K] (p : GState V × Calls) : GState V × Calls :=
  Trace.nested S.L S.cf S.opN p

/-- `compute_residual` (mgrit.py:387-413) with counter. -/
def residualsN [Sub V] (p : GState V × Calls) : List V × Calls :=
  ((S.C 0).filter (· ≠ 0)).foldl
    (fun q i => (q.1 ++ [S.Φ 0 i (p.1.u 0 (i - 1)) - p.1.u 0 i], call 0 q.2)) ([], p.2)

end

section
variable {N : Type} [Add V] [Sub V] [SMul K V] [One K] [Sub K] (c : Ctl V N)

/-- `convergence_criterion` (mgrit.py:415-457) with counter: the residual calls `step[0]`, the jump does not. -/
def convergenceN (it : Nat) (p : Run V N × Calls) : Run V N × Calls :=
  if c.convCrit = 0 then
    let q := S.residualsN (p.1.st, p.2)
    ({ p.1 with conv := Function.update p.1.conv it (c.tnorm (q.1.map c.norm)) }, q.2)
  else
    ({ p.1 with conv := Function.update p.1.conv it (c.tnorm ((S.jumps p.1.saved p.1.st).map c.norm))
                saved := p.1.st.u 0 }, p.2)

/-- Body of the loop in `solve` (mgrit.py:604-624) with counter. -/
def solveBodyN (it : Nat) (p : Run V N × Calls) : Run V N × Calls :=
  let q := S.iterationN c.cyc it (p.1.st, p.2)
  let p := S.convergenceN c (it + 1) ({ p.1 with iter := it + 1, st := q.1 }, q.2)
  if c.outLvl = 2 then (p.1.output, p.2) else p

/-- Loop of `solve` (mgrit.py:603-634) with counter. -/
def solveLoopN : Nat → Nat → Run V N × Calls → Run V N × Calls
  | 0, _, p => p
  | k + 1, it, p =>
    let p := S.solveBodyN c it p
    if stops c it p.1 then p else solveLoopN k (it + 1) p

/-- `solve` (mgrit.py:590-646) with counter. -/
def solveN (p : Run V N × Calls) : Run V N × Calls :=
  let p := S.solveLoopN c c.maxIter 0 p
  if c.outLvl = 1 then (p.1.output, p.2) else p

end

/-! ### The counter does not change the values -/

/-- `k` more calls on level `l`. -/
def calls (l k : Nat) (c : Calls) : Calls := Function.update c l (c l + k)

theorem calls_zero (l : Nat) (c : Calls) : calls l 0 c = c := by simp [calls]

theorem call_calls (l k : Nat) (c : Calls) : calls l k (call l c) = calls l (k + 1) c := by
  funext j
  by_cases h : j = l
  · subst h; simp [calls, call]; ring
  · simp [calls, call, h]

theorem sweepN_eq (l : Nat) (idx : List Nat) (f : (Nat → V) → Nat → V) (u : Nat → V) (c : Calls) :
    sweepN l idx f (u, c) = (sweep idx f u, calls l idx.length c) := by
  induction idx generalizing u c with
  | nil => simp [sweepN, sweep, calls]
  | cons i idx ih =>
    have h : sweepN l (i :: idx) f (u, c) = sweepN l idx f (Function.update u i (f u i), call l c) := rfl
    rw [h, ih, call_calls]
    rfl

section
variable [Add V]

theorem fRelaxN_eq (l : Nat) (s : GState V) (c : Calls) :
    S.fRelaxN l (s, c) = (S.fRelax l s, calls l (S.F l).length c) := by
  unfold fRelaxN; rw [sweepN_eq]; rfl

theorem forwardSolveN_eq (l : Nat) (s : GState V) (c : Calls) :
    S.forwardSolveN l (s, c) = (S.forwardSolve l s, calls l (S.n l - 1) c) := by
  unfold forwardSolveN; rw [sweepN_eq, List.length_range']; rfl

theorem cRelaxN_eq [SMul K V] [One K] [Sub K] (l : Nat) (s : GState V) (c : Calls) :
    S.cRelaxN l (s, c) = (S.cRelax l s, calls l ((S.C l).filter (· ≠ 0)).length c) := by
  unfold cRelaxN; rw [sweepN_eq]; rfl

theorem fas_fold (xs : List Nat) (a l : Nat) (f : Nat × Nat → V) (g : Nat → V) (c : Calls) :
    (xs.zipIdx a).foldl (fun (q : (Nat → V) × Calls) ck => if ck.2 = 0 then q else
      (Function.update q.1 ck.2 (f ck), call (l + 1) (call l q.2))) (g, c) =
    ((xs.zipIdx a).foldl (fun (g : Nat → V) ck => if ck.2 = 0 then g else Function.update g ck.2 (f ck)) g,
      calls (l + 1) (xs.length - (1 - a)) (calls l (xs.length - (1 - a)) c)) := by
  induction xs generalizing a g c with
  | nil => simp [calls]
  | cons x xs ih =>
    rw [List.zipIdx_cons, List.foldl_cons, List.foldl_cons]
    by_cases ha : a = 0
    · subst ha
      simp only [if_true]
      rw [ih]
      simp
    · simp only [ha, if_false]
      rw [ih]
      have e1 : xs.length - (1 - (a + 1)) = xs.length := by omega
      have e2 : (x :: xs).length - (1 - a) = xs.length + 1 := by simp; omega
      rw [e1, e2]
      congr 1
      funext j
      by_cases h1 : j = l
      · subst h1; simp [calls, call]; ring
      · by_cases h2 : j = l + 1
        · subst h2; simp [calls, call]; ring
        · simp [calls, call, h1, h2]

theorem fasResidualN_eq [Sub V] (l : Nat) (s : GState V) (c : Calls) :
    S.fasResidualN l (s, c) = (S.fasResidual l s, calls (l + 1) ((S.C l).length - 1) (calls l ((S.C l).length - 1) c)) := by
  unfold fasResidualN fasResidual
  simp only
  rw [fas_fold]

theorem residualsN_eq [Sub V] (s : GState V) (c : Calls) :
    S.residualsN (s, c) = (S.residuals s, calls 0 ((S.C 0).filter (· ≠ 0)).length c) := by
  unfold residualsN residuals
  simp only
  have : ∀ (xs : List Nat) (ys : List V) (c : Calls),
      xs.foldl (fun (q : List V × Calls) i => (q.1 ++ [S.Φ 0 i (s.u 0 (i - 1)) - s.u 0 i], call 0 q.2)) (ys, c) =
        (ys ++ xs.map (fun i => S.Φ 0 i (s.u 0 (i - 1)) - s.u 0 i), calls 0 xs.length c) := by
    intro xs
    induction xs with
    | nil => intro ys c; simp [calls]
    | cons x xs ih =>
      intro ys c
      rw [List.foldl_cons, ih, call_calls]
      simp
  rw [this]
  simp

/-- Calls of one operation. -/
def opCalls (S : Sys V K) : OpKind → Nat → Calls → Calls
  | .fRelax, l => calls l (S.F l).length
  | .cRelax, l => calls l ((S.C l).filter (· ≠ 0)).length
  | .fas, l => fun c => calls (l + 1) ((S.C l).length - 1) (calls l ((S.C l).length - 1) c)
  | .solve, l => calls l (S.n l - 1)
  | _, _ => id

theorem opN_eq [Sub V] [SMul K V] [One K] [Sub K] (o : OpKind) (l : Nat) (s : GState V) (c : Calls) :
    S.opN o l (s, c) = (S.op S.forwardSolve o l s, S.opCalls o l c) := by
  cases o
  · exact S.fRelaxN_eq l s c
  · exact S.cRelaxN_eq l s c
  · exact S.fasResidualN_eq l s c
  · rfl
  · exact S.forwardSolveN_eq l s c
  · rfl

theorem runLog_opN [Sub V] [SMul K V] [One K] [Sub K] (xs : List (OpKind × Nat)) (s : GState V) (c : Calls) :
    Trace.runLog S.opN xs (s, c) = (Trace.runLog (S.op S.forwardSolve) xs s, Trace.runLog S.opCalls xs c) := by
  induction xs generalizing s c with
  | nil => rfl
  | cons x xs ih =>
    show Trace.runLog S.opN xs (S.opN x.1 x.2 (s, c)) = _
    rw [opN_eq, ih]
    rfl

end

end Sys
end Pymgrit
