import Verif.Seq

/-!
# The sequence of operations of a cycle

The cycle functions of `Verif.Seq` (`iteration`, `nested_iteration`) once more, over arbitrary implementations of the
operations they call.  With the operations of `Verif.Seq` they are the functions of `Verif.Seq`; with operations that
append their name to a log they give the order in which the operations are called; with operations that count calls
of `step()` they give the work.
-/

namespace Pymgrit
open Sys

/-- The operations called by `iteration` and `nested_iteration`: `f_relax`, `c_relax`, `fas_residual`,
`error_correction`, `forward_solve`, and the interpolation loop (mgrit.py:271-290, 556-563). -/
inductive OpKind | fRelax | cRelax | fas | corr | solve | interp
  deriving DecidableEq, Repr

namespace Trace

variable {α : Type}

/-- `iteration` (mgrit.py:261-290) with `cycle_type = 'V'` over the operations `op`; see `Sys.vcyc`. -/
def vcyc (cf : Nat → Nat) (op : OpKind → Nat → α → α) : Nat → Nat → Nat → Bool → α → α
  | 0, l, _, _, s => op .solve l s
  | d + 1, l, it, firstF, s =>
    let s := if (0 < l ∨ (it = 0 ∧ l = 0)) ∧ firstF then op .fRelax l s else s
    let s := times (fun s => op .fRelax l (op .cRelax l s)) (cf l) s
    let s := op .fas l s
    let s := vcyc cf op d (l + 1) it true s
    let s := op .corr l s
    op .fRelax l s

/-- `iteration` (mgrit.py:261-290) over the operations `op`; see `Sys.iteration`. -/
def iteration (cf : Nat → Nat) (op : OpKind → Nat → α → α) : Nat → Nat → Cycle → Nat → Bool → α → α
  | 0, l, _, _, _, s => op .solve l s
  | d + 1, l, cyc, it, firstF, s =>
    let s := if (0 < l ∨ (it = 0 ∧ l = 0)) ∧ firstF then op .fRelax l s else s
    let s := times (fun s => op .fRelax l (op .cRelax l s)) (cf l) s
    let s := op .fas l s
    let s := iteration cf op d (l + 1) cyc it true s
    let s := op .corr l s
    let s := op .fRelax l s
    if l ≠ 0 ∧ cyc = Cycle.F then vcyc cf op (d + 1) l it false s else s

/-- The loop of `nested_iteration` (mgrit.py:559-566) over the operations `op`; see `Sys.nestedLoop`. -/
def nestedLoop (L : Nat) (cf : Nat → Nat) (op : OpKind → Nat → α → α) : Nat → α → α
  | 0, s => s
  | l + 1, s =>
    let s := op .interp l s
    let s := if 0 < l then iteration cf op (L - 1 - l) l Cycle.V 0 true s else s
    nestedLoop L cf op l s

/-- `nested_iteration` (mgrit.py:551-566) over the operations `op`. -/
def nested (L : Nat) (cf : Nat → Nat) (op : OpKind → Nat → α → α) (s : α) : α :=
  nestedLoop L cf op (L - 1) (op .solve (L - 1) s)

/-- The operation that only writes its name and level to a log. -/
def record (o : OpKind) (l : Nat) (log : List (OpKind × Nat)) : List (OpKind × Nat) := log ++ [(o, l)]

/-- The operations called by one iteration on level `l`, in order. -/
def log (cf : Nat → Nat) (d l : Nat) (cyc : Cycle) (it : Nat) (firstF : Bool) : List (OpKind × Nat) :=
  iteration cf record d l cyc it firstF []

/-- The operations called by `nested_iteration`, in order. -/
def nestedLog (L : Nat) (cf : Nat → Nat) : List (OpKind × Nat) := nested L cf record []

/-- Call the operations of a log one after the other. -/
def runLog (op : OpKind → Nat → α → α) (log : List (OpKind × Nat)) (s : α) : α :=
  log.foldl (fun s o => op o.1 o.2 s) s

end Trace

/-- The operations of `Verif.Seq` (mgrit.py:292-566, 715-726). -/
def Sys.op {V K : Type} [Add V] [Sub V] [SMul K V] [One K] [Sub K] (S : Sys V K)
    (coarse : Nat → GState V → GState V) : OpKind → Nat → GState V → GState V
  | .fRelax => S.fRelax
  | .cRelax => S.cRelax
  | .fas => S.fasResidual
  | .corr => S.errorCorrection
  | .solve => coarse
  | .interp => S.interpolate

namespace Trace

section
variable {V K : Type} [Add V] [Sub V] [SMul K V] [One K] [Sub K] (S : Sys V K) (coarse : Nat → GState V → GState V)

theorem vcyc_sys (d l it : Nat) (ff : Bool) (s : GState V) :
    S.vcyc coarse d l it ff s = vcyc S.cf (S.op coarse) d l it ff s := by
  induction d generalizing l ff s with
  | zero => rfl
  | succ d ih => simp only [Sys.vcyc, vcyc, ih]; rfl

theorem iteration_sys (d l : Nat) (cyc : Cycle) (it : Nat) (ff : Bool) (s : GState V) :
    S.iteration coarse d l cyc it ff s = iteration S.cf (S.op coarse) d l cyc it ff s := by
  induction d generalizing l ff s with
  | zero => rfl
  | succ d ih => simp only [Sys.iteration, iteration, ih, vcyc_sys]; rfl

theorem nestedLoop_sys (l : Nat) (s : GState V) :
    S.nestedLoop coarse l s = nestedLoop S.L S.cf (S.op coarse) l s := by
  induction l generalizing s with
  | zero => rfl
  | succ l ih => simp only [Sys.nestedLoop, nestedLoop, ih, iteration_sys]; rfl

theorem nested_sys (s : GState V) : S.nestedIteration coarse s = nested S.L S.cf (S.op coarse) s :=
  nestedLoop_sys S coarse _ _

end

/-- The operations of one V-cycle as a list. -/
def vops (cf : Nat → Nat) : Nat → Nat → Nat → Bool → List (OpKind × Nat)
  | 0, l, _, _ => [(.solve, l)]
  | d + 1, l, it, ff =>
    (if (0 < l ∨ (it = 0 ∧ l = 0)) ∧ ff then [(OpKind.fRelax, l)] else []) ++
    (List.replicate (cf l) [(OpKind.cRelax, l), (OpKind.fRelax, l)]).flatten ++
    [(OpKind.fas, l)] ++ vops cf d (l + 1) it true ++ [(OpKind.corr, l), (OpKind.fRelax, l)]

/-- The operations of one iteration as a list. -/
def ops (cf : Nat → Nat) : Nat → Nat → Cycle → Nat → Bool → List (OpKind × Nat)
  | 0, l, _, _, _ => [(.solve, l)]
  | d + 1, l, cyc, it, ff =>
    (if (0 < l ∨ (it = 0 ∧ l = 0)) ∧ ff then [(OpKind.fRelax, l)] else []) ++
    (List.replicate (cf l) [(OpKind.cRelax, l), (OpKind.fRelax, l)]).flatten ++
    [(OpKind.fas, l)] ++ ops cf d (l + 1) cyc it true ++ [(OpKind.corr, l), (OpKind.fRelax, l)] ++
    if l ≠ 0 ∧ cyc = Cycle.F then vops cf (d + 1) l it false else []

/-- The operations of the loop of nested iteration as a list. -/
def nops (L : Nat) (cf : Nat → Nat) : Nat → List (OpKind × Nat)
  | 0 => []
  | l + 1 => (OpKind.interp, l) :: (if 0 < l then ops cf (L - 1 - l) l Cycle.V 0 true else []) ++ nops L cf l

variable {α : Type}

theorem runLog_append (op : OpKind → Nat → α → α) (a b : List (OpKind × Nat)) (s : α) :
    runLog op (a ++ b) s = runLog op b (runLog op a s) := by simp [runLog, List.foldl_append]

theorem runLog_times (op : OpKind → Nat → α → α) (l k : Nat) (s : α) :
    runLog op (List.replicate k [(OpKind.cRelax, l), (OpKind.fRelax, l)]).flatten s =
      times (fun s => op .fRelax l (op .cRelax l s)) k s := by
  induction k generalizing s with
  | zero => rfl
  | succ k ih => rw [List.replicate_succ, List.flatten_cons, runLog_append, ih]; rfl

theorem vcyc_run (cf : Nat → Nat) (op : OpKind → Nat → α → α) (d l it : Nat) (ff : Bool) (s : α) :
    vcyc cf op d l it ff s = runLog op (vops cf d l it ff) s := by
  induction d generalizing l ff s with
  | zero => rfl
  | succ d ih =>
    simp only [vcyc, vops, runLog_append, runLog_times, ih]
    split <;> rfl

theorem iteration_run (cf : Nat → Nat) (op : OpKind → Nat → α → α) (d l : Nat) (cyc : Cycle) (it : Nat)
    (ff : Bool) (s : α) : iteration cf op d l cyc it ff s = runLog op (ops cf d l cyc it ff) s := by
  induction d generalizing l ff s with
  | zero => rfl
  | succ d ih =>
    simp only [iteration, ops, runLog_append, runLog_times, ih, vcyc_run]
    by_cases h : l ≠ 0 ∧ cyc = Cycle.F
    · rw [if_pos h, if_pos h]
      split <;> rfl
    · rw [if_neg h, if_neg h]
      split <;> rfl

theorem nestedLoop_run (L : Nat) (cf : Nat → Nat) (op : OpKind → Nat → α → α) (l : Nat) (s : α) :
    nestedLoop L cf op l s = runLog op (nops L cf l) s := by
  induction l generalizing s with
  | zero => rfl
  | succ l ih =>
    simp only [nestedLoop, nops, List.cons_append]
    rw [ih, show ∀ (o : OpKind × Nat) xs, o :: xs = [o] ++ xs from fun _ _ => rfl, runLog_append, runLog_append]
    split
    · rw [iteration_run]; rfl
    · rfl

theorem runLog_record (a b : List (OpKind × Nat)) : runLog record a b = b ++ a := by
  induction a generalizing b with
  | nil => simp [runLog]
  | cons x a ih =>
    have h : runLog record (x :: a) b = runLog record a (record x.1 x.2 b) := rfl
    rw [h, ih]
    simp [record]

theorem log_eq (cf : Nat → Nat) (d l : Nat) (cyc : Cycle) (it : Nat) (ff : Bool) :
    log cf d l cyc it ff = ops cf d l cyc it ff := by rw [log, iteration_run, runLog_record, List.nil_append]

theorem vlog_eq (cf : Nat → Nat) (d l it : Nat) (ff : Bool) :
    vcyc cf record d l it ff [] = vops cf d l it ff := by rw [vcyc_run, runLog_record, List.nil_append]

theorem nestedLog_eq (L : Nat) (cf : Nat → Nat) : nestedLog L cf = (OpKind.solve, L - 1) :: nops L cf (L - 1) := by
  rw [nestedLog, nested, nestedLoop_run, runLog_record]; rfl

theorem ops_V (cf : Nat → Nat) (d l it : Nat) (ff : Bool) : ops cf d l Cycle.V it ff = vops cf d l it ff := by
  induction d generalizing l ff with
  | zero => rfl
  | succ d ih => simp [ops, vops, ih]

/-- An iteration is the sequence of the operations of its log, for the operations of the solver. -/
theorem iteration_log {V K : Type} [Add V] [Sub V] [SMul K V] [One K] [Sub K] (S : Sys V K)
    (coarse : Nat → GState V → GState V) (d l : Nat) (cyc : Cycle) (it : Nat) (ff : Bool) (s : GState V) :
    S.iteration coarse d l cyc it ff s = runLog (S.op coarse) (log S.cf d l cyc it ff) s := by
  rw [iteration_sys, iteration_run, log_eq]

/-- Nested iteration is the sequence of the operations of its log. -/
theorem nested_log {V K : Type} [Add V] [Sub V] [SMul K V] [One K] [Sub K] (S : Sys V K)
    (coarse : Nat → GState V → GState V) (s : GState V) :
    S.nestedIteration coarse s = runLog (S.op coarse) (nestedLog S.L S.cf) s := by
  rw [nested_sys, nested, nestedLoop_run, nestedLog_eq]; rfl

end Trace
end Pymgrit
