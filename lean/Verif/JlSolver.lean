import Verif.Driver
import Verif.Grid
import Mathlib.Algebra.Order.Field.Basic

/-!
# The solvers of the induction machine

Model of `MgritMachine` (`/repo/src/pymgrit/induction_machine/mgrit_machine.py`) and `MgritMachineConvJl`
(`mgrit_machine_conv_jl.py`) as far as they differ from `Mgrit`, on one time process (`jlValue` on any number).  A call
returns the state it leaves behind and the exception it raised, if any.

The methods `f_exchange` and `c_exchange` called there are defined nowhere in the package, so the first of these calls
raises `AttributeError`; code after it is unreachable and not modelled.
-/

namespace Pymgrit
namespace Jl
open Sys

/-- The exceptions raised. -/
inductive Exc | attributeError | typeError
  deriving DecidableEq, Repr

/-- State: the arrays and the last entry of `problem[l].fopt` (the value of `Flag_PWM`, induction_machine.py:64-66). -/
@[ext] structure MState (V : Type) where
  st : GState V
  flag : Nat → Int

variable {V K : Type} [Add V]

/-- mgrit_machine.py:30-36, mgrit_machine_conv_jl.py:38-44: if the finest problem has a PWM source, switch all problems
to the sinusoidal source. -/
def toSine (L : Nat) (pwm : Nat → Int) (s : MState V) : MState V :=
  if pwm 0 ≠ 0 then { s with flag := fun l => if l < L then 0 else s.flag l } else s

/-- mgrit_machine.py:50-52, mgrit_machine_conv_jl.py:58-60: back to the source given to the constructor. -/
def toPwm (L : Nat) (pwm : Nat → Int) (s : MState V) : MState V :=
  if pwm 0 ≠ 0 then { s with flag := fun l => if l < L then pwm l else s.flag l } else s

/-- The interpolation loop (mgrit_machine.py:41-43, mgrit_machine_conv_jl.py:49-51): like that of `Mgrit`, but also for
the initial point. -/
def interpAll (S : Sys V K) (l : Nat) (s : GState V) : GState V :=
  s.setU l ((S.C l).zipIdx.foldl (fun (u : Nat → V) ck => Function.update u ck.1 (S.I l (s.u (l + 1) ck.2))) (s.u l))

/-- `nested_iteration` (mgrit_machine.py:22-52, mgrit_machine_conv_jl.py:30-60), the same text in both classes.  `S fl` is
the system whose steps call the solver with the flags `fl`.  With two or more levels the first pass of the loop ends in
`self.f_exchange(lvl)`. -/
def nested (S : (Nat → Int) → Sys V K) (L : Nat) (pwm : Nat → Int) (s : MState V) : MState V × Option Exc :=
  let s := toSine L pwm s
  let s := { s with st := (S s.flag).forwardSolve (L - 1) s.st }
  if 2 ≤ L then ({ s with st := interpAll (S s.flag) (L - 2) s.st }, some .attributeError)
  else (toPwm L pwm s, none)

/-- `iteration` of `MgritMachineConvJl` (mgrit_machine_conv_jl.py:62-96) on level `l` with `d` coarser levels; `cf_iter`
is a list after the constructor of `Mgrit` (mgrit.py:110-119), so `range(self.cf_iter)` raises `TypeError`. -/
def iteration (S : Sys V K) (d l : Nat) (firstF : Bool) (s : GState V) : GState V × Option Exc :=
  match d with
  | 0 => (S.forwardSolve l s, none)
  | _ + 1 => if firstF then (S.fRelax l s, some .attributeError) else (s, some .typeError)

variable [Sub V] {N : Type}

/-- `solve` of `MgritMachineConvJl` (mgrit_machine_conv_jl.py:121-147) with `max_iter ≥ 1`: the loop of `Mgrit.solve`
(mgrit.py:603-634) without output function, ended by the exception of its first iteration if there are two or more levels;
then, if asked for, an F-relaxation of the finest level, and one call of the output function. -/
def solve [SMul K V] [One K] [Sub K] (S : Sys V K) (c : Ctl V N) (hasOut fAfter : Bool) (s : Run V N) :
    Run V N × Option Exc :=
  match S.L - 1 with
  | 0 =>
    let s := S.solve { c with outLvl := 0 } S.forwardSolve s
    let s := if fAfter then { s with st := S.fRelax 0 s.st } else s
    (if hasOut then s.output else s, none)
  | d + 1 =>
    let r := iteration S (d + 1) 0 true s.st
    ({ s with iter := 1, st := r.1 }, r.2)

section criterion
variable {F : Type} [Field F] [LinearOrder F]

/-- `np.divide(new - last, new, out=zeros, where=new != 0)` for one entry (mgrit_machine_conv_jl.py:114-115). -/
def relChange (last new : F) : F := if new ≠ 0 then (new - last) / new else 0

/-- `np.max` of a nonempty array of nonnegative numbers. -/
def npMax (xs : List F) : F := xs.foldl max 0

/-- The contribution `tmp` of one process (mgrit_machine_conv_jl.py:104-115) from the joule losses at its C-points;
`last` is `self.last_it` after the check of its length: zeros if the lengths differ. -/
def jlLocal (last new : List F) : F :=
  let last := if last.length ≠ new.length then List.replicate new.length 0 else last
  if 0 < new.length then 100 * npMax ((List.zipWith relChange last new).map fun x => |x|) else 0

/-- `self.conv[iteration]` (mgrit_machine_conv_jl.py:117-118): the maximum over the processes after `allgather`.  The same
method, with the name `convergence_criterion` and thus called by `solve`, is in examples/at_mgrit/runme_machine.py:20-40,
94-114. -/
def jlValue (P : Nat) (last new : Nat → List F) : F := npMax ((List.range P).map fun r => |jlLocal (last r) (new r)|)

/-- `u[0][i].jl for i in index_local_c[0]` of process `r` (mgrit_machine_conv_jl.py:111-113), with `jl t` the losses at the
point with time `t` and the points of the process from `setupLevel`. -/
def jlPoints {T : Type} [LinearOrder T] [Inhabited T] (ts : List (List T)) (P : Nat) (ord : List Nat → List Nat)
    (jl : T → F) (r : Nat) : List F :=
  let J := setupLevel ts P ord r 0
  J.idxC.map fun j => jl (tAt J.t j)

end criterion

end Jl
end Pymgrit
