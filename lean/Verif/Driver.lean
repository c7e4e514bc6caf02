import Verif.Seq

/-!
# The driver on one time process

Model of the second half of the constructor and of `solve` (`/repo/src/pymgrit/core/mgrit.py`) for a
run on one time process with a global convergence criterion, on top of the sweeps of `Verif.Seq`.
`Verif.Dist3` proves that the distributed program of `Verif.Proc` computes the same on any number of
processes.
-/

namespace Pymgrit

/-- Control parameters of a run (constructor arguments, mgrit.py:33-37).  `norm` is `Vector.norm`,
`tnorm` is `np.linalg.norm(.., ord=self.t_norm)`, `ltTol x` is `x < self.tol`; `outLvl` is
`self.output_lvl` if an output function was given and 0 otherwise (mgrit.py:199-203). -/
structure Ctl (V N : Type) where
  cyc : Sys.Cycle
  nested : Bool
  maxIter : Nat
  convCrit : Nat
  norm : V → N
  tnorm : List N → N
  ltTol : N → Bool
  outLvl : Nat

/-- State of a run: the arrays, `save_values_last_iter`, `self.conv`, `self.solve_iter`, and the
calls of `output_fcn` made so far (iteration number and fine-level values at the time of the call). -/
@[ext] structure Run (V N : Type) where
  st : GState V
  saved : Nat → V
  conv : Nat → N
  iter : Nat
  outs : List (Nat × (Nat → V))

namespace Run
variable {V N : Type}

/-- A call of `output_fcn` (mgrit.py:237-238, 623-624, 641-642). -/
def output (s : Run V N) : Run V N := { s with outs := s.outs ++ [(s.iter, s.st.u 0)] }

end Run

namespace Sys
variable {V K N : Type} [Add V] [Sub V] (S : Sys V K) (c : Ctl V N)

/-- `convergence_criterion` (mgrit.py:415-457), global criteria only. -/
def convergence (it : Nat) (s : Run V N) : Run V N :=
  if c.convCrit = 0 then
    { s with conv := Function.update s.conv it (c.tnorm ((S.residuals s.st).map c.norm)) }
  else
    { s with conv := Function.update s.conv it (c.tnorm ((S.jumps s.saved s.st).map c.norm))
             saved := s.st.u 0 }

variable [SMul K V] [One K] [Sub K] (coarse : Nat → GState V → GState V)

/-- Body of the loop in `solve` up to the stopping test (mgrit.py:604-624). -/
def solveBody (it : Nat) (s : Run V N) : Run V N :=
  let s := S.convergence c (it + 1)
    { s with iter := it + 1, st := S.fineIteration coarse c.cyc it s.st }
  if c.outLvl = 2 then s.output else s

/-- The stopping test (mgrit.py:626-629). -/
def stops (it : Nat) (s : Run V N) : Bool :=
  c.ltTol (s.conv (it + 1)) || decide (it + 1 = c.maxIter)

/-- Loop of `solve` (mgrit.py:603-634); `k` is the number of remaining passes of
`for iteration in range(self.iter_max)`, `it` the value of `iteration`. -/
def solveLoop : Nat → Nat → Run V N → Run V N
  | 0, _, s => s
  | k + 1, it, s =>
    let s := S.solveBody c coarse it s
    if stops c it s then s else solveLoop k (it + 1) s

/-- `solve` (mgrit.py:590-646) without the returned dictionary. -/
def solve (s : Run V N) : Run V N :=
  let s := S.solveLoop c coarse c.maxIter 0 s
  if c.outLvl = 1 then s.output else s

/-- The part of the constructor after the arrays have been created (mgrit.py:230-240). -/
def setup (s : Run V N) : Run V N :=
  let s := if c.nested then { s with st := S.nestedIteration coarse s.st } else s
  let s := if c.convCrit = 1 then { s with saved := s.st.u 0 } else s
  if c.outLvl = 2 then s.output else s

end Sys

namespace Run
variable {V N : Type}

/-- Initial arrays and bookkeeping (`create_u_v_g`, mgrit.py:840-858, and 158, 163, 190). -/
def init [Zero N] (start : Nat → V) (zero : Nat → V) (guess : Nat → V) : Run V N where
  st :=
    { u := fun l i => if i = 0 then start l else if l = 0 then guess i else zero l
      v := fun l _ => zero l
      g := fun l _ => zero l }
  saved := fun _ => zero 0
  conv := fun _ => 0
  iter := 0
  outs := []

/-- The `'conv'` entry of the returned dictionary (mgrit.py:645). -/
def history [Zero N] [DecidableEq N] (c : Ctl V N) (s : Run V N) : List N :=
  ((List.range (c.maxIter + 1)).map s.conv).filter fun x => decide (x ≠ 0)

end Run
end Pymgrit
