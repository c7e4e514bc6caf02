import Verif.Trace
import Verif.Driver

/-!
# Steps with a memory

The sweeps of `Verif.Seq` for application objects whose `step()` depends on the earlier calls: the nonlinear and linear
solvers of the Firedrake applications start from the result of the previous call (`self.u_n1` and `self.soln` are both
unknown and initial guess, burgers_firedrake.py:50-53, 62-75, 107-110, 119-133, diffusion_2d_firedrake.py:63-68, 81-99), and
so does every user class that keeps its last solution.  A call gets the memory of all objects and returns the new one.  The calls are in the order of the code.

On one time process.  On several processes every process has its own objects; since a call knows the point it is made for,
a memory with one component per process is covered, up to the order of calls that touch different components.
-/

namespace Pymgrit
namespace Memory
open Sys

/-- `step[l]` from point `i - 1` to point `i` of level `l`, with the memory `σ` of the objects. -/
abbrev MStep (V σ : Type) := σ → Nat → Nat → V → V × σ

variable {V K σ : Type} (S : Sys V K) (st : MStep V σ)

/-- A loop `for i in idx: u[i] = f(u, i, step(u[i - 1]))`. -/
def sweepM (l : Nat) (idx : List Nat) (f : (Nat → V) → Nat → V → V) (p : (Nat → V) × σ) : (Nat → V) × σ :=
  idx.foldl (fun p i =>
    let r := st p.2 l i (p.1 (i - 1))
    (Function.update p.1 i (f p.1 i r.1), r.2)) p

section
variable [Add V]

/-- `step(...)` on level 0 and `g[lvl][i] + step(...)` on coarser levels (mgrit.py:320-327), given the result of the
call. -/
def addG (g : Nat → Nat → V) (l i : Nat) (y : V) : V := if l = 0 then y else g l i + y

/-- `f_relax` (mgrit.py:292-333). -/
def fRelaxM (l : Nat) (p : GState V × σ) : GState V × σ :=
  let q := sweepM st l (S.F l) (fun _ i y => addG p.1.g l i y) (p.1.u l, p.2)
  (p.1.setU l q.1, q.2)

/-- `forward_solve` (mgrit.py:459-486). -/
def forwardSolveM (l : Nat) (p : GState V × σ) : GState V × σ :=
  let q := sweepM st l (List.range' 1 (S.n l - 1)) (fun _ i y => addG p.1.g l i y) (p.1.u l, p.2)
  (p.1.setU l q.1, q.2)

/-- `c_relax` (mgrit.py:335-370). -/
def cRelaxM [SMul K V] [One K] [Sub K] (l : Nat) (p : GState V × σ) : GState V × σ :=
  let q := sweepM st l ((S.C l).filter (· ≠ 0))
    (fun u i y => S.w • addG p.1.g l i y + (1 - S.w) • u i) (p.1.u l, p.2)
  (p.1.setU l q.1, q.2)

/-- The right-hand side at one C-point (mgrit.py:528-547): `a` is the result of the fine step, `b` of the coarse one. -/
def fasRhs [Sub V] (l : Nat) (s : GState V) (u1 : Nat → V) (ck : Nat × Nat) (a b : V) : V :=
  (if l = 0 then S.R l (a - s.u l ck.1) else S.R l (s.g l ck.1 - s.u l ck.1 + a)) + u1 ck.2 - b

/-- The second loop of `fas_residual` (mgrit.py:523-547): at every C-point but the initial one the fine step, then the
coarse step. -/
def fasLoopM (l : Nat) (rhs : Nat × Nat → V → V → V) (x y : Nat × Nat → V) (cks : List (Nat × Nat))
    (q : (Nat → V) × σ) : (Nat → V) × σ :=
  cks.foldl (fun q ck => if ck.2 = 0 then q else
    let a := st q.2 l ck.1 (x ck)
    let b := st a.2 (l + 1) ck.2 (y ck)
    (Function.update q.1 ck.2 (rhs ck a.1 b.1), b.2)) q

/-- `fas_residual` (mgrit.py:488-549). -/
def fasResidualM [Sub V] (l : Nat) (p : GState V × σ) : GState V × σ :=
  let s := p.1
  let u1 : Nat → V := (S.C l).zipIdx.foldl
    (fun (u : Nat → V) ck => Function.update u ck.2 (S.R l (s.u l ck.1))) (s.u (l + 1))
  let q := fasLoopM st l (fasRhs S l s u1) (fun ck => s.u l (ck.1 - 1)) (fun ck => u1 (ck.2 - 1)) (S.C l).zipIdx
    (s.g (l + 1), p.2)
  ({ u := Function.update s.u (l + 1) u1
     v := Function.update s.v (l + 1) u1
     g := Function.update s.g (l + 1) q.1 }, q.2)

/-- The operations; the correction and the interpolation call no `step()` (mgrit.py:715-726, 560-563). -/
def opM [Sub V] [SMul K V] [One K] [Sub K] : OpKind → Nat → GState V × σ → GState V × σ
  | .fRelax => fRelaxM S st
  | .cRelax => cRelaxM S st
  | .fas => fasResidualM S st
  | .corr => fun l p => (S.errorCorrection l p.1, p.2)
  | .solve => forwardSolveM S st
  | .interp => fun l p => (S.interpolate l p.1, p.2)

/-- `iteration` on the finest level (mgrit.py:606). -/
def iterationM [Sub V] [SMul K V] [One K] [Sub K] (cyc : Cycle) (it : Nat) (p : GState V × σ) : GState V × σ :=
  Trace.iteration S.cf (opM S st) (S.L - 1) 0 cyc it true p

/-- `nested_iteration` (mgrit.py:551-566). -/
def nestedM [Sub V] [SMul K V] [One K] [Sub K] (p : GState V × σ) : GState V × σ :=
  Trace.nested S.L S.cf (opM S st) p

/-- `compute_residual` (mgrit.py:387-413). -/
def residualsM [Sub V] (p : GState V × σ) : List V × σ :=
  ((S.C 0).filter (· ≠ 0)).foldl (fun q i =>
    let r := st q.2 0 i (p.1.u 0 (i - 1))
    (q.1 ++ [r.1 - p.1.u 0 i], r.2)) ([], p.2)

end

section
variable {N : Type} [Add V] [Sub V] [SMul K V] [One K] [Sub K] (c : Ctl V N)

/-- `convergence_criterion` (mgrit.py:415-457), global criteria: the residual calls `step[0]`, the jump does not. -/
def convergenceM (it : Nat) (p : Run V N × σ) : Run V N × σ :=
  if c.convCrit = 0 then
    let q := residualsM S st (p.1.st, p.2)
    ({ p.1 with conv := Function.update p.1.conv it (c.tnorm (q.1.map c.norm)) }, q.2)
  else
    ({ p.1 with conv := Function.update p.1.conv it (c.tnorm ((S.jumps p.1.saved p.1.st).map c.norm))
                saved := p.1.st.u 0 }, p.2)

/-- Body of the loop in `solve` up to the stopping test (mgrit.py:604-624). -/
def solveBodyM (it : Nat) (p : Run V N × σ) : Run V N × σ :=
  let q := iterationM S st c.cyc it (p.1.st, p.2)
  let p := convergenceM S st c (it + 1) ({ p.1 with iter := it + 1, st := q.1 }, q.2)
  if c.outLvl = 2 then (p.1.output, p.2) else p

/-- Loop of `solve` (mgrit.py:603-634). -/
def solveLoopM : Nat → Nat → Run V N × σ → Run V N × σ
  | 0, _, p => p
  | k + 1, it, p =>
    let p := solveBodyM S st c it p
    if stops c it p.1 then p else solveLoopM k (it + 1) p

/-- `solve` (mgrit.py:590-646). -/
def solveM (p : Run V N × σ) : Run V N × σ :=
  let p := solveLoopM S st c c.maxIter 0 p
  if c.outLvl = 1 then (p.1.output, p.2) else p

/-- The part of the constructor after the arrays have been created (mgrit.py:230-240). -/
def setupM (p : Run V N × σ) : Run V N × σ :=
  let p := if c.nested then
      let q := nestedM S st (p.1.st, p.2)
      ({ p.1 with st := q.1 }, q.2)
    else p
  let p := if c.convCrit = 1 then ({ p.1 with saved := p.1.st.u 0 }, p.2) else p
  if c.outLvl = 2 then (p.1.output, p.2) else p

end

/-- Objects without memory. -/
def plain (Φ : Nat → Nat → V → V) : MStep V σ := fun m l i x => (Φ l i x, m)

end Memory
end Pymgrit
