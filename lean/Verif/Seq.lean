import Mathlib.Logic.Function.Basic
import Mathlib.Algebra.Group.Defs

/-!
# Sweeps of the MGRIT algorithm over global time-point indices

Model of the numerical part of `/repo/src/pymgrit/core/mgrit.py` as pure functions on arrays
indexed by the global index of a time point.  For a run on one time process (`comm_time_size == 1`)
the local indices of the code *are* the global indices, no message is exchanged, and these functions
are the code, up to the visiting order of F-points (`index_local_f`), which is a field of the model.
For runs on several processes see `Verif.Proc`; `Verif.Dist` proves that the distributed program
computes exactly these functions.

Simplifications: Python lists are total functions `Nat → V` (indices outside the grid are never
read, see `Verif.Props`); `logging`/timing calls are dropped; vectors are immutable values.
-/

namespace Pymgrit

/-- Static data of a solver run, in global indices.

* `L` – `self.lvl_max` (mgrit.py:148)
* `n l` – number of time points of level `l`, `len(problem[l].t)`
* `C l` – `all_cpts` of level `l` (mgrit.py:767-770), ascending
* `F l` – the F-points of level `l` in visiting order (mgrit.py:771-776)
* `Φ l i x` – `self.step[l](u_start=x, t_start=t[i-1], t_stop=t[i])` (mgrit.py:221, 321-323)
* `R l`, `I l` – `self.restriction[l]`, `self.interpolation[l]` (mgrit.py:209-210)
* `cf l` – `self.cf_iter[l]` (mgrit.py:159); negative values act like 0 in `range`
* `w` – `self.weight_c` (mgrit.py:147) -/
structure Sys (V K : Type) where
  L : Nat
  n : Nat → Nat
  C : Nat → List Nat
  F : Nat → List Nat
  Φ : Nat → Nat → V → V
  R : Nat → V → V
  I : Nat → V → V
  cf : Nat → Nat
  w : K

/-- Mutable data `self.u`, `self.v`, `self.g` (mgrit.py:150-152): level, then time index. -/
@[ext] structure GState (V : Type) where
  u : Nat → Nat → V
  v : Nat → Nat → V
  g : Nat → Nat → V

/-- Write the solution array of one level: `self.u[l] = x`. -/
def GState.setU {V : Type} (s : GState V) (l : Nat) (x : Nat → V) : GState V :=
  { s with u := Function.update s.u l x }

/-- A Python loop `for i in idx: u[i] = f(u, i)`. -/
def sweep {V : Type} (idx : List Nat) (f : (Nat → V) → Nat → V) (u : Nat → V) : Nat → V :=
  idx.foldl (fun u i => Function.update u i (f u i)) u

namespace Sys

variable {V K : Type} (S : Sys V K)

section ops
variable [Add V]

/-- The update `step(...)` on level 0 and `g[lvl][i] + step(...)` on coarser levels
(mgrit.py:320-327, 359-368, 474-481). -/
def prop (g : Nat → Nat → V) (l i : Nat) (x : V) : V :=
  if l = 0 then S.Φ l i x else g l i + S.Φ l i x

/-- `f_relax` (mgrit.py:292-333) without the message passing. -/
def fRelax (l : Nat) (s : GState V) : GState V :=
  s.setU l (sweep (S.F l) (fun u i => S.prop s.g l i (u (i - 1))) (s.u l))

/-- `forward_solve` (mgrit.py:459-486) without the message passing:
`for i in range(1, len(self.u[lvl]))`. -/
def forwardSolve (l : Nat) (s : GState V) : GState V :=
  s.setU l (sweep (List.range' 1 (S.n l - 1)) (fun u i => S.prop s.g l i (u (i - 1))) (s.u l))

/-- `c_relax` (mgrit.py:335-370) without the message passing; the initial point (`i == 0` on
rank 0) is skipped (mgrit.py:357). -/
def cRelax [SMul K V] [One K] [Sub K] (l : Nat) (s : GState V) : GState V :=
  s.setU l (sweep ((S.C l).filter (· ≠ 0))
    (fun u i => S.w • S.prop s.g l i (u (i - 1)) + (1 - S.w) • u i) (s.u l))

/-- `R(residual)` part of the FAS right-hand side: on level 0 `restriction(step(..) - u)`
(mgrit.py:529-532), on coarser levels `restriction(g - u + step(..))` (mgrit.py:539-543). -/
def fasRes [Sub V] (s : GState V) (l c : Nat) : V :=
  if l = 0 then S.R l (S.Φ l c (s.u l (c - 1)) - s.u l c)
  else S.R l (s.g l c - s.u l c + S.Φ l c (s.u l (c - 1)))

/-- `fas_residual` (mgrit.py:488-549) without the message passing.  First loop: restriction of all
C-points (498-500); then `v[lvl+1] = clone of u[lvl+1]` (520); last loop: `g[lvl+1][i]` for all
C-points but the initial one (524-547). -/
def fasResidual [Sub V] (l : Nat) (s : GState V) : GState V :=
  let u1 : Nat → V := (S.C l).zipIdx.foldl
    (fun (u : Nat → V) ck => Function.update u ck.2 (S.R l (s.u l ck.1))) (s.u (l + 1))
  let g1 : Nat → V := (S.C l).zipIdx.foldl
    (fun (g : Nat → V) ck => if ck.2 = 0 then g else
      Function.update g ck.2
        (S.fasRes s l ck.1 + u1 ck.2 - S.Φ (l + 1) ck.2 (u1 (ck.2 - 1)))) (s.g (l + 1))
  { u := Function.update s.u (l + 1) u1
    v := Function.update s.v (l + 1) u1
    g := Function.update s.g (l + 1) g1 }

/-- `error_correction` (mgrit.py:715-726). -/
def errorCorrection [Sub V] (l : Nat) (s : GState V) : GState V :=
  s.setU l ((S.C l).zipIdx.foldl (fun (u : Nat → V) ck => if ck.2 = 0 then u else
    Function.update u ck.1 (u ck.1 + S.I l (s.u (l + 1) ck.2 - s.v (l + 1) ck.2))) (s.u l))

/-- Cycle types accepted by the constructor (mgrit.py:87-88). -/
inductive Cycle | V | F
  deriving DecidableEq, Repr

/-- Repeat `f` `k` times: `for _ in range(k)`. -/
def times {α : Type} (f : α → α) : Nat → α → α
  | 0, s => s
  | k + 1, s => times f k (f s)

/-- `iteration` (mgrit.py:261-290) on level `l`.  The recursion of the code goes to `lvl + 1` and,
for an F-cycle, once more to the same level with a V-cycle; the fuel `d` is `lvl_max - 1 - l`, the
distance to the coarsest level, so `d = 0` is the test `lvl == self.lvl_max - 1`.
`vcyc` is the V-cycle, `iteration` covers both cycle types (two functions so that the recursion is
structural; `iteration_eq` in `Verif.SeqLemmas` is the recursion equation of the code).  `coarse` is
the coarsest-level solver (`forward_solve`, overridden in `AtMgrit`). -/
def vcyc [Sub V] [SMul K V] [One K] [Sub K] (coarse : Nat → GState V → GState V) :
    Nat → Nat → Nat → Bool → GState V → GState V
  | 0, l, _, _, s => coarse l s
  | d + 1, l, it, firstF, s =>
    let s := if (0 < l ∨ (it = 0 ∧ l = 0)) ∧ firstF then S.fRelax l s else s
    let s := times (fun s => S.fRelax l (S.cRelax l s)) (S.cf l) s
    let s := S.fasResidual l s
    let s := vcyc coarse d (l + 1) it true s
    let s := S.errorCorrection l s
    S.fRelax l s

/-- See `vcyc`. -/
def iteration [Sub V] [SMul K V] [One K] [Sub K] (coarse : Nat → GState V → GState V) :
    Nat → Nat → Cycle → Nat → Bool → GState V → GState V
  | 0, l, _, _, _, s => coarse l s
  | d + 1, l, cyc, it, firstF, s =>
    let s := if (0 < l ∨ (it = 0 ∧ l = 0)) ∧ firstF then S.fRelax l s else s
    let s := times (fun s => S.fRelax l (S.cRelax l s)) (S.cf l) s
    let s := S.fasResidual l s
    let s := iteration coarse d (l + 1) cyc it true s
    let s := S.errorCorrection l s
    let s := S.fRelax l s
    if l ≠ 0 ∧ cyc = Cycle.F then S.vcyc coarse (d + 1) l it false s else s

/-- The interpolation loop of `nested_iteration` (mgrit.py:560-563). -/
def interpolate (l : Nat) (s : GState V) : GState V :=
  s.setU l ((S.C l).zipIdx.foldl (fun (u : Nat → V) ck => if ck.2 = 0 then u else
    Function.update u ck.1 (S.I l (s.u (l + 1) ck.2))) (s.u l))

/-- The loop `for lvl in range(self.lvl_max - 2, -1, -1)` of `nested_iteration`
(mgrit.py:559-566); `nestedLoop l` handles levels `l-1, ..., 0`. -/
def nestedLoop [Sub V] [SMul K V] [One K] [Sub K] (coarse : Nat → GState V → GState V) :
    Nat → GState V → GState V
  | 0, s => s
  | l + 1, s =>
    let s := S.interpolate l s
    let s := if 0 < l then S.iteration coarse (S.L - 1 - l) l Cycle.V 0 true s else s
    nestedLoop coarse l s

/-- `nested_iteration` (mgrit.py:551-566). -/
def nestedIteration [Sub V] [SMul K V] [One K] [Sub K] (coarse : Nat → GState V → GState V)
    (s : GState V) : GState V :=
  S.nestedLoop coarse (S.L - 1) (coarse (S.L - 1) s)

/-- One fine-level iteration as called by `solve` (mgrit.py:606). -/
def fineIteration [Sub V] [SMul K V] [One K] [Sub K] (coarse : Nat → GState V → GState V)
    (cyc : Cycle) (it : Nat) (s : GState V) : GState V :=
  S.iteration coarse (S.L - 1) 0 cyc it true s

/-- `compute_residual` (mgrit.py:387-413) without the message passing: spatial residuals
`step(u[i-1]) - u[i]` at the C-points other than the initial one, in ascending order. -/
def residuals [Sub V] (s : GState V) : List V :=
  ((S.C 0).filter (· ≠ 0)).map fun i => S.Φ 0 i (s.u 0 (i - 1)) - s.u 0 i

/-- `compute_jump` (mgrit.py:372-385): differences to the saved values at the C-points. -/
def jumps [Sub V] (saved : Nat → V) (s : GState V) : List V :=
  ((S.C 0).filter (· ≠ 0)).map fun i => s.u 0 i - saved i

end ops

end Sys
end Pymgrit
