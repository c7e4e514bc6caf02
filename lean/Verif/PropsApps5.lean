import Verif.PropsApps4
import Mathlib.Algebra.Polynomial.Eval.Defs
import Mathlib.Tactic.Ring
import Mathlib.Tactic.LinearCombination

/-!
# Allen-Cahn: the steps fulfil the documented schemes (C86)
-/

namespace Pymgrit.Apps
open Matrix Lin

variable {K : Type} [Field K]

namespace AllenCahn
variable (P : AllenCahn K)

/-- Specification: periodic five-point Laplacian. -/
def lap (v : P.Vec) (i k : Fin P.nx) : K :=
  (v (pred i, k) + v (succ i, k) + v (i, pred k) + v (i, succ k) - 4 * v (i, k)) / P.dx ^ 2

/-- Specification: reaction term. -/
def react (v : P.Vec) (i k : Fin P.nx) : K := v (i, k) * (1 - v (i, k) ^ P.nu) / P.eps ^ 2

theorem force_apply (hn : 3 ≤ P.nx) (v : P.Vec) (i k : Fin P.nx) :
    P.force v (i, k) = P.lap v i k + P.react v i k := by
  unfold force lap react
  rw [Pi.add_apply, C60_stencil P hn]
  ring

section ordered
variable [LinearOrder K] [IsStrictOrderedRing K]
variable (solve : Matrix (Fin P.nx × Fin P.nx) (Fin P.nx × Fin P.nx) K → P.Vec → P.Vec)

/-- C86.  A result of the implicit method fulfils backward Euler up to the Newton tolerance, at every grid
point. -/
theorem C86_implicit (hn : 3 ≤ P.nx) (hmax : 0 < P.maxiter) (fuel : Nat) (u x : P.Vec) (t0 t1 : K)
    (h : P.step solve .IMPL fuel u t0 t1 = some x) (i k : Fin P.nx) :
    |x (i, k) - u (i, k) - (t1 - t0) * (P.lap x i k + P.react x i k)| < P.tol := by
  unfold step at h
  rw [if_neg (by decide)] at h
  obtain ⟨r, hr, rfl⟩ := Option.map_eq_some_iff.1 h
  obtain ⟨m, -, -, hs, rfl⟩ := (P.newton_spec solve hmax _ _ fuel u 0 r).1 hr
  have := hs (i, k)
  unfold residual at this
  rw [Pi.sub_apply, Pi.sub_apply, Pi.smul_apply, force_apply P hn] at this
  refine lt_of_eq_of_lt (congrArg _ ?_) this
  show _ = _ - (t1 - t0) * _ - u (i, k)
  ring

/-- C86.  A result of Crank-Nicolson fulfils the trapezoidal rule up to the Newton tolerance. -/
theorem C86_crank_nicolson (hn : 3 ≤ P.nx) (hmax : 0 < P.maxiter) (fuel : Nat) (u x : P.Vec) (t0 t1 : K)
    (h : P.step solve .CN fuel u t0 t1 = some x) (i k : Fin P.nx) :
    |x (i, k) - u (i, k) - (t1 - t0) *
      ((P.lap x i k + P.react x i k + (P.lap u i k + P.react u i k)) / 2)| < P.tol := by
  unfold step at h
  rw [if_neg (by decide)] at h
  obtain ⟨r, hr, rfl⟩ := Option.map_eq_some_iff.1 h
  obtain ⟨m, -, -, hs, rfl⟩ := (P.newton_spec solve hmax _ _ fuel u 0 r).1 hr
  have := hs (i, k)
  unfold residual at this
  rw [Pi.sub_apply, Pi.sub_apply, Pi.smul_apply, force_apply P hn] at this
  refine lt_of_eq_of_lt (congrArg _ ?_) this
  show _ = _ - (t1 - t0) / 2 * _ - (u (i, k) + (t1 - t0) / 2 * P.force u (i, k))
  rw [force_apply P hn]
  ring

/-- C86.  The implicit-explicit method: the Laplacian at the new, the reaction at the old time, exactly; the
result is the only array with this property. -/
theorem C86_imex (hn : 3 ≤ P.nx) (hsolve : SolverOK solve) (fuel : Nat) (u x : P.Vec) (t0 t1 : K)
    (ht : t0 ≤ t1) : P.step solve .IMEX fuel u t0 t1 = some x ↔
      ∀ i k, x (i, k) - u (i, k) = (t1 - t0) * (P.lap x i k + P.react u i k) := by
  have hu := P.lap_unique hn (sub_nonneg.2 ht) (Or.inl one_pos) (1 - (t1 - t0) • P.mat) (fun x => by
    rw [Matrix.sub_mulVec, Matrix.one_mulVec, Matrix.smul_mulVec, one_smul])
    (u + (t1 - t0) • fun i => 1 / P.eps ^ 2 * u i * (1 - u i ^ P.nu))
  have hiff : Solves (1 - (t1 - t0) • P.mat)
      (u + (t1 - t0) • fun i => 1 / P.eps ^ 2 * u i * (1 - u i ^ P.nu)) x ↔
      ∀ i k, x (i, k) - u (i, k) = (t1 - t0) * (P.lap x i k + P.react u i k) := by
    unfold Solves
    rw [funext_iff, Prod.forall]
    refine forall_congr' fun i => forall_congr' fun k => ?_
    rw [Matrix.sub_mulVec, Matrix.one_mulVec, Matrix.smul_mulVec, Pi.sub_apply, Pi.smul_apply,
      C60_stencil P hn, Pi.add_apply, Pi.smul_apply, smul_eq_mul, smul_eq_mul]
    unfold lap react
    constructor
    · intro e; linear_combination e
    · intro e; linear_combination e
  unfold step
  rw [if_pos rfl, ← hiff]
  constructor
  · intro h
    cases h
    exact hsolve _ _ hu
  · intro h
    rw [hsolve.eq hu h]

end ordered

theorem pow_expand (a b : K) (n : Nat) : ∃ p : Polynomial K, ∀ s : K,
    (a + s * b) ^ n = a ^ n + s * (n * a ^ (n - 1) * b) + s ^ 2 * p.eval s := by
  induction n with
  | zero => exact ⟨0, fun s => by simp⟩
  | succ n ih =>
    obtain ⟨p, hp⟩ := ih
    refine ⟨p * Polynomial.C a + Polynomial.C (n * a ^ (n - 1) * b * b) + Polynomial.X * p * Polynomial.C b,
      fun s => ?_⟩
    rw [pow_succ, hp s]
    simp only [Polynomial.eval_add, Polynomial.eval_mul, Polynomial.eval_C, Polynomial.eval_X,
      Nat.cast_add, Nat.cast_one, Nat.add_sub_cancel]
    cases n with
    | zero => simp; ring
    | succ n => simp only [Nat.add_sub_cancel, Nat.cast_add, Nat.cast_one]; ring

/-- C86.  The matrix used in the Newton updates is the derivative of the residual: along every direction `h`
the residual is `residual + s * (matrix * h)` plus a polynomial in `s` divisible by `s ^ 2`. -/
theorem C86_newton_matrix (fac : K) (rhs x h : P.Vec) (q : Fin P.nx × Fin P.nx) :
    ∃ p : Polynomial K, ∀ s : K, P.residual fac rhs (fun r => x r + s * h r) q
      = P.residual fac rhs x q + s * (P.jacobian fac x).mulVec h q + s ^ 2 * p.eval s := by
  obtain ⟨p, hp⟩ := pow_expand (x q) (h q) (P.nu + 1)
  refine ⟨Polynomial.C (fac / P.eps ^ 2) * p, fun s => ?_⟩
  have e1 : (fun r => x r + s * h r) = x + s • h := rfl
  unfold residual force jacobian
  rw [Matrix.sub_mulVec, Matrix.one_mulVec, Matrix.smul_mulVec, Matrix.add_mulVec, Matrix.smul_mulVec]
  rw [e1, Matrix.mulVec_add, Matrix.mulVec_smul]
  simp only [Pi.sub_apply, Pi.smul_apply, Pi.add_apply, smul_eq_mul, Matrix.mulVec_diagonal,
    Polynomial.eval_mul, Polynomial.eval_C]
  have := hp s
  rw [pow_succ, pow_succ, Nat.add_sub_cancel] at this
  push_cast at this
  linear_combination (fac / P.eps ^ 2) * this

end AllenCahn
/-! ## The hypotheses are met -/

/-- A large tolerance, so that the start value is accepted. -/
def exLoose : AllenCahn ℚ := { exAC with tol := 10 ^ 6 }

/-- A state that is not constant. -/
def exState : exLoose.Vec := fun q => (q.1 : ℚ) / 10 + (q.2 : ℚ) / 7

theorem exLoose_step (solve : Matrix (Fin 3 × Fin 3) (Fin 3 × Fin 3) ℚ → exLoose.Vec → exLoose.Vec) :
    exLoose.step solve .IMPL 1 exState 0 (1 / 100) = some exState ∧
    exLoose.step solve .CN 1 exState 0 (1 / 100) = some exState := by
  have h1 : exLoose.small (exLoose.residual (exLoose.system .IMPL exState 0 (1 / 100)).1
      (exLoose.system .IMPL exState 0 (1 / 100)).2 exState) := by decide +kernel
  have h2 : exLoose.small (exLoose.residual (exLoose.system .CN exState 0 (1 / 100)).1
      (exLoose.system .CN exState 0 (1 / 100)).2 exState) := by decide +kernel
  constructor
  · unfold AllenCahn.step
    rw [if_neg (by decide), (exLoose.newton_spec solve (by decide) _ _ 1 exState 0 (exState, 0)).2
      ⟨0, by decide, by simp, h1, rfl⟩]
    rfl
  · unfold AllenCahn.step
    rw [if_neg (by decide), (exLoose.newton_spec solve (by decide) _ _ 1 exState 0 (exState, 0)).2
      ⟨0, by decide, by simp, h2, rfl⟩]
    rfl

example (solve : Matrix (Fin 3 × Fin 3) (Fin 3 × Fin 3) ℚ → exLoose.Vec → exLoose.Vec) :=
  exLoose.C86_implicit solve (by decide) (by decide) 1 exState exState 0 (1 / 100) (exLoose_step solve).1
example (solve : Matrix (Fin 3 × Fin 3) (Fin 3 × Fin 3) ℚ → exLoose.Vec → exLoose.Vec) :=
  exLoose.C86_crank_nicolson solve (by decide) (by decide) 1 exState exState 0 (1 / 100) (exLoose_step solve).2
example : ∃ solve, ∀ x : exAC.Vec, exAC.step solve .IMEX 1 (fun q => (q.1 : ℚ)) 0 (1 / 100) = some x ↔
    ∀ i k, x (i, k) - (i : ℚ) = (1 / 100 - 0) * (exAC.lap x i k + exAC.react (fun q => (q.1 : ℚ)) i k) := by
  obtain ⟨solve, hs⟩ := solver_exists (K := ℚ) (ι := Fin 3 × Fin 3)
  exact ⟨solve, fun x => exAC.C86_imex solve (by decide) hs 1 (fun q => (q.1 : ℚ)) x 0 (1 / 100) (by norm_num)⟩

end Pymgrit.Apps
