import Verif.Box
import Verif.PropsPhase

/-!
# Solvability of the implicit steps of the Allen-Cahn application (C118)

The implicit and the Crank-Nicolson step of `allen_cahn.py` ask Newton's method for a solution of
`x - fac (lap x + react x) = rhs`.  The theorems say that there is one for every step size, when there is only one, and how
far the result of the loop is from it.
-/

set_option linter.unusedSectionVars false

namespace Pymgrit.Apps.AllenCahn
open Matrix Lin

section order
variable {K : Type} [Field K] [LinearOrder K] [IsStrictOrderedRing K] (P : AllenCahn K)

/-- Specification: `x` solves the equation of a step with the factor `fac` and the right-hand side `rhs` up to `δ`. -/
def Near (fac : K) (rhs : P.Vec) (δ : K) (x : P.Vec) : Prop :=
  ∀ i k, |x (i, k) - fac * (P.lap x i k + P.react x i k) - rhs (i, k)| ≤ δ

/-- Two approximate solutions are close if `fac < ε²`. -/
theorem near_close (hn : 3 ≤ P.nx) (hnu : Even P.nu) {fac : K} (hf : 0 ≤ fac) (hlt : fac < P.eps ^ 2)
    {rhs : P.Vec} {δ δ' : K} {x y : P.Vec} (hx : P.Near fac rhs δ x) (hy : P.Near fac rhs δ' y)
    (q : Fin P.nx × Fin P.nx) : (1 - fac / P.eps ^ 2) * |x q - y q| ≤ δ + δ' := by
  obtain ⟨i, k, hm⟩ := P.exists_max hn (fun q => x q - y q)
  have he : 0 < P.eps ^ 2 := lt_of_le_of_lt hf hlt
  set θ := fac / P.eps ^ 2 with hθ
  have hθ1 : θ < 1 := (div_lt_one he).2 hlt
  have hθ0 : 0 ≤ θ := div_nonneg hf he.le
  refine (mul_le_mul_of_nonneg_left (hm q) (by linarith)).trans ?_
  have hl := P.lap_max (fun q => x q - y q) i k hm
  have el : P.lap (fun q => x q - y q) i k = P.lap x i k - P.lap y i k := by unfold lap; ring
  rw [el] at hl
  have hxe := abs_le.1 (hx i k)
  have hye := abs_le.1 (hy i k)
  have hodd : Odd (P.nu + 1) := hnu.add_one
  have er : fac * (P.react x i k - P.react y i k) =
      θ * (x (i, k) - y (i, k)) - θ * (x (i, k) ^ (P.nu + 1) - y (i, k) ^ (P.nu + 1)) := by
    rw [hθ]; unfold react; ring
  rcases le_total 0 (x (i, k) - y (i, k)) with h0 | h0
  · rw [abs_of_nonneg h0]
    have hmono : y (i, k) ^ (P.nu + 1) ≤ x (i, k) ^ (P.nu + 1) := hodd.strictMono_pow.monotone (by linarith)
    have h1 := mul_nonneg hθ0 (sub_nonneg.2 hmono)
    have h2 := mul_nonpos_of_nonneg_of_nonpos hf (hl.1 h0)
    nlinarith
  · rw [abs_of_nonpos h0]
    have hmono : x (i, k) ^ (P.nu + 1) ≤ y (i, k) ^ (P.nu + 1) := hodd.strictMono_pow.monotone (by linarith)
    have h1 := mul_nonneg hθ0 (sub_nonneg.2 hmono)
    have h2 := mul_nonneg hf (hl.2 h0)
    nlinarith

variable (solve : Matrix (Fin P.nx × Fin P.nx) (Fin P.nx × Fin P.nx) K → P.Vec → P.Vec)

/-- Specification: an exact implicit step from `u` to `x`. -/
def Implicit (dt : K) (u x : P.Vec) : Prop := ∀ i k, x (i, k) - u (i, k) = dt * (P.lap x i k + P.react x i k)

/-- Specification: an exact Crank-Nicolson step. -/
def CrankNicolson (dt : K) (u x : P.Vec) : Prop := ∀ i k,
  x (i, k) - u (i, k) = dt * ((P.lap x i k + P.react x i k + (P.lap u i k + P.react u i k)) / 2)

theorem implicit_near {dt : K} {u x : P.Vec} : P.Implicit dt u x ↔ P.Near dt u 0 x := by
  refine forall_congr' fun i => forall_congr' fun k => ?_
  rw [abs_nonpos_iff]
  constructor <;> intro h <;> linear_combination h

theorem cn_near {dt : K} {u x : P.Vec} : P.CrankNicolson dt u x ↔
    P.Near (dt / 2) (fun q => u q + dt / 2 * (P.lap u q.1 q.2 + P.react u q.1 q.2)) 0 x := by
  refine forall_congr' fun i => forall_congr' fun k => ?_
  rw [abs_nonpos_iff]
  constructor <;> intro h <;> linear_combination h

/-- C118, implicit method: at most one exact step if the step size is below `ε²`. -/
theorem C118_implicit_unique (hn : 3 ≤ P.nx) (hnu : Even P.nu) {dt : K} (h0 : 0 ≤ dt) (hlt : dt < P.eps ^ 2)
    {u x y : P.Vec} (hx : P.Implicit dt u x) (hy : P.Implicit dt u y) : x = y := by
  funext q
  have := P.near_close hn hnu h0 hlt (P.implicit_near.1 hx) (P.implicit_near.1 hy) q
  have h1 : 0 < 1 - dt / P.eps ^ 2 := sub_pos.2 ((div_lt_one (lt_of_le_of_lt h0 hlt)).2 hlt)
  have h2 : |x q - y q| ≤ 0 := by
    by_contra hc
    push Not at hc
    have := mul_pos h1 hc
    linarith
  exact sub_eq_zero.1 (abs_nonpos_iff.1 h2)

/-- C118, Crank-Nicolson: at most one exact step if the step size is below `2 ε²`. -/
theorem C118_cn_unique (hn : 3 ≤ P.nx) (hnu : Even P.nu) {dt : K} (h0 : 0 ≤ dt) (hlt : dt < 2 * P.eps ^ 2)
    {u x y : P.Vec} (hx : P.CrankNicolson dt u x) (hy : P.CrankNicolson dt u y) : x = y := by
  funext q
  have h0' : 0 ≤ dt / 2 := by linarith
  have hlt' : dt / 2 < P.eps ^ 2 := by linarith
  have := P.near_close hn hnu h0' hlt' (P.cn_near.1 hx) (P.cn_near.1 hy) q
  have h1 : 0 < 1 - dt / 2 / P.eps ^ 2 := sub_pos.2 ((div_lt_one (lt_of_le_of_lt h0' hlt')).2 hlt')
  have h2 : |x q - y q| ≤ 0 := by
    by_contra hc
    push Not at hc
    have := mul_pos h1 hc
    linarith
  exact sub_eq_zero.1 (abs_nonpos_iff.1 h2)

/-- C118: the result of Newton's loop is close to the exact step, whatever the linear solver did. -/
theorem C118_implicit_close (hn : 3 ≤ P.nx) (hmax : 0 < P.maxiter) (hnu : Even P.nu) (fuel : Nat) {u x y : P.Vec} {t0 t1 : K}
    (ht : t0 ≤ t1) (hlt : t1 - t0 < P.eps ^ 2) (h : P.step solve .IMPL fuel u t0 t1 = some x)
    (hy : P.Implicit (t1 - t0) u y) (q : Fin P.nx × Fin P.nx) :
    (1 - (t1 - t0) / P.eps ^ 2) * |x q - y q| ≤ P.tol := by
  have hx := P.C86_implicit solve hn hmax fuel u x t0 t1 h
  have := P.near_close hn hnu (sub_nonneg.2 ht) hlt (δ := P.tol) (x := x) (fun i k => ?_) (P.implicit_near.1 hy) q
  · linarith
  · have := (hx i k).le
    rwa [show x (i, k) - (t1 - t0) * (P.lap x i k + P.react x i k) - u (i, k)
      = x (i, k) - u (i, k) - (t1 - t0) * (P.lap x i k + P.react x i k) by ring]

theorem C118_cn_close (hn : 3 ≤ P.nx) (hmax : 0 < P.maxiter) (hnu : Even P.nu) (fuel : Nat) {u x y : P.Vec} {t0 t1 : K}
    (ht : t0 ≤ t1) (hlt : t1 - t0 < 2 * P.eps ^ 2) (h : P.step solve .CN fuel u t0 t1 = some x)
    (hy : P.CrankNicolson (t1 - t0) u y) (q : Fin P.nx × Fin P.nx) :
    (1 - (t1 - t0) / (2 * P.eps ^ 2)) * |x q - y q| ≤ P.tol := by
  have hx := P.C86_crank_nicolson solve hn hmax fuel u x t0 t1 h
  have := P.near_close hn hnu (fac := (t1 - t0) / 2) (by linarith) (by linarith) (δ := P.tol) (x := x) (fun i k => ?_)
    (P.cn_near.1 hy) q
  · rw [div_div] at this
    linarith
  · have := (hx i k).le
    refine le_of_eq_of_le (congrArg _ ?_) this
    ring

/-- C118: for a step size above `ε²` the implicit step from zero is not determined: every `c` with
`c^ν = 1 - ε² / dt` gives a uniform solution, and so does zero. -/
theorem C118_multiple (heps : P.eps ≠ 0) {dt c : K} (h0 : 0 < dt) (hc : c ^ P.nu = 1 - P.eps ^ 2 / dt) :
    P.Implicit dt (fun _ => 0) (fun _ => c) ∧ P.Implicit dt (fun _ => 0) (fun _ => 0) := by
  constructor
  · intro i k
    unfold lap react
    rw [hc]
    field_simp
    ring
  · intro i k
    unfold lap react
    ring

end order

section real
variable (P : AllenCahn ℝ)

/-- The equation of a step has a solution for every factor. -/
theorem exists_solution (hnu : Even P.nu) {fac : ℝ} (hf : 0 ≤ fac) (rhs : P.Vec) {M : ℝ} (hM : 1 ≤ M)
    (hr : ∀ q, |rhs q| ≤ M) : ∃ x : P.Vec, (∀ q, |x q| ≤ M) ∧ P.Near fac rhs 0 x := by
  let F : P.Vec → P.Vec := fun x q => x q - fac * (P.lap x q.1 q.2 + P.react x q.1 q.2) - rhs q
  have hF : Continuous F := by
    simp only [F, lap, react]
    fun_prop
  obtain ⟨x, hx, e⟩ := Brouwer.exists_zero_box (lo := fun _ => -M) (hi := fun _ => M) hF (fun _ => by linarith)
    (by
      rintro x hx ⟨i, k⟩ e
      have ha : |x (i, k)| = M := by rw [e, abs_neg, abs_of_nonneg (by linarith)]
      have hl := (P.lap_max x i k fun q => by rw [ha]; exact abs_le.2 (hx q)).2 (by rw [e]; linarith)
      have hre := (P.react_outside hnu x i k (by rw [ha]; exact hM)).2 (by rw [e]; linarith)
      have := mul_nonneg hf (add_nonneg hl hre)
      have := (abs_le.1 (hr (i, k))).1
      show x (i, k) - fac * (P.lap x i k + P.react x i k) - rhs (i, k) ≤ 0
      linarith)
    (by
      rintro x hx ⟨i, k⟩ e
      have ha : |x (i, k)| = M := by rw [e, abs_of_nonneg (by linarith)]
      have hl := (P.lap_max x i k fun q => by rw [ha]; exact abs_le.2 (hx q)).1 (by rw [e]; linarith)
      have hre := (P.react_outside hnu x i k (by rw [ha]; exact hM)).1 (by rw [e]; linarith)
      have := mul_nonpos_of_nonneg_of_nonpos hf (add_nonpos hl hre)
      have := (abs_le.1 (hr (i, k))).2
      show 0 ≤ x (i, k) - fac * (P.lap x i k + P.react x i k) - rhs (i, k)
      linarith)
  refine ⟨x, fun q => abs_le.2 (hx q), fun i k => ?_⟩
  have : x (i, k) - fac * (P.lap x i k + P.react x i k) - rhs (i, k) = 0 := congrFun e (i, k)
  rw [this, abs_zero]

/-- C118, implicit method: there is an exact step for every step size, within the bounds of the maximum principle. -/
theorem C118_implicit_exists (hnu : Even P.nu) {dt : ℝ} (h0 : 0 ≤ dt) (u : P.Vec) {M : ℝ} (hM : 1 ≤ M)
    (hu : ∀ q, |u q| ≤ M) : ∃ x : P.Vec, P.Implicit dt u x ∧ ∀ q, |x q| ≤ M := by
  obtain ⟨x, h1, h2⟩ := P.exists_solution hnu h0 u hM hu
  exact ⟨x, P.implicit_near.2 h2, h1⟩

/-- C118, Crank-Nicolson: there is an exact step for every step size. -/
theorem C118_cn_exists (hnu : Even P.nu) {dt : ℝ} (h0 : 0 ≤ dt) (u : P.Vec) : ∃ x : P.Vec, P.CrankNicolson dt u x := by
  let rhs : P.Vec := fun q => u q + dt / 2 * (P.lap u q.1 q.2 + P.react u q.1 q.2)
  obtain ⟨x, -, h2⟩ := P.exists_solution hnu (fac := dt / 2) (by linarith) rhs (M := 1 + ∑ q, |rhs q|)
    (by have := Finset.sum_nonneg fun q (_ : q ∈ Finset.univ) => abs_nonneg (rhs q); linarith)
    fun q => by
      have := Finset.single_le_sum (f := fun q => |rhs q|) (fun q _ => abs_nonneg _) (Finset.mem_univ q)
      linarith
  exact ⟨x, P.cn_near.2 h2⟩

/-- Together: below `ε²` the exact step is a function, and the loop returns it up to `tol / (1 - dt / ε²)`. -/
theorem C118_implicit (hn : 3 ≤ P.nx) (hmax : 0 < P.maxiter) (hnu : Even P.nu)
    (solve : Matrix (Fin P.nx × Fin P.nx) (Fin P.nx × Fin P.nx) ℝ → P.Vec → P.Vec) (u : P.Vec) {t0 t1 : ℝ} (ht : t0 ≤ t1)
    (hlt : t1 - t0 < P.eps ^ 2) :
    ∃ y : P.Vec, P.Implicit (t1 - t0) u y ∧ (∀ z, P.Implicit (t1 - t0) u z → z = y) ∧
      ∀ fuel x, P.step solve .IMPL fuel u t0 t1 = some x → ∀ q, |x q - y q| ≤ P.tol / (1 - (t1 - t0) / P.eps ^ 2) := by
  obtain ⟨y, hy, -⟩ := P.C118_implicit_exists hnu (sub_nonneg.2 ht) u (M := 1 + ∑ q, |u q|)
    (by have := Finset.sum_nonneg fun q (_ : q ∈ Finset.univ) => abs_nonneg (u q); linarith)
    fun q => by
      have := Finset.single_le_sum (f := fun q => |u q|) (fun q _ => abs_nonneg _) (Finset.mem_univ q)
      linarith
  refine ⟨y, hy, fun z hz => P.C118_implicit_unique hn hnu (sub_nonneg.2 ht) hlt hz hy, fun fuel x h q => ?_⟩
  have h1 : 0 < 1 - (t1 - t0) / P.eps ^ 2 :=
    sub_pos.2 ((div_lt_one (lt_of_le_of_lt (sub_nonneg.2 ht) hlt)).2 hlt)
  rw [le_div_iff₀ h1, mul_comm]
  exact P.C118_implicit_close solve hn hmax hnu fuel ht hlt h hy q

/-- Default parameters of the application on a small grid: `eps = 0.04`, `nu = 2`. -/
noncomputable def exPhase : AllenCahn ℝ where
  nx := 4
  dx := 1 / 4
  nu := 2
  eps := 4 / 100
  maxiter := 100
  tol := 1 / 10 ^ 12

/-- Step size 1/1000 is below `ε² = 16/10000`. -/
example : 3 ≤ exPhase.nx ∧ 0 < exPhase.maxiter ∧ Even exPhase.nu ∧ (1 / 1000 : ℝ) - 0 < exPhase.eps ^ 2 := by
  refine ⟨by decide, by decide, by decide, ?_⟩
  norm_num [exPhase]

/-- Step size `4/3 ε²` is not: `c = 1/2`. -/
example : exPhase.Implicit (4 / 3 * (4 / 100) ^ 2) (fun _ => 0) (fun _ => 1 / 2) ∧
    exPhase.Implicit (4 / 3 * (4 / 100) ^ 2) (fun _ => 0) (fun _ => 0) := by
  refine exPhase.C118_multiple (by norm_num [exPhase]) (by norm_num) ?_
  norm_num [exPhase]

end real
end Pymgrit.Apps.AllenCahn
