import Verif.PropsImplicit

/-!
# Newton's loop of the Allen-Cahn application ends (C120)

`while 0 < self.newton_maxiter` of `allen_cahn.py` has no limit of its own (C51), and there are steps that never return.
The theorems say that they do return for step sizes up to `2/5 ε²` (with the default exponent), after how many passes, and
how fast the iterates approach the exact step.
-/

set_option linter.unusedSectionVars false

namespace Pymgrit.Apps.AllenCahn
open Matrix Lin

section order
variable {K : Type} [Field K] [LinearOrder K] [IsStrictOrderedRing K] (P : AllenCahn K)

/-- Maximum principle of `d x - fac lap x = b`. -/
theorem abs_le_of_eq (hn : 3 ≤ P.nx) {fac : K} (hf : 0 ≤ fac) {d b z : P.Vec} {c : K} (hd : ∀ q, 0 < d q)
    (hb : ∀ q, |b q| ≤ c * d q) (hz : ∀ i k, d (i, k) * z (i, k) - fac * P.lap z i k = b (i, k))
    (q : Fin P.nx × Fin P.nx) : |z q| ≤ c := by
  obtain ⟨i, k, hm⟩ := P.exists_max hn z
  refine (hm q).trans ?_
  have hl := P.lap_max z i k hm
  have h1 := abs_le.1 (hb (i, k))
  have h2 := hz i k
  have hdp := hd (i, k)
  rcases le_total 0 (z (i, k)) with h0 | h0
  · rw [abs_of_nonneg h0]
    have := mul_nonpos_of_nonneg_of_nonpos hf (hl.1 h0)
    by_contra hc
    push Not at hc
    have := mul_lt_mul_of_pos_left hc hdp
    linarith
  · rw [abs_of_nonpos h0]
    have := mul_nonneg hf (hl.2 h0)
    by_contra hc
    push Not at hc
    have := mul_lt_mul_of_pos_left hc hdp
    linarith

/-- The matrix of Newton's method, applied to a vector. -/
theorem jacobian_apply (hn : 3 ≤ P.nx) (hnu : P.nu = 2) (fac : K) (x z : P.Vec) (i k : Fin P.nx) :
    (P.jacobian fac x).mulVec z (i, k) =
      (1 - fac / P.eps ^ 2 + 3 * (fac / P.eps ^ 2) * x (i, k) ^ 2) * z (i, k) - fac * P.lap z i k := by
  unfold jacobian
  rw [Matrix.sub_mulVec, Matrix.one_mulVec, Matrix.smul_mulVec, Matrix.add_mulVec, Matrix.smul_mulVec]
  simp only [Pi.sub_apply, Pi.smul_apply, Pi.add_apply, smul_eq_mul, Matrix.mulVec_diagonal]
  rw [C60_stencil P hn, hnu]
  unfold lap
  push_cast
  ring

variable (solve : Matrix (Fin P.nx × Fin P.nx) (Fin P.nx × Fin P.nx) K → P.Vec → P.Vec)

/-- One pass of the loop: what the error fulfils. -/
theorem newton_error (hn : 3 ≤ P.nx) (hnu : P.nu = 2) (hs : SolverOK solve) {fac : K} (hf : 0 ≤ fac)
    (hlt : fac < P.eps ^ 2) {rhs y : P.Vec} (hy : P.Near fac rhs 0 y) (x : P.Vec) (i k : Fin P.nx) :
    let z : P.Vec := fun q => (x - solve (P.jacobian fac x) (P.residual fac rhs x)) q - y q
    (1 - fac / P.eps ^ 2 + 3 * (fac / P.eps ^ 2) * x (i, k) ^ 2) * z (i, k) - fac * P.lap z i k =
      fac / P.eps ^ 2 * ((x (i, k) - y (i, k)) ^ 2 * (2 * x (i, k) + y (i, k))) := by
  intro z
  have he : 0 < P.eps ^ 2 := lt_of_le_of_lt hf hlt
  have hθ0 : 0 ≤ fac / P.eps ^ 2 := div_nonneg hf he.le
  have hθ1 : fac / P.eps ^ 2 < 1 := (div_lt_one he).2 hlt
  have hu : ∃! w, Solves (P.jacobian fac x) (P.residual fac rhs x) w := by
    refine existsUnique_of_kernel (fun w hw => ?_) _
    funext q
    have := P.abs_le_of_eq hn hf (d := fun q => 1 - fac / P.eps ^ 2 + 3 * (fac / P.eps ^ 2) * x q ^ 2) (b := 0) (z := w)
      (c := 0) (fun q => by have := mul_nonneg hθ0 (sq_nonneg (x q)); nlinarith) (fun q => by simp)
      (fun i k => by rw [← P.jacobian_apply hn hnu]; exact congrFun hw (i, k)) q
    exact abs_nonpos_iff.1 this
  have hw : (P.jacobian fac x).mulVec (solve (P.jacobian fac x) (P.residual fac rhs x)) = P.residual fac rhs x := hs _ _ hu
  set w := solve (P.jacobian fac x) (P.residual fac rhs x) with hwd
  have h1 := congrFun hw (i, k)
  rw [P.jacobian_apply hn hnu] at h1
  unfold residual at h1
  rw [Pi.sub_apply, Pi.sub_apply, Pi.smul_apply, force_apply P hn, smul_eq_mul] at h1
  have h2 := abs_nonpos_iff.1 (hy i k)
  have el : P.lap z i k = P.lap x i k - P.lap w i k - P.lap y i k := by
    simp only [z, lap, Pi.sub_apply]; ring
  have ez : z (i, k) = x (i, k) - w (i, k) - y (i, k) := rfl
  have erx : fac * P.react x i k = fac / P.eps ^ 2 * (x (i, k) - x (i, k) ^ 3) := by
    unfold react; rw [hnu]; ring
  have ery : fac * P.react y i k = fac / P.eps ^ 2 * (y (i, k) - y (i, k) ^ 3) := by
    unfold react; rw [hnu]; ring
  rw [el, ez]
  linear_combination -h1 - h2 + erx - ery

theorem newton_ratio {θ M x y : K} (h0 : 0 ≤ θ) (hM : |y| ≤ M) (h : θ * (1 + 3 / 2 * M ^ 2) ≤ 1) :
    |θ * ((x - y) * (2 * x + y))| ≤ 3 / 4 * (1 - θ + 3 * θ * x ^ 2) := by
  have hy : y ^ 2 ≤ M ^ 2 := by rw [← sq_abs]; exact pow_le_pow_left₀ (abs_nonneg y) hM 2
  have h1 := mul_nonneg h0 (sq_nonneg (x / 2 + y))
  have h2 := mul_nonneg h0 (sq_nonneg (17 * x - 2 * y))
  have h3 := mul_le_mul_of_nonneg_left hy h0
  have h4 := mul_nonneg h0 (sq_nonneg y)
  rw [abs_le]
  constructor <;> nlinarith

/-- C120: one pass of the loop reduces the largest error by a factor of `3/4` at least, from every position, if
`fac (1 + 3/2 M²) ≤ ε²` for a bound `M ≥ 1` of the exact solution. -/
theorem C120_contract (hn : 3 ≤ P.nx) (hnu : P.nu = 2) (hs : SolverOK solve) (heps : P.eps ≠ 0) {fac M : K} (hf : 0 ≤ fac)
    (hM : 1 ≤ M) (hfac : fac * (1 + 3 / 2 * M ^ 2) ≤ P.eps ^ 2) {rhs x y : P.Vec} (hy : P.Near fac rhs 0 y)
    (hyM : ∀ q, |y q| ≤ M) {c : K} (hc : ∀ q, |x q - y q| ≤ c) (q : Fin P.nx × Fin P.nx) :
    |(x - solve (P.jacobian fac x) (P.residual fac rhs x)) q - y q| ≤ 3 / 4 * c := by
  have he : 0 < P.eps ^ 2 := by positivity
  have hM2 : 1 ≤ M ^ 2 := one_le_pow₀ hM
  have hlt : fac < P.eps ^ 2 := by
    rcases hf.eq_or_lt with h | h
    · rw [← h]; exact he
    · nlinarith
  have hθ0 : 0 ≤ fac / P.eps ^ 2 := div_nonneg hf he.le
  have hθ1 : fac / P.eps ^ 2 < 1 := (div_lt_one he).2 hlt
  have hθM : fac / P.eps ^ 2 * (1 + 3 / 2 * M ^ 2) ≤ 1 := by rw [div_mul_eq_mul_div, div_le_one he]; exact hfac
  refine P.abs_le_of_eq hn hf (d := fun q => 1 - fac / P.eps ^ 2 + 3 * (fac / P.eps ^ 2) * x q ^ 2)
    (b := fun q => fac / P.eps ^ 2 * ((x q - y q) ^ 2 * (2 * x q + y q)))
    (z := fun q => (x - solve (P.jacobian fac x) (P.residual fac rhs x)) q - y q)
    (fun q => by have := mul_nonneg hθ0 (sq_nonneg (x q)); nlinarith) (fun q => ?_)
    (fun i k => P.newton_error solve hn hnu hs hf hlt hy x i k) q
  have e : fac / P.eps ^ 2 * ((x q - y q) ^ 2 * (2 * x q + y q))
      = fac / P.eps ^ 2 * ((x q - y q) * (2 * x q + y q)) * (x q - y q) := by ring
  have h1 := newton_ratio (x := x q) hθ0 (hyM q) hθM
  have hd : 0 ≤ 1 - fac / P.eps ^ 2 + 3 * (fac / P.eps ^ 2) * x q ^ 2 := by
    have := mul_nonneg hθ0 (sq_nonneg (x q)); nlinarith
  rw [e, abs_mul]
  calc _ ≤ 3 / 4 * (1 - fac / P.eps ^ 2 + 3 * (fac / P.eps ^ 2) * x q ^ 2) * c :=
        mul_le_mul h1 (hc q) (abs_nonneg _) (by positivity)
    _ = _ := by ring

/-- C120: quadratic convergence for every factor below `ε²`. -/
theorem C120_quadratic (hn : 3 ≤ P.nx) (hnu : P.nu = 2) (hs : SolverOK solve) {fac M : K} (hf : 0 ≤ fac)
    (hlt : fac < P.eps ^ 2) {rhs x y : P.Vec} (hy : P.Near fac rhs 0 y)
    (hyM : ∀ q, |y q| ≤ M) {c : K} (hc : ∀ q, |x q - y q| ≤ c) (q : Fin P.nx × Fin P.nx) :
    |(x - solve (P.jacobian fac x) (P.residual fac rhs x)) q - y q| ≤
      fac / (P.eps ^ 2 - fac) * (3 * M + 2 * c) * c ^ 2 := by
  have he : 0 < P.eps ^ 2 := lt_of_le_of_lt hf hlt
  have hθ0 : 0 ≤ fac / P.eps ^ 2 := div_nonneg hf he.le
  have hθ1 : fac / P.eps ^ 2 < 1 := (div_lt_one he).2 hlt
  have hs0 : 0 < P.eps ^ 2 - fac := by linarith
  refine P.abs_le_of_eq hn hf (d := fun q => 1 - fac / P.eps ^ 2 + 3 * (fac / P.eps ^ 2) * x q ^ 2)
    (b := fun q => fac / P.eps ^ 2 * ((x q - y q) ^ 2 * (2 * x q + y q)))
    (z := fun q => (x - solve (P.jacobian fac x) (P.residual fac rhs x)) q - y q)
    (fun q => by have := mul_nonneg hθ0 (sq_nonneg (x q)); nlinarith) (fun q => ?_)
    (fun i k => P.newton_error solve hn hnu hs hf hlt hy x i k) q
  have h1 := abs_le.1 (hc q)
  have h2 := abs_le.1 (hyM q)
  have hc0 : 0 ≤ c := (abs_nonneg _).trans (hc q)
  have hM0 : 0 ≤ M := (abs_nonneg _).trans (hyM q)
  have h3 : |2 * x q + y q| ≤ 3 * M + 2 * c := by rw [abs_le]; constructor <;> linarith
  have h4 : (x q - y q) ^ 2 ≤ c ^ 2 := by rw [← sq_abs]; exact pow_le_pow_left₀ (abs_nonneg _) (hc q) 2
  rw [abs_mul, abs_mul, abs_of_nonneg hθ0, abs_of_nonneg (sq_nonneg (x q - y q))]
  have e : fac / (P.eps ^ 2 - fac) * (1 - fac / P.eps ^ 2) = fac / P.eps ^ 2 := by
    rw [one_sub_div he.ne', div_mul_div_comm, mul_comm fac, mul_div_mul_left _ _ hs0.ne']
  have h5 : (x q - y q) ^ 2 * |2 * x q + y q| ≤ c ^ 2 * (3 * M + 2 * c) := mul_le_mul h4 h3 (abs_nonneg _) (sq_nonneg _)
  have h6 : 0 ≤ c ^ 2 * (3 * M + 2 * c) := by positivity
  have h7 : fac / (P.eps ^ 2 - fac) * (1 - fac / P.eps ^ 2)
      ≤ fac / (P.eps ^ 2 - fac) * (1 - fac / P.eps ^ 2 + 3 * (fac / P.eps ^ 2) * x q ^ 2) := by
    refine mul_le_mul_of_nonneg_left ?_ (div_nonneg hf hs0.le)
    have := mul_nonneg hθ0 (sq_nonneg (x q)); nlinarith
  rw [e] at h7
  calc _ ≤ fac / P.eps ^ 2 * (c ^ 2 * (3 * M + 2 * c)) := mul_le_mul_of_nonneg_left h5 hθ0
    _ ≤ _ := mul_le_mul_of_nonneg_right h7 h6
    _ = _ := by ring

/-- The residual is at most a multiple of the error. -/
theorem residual_le (hn : 3 ≤ P.nx) (hnu : P.nu = 2) (heps : P.eps ≠ 0) {fac M : K} (hf : 0 ≤ fac) (hlt : fac ≤ P.eps ^ 2)
    {rhs x y : P.Vec} (hy : P.Near fac rhs 0 y) (hyM : ∀ q, |y q| ≤ M) {c C : K} (hc : ∀ q, |x q - y q| ≤ c) (hcC : c ≤ C)
    (q : Fin P.nx × Fin P.nx) :
    |P.residual fac rhs x q| ≤ (1 + 3 * (fac / P.eps ^ 2) * (M + C) ^ 2 + 8 * fac / P.dx ^ 2) * c := by
  obtain ⟨i, k⟩ := q
  have he : 0 < P.eps ^ 2 := by positivity
  set θ := fac / P.eps ^ 2 with hθ
  have hθ0 : 0 ≤ θ := div_nonneg hf he.le
  have hθ1 : θ ≤ 1 := (div_le_one he).2 hlt
  have h2 := abs_nonpos_iff.1 (hy i k)
  have erx : fac * P.react x i k = θ * (x (i, k) - x (i, k) ^ 3) := by
    rw [hθ]; unfold react; rw [hnu]; ring
  have ery : fac * P.react y i k = θ * (y (i, k) - y (i, k) ^ 3) := by
    rw [hθ]; unfold react; rw [hnu]; ring
  have e : P.residual fac rhs x (i, k) = (1 - θ) * (x (i, k) - y (i, k))
      + θ * (x (i, k) ^ 2 + x (i, k) * y (i, k) + y (i, k) ^ 2) * (x (i, k) - y (i, k))
      - fac / P.dx ^ 2 * ((x (pred i, k) - y (pred i, k)) + (x (succ i, k) - y (succ i, k))
        + (x (i, pred k) - y (i, pred k)) + (x (i, succ k) - y (i, succ k)) - 4 * (x (i, k) - y (i, k))) := by
    unfold residual
    rw [Pi.sub_apply, Pi.sub_apply, Pi.smul_apply, force_apply P hn, smul_eq_mul]
    have el : fac * P.lap x i k - fac * P.lap y i k = fac / P.dx ^ 2 * ((x (pred i, k) - y (pred i, k))
        + (x (succ i, k) - y (succ i, k)) + (x (i, pred k) - y (i, pred k)) + (x (i, succ k) - y (i, succ k))
        - 4 * (x (i, k) - y (i, k))) := by unfold lap; ring
    linear_combination h2 - erx + ery - el
  have hc0 : 0 ≤ c := (abs_nonneg _).trans (hc (i, k))
  have hM0 : 0 ≤ M := (abs_nonneg _).trans (hyM (i, k))
  have b1 := abs_le.1 (hc (pred i, k))
  have b2 := abs_le.1 (hc (succ i, k))
  have b3 := abs_le.1 (hc (i, pred k))
  have b4 := abs_le.1 (hc (i, succ k))
  have b5 := abs_le.1 (hc (i, k))
  have b6 := abs_le.1 (hyM (i, k))
  have hL : |(x (pred i, k) - y (pred i, k)) + (x (succ i, k) - y (succ i, k))
      + (x (i, pred k) - y (i, pred k)) + (x (i, succ k) - y (i, succ k)) - 4 * (x (i, k) - y (i, k))| ≤ 8 * c := by
    rw [abs_le]; constructor <;> linarith
  have hX : |x (i, k)| ≤ M + C := by rw [abs_le]; constructor <;> linarith
  have hY : |y (i, k)| ≤ M + C := (hyM _).trans (by linarith)
  have hMC : 0 ≤ M + C := by linarith
  have hS : |x (i, k) ^ 2 + x (i, k) * y (i, k) + y (i, k) ^ 2| ≤ 3 * (M + C) ^ 2 := by
    have a1 : |x (i, k) ^ 2| ≤ (M + C) ^ 2 := by rw [abs_pow]; exact pow_le_pow_left₀ (abs_nonneg _) hX 2
    have a2 : |y (i, k) ^ 2| ≤ (M + C) ^ 2 := by rw [abs_pow]; exact pow_le_pow_left₀ (abs_nonneg _) hY 2
    have a3 : |x (i, k) * y (i, k)| ≤ (M + C) ^ 2 := by
      rw [abs_mul, sq]; exact mul_le_mul hX hY (abs_nonneg _) hMC
    calc _ ≤ |x (i, k) ^ 2| + |x (i, k) * y (i, k)| + |y (i, k) ^ 2| :=
          (abs_add_le _ _).trans (add_le_add_left (abs_add_le _ _) _)
      _ ≤ _ := by linarith
  rw [e]
  have hfd : 0 ≤ fac / P.dx ^ 2 := div_nonneg hf (sq_nonneg _)
  have t1 : |(1 - θ) * (x (i, k) - y (i, k))| ≤ 1 * c := by
    rw [abs_mul, abs_of_nonneg (a := 1 - θ) (by linarith)]
    exact mul_le_mul (by linarith) (hc _) (abs_nonneg _) zero_le_one
  have t2 : |θ * (x (i, k) ^ 2 + x (i, k) * y (i, k) + y (i, k) ^ 2) * (x (i, k) - y (i, k))|
      ≤ θ * (3 * (M + C) ^ 2) * c := by
    rw [abs_mul, abs_mul, abs_of_nonneg hθ0]
    exact mul_le_mul (mul_le_mul_of_nonneg_left hS hθ0) (hc _) (abs_nonneg _) (by positivity)
  have t3 := mul_le_mul_of_nonneg_left hL hfd
  rw [← abs_of_nonneg hfd, ← abs_mul, abs_of_nonneg hfd] at t3
  refine (abs_sub _ _).trans ?_
  refine (add_le_add_left (abs_add_le _ _) _).trans ?_
  calc _ ≤ 1 * c + θ * (3 * (M + C) ^ 2) * c + fac / P.dx ^ 2 * (8 * c) := add_le_add (add_le_add t1 t2) t3
    _ = _ := by ring

/-- The loop returns as soon as the error is small enough. -/
theorem newton_returns (hn : 3 ≤ P.nx) (hmax : 0 < P.maxiter) (hnu : P.nu = 2) (hs : SolverOK solve) (heps : P.eps ≠ 0)
    {fac M : K} (hf : 0 ≤ fac) (hM : 1 ≤ M) (hfac : fac * (1 + 3 / 2 * M ^ 2) ≤ P.eps ^ 2) {rhs u y : P.Vec}
    (hy : P.Near fac rhs 0 y) (hyM : ∀ q, |y q| ≤ M) {C : K} (hC : ∀ q, |u q - y q| ≤ C) {n : Nat}
    (h : (3 / 4) ^ n * ((1 + 3 * (fac / P.eps ^ 2) * (M + C) ^ 2 + 8 * fac / P.dx ^ 2) * C) < P.tol) {fuel : Nat}
    (hfuel : n < fuel) : ∃ r, P.newton solve fac rhs fuel (u, 0) = some r ∧ r.2 ≤ n := by
  classical
  have hit : ∀ k, ∀ q, |P.iterate solve fac rhs u k q - y q| ≤ (3 / 4) ^ k * C := by
    intro k
    induction k with
    | zero => intro q; rw [pow_zero, one_mul]; exact hC q
    | succ k ih =>
      intro q
      have := P.C120_contract solve hn hnu hs heps hf hM hfac hy hyM ih q
      rw [pow_succ, mul_comm ((3 / 4) ^ k) (3 / 4), mul_assoc]
      exact this
  have hC0 : 0 ≤ C := (abs_nonneg _).trans (hC (⟨0, by omega⟩, ⟨0, by omega⟩))
  have hM2 : 1 ≤ M ^ 2 := one_le_pow₀ hM
  have hlt : fac ≤ P.eps ^ 2 := by nlinarith
  have hsm : P.small (P.residual fac rhs (P.iterate solve fac rhs u n)) := by
    intro q
    refine lt_of_le_of_lt (P.residual_le hn hnu heps hf hlt hy hyM (hit n) (C := C) ?_ q) ?_
    · exact mul_le_of_le_one_left hC0 (pow_le_one₀ (by norm_num) (by norm_num))
    · calc _ = (3 / 4) ^ n * ((1 + 3 * (fac / P.eps ^ 2) * (M + C) ^ 2 + 8 * fac / P.dx ^ 2) * C) := by ring
        _ < _ := h
  have hex : ∃ k, P.small (P.residual fac rhs (P.iterate solve fac rhs u k)) := ⟨n, hsm⟩
  have hle := Nat.find_min' hex hsm
  refine ⟨(P.iterate solve fac rhs u (Nat.find hex), 0 + Nat.find hex),
    (P.newton_spec solve hmax fac rhs fuel u 0 _).2 ⟨Nat.find hex, by omega, fun j hj => Nat.find_min hex hj,
      Nat.find_spec hex, rfl⟩, by simpa using hle⟩

end order

section real
variable (P : AllenCahn ℝ) (solve : Matrix (Fin P.nx × Fin P.nx) (Fin P.nx × Fin P.nx) ℝ → P.Vec → P.Vec)

/-- C120, implicit method: with values bounded by `M ≥ 1` and a step size up to `ε² / (1 + 3/2 M²)` the step returns after at
most `n` updates if `(3/4)^n` is below `tol / (2 M (19 + 8 dt / dx²))`; the result is the exact step up to
`tol / (1 - dt / ε²)`. -/
theorem C120_implicit (hn : 3 ≤ P.nx) (hmax : 0 < P.maxiter) (hnu : P.nu = 2) (hs : SolverOK solve) (heps : P.eps ≠ 0)
    {M t0 t1 : ℝ} (hM : 1 ≤ M) (ht : t0 ≤ t1) (hdt : (t1 - t0) * (1 + 3 / 2 * M ^ 2) ≤ P.eps ^ 2) {u : P.Vec}
    (hu : ∀ q, |u q| ≤ M) {n : Nat} (h : (3 / 4) ^ n * (2 * M * (19 + 8 * (t1 - t0) / P.dx ^ 2)) < P.tol) :
    ∃ y, P.Implicit (t1 - t0) u y ∧ (∀ q, |y q| ≤ M) ∧ ∀ fuel, n < fuel →
      ∃ x, P.step solve .IMPL fuel u t0 t1 = some x ∧ ∀ q, |x q - y q| ≤ P.tol / (1 - (t1 - t0) / P.eps ^ 2) := by
  have hev : Even P.nu := by rw [hnu]; decide
  have hd0 : 0 ≤ t1 - t0 := sub_nonneg.2 ht
  have he : 0 < P.eps ^ 2 := by positivity
  have hM2 : 1 ≤ M ^ 2 := one_le_pow₀ hM
  have hlt : t1 - t0 < P.eps ^ 2 := by
    rcases hd0.eq_or_lt with h | h
    · rw [← h]; exact he
    · nlinarith
  obtain ⟨y, hy, hyM⟩ := P.C118_implicit_exists hev hd0 u hM hu
  refine ⟨y, hy, hyM, fun fuel hfuel => ?_⟩
  have hC : ∀ q, |u q - y q| ≤ 2 * M := fun q => (abs_sub _ _).trans (by linarith [hu q, hyM q])
  have hθM : (t1 - t0) / P.eps ^ 2 * (1 + 3 / 2 * M ^ 2) ≤ 1 := by rw [div_mul_eq_mul_div, div_le_one he]; exact hdt
  have hθ0 : 0 ≤ (t1 - t0) / P.eps ^ 2 := div_nonneg hd0 he.le
  obtain ⟨r, hr, -⟩ := P.newton_returns solve hn hmax hnu hs heps hd0 hM hdt (P.implicit_near.1 hy) hyM hC (n := n)
    (lt_of_le_of_lt (mul_le_mul_of_nonneg_left (by
      rw [mul_comm (2 * M)]
      refine mul_le_mul_of_nonneg_right ?_ (by linarith)
      have : 3 * ((t1 - t0) / P.eps ^ 2) * (M + 2 * M) ^ 2 ≤ 18 := by nlinarith
      linarith) (by positivity)) h) hfuel
  have hx : P.step solve .IMPL fuel u t0 t1 = some r.1 := by
    unfold step
    rw [if_neg (by decide)]
    have e : P.system .IMPL u t0 t1 = (t1 - t0, u) := by unfold system; rw [if_neg (by decide)]
    rw [e, hr]
    rfl
  refine ⟨r.1, hx, fun q => ?_⟩
  have h1 : 0 < 1 - (t1 - t0) / P.eps ^ 2 := sub_pos.2 ((div_lt_one he).2 hlt)
  rw [le_div_iff₀ h1, mul_comm]
  exact P.C118_implicit_close solve hn hmax hev fuel ht hlt hx hy q

/-- C120, implicit method: the step returns for every positive tolerance. -/
theorem C120_implicit_returns (hn : 3 ≤ P.nx) (hmax : 0 < P.maxiter) (hnu : P.nu = 2) (hs : SolverOK solve)
    (heps : P.eps ≠ 0) (htol : 0 < P.tol) {M t0 t1 : ℝ} (hM : 1 ≤ M) (ht : t0 ≤ t1)
    (hdt : (t1 - t0) * (1 + 3 / 2 * M ^ 2) ≤ P.eps ^ 2) :
    ∃ n, ∀ u : P.Vec, (∀ q, |u q| ≤ M) → ∃ x, ∀ fuel, n < fuel → P.step solve .IMPL fuel u t0 t1 = some x := by
  obtain ⟨n, hn'⟩ := exists_pow_lt_of_lt_one
    (div_pos htol (show (0 : ℝ) < 2 * M * (19 + 8 * (t1 - t0) / P.dx ^ 2) + 1 by
      have : 0 ≤ 8 * (t1 - t0) / P.dx ^ 2 := div_nonneg (by linarith) (sq_nonneg _)
      positivity)) (show (3 / 4 : ℝ) < 1 by norm_num)
  have hA : (0 : ℝ) ≤ 8 * (t1 - t0) / P.dx ^ 2 := div_nonneg (by linarith) (sq_nonneg _)
  rw [lt_div_iff₀ (by positivity)] at hn'
  refine ⟨n, fun u hu => ?_⟩
  obtain ⟨y, -, -, h⟩ := P.C120_implicit solve hn hmax hnu hs heps hM ht hdt hu (n := n)
    (lt_of_le_of_lt (mul_le_mul_of_nonneg_left (by linarith) (by positivity)) hn')
  obtain ⟨x, hx, -⟩ := h (n + 1) (by omega)
  refine ⟨x, fun fuel hfuel => ?_⟩
  unfold step at hx ⊢
  rw [if_neg (by decide)] at hx ⊢
  obtain ⟨r, hr, rfl⟩ := Option.map_eq_some_iff.1 hx
  obtain ⟨m, hm, h1, h2, h3⟩ := (P.newton_spec solve hmax _ _ (n + 1) u 0 r).1 hr
  rw [(P.newton_spec solve hmax _ _ fuel u 0 r).2 ⟨m, by omega, h1, h2, h3⟩]
  rfl

/-- C120, Crank-Nicolson: the same with half of the step size and a bound `M` of the explicit half step. -/
theorem C120_cn (hn : 3 ≤ P.nx) (hmax : 0 < P.maxiter) (hnu : P.nu = 2) (hs : SolverOK solve) (heps : P.eps ≠ 0)
    {M t0 t1 : ℝ} (hM : 1 ≤ M) (ht : t0 ≤ t1) (hdt : (t1 - t0) / 2 * (1 + 3 / 2 * M ^ 2) ≤ P.eps ^ 2) {u : P.Vec}
    (hu : ∀ q, |u q| ≤ M) (hr : ∀ i k, |u (i, k) + (t1 - t0) / 2 * (P.lap u i k + P.react u i k)| ≤ M) {n : Nat}
    (h : (3 / 4) ^ n * (2 * M * (19 + 4 * (t1 - t0) / P.dx ^ 2)) < P.tol) :
    ∃ y, P.CrankNicolson (t1 - t0) u y ∧ (∀ q, |y q| ≤ M) ∧ ∀ fuel, n < fuel →
      ∃ x, P.step solve .CN fuel u t0 t1 = some x ∧ ∀ q, |x q - y q| ≤ P.tol / (1 - (t1 - t0) / (2 * P.eps ^ 2)) := by
  have hev : Even P.nu := by rw [hnu]; decide
  have hd0 : 0 ≤ (t1 - t0) / 2 := by linarith
  have he : 0 < P.eps ^ 2 := by positivity
  have hM2 : 1 ≤ M ^ 2 := one_le_pow₀ hM
  have hlt : (t1 - t0) / 2 < P.eps ^ 2 := by
    rcases hd0.eq_or_lt with h | h
    · rw [← h]; exact he
    · nlinarith
  obtain ⟨y, hyM, hy⟩ := P.exists_solution hev hd0
    (fun q => u q + (t1 - t0) / 2 * (P.lap u q.1 q.2 + P.react u q.1 q.2)) hM fun q => hr q.1 q.2
  refine ⟨y, P.cn_near.2 hy, hyM, fun fuel hfuel => ?_⟩
  have hC : ∀ q, |u q - y q| ≤ 2 * M := fun q => (abs_sub _ _).trans (by linarith [hu q, hyM q])
  have hθM : (t1 - t0) / 2 / P.eps ^ 2 * (1 + 3 / 2 * M ^ 2) ≤ 1 := by
    rw [div_mul_eq_mul_div, div_le_one he]; exact hdt
  have hθ0 : 0 ≤ (t1 - t0) / 2 / P.eps ^ 2 := div_nonneg hd0 he.le
  obtain ⟨r, hr', -⟩ := P.newton_returns solve hn hmax hnu hs heps hd0 hM hdt hy hyM hC (n := n)
    (lt_of_le_of_lt (mul_le_mul_of_nonneg_left (by
      rw [mul_comm (2 * M)]
      refine mul_le_mul_of_nonneg_right ?_ (by linarith)
      have : 3 * ((t1 - t0) / 2 / P.eps ^ 2) * (M + 2 * M) ^ 2 ≤ 18 := by nlinarith
      have e : 8 * ((t1 - t0) / 2) / P.dx ^ 2 = 4 * (t1 - t0) / P.dx ^ 2 := by ring
      linarith) (by positivity)) h) hfuel
  have hx : P.step solve .CN fuel u t0 t1 = some r.1 := by
    unfold step
    rw [if_neg (by decide)]
    have e : P.system .CN u t0 t1
        = ((t1 - t0) / 2, fun q => u q + (t1 - t0) / 2 * (P.lap u q.1 q.2 + P.react u q.1 q.2)) := by
      unfold system
      rw [if_pos rfl]
      congr 1
      funext q
      rw [Pi.add_apply, Pi.smul_apply, smul_eq_mul, force_apply P hn]
    rw [e, hr']
    rfl
  refine ⟨r.1, hx, fun q => ?_⟩
  have h1 : 0 < 1 - (t1 - t0) / (2 * P.eps ^ 2) := by
    rw [sub_pos, div_lt_one (by linarith)]; linarith
  rw [le_div_iff₀ h1, mul_comm]
  exact P.C118_cn_close solve hn hmax hev fuel ht (by linarith) hx (P.cn_near.2 hy) q

/-- The parameters of `exPhase` with step size 0.0005 and values in `[-1, 1]`; 200 passes are enough for the default
tolerance. -/
example : 3 ≤ exPhase.nx ∧ 0 < exPhase.maxiter ∧ exPhase.nu = 2 ∧ exPhase.eps ≠ 0 ∧
    ((5 / 10000 : ℝ) - 0) * (1 + 3 / 2 * 1 ^ 2) ≤ exPhase.eps ^ 2 ∧
    (3 / 4) ^ 200 * (2 * 1 * (19 + 8 * ((5 / 10000 : ℝ) - 0) / exPhase.dx ^ 2)) < exPhase.tol := by
  refine ⟨by decide, by decide, rfl, ?_, ?_, ?_⟩ <;> norm_num [exPhase]

/-- There is a solver as assumed. -/
example : ∃ solve : Matrix (Fin exPhase.nx × Fin exPhase.nx) (Fin exPhase.nx × Fin exPhase.nx) ℝ → exPhase.Vec → exPhase.Vec,
    SolverOK solve := by
  classical
  refine ⟨fun A b => if h : ∃ x, Solves A b x then h.choose else 0, fun A b h => ?_⟩
  show Solves A b (if h : ∃ x, Solves A b x then h.choose else 0)
  rw [dif_pos h.exists]
  exact h.exists.choose_spec

end real
end Pymgrit.Apps.AllenCahn
