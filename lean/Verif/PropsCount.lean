import Verif.PropsConv
import Verif.PropsJump

/-!
# Properties C97, C98: what the tolerance means and when it is reached

For problems on which MGRIT contracts (`Verif.PropsConv`), with `q` the bound of the error reduction by one
iteration:

* C97: a value of the jump criterion bounds the error of the returned values.
* C98: an upper bound of the number of iterations until a tolerance is reached, for both criteria.
-/

set_option linter.unusedSectionVars false

namespace Pymgrit
open Cfg Sys

section
variable {V N : Type} [AddCommGroup V] [Module ℝ V] [Zero N] {E : Cfg V ℝ ℝ N} {p : Seminorm ℝ V} {κ : ℝ}

/-- The values on the finest level after `m` iterations. -/
noncomputable def iterateAt (E : Cfg V ℝ ℝ N) (m i : Nat) : V :=
  (iterates E.sys E.sys.forwardSolve E.cyc m (afterConstructor E).st).u 0 i

/-- `k` further iterations, in terms of the error at the coarse points. -/
theorem iterateAt_err (h : E.Good) (hT : Copying E) (hκ : 0 ≤ κ) (hA : Approx E.sys p κ) (a : Nat) (D : ℝ)
    (hD : ∀ i, i ∈ allC E.ts 0 → p (iterateAt E a i - timeStepping E i) ≤ D) (k : Nat) :
    (∀ i, i ∈ allC E.ts 0 → p (iterateAt E (a + k) i - timeStepping E i) ≤ convRate E κ ^ k * D) ∧
    (1 ≤ k → ∀ i, i < npts E.ts 0 →
      p (iterateAt E (a + k) i - timeStepping E i) ≤ convRate E κ ^ k * D) := by
  have hwf := E.sys_wf h.valid
  have H := hT.multi h hκ hA
  set s := iterates E.sys E.sys.forwardSolve E.cyc a (afterConstructor E).st with hs
  have hsol : exactSol E.sys 0 s = timeStepping E := by
    rw [exactSol_zero (fun h => absurd rfl h), hs, start_value h]
    rfl
  have hshift : iterates E.sys E.sys.forwardSolve E.cyc (a + k) (afterConstructor E).st =
      iterates E.sys E.sys.forwardSolve E.cyc k s := by
    clear hsol
    induction k with
    | zero => rfl
    | succ k ih => rw [← Nat.add_assoc, iterates_fine hwf, ih, ← iterates_fine hwf]
  obtain ⟨c1, c2, c3⟩ := iterates_err H hT.L E.cyc k s D (by
    intro i hi
    rw [hsol]
    exact hD i hi)
  unfold iterateAt
  rw [hshift]
  refine ⟨fun i hi => ?_, fun hk i hi => ?_⟩
  · have := c1 i hi
    rwa [exactSol_keeps c3, hsol] at this
  · have := c2 hk i hi
    rwa [exactSol_keeps c3, hsol] at this

theorem iterateAt_zero (h : E.Good) (m : Nat) : iterateAt E m 0 = timeStepping E 0 := start_value h m

/-- If the last iteration changed no coarse point by more than `δ`, the error is at most `q / (1 - q) δ`. -/
theorem jump_err (h : E.Good) (hT : Copying E) (hκ : 0 ≤ κ) (hA : Approx E.sys p κ) (hq : convRate E κ < 1)
    (m : Nat) (δ : ℝ) (hδ0 : 0 ≤ δ)
    (hδ : ∀ i, i ∈ allC E.ts 0 → i ≠ 0 → p (iterateAt E (m + 1) i - iterateAt E m i) ≤ δ) (i : Nat)
    (hi : i < npts E.ts 0) :
    p (iterateAt E (m + 1) i - timeStepping E i) ≤ convRate E κ / (1 - convRate E κ) * δ := by
  set q := convRate E κ with hqd
  have hq0 : 0 ≤ q := convRate_nonneg E hκ
  have h0C : 0 ∈ allC E.ts 0 := (E.sys_wf h.valid).zero_mem_C hT.L
  obtain ⟨i0, hi0, hmaxi⟩ := Finset.exists_max_image (allC E.ts 0).toFinset
    (fun i => p (iterateAt E m i - timeStepping E i)) ⟨0, List.mem_toFinset.2 h0C⟩
  rw [List.mem_toFinset] at hi0
  set D := p (iterateAt E m i0 - timeStepping E i0) with hDd
  obtain ⟨b1, b2⟩ := iterateAt_err h hT hκ hA m D (fun i hi => hmaxi i (List.mem_toFinset.2 hi)) 1
  rw [← hqd] at b1 b2
  simp only [pow_one] at b1 b2
  have hD : D ≤ δ / (1 - q) := by
    have e1 : D ≤ δ + q * D := by
      by_cases hz : i0 = 0
      · have : D = 0 := by rw [hDd, hz, iterateAt_zero h, sub_self, map_zero]
        rw [this]; simpa using hδ0
      · have e : iterateAt E m i0 - timeStepping E i0 =
            -(iterateAt E (m + 1) i0 - iterateAt E m i0) + (iterateAt E (m + 1) i0 - timeStepping E i0) := by
          abel
        calc D = p _ := by rw [hDd, e]
          _ ≤ p (-(iterateAt E (m + 1) i0 - iterateAt E m i0)) + p _ := map_add_le_add p _ _
          _ ≤ δ + q * D := by
            rw [map_neg_eq_map]
            exact add_le_add (hδ i0 hi0 hz) (b1 i0 hi0)
    rw [le_div_iff₀ (by linarith)]
    linarith
  calc p (iterateAt E (m + 1) i - timeStepping E i) ≤ q * D := b2 le_rfl i hi
    _ ≤ q * (δ / (1 - q)) := mul_le_mul_of_nonneg_left hD hq0
    _ = q / (1 - q) * δ := by ring

end

/-! ## C97 -/

section
variable {V : Type} [AddCommGroup V] [Module ℝ V] {E : Cfg V ℝ ℝ ℝ} {p : Seminorm ℝ V} {κ : ℝ}

/-- The recorded value of the jump criterion. -/
theorem returned_jump (h : E.Good) (hmax : 0 < E.maxIter) (hcrit : E.convCrit = 1)
    {c : Conf E.P (Msg V ℝ) (PState V ℝ)} (h1 : Steps (startConf E) c) (hc : ∀ d, ¬ Step c d)
    (r : Fin E.P) (s : PState V ℝ) (hr : c.prog r = Prog.ret s) :
    ∃ m, s.solveIter = m + 1 ∧ s.conv s.solveIter = E.tnorm (((allC E.ts 0).filter (· ≠ 0)).map fun i =>
        E.norm (iterateAt E (m + 1) i - iterateAt E m i)) ∧
      ∀ k i j : Nat, (E.info r 0).pts[k]? = some i → (E.info r 0).idx[k]? = some j →
        i < npts E.ts 0 ∧ s.u 0 j = iterateAt E (m + 1) i := by
  obtain ⟨a1, -, -, a4, a5⟩ := returned h hmax h1 hc r s hr
  obtain ⟨m, hm⟩ : ∃ m, s.solveIter = m + 1 := ⟨s.solveIter - 1, by omega⟩
  rw [hm] at a4 a5
  refine ⟨m, hm, ?_, a5⟩
  rw [hm, a4, Nat.add_sub_cancel]
  exact C17_jump_value E.ctl _ _ hcrit m

/-- C97.  A time stepper as in `C93_multilevel` with rate `q < 1`, jump criterion, a norm that is at least the
seminorm `p` and a norm in time that is at least each entry: the error of the returned values is at most
`q / (1 - q)` times the last recorded value. -/
theorem C97_jump (h : E.Good) (hmax : 0 < E.maxIter) (hcrit : E.convCrit = 1) (hT : Copying E) (hκ : 0 ≤ κ)
    (hA : Approx E.sys p κ) (hq : convRate E κ < 1) (hnorm : ∀ x, p x ≤ E.norm x)
    (htnorm : ∀ xs : List ℝ, (∀ x ∈ xs, 0 ≤ x) → 0 ≤ E.tnorm xs ∧ ∀ x ∈ xs, x ≤ E.tnorm xs)
    {c : Conf E.P (Msg V ℝ) (PState V ℝ)} (h1 : Steps (startConf E) c) (hc : ∀ d, ¬ Step c d)
    (r : Fin E.P) (s : PState V ℝ) (hr : c.prog r = Prog.ret s)
    (k i j : Nat) (hi : (E.info r 0).pts[k]? = some i) (hj : (E.info r 0).idx[k]? = some j) :
    p (s.u 0 j - timeStepping E i) ≤ convRate E κ / (1 - convRate E κ) * s.conv s.solveIter := by
  obtain ⟨m, hm, hcv, hv⟩ := returned_jump h hmax hcrit h1 hc r s hr
  obtain ⟨b1, b2⟩ := hv k i j hi hj
  have hn0 : ∀ x, 0 ≤ E.norm x := fun x => (apply_nonneg p x).trans (hnorm x)
  obtain ⟨t0, t1⟩ := htnorm (((allC E.ts 0).filter (· ≠ 0)).map fun i =>
        E.norm (iterateAt E (m + 1) i - iterateAt E m i)) (by
    intro x hx
    obtain ⟨i, -, rfl⟩ := List.mem_map.1 hx
    exact hn0 _)
  rw [b2, hcv]
  exact jump_err h hT hκ hA hq m _ t0
    (fun i hi hi0 => (hnorm _).trans (t1 _ (List.mem_map.2 ⟨i, by simp [hi, hi0], rfl⟩))) i b1

/-- The value of the jump criterion when `solve()` stopped before `max_iter` is below the tolerance. -/
theorem stopped_value (h : E.Good) (tol : ℝ) (hlt : ∀ x, E.ltTol x = true → x < tol)
    {c : Conf E.P (Msg V ℝ) (PState V ℝ)} (h1 : Steps (startConf E) c) (hc : ∀ d, ¬ Step c d)
    (r : Fin E.P) (s : PState V ℝ) (hr : c.prog r = Prog.ret s) (hs : s.solveIter < E.maxIter) :
    s.conv s.solveIter ≤ tol := by
  obtain ⟨-, -, a3, -, -⟩ := returned h (by omega) h1 hc r s hr
  rcases a3 with a | a
  · exact (hlt _ a).le
  · omega

end

section
variable {E : Cfg ℝ ℝ ℝ ℝ}

/-- C97.  Dahlquist problem with `λ ≤ 0` and backward Euler on any number of levels, with or without nested
iteration. -/
theorem C97_dahlquist (h : E.Good) (hmax : 0 < E.maxIter) (hcrit : E.convCrit = 1) (hT : Copying E)
    {lam : ℝ} (hlam : lam ≤ 0)
    (hstep : ∀ l u t t', l < E.ts.length → E.step l u t t' = Apps.dahlquist .BE lam u t t')
    (hq : convRate E (1 / 3) < 1) (hnorm : ∀ x, E.norm x = |x|)
    (htnorm : ∀ xs : List ℝ, (∀ x ∈ xs, 0 ≤ x) → 0 ≤ E.tnorm xs ∧ ∀ x ∈ xs, x ≤ E.tnorm xs)
    {c : Conf E.P (Msg ℝ ℝ) (PState ℝ ℝ)} (h1 : Steps (startConf E) c) (hc : ∀ d, ¬ Step c d)
    (r : Fin E.P) (s : PState ℝ ℝ) (hr : c.prog r = Prog.ret s)
    (k i j : Nat) (hi : (E.info r 0).pts[k]? = some i) (hj : (E.info r 0).idx[k]? = some j) :
    |s.u 0 j - timeStepping E i| ≤ convRate E (1 / 3) / (1 - convRate E (1 / 3)) * s.conv s.solveIter :=
  C97_jump (p := (normSeminorm ℝ ℝ).comp LinearMap.id) h hmax hcrit hT (by norm_num)
    ((dahlquist_damped hstep).approx h.valid (by linarith)) hq (fun x => (hnorm x).ge) htnorm h1 hc r s hr
    k i j hi hj

/-- C97.  On two levels with weight in `[0, 1]`: if `solve()` stopped before `max_iter`, all values are within
half the tolerance of sequential time stepping. -/
theorem C97_dahlquist_tolerance (h : E.Good) (hcrit : E.convCrit = 1) (hT : TwoLevelCopy E)
    {lam : ℝ} (hlam : lam ≤ 0)
    (hstep : ∀ l u t t', l < E.ts.length → E.step l u t t' = Apps.dahlquist .BE lam u t t')
    (hnorm : ∀ x, E.norm x = |x|)
    (htnorm : ∀ xs : List ℝ, (∀ x ∈ xs, 0 ≤ x) → 0 ≤ E.tnorm xs ∧ ∀ x ∈ xs, x ≤ E.tnorm xs)
    (tol : ℝ) (hlt : ∀ x, E.ltTol x = true → x < tol)
    {c : Conf E.P (Msg ℝ ℝ) (PState ℝ ℝ)} (h1 : Steps (startConf E) c) (hc : ∀ d, ¬ Step c d)
    (r : Fin E.P) (s : PState ℝ ℝ) (hr : c.prog r = Prog.ret s) (hs : s.solveIter < E.maxIter)
    (k i j : Nat) (hi : (E.info r 0).pts[k]? = some i) (hj : (E.info r 0).idx[k]? = some j) :
    |s.u 0 j - timeStepping E i| ≤ tol / 2 := by
  have hv := stopped_value h tol hlt h1 hc r s hr hs
  have := C97_dahlquist h (by omega) hcrit hT.copying hlam hstep (by rw [(hT.rate _).1]; norm_num) hnorm htnorm
    h1 hc r s hr k i j hi hj
  rw [(hT.rate _).1] at this
  norm_num at this
  linarith

end

section
variable {ι : Type} [Fintype ι] [DecidableEq ι] {E : Cfg (ι → ℝ) ℝ ℝ ℝ}

theorem norm2_map_sq {α : Type} (l : List α) (f : α → ℝ) (hn : l.Nodup) [DecidableEq α] :
    norm2 (l.map f) ^ 2 = ∑ a ∈ l.toFinset, f a ^ 2 := by
  unfold norm2
  rw [List.map_map, Real.sq_sqrt (List.sum_nonneg (by
    intro x hx
    obtain ⟨a, -, rfl⟩ := List.mem_map.1 hx
    exact sq_nonneg _)), List.sum_toFinset _ hn]
  rfl

/-- C97.  Backward Euler for a symmetric matrix with nonnegative eigenvalues, Euclidean norm of vectors, a norm
in time that is at least the Euclidean one: the Euclidean norm of the error of the returned values is at most
`q / (1 - q)` times the last recorded value; with or without nested iteration. -/
theorem C97_symmetric (h : E.Good) (hmax : 0 < E.maxIter) (hcrit : E.convCrit = 1) (hT : Copying E)
    {A : Matrix ι ι ℝ} (hA : A.transpose = A)
    (hpos : ∀ (v : ι → ℝ) (μ : ℝ), v ≠ 0 → A.mulVec v = μ • v → 0 ≤ μ) (b : Nat → ℝ → ℝ → ι → ℝ)
    (hstep : ∀ l u t t', l < E.ts.length → t ≤ t' → Lin.Solves ((t' - t) • A + 1) (u + b l t t') (E.step l u t t'))
    (hq : convRate E (1 / 3) < 1) (hnorm : ∀ x, E.norm x = √(∑ y, x y ^ 2))
    (htnorm : ∀ xs : List ℝ, norm2 xs ≤ E.tnorm xs)
    {c : Conf E.P (Msg (ι → ℝ) ℝ) (PState (ι → ℝ) ℝ)} (h1 : Steps (startConf E) c) (hc : ∀ d, ¬ Step c d)
    (r : Fin E.P) (s : PState (ι → ℝ) ℝ) (hr : c.prog r = Prog.ret s)
    (k i j : Nat) (hi : (E.info r 0).pts[k]? = some i) (hj : (E.info r 0).idx[k]? = some j) :
    √(∑ x, (s.u 0 j x - timeStepping E i x) ^ 2)
      ≤ convRate E (1 / 3) / (1 - convRate E (1 / 3)) * s.conv s.solveIter := by
  obtain ⟨m, hm, hcv, hv⟩ := returned_jump h hmax hcrit h1 hc r s hr
  obtain ⟨b1, b2⟩ := hv k i j hi hj
  obtain ⟨f, μ, hμ, hparseval, hfA⟩ := eigen_coords hA hpos
  set q := convRate E (1 / 3) with hqd
  have hq0 : 0 ≤ q := convRate_nonneg E (by norm_num)
  have hf0 : 0 ≤ q / (1 - q) := div_nonneg hq0 (by linarith)
  let pts := (allC E.ts 0).filter (· ≠ 0)
  let J : Nat → ι → ℝ := fun i => iterateAt E (m + 1) i - iterateAt E m i
  have hnd : pts.Nodup := ((allC_sorted h.valid 0).imp fun h => Nat.ne_of_lt h).filter _
  let D : ι → ℝ := fun p => √(∑ i ∈ pts.toFinset, (f p (J i)) ^ 2)
  have hD2 : ∀ p, D p ^ 2 = ∑ i ∈ pts.toFinset, (f p (J i)) ^ 2 :=
    fun p => Real.sq_sqrt (Finset.sum_nonneg fun _ _ => sq_nonneg _)
  have hsum : ∑ p, D p ^ 2 = norm2 (pts.map fun i => E.norm (J i)) ^ 2 := by
    rw [norm2_map_sq _ _ hnd]
    simp only [hD2]
    rw [Finset.sum_comm]
    refine Finset.sum_congr rfl fun i _ => ?_
    rw [hparseval, hnorm, Real.sq_sqrt (Finset.sum_nonneg fun _ _ => sq_nonneg _)]
  have hcomp : ∀ p, |f p (iterateAt E (m + 1) i - timeStepping E i)| ≤ q / (1 - q) * D p := by
    intro p
    have hd : Damped E (f p) (μ p) := eigen_damped (hμ p) (hfA p) LinearMap.id (fun l u v t t' hl ht => by
      show Matrix.mulVec _ _ = _
      simp only [LinearMap.id_apply]
      rw [Matrix.mulVec_sub, hstep l u t t' hl ht, hstep l v t t' hl ht]
      abel)
    refine jump_err (p := (normSeminorm ℝ ℝ).comp (f p)) h hT (by norm_num) (hd.approx h.valid (hμ p)) hq m (D p)
      (Real.sqrt_nonneg _) ?_ i b1
    intro i hi hi0
    show |f p (J i)| ≤ D p
    rw [← Real.sqrt_sq_eq_abs]
    refine Real.sqrt_le_sqrt (Finset.single_le_sum (f := fun i => (f p (J i)) ^ 2) (fun _ _ => sq_nonneg _) ?_)
    exact List.mem_toFinset.2 (by simp [pts, hi, hi0])
  have hle : ∑ x, (s.u 0 j x - timeStepping E i x) ^ 2
      ≤ (q / (1 - q) * norm2 (pts.map fun i => E.norm (J i))) ^ 2 := by
    have e : ∑ x, (s.u 0 j x - timeStepping E i x) ^ 2 = ∑ p, f p (iterateAt E (m + 1) i - timeStepping E i) ^ 2 := by
      rw [hparseval, b2]; rfl
    rw [e, mul_pow, ← hsum, Finset.mul_sum]
    refine Finset.sum_le_sum fun p _ => ?_
    have h3 := mul_self_le_mul_self (abs_nonneg _) (hcomp p)
    rw [← sq, sq_abs] at h3
    refine h3.trans (le_of_eq ?_)
    ring
  rw [hcv]
  refine (Real.sqrt_le_sqrt hle).trans ?_
  rw [Real.sqrt_sq (mul_nonneg hf0 (show 0 ≤ norm2 _ from Real.sqrt_nonneg _))]
  exact mul_le_mul_of_nonneg_left (htnorm _) hf0

end

section
variable {n : Nat} {E : Cfg (Fin n → ℝ) ℝ ℝ ℝ}

/-- C97.  The shipped one-dimensional heat equation. -/
theorem C97_heat_1d (h : E.Good) (hmax : 0 < E.maxIter) (hcrit : E.convCrit = 1) (hT : Copying E) {a dx : ℝ}
    (ha : 0 ≤ a) (rhs : ℝ → Fin n → ℝ)
    (hstep : ∀ l u t t', l < E.ts.length → t ≤ t' → Apps.heat1dStep a dx rhs u t t' (E.step l u t t'))
    (hq : convRate E (1 / 3) < 1) (hnorm : ∀ x, E.norm x = √(∑ y, x y ^ 2))
    (htnorm : ∀ xs : List ℝ, norm2 xs ≤ E.tnorm xs)
    {c : Conf E.P (Msg (Fin n → ℝ) ℝ) (PState (Fin n → ℝ) ℝ)} (h1 : Steps (startConf E) c)
    (hc : ∀ d, ¬ Step c d) (r : Fin E.P) (s : PState (Fin n → ℝ) ℝ) (hr : c.prog r = Prog.ret s)
    (k i j : Nat) (hi : (E.info r 0).pts[k]? = some i) (hj : (E.info r 0).idx[k]? = some j) :
    √(∑ x, (s.u 0 j x - timeStepping E i x) ^ 2)
      ≤ convRate E (1 / 3) / (1 - convRate E (1 / 3)) * s.conv s.solveIter :=
  C97_symmetric h hmax hcrit hT (Apps.heatMatrix_symm n a dx) (fun v μ hv he => heat_eigen_nonneg ha v μ hv he)
    (fun _ t t' => (t' - t) • rhs t') hstep hq hnorm htnorm h1 hc r s hr k i j hi hj

/-- C97.  On two levels with weight in `[0, 1]`: if `solve()` stopped before `max_iter`, all values are within
half the tolerance of sequential time stepping. -/
theorem C97_heat_1d_tolerance (h : E.Good) (hcrit : E.convCrit = 1) (hT : TwoLevelCopy E) {a dx : ℝ}
    (ha : 0 ≤ a) (rhs : ℝ → Fin n → ℝ)
    (hstep : ∀ l u t t', l < E.ts.length → t ≤ t' → Apps.heat1dStep a dx rhs u t t' (E.step l u t t'))
    (hnorm : ∀ x, E.norm x = √(∑ y, x y ^ 2)) (htnorm : ∀ xs : List ℝ, norm2 xs ≤ E.tnorm xs)
    (tol : ℝ) (hlt : ∀ x, E.ltTol x = true → x < tol)
    {c : Conf E.P (Msg (Fin n → ℝ) ℝ) (PState (Fin n → ℝ) ℝ)} (h1 : Steps (startConf E) c)
    (hc : ∀ d, ¬ Step c d) (r : Fin E.P) (s : PState (Fin n → ℝ) ℝ) (hr : c.prog r = Prog.ret s)
    (hs : s.solveIter < E.maxIter)
    (k i j : Nat) (hi : (E.info r 0).pts[k]? = some i) (hj : (E.info r 0).idx[k]? = some j) :
    √(∑ x, (s.u 0 j x - timeStepping E i x) ^ 2) ≤ tol / 2 := by
  have hv := stopped_value h tol hlt h1 hc r s hr hs
  have := C97_heat_1d h (by omega) hcrit hT.copying ha rhs hstep (by rw [(hT.rate _).1]; norm_num) hnorm htnorm
    h1 hc r s hr k i j hi hj
  rw [(hT.rate _).1] at this
  norm_num at this
  linarith

end

/-- The norms in time meet the condition of `C97_jump` and `C97_dahlquist`. -/
theorem norm2_entry (xs : List ℝ) (hx : ∀ x ∈ xs, 0 ≤ x) : 0 ≤ norm2 xs ∧ ∀ x ∈ xs, x ≤ norm2 xs := by
  refine ⟨Real.sqrt_nonneg _, fun x h => ?_⟩
  unfold norm2
  rw [← Real.sqrt_sq (hx x h)]
  exact Real.sqrt_le_sqrt (List.single_le_sum (by
    intro y hy
    obtain ⟨a, -, rfl⟩ := List.mem_map.1 hy
    exact sq_nonneg _) _ (List.mem_map.2 ⟨x, h, rfl⟩))

theorem norm1_entry (xs : List ℝ) (hx : ∀ x ∈ xs, 0 ≤ x) : 0 ≤ norm1 xs ∧ ∀ x ∈ xs, x ≤ norm1 xs := by
  have hp : ∀ y ∈ xs.map fun x => |x|, 0 ≤ y := by
    intro y hy
    obtain ⟨a, -, rfl⟩ := List.mem_map.1 hy
    exact abs_nonneg _
  exact ⟨List.sum_nonneg hp, fun x h =>
    (le_abs_self x).trans (List.single_le_sum hp _ (List.mem_map.2 ⟨x, h, rfl⟩))⟩

theorem normInf_entry (xs : List ℝ) (hx : ∀ x ∈ xs, 0 ≤ x) : 0 ≤ normInf xs ∧ ∀ x ∈ xs, x ≤ normInf xs := by
  clear hx
  unfold normInf
  induction xs with
  | nil => exact ⟨le_rfl, fun x h => absurd h List.not_mem_nil⟩
  | cons a xs ih =>
    refine ⟨le_max_of_le_right ih.1, fun x h => ?_⟩
    rcases List.mem_cons.1 h with rfl | h
    · exact le_max_of_le_left (le_abs_self _)
    · exact le_max_of_le_right (ih.2 x h)

/-- The sum of absolute values is at least the Euclidean norm, as needed by `C97_symmetric`. -/
theorem norm2_le_norm1 (xs : List ℝ) : norm2 xs ≤ norm1 xs := by
  have h0 : ∀ xs : List ℝ, 0 ≤ norm1 xs := fun xs => List.sum_nonneg (by
    intro y hy
    obtain ⟨a, -, rfl⟩ := List.mem_map.1 hy
    exact abs_nonneg _)
  unfold norm2
  rw [← Real.sqrt_sq (h0 xs)]
  refine Real.sqrt_le_sqrt ?_
  induction xs with
  | nil => simp [norm1]
  | cons a xs ih =>
    have e : norm1 (a :: xs) = |a| + norm1 xs := by simp [norm1]
    rw [List.map_cons, List.sum_cons, e]
    nlinarith [mul_nonneg (abs_nonneg a) (h0 xs), sq_abs a]

/-! ## C98 -/

/-- The norms in time of the solver are at most `β` times the largest entry. -/
def TimeFactor (tnorm : List ℝ → ℝ) (len : Nat) (β : ℝ) : Prop :=
  ∀ xs : List ℝ, xs.length = len → ∀ b, 0 ≤ b → (∀ x ∈ xs, 0 ≤ x ∧ x ≤ b) → tnorm xs ≤ β * b

theorem timeFactor_norm1 (len : Nat) : TimeFactor norm1 len len := by
  intro xs hl b _ hx
  unfold norm1
  have := List.sum_le_card_nsmul (xs.map fun x => |x|) b (by
    intro y hy
    obtain ⟨x, h, rfl⟩ := List.mem_map.1 hy
    rw [abs_of_nonneg (hx x h).1]
    exact (hx x h).2)
  simpa [hl] using this

theorem timeFactor_norm2 (len : Nat) : TimeFactor norm2 len (√len) := by
  intro xs hl b hb hx
  unfold norm2
  have := List.sum_le_card_nsmul (xs.map fun x => x ^ 2) (b ^ 2) (by
    intro y hy
    obtain ⟨x, h, rfl⟩ := List.mem_map.1 hy
    exact pow_le_pow_left₀ (hx x h).1 (hx x h).2 2)
  refine (Real.sqrt_le_sqrt this).trans (le_of_eq ?_)
  rw [List.length_map, hl, nsmul_eq_mul, Real.sqrt_mul (Nat.cast_nonneg _), Real.sqrt_sq hb]

theorem timeFactor_normInf (len : Nat) : TimeFactor normInf len 1 := by
  intro xs hl b hb hx
  rw [one_mul]
  unfold normInf
  clear hl
  induction xs with
  | nil => exact hb
  | cons x xs ih =>
    rw [List.map_cons, List.foldr_cons, abs_of_nonneg (hx x (by simp)).1]
    exact max_le (hx x (by simp)).2 (ih (fun y hy => hx y (by simp [hy])))

section
variable {V : Type} [AddCommGroup V] [Module ℝ V] {E : Cfg V ℝ ℝ ℝ}

/-- What a bound of the error after each iteration says about the number of iterations.  `ν` is the norm of the
vectors. -/
theorem count_of_err (h : E.Good) (hL : 1 < E.ts.length) (hmax : 0 < E.maxIter) (ν : V → ℝ)
    (hν0 : ∀ x, 0 ≤ ν x) (htri : ∀ x y z, ν (x - y) ≤ ν (x - z) + ν (y - z)) (hnorm : ∀ x, E.norm x = ν x)
    (hstep : ∀ i x y, 1 ≤ i → i < npts E.ts 0 → ν (E.sys.Φ 0 i x - E.sys.Φ 0 i y) ≤ ν (x - y))
    {β : ℝ} (hβ : TimeFactor E.tnorm ((allC E.ts 0).filter (· ≠ 0)).length β)
    (tol : ℝ) (hlt : ∀ x, E.ltTol x = true ↔ x < tol) (q D : ℝ) (hq : 0 ≤ q) (hD : 0 ≤ D)
    (hC : ∀ m i, i ∈ allC E.ts 0 → ν (iterateAt E m i - timeStepping E i) ≤ q ^ m * D)
    (hall : ∀ m i, 1 ≤ m → i < npts E.ts 0 → ν (iterateAt E m i - timeStepping E i) ≤ q ^ m * D)
    (k : Nat) (hk : 1 ≤ k)
    (hsmall : (E.convCrit = 0 ∧ β * (2 * q ^ k * D) < tol) ∨
      (E.convCrit = 1 ∧ β * ((q ^ k + q ^ (k - 1)) * D) < tol))
    {c : Conf E.P (Msg V ℝ) (PState V ℝ)} (h1 : Steps (startConf E) c) (hc : ∀ d, ¬ Step c d)
    (r : Fin E.P) (s : PState V ℝ) (hr : c.prog r = Prog.ret s) :
    s.solveIter ≤ k ∧ (k ≤ E.maxIter → s.conv s.solveIter < tol) := by
  have hwf := E.sys_wf h.valid
  obtain ⟨k, rfl⟩ : ∃ k', k = k' + 1 := ⟨k - 1, by omega⟩
  have hval : E.sys.critValue E.ctl E.sys.forwardSolve (afterConstructor E) k < tol := by
    rcases hsmall with ⟨e, hs⟩ | ⟨e, hs⟩
    · unfold critValue
      dsimp only
      rw [if_pos (show E.ctl.convCrit = 0 from e)]
      refine lt_of_le_of_lt (hβ _ (by rw [List.length_map]; rfl) (2 * q ^ (k + 1) * D) (by positivity) ?_) hs
      intro x hx
      obtain ⟨i, hi, rfl⟩ := List.mem_map.1 hx
      obtain ⟨hi, hi0⟩ : i ∈ E.sys.C 0 ∧ i ≠ 0 := by simpa using hi
      have hin : i < npts E.ts 0 := hwf.C_lt 0 hL i hi
      rw [show E.ctl.norm = E.norm from rfl, hnorm]
      refine ⟨hν0 _, ?_⟩
      have e1 := htri (E.sys.Φ 0 i (iterateAt E (k + 1) (i - 1))) (iterateAt E (k + 1) i) (timeStepping E i)
      have e2 := hall (k + 1) i (by omega) hin
      have e3 := hall (k + 1) (i - 1) (by omega) (by omega)
      have e4 : timeStepping E i = E.sys.Φ 0 i (timeStepping E (i - 1)) := by
        obtain ⟨i, rfl⟩ : ∃ i', i = i' + 1 := ⟨i - 1, by omega⟩
        rfl
      have e5 := hstep i (iterateAt E (k + 1) (i - 1)) (timeStepping E (i - 1)) (by omega) hin
      rw [← e4] at e5
      refine e1.trans ?_
      linarith
    · unfold afterConstructor
      rw [C17_jump_value E.ctl _ _ e]
      refine lt_of_le_of_lt (hβ _ (by rw [List.length_map]; rfl) ((q ^ (k + 1) + q ^ (k + 1 - 1)) * D)
        (by positivity) ?_) hs
      intro x hx
      obtain ⟨i, hi, rfl⟩ := List.mem_map.1 hx
      obtain ⟨hi, hi0⟩ : i ∈ E.sys.C 0 ∧ i ≠ 0 := by simpa using hi
      rw [show E.ctl.norm = E.norm from rfl, hnorm]
      refine ⟨hν0 _, ?_⟩
      have e1 := htri (iterateAt E (k + 1) i) (iterateAt E k i) (timeStepping E i)
      have e2 := hC (k + 1) i hi
      have e3 := hC k i hi
      rw [Nat.add_sub_cancel, add_mul]
      exact e1.trans (add_le_add e2 e3)
  obtain ⟨s', e, hS⟩ := C20_same_as_serial_partial h h1 hc r
  rw [hr] at e
  cases e
  have hser : serialRun E = E.sys.solve E.ctl E.sys.forwardSolve (afterConstructor E) := rfl
  obtain ⟨m, hm1, hm2, hit, -, hno, hstop, hcv, -⟩ :=
    C17_stopping_rule (S := E.sys) E.ctl E.sys.forwardSolve (afterConstructor E) hmax
  rw [hS.conv, hS.iter, hser, hit]
  have hle : m ≤ k + 1 := by
    by_contra hlt'
    have := hno (k + 1) (by omega) (by omega)
    rw [hcv (k + 1) (by omega) (by omega), Nat.add_sub_cancel] at this
    have h2 := (hlt _).2 hval
    rw [show E.ctl.ltTol = E.ltTol from rfl, h2] at this
    cases this
  refine ⟨hle, fun hk' => ?_⟩
  rcases hstop with a | a
  · exact (hlt _).1 a
  · have hmk : m = k + 1 := by
      have : E.ctl.maxIter = E.maxIter := rfl
      omega
    rw [hcv m hm1 le_rfl, hmk, Nat.add_sub_cancel]
    exact hval

variable {p : Seminorm ℝ V} {κ : ℝ}

/-- C98.  A time stepper as in `C93_multilevel` with rate `q`, the seminorm `p` as norm of the vectors, `β` the
factor of the norm in time, errors of the initial guess at the coarse points at most `D`: if
`2 β q^k D < tol` (residual criterion) or `β (q^k + q^(k-1)) D < tol` (jump criterion), `solve()` performs at
most `k` iterations, and with `k ≤ max_iter` its last recorded value is below the tolerance. -/
theorem C98_iterations (h : E.Good) (hmax : 0 < E.maxIter) (hT : Copying E) (hκ : 0 ≤ κ)
    (hA : Approx E.sys p κ) (hnorm : ∀ x, E.norm x = p x)
    {β : ℝ} (hβ : TimeFactor E.tnorm ((allC E.ts 0).filter (· ≠ 0)).length β)
    (tol : ℝ) (hlt : ∀ x, E.ltTol x = true ↔ x < tol) (D : ℝ)
    (hD : ∀ i, i ∈ allC E.ts 0 → p ((afterConstructor E).st.u 0 i - timeStepping E i) ≤ D)
    (k : Nat) (hk : 1 ≤ k)
    (hsmall : (E.convCrit = 0 ∧ β * (2 * convRate E κ ^ k * D) < tol) ∨
      (E.convCrit = 1 ∧ β * ((convRate E κ ^ k + convRate E κ ^ (k - 1)) * D) < tol))
    {c : Conf E.P (Msg V ℝ) (PState V ℝ)} (h1 : Steps (startConf E) c) (hc : ∀ d, ¬ Step c d)
    (r : Fin E.P) (s : PState V ℝ) (hr : c.prog r = Prog.ret s) :
    s.solveIter ≤ k ∧ (k ≤ E.maxIter → s.conv s.solveIter < tol) := by
  have herr := iterateAt_err h hT hκ hA 0 D hD
  simp only [Nat.zero_add] at herr
  refine count_of_err h hT.L hmax p (fun x => apply_nonneg p x) (fun x y z => ?_) hnorm
    (fun i x y h1 hi => hA.step 0 i x y (by have := hT.L; show 0 < E.ts.length; omega) h1 hi) hβ tol hlt
    (convRate E κ) D (convRate_nonneg E hκ)
    ((apply_nonneg p _).trans (hD 0 ((E.sys_wf h.valid).zero_mem_C hT.L)))
    (fun m i hi => (herr m).1 i hi) (fun m i hm hi => (herr m).2 hm i hi) k hk hsmall h1 hc r s hr
  have : x - y = (x - z) + -(y - z) := by abel
  rw [this]
  refine (map_add_le_add p _ _).trans ?_
  rw [map_neg_eq_map]

end

section
variable {E : Cfg ℝ ℝ ℝ ℝ}

/-- C98.  Dahlquist problem with `λ ≤ 0` and backward Euler, without nested iteration. -/
theorem C98_dahlquist (h : E.Good) (hmax : 0 < E.maxIter) (hT : Copying E) {lam : ℝ} (hlam : lam ≤ 0)
    (hstep : ∀ l u t t', l < E.ts.length → E.step l u t t' = Apps.dahlquist .BE lam u t t')
    (hnest : E.nested = false) (hnorm : ∀ x, E.norm x = |x|)
    {β : ℝ} (hβ : TimeFactor E.tnorm ((allC E.ts 0).filter (· ≠ 0)).length β)
    (tol : ℝ) (hlt : ∀ x, E.ltTol x = true ↔ x < tol) (D : ℝ) (hD0 : 0 ≤ D)
    (hD : ∀ i, i ∈ allC E.ts 0 → i ≠ 0 → |E.guess i - timeStepping E i| ≤ D)
    (k : Nat) (hk : 1 ≤ k)
    (hsmall : (E.convCrit = 0 ∧ β * (2 * convRate E (1 / 3) ^ k * D) < tol) ∨
      (E.convCrit = 1 ∧ β * ((convRate E (1 / 3) ^ k + convRate E (1 / 3) ^ (k - 1)) * D) < tol))
    {c : Conf E.P (Msg ℝ ℝ) (PState ℝ ℝ)} (h1 : Steps (startConf E) c) (hc : ∀ d, ¬ Step c d)
    (r : Fin E.P) (s : PState ℝ ℝ) (hr : c.prog r = Prog.ret s) :
    s.solveIter ≤ k ∧ (k ≤ E.maxIter → s.conv s.solveIter < tol) := by
  refine C98_iterations (p := (normSeminorm ℝ ℝ).comp LinearMap.id) h hmax hT (by norm_num)
    ((dahlquist_damped hstep).approx h.valid (by linarith)) hnorm hβ tol hlt D ?_ k hk hsmall h1 hc r s hr
  intro i hi
  rw [constructor_value hnest]
  split
  · next e =>
    subst e
    show |E.start 0 - E.start 0| ≤ D
    rw [sub_self, abs_zero]; exact hD0
  · next e => rw [if_pos rfl]; exact hD i hi e

/-- C98.  With nested iteration, whatever the initial guess. -/
theorem C98_dahlquist_nested (h : E.Good) (hmax : 0 < E.maxIter) (hT : Copying E) {lam : ℝ} (hlam : lam ≤ 0)
    (hstep : ∀ l u t t', l < E.ts.length → E.step l u t t' = Apps.dahlquist .BE lam u t t')
    (hnest : E.nested = true) (hzero : ∀ l, l ≠ 0 → l < E.ts.length → E.zero l = 0)
    (hstart : ∀ l, l < E.ts.length → E.start l = E.start 0) (hnorm : ∀ x, E.norm x = |x|)
    {β : ℝ} (hβ : TimeFactor E.tnorm ((allC E.ts 0).filter (· ≠ 0)).length β)
    (tol : ℝ) (hlt : ∀ x, E.ltTol x = true ↔ x < tol) (k : Nat) (hk : 1 ≤ k)
    (hsmall : (E.convCrit = 0 ∧ β * (2 * convRate E (1 / 3) ^ k * (nestRate E (1 / 3) * |E.start 0|)) < tol) ∨
      (E.convCrit = 1 ∧ β * ((convRate E (1 / 3) ^ k + convRate E (1 / 3) ^ (k - 1)) *
        (nestRate E (1 / 3) * |E.start 0|)) < tol))
    {c : Conf E.P (Msg ℝ ℝ) (PState ℝ ℝ)} (h1 : Steps (startConf E) c) (hc : ∀ d, ¬ Step c d)
    (r : Fin E.P) (s : PState ℝ ℝ) (hr : c.prog r = Prog.ret s) :
    s.solveIter ≤ k ∧ (k ≤ E.maxIter → s.conv s.solveIter < tol) := by
  have hd := dahlquist_damped hstep
  exact C98_iterations (p := (normSeminorm ℝ ℝ).comp LinearMap.id) h hmax hT (by norm_num)
    (hd.approx h.valid (by linarith)) hnorm hβ tol hlt _
    (fun i hi => damped_nested h hnest hT (by linarith) hd
      (fun l t t' hl _ => by simp [hstep l 0 t t' hl, Apps.dahlquist]) hzero hstart i hi) k hk hsmall h1 hc r s hr

end

section
variable {ι : Type} [Fintype ι] [DecidableEq ι] {E : Cfg (ι → ℝ) ℝ ℝ ℝ}

/-- The Euclidean norm. -/
noncomputable def eucl (x : ι → ℝ) : ℝ := √(∑ y, x y ^ 2)

theorem eucl_sq (x : ι → ℝ) : eucl x ^ 2 = ∑ y, x y ^ 2 := Real.sq_sqrt (Finset.sum_nonneg fun _ _ => sq_nonneg _)

theorem eucl_le {x : ι → ℝ} {b : ℝ} (hb : 0 ≤ b) (h : ∑ y, x y ^ 2 ≤ b ^ 2) : eucl x ≤ b :=
  (Real.sqrt_le_sqrt h).trans (le_of_eq (Real.sqrt_sq hb))

theorem eucl_tri (x y z : ι → ℝ) : eucl (x - y) ≤ eucl (x - z) + eucl (y - z) := by
  have e : ∀ v : ι → ℝ, eucl v = ‖WithLp.toLp 2 v‖ := by
    intro v
    rw [EuclideanSpace.norm_eq]
    simp [eucl]
  rw [e, e, e]
  have : WithLp.toLp 2 (x - y) = WithLp.toLp 2 (x - z) - WithLp.toLp 2 (y - z) := by
    ext i; simp
  rw [this]
  exact norm_sub_le _ _

/-- C98.  Backward Euler for a symmetric matrix with nonnegative eigenvalues, Euclidean norm of vectors; `D p`
bounds the coordinates of the error after the constructor. -/
theorem count_symmetric (h : E.Good) (hmax : 0 < E.maxIter) (hT : Copying E) {A : Matrix ι ι ℝ}
    (hA : A.transpose = A)
    (b : Nat → ℝ → ℝ → ι → ℝ)
    (hstep : ∀ l u t t', l < E.ts.length → t ≤ t' → Lin.Solves ((t' - t) • A + 1) (u + b l t t') (E.step l u t t'))
    (f : ι → (ι → ℝ) →ₗ[ℝ] ℝ) (μ : ι → ℝ) (hμ : ∀ p, 0 ≤ μ p)
    (hparseval : ∀ x : ι → ℝ, ∑ p, (f p x) ^ 2 = ∑ q, x q ^ 2) (hfA : ∀ p x, f p (A.mulVec x) = μ p * f p x)
    (hnorm : ∀ x, E.norm x = eucl x)
    {β : ℝ} (hβ : TimeFactor E.tnorm ((allC E.ts 0).filter (· ≠ 0)).length β)
    (tol : ℝ) (hlt : ∀ x, E.ltTol x = true ↔ x < tol) (D : ι → ℝ) (D2 : ℝ) (hD2 : 0 ≤ D2)
    (hDD : ∑ p, D p ^ 2 ≤ D2 ^ 2)
    (hD : ∀ p i, i ∈ allC E.ts 0 → |f p ((afterConstructor E).st.u 0 i - timeStepping E i)| ≤ D p)
    (k : Nat) (hk : 1 ≤ k)
    (hsmall : (E.convCrit = 0 ∧ β * (2 * convRate E (1 / 3) ^ k * D2) < tol) ∨
      (E.convCrit = 1 ∧ β * ((convRate E (1 / 3) ^ k + convRate E (1 / 3) ^ (k - 1)) * D2) < tol))
    {c : Conf E.P (Msg (ι → ℝ) ℝ) (PState (ι → ℝ) ℝ)} (h1 : Steps (startConf E) c) (hc : ∀ d, ¬ Step c d)
    (r : Fin E.P) (s : PState (ι → ℝ) ℝ) (hr : c.prog r = Prog.ret s) :
    s.solveIter ≤ k ∧ (k ≤ E.maxIter → s.conv s.solveIter < tol) := by
  set q := convRate E (1 / 3) with hqd
  have hq0 : 0 ≤ q := convRate_nonneg E (by norm_num)
  have hd : ∀ p, Damped E (f p) (μ p) := fun p =>
    eigen_damped (hμ p) (hfA p) LinearMap.id (fun l u v t t' hl ht => by
      show Matrix.mulVec _ _ = _
      simp only [LinearMap.id_apply]
      rw [Matrix.mulVec_sub, hstep l u t t' hl ht, hstep l v t t' hl ht]
      abel)
  have hap := fun p => (hd p).approx h.valid (hμ p)
  have hsum : ∀ (x : ι → ℝ) (a : ℝ), 0 ≤ a → (∀ p, |f p x| ≤ a * D p) → eucl x ≤ a * D2 := by
    intro x a ha hx
    refine eucl_le (mul_nonneg ha hD2) ?_
    rw [← hparseval, mul_pow]
    refine le_trans ?_ (mul_le_mul_of_nonneg_left hDD (sq_nonneg a))
    rw [Finset.mul_sum]
    refine Finset.sum_le_sum fun p _ => ?_
    have h3 := mul_self_le_mul_self (abs_nonneg _) (hx p)
    rw [← sq, sq_abs] at h3
    refine h3.trans (le_of_eq ?_)
    ring
  have herr := fun p => iterateAt_err (p := (normSeminorm ℝ ℝ).comp (f p)) h hT (by norm_num) (hap p) 0 (D p) (hD p)
  simp only [Nat.zero_add] at herr
  refine count_of_err h hT.L hmax eucl (fun x => Real.sqrt_nonneg _) eucl_tri hnorm ?_ hβ tol hlt q D2 hq0 hD2
    (fun m i hi => hsum _ _ (pow_nonneg hq0 m) fun p => (herr p m).1 i hi)
    (fun m i hm hi => hsum _ _ (pow_nonneg hq0 m) fun p => (herr p m).2 hm i hi) k hk hsmall h1 hc r s hr
  intro i x y hi1 hi
  refine eucl_le (Real.sqrt_nonneg _) ?_
  rw [eucl_sq, ← hparseval (x - y), ← hparseval (E.sys.Φ 0 i x - E.sys.Φ 0 i y)]
  refine Finset.sum_le_sum fun p _ => ?_
  exact sq_le_sq.2 ((hap p).step 0 i x y (by have := hT.L; show 0 < E.ts.length; omega) hi1 hi)

/-- C98.  Backward Euler for a symmetric matrix with nonnegative eigenvalues, Euclidean norm of vectors, without
nested iteration; `D` is the root of the sum of squares of all errors of the initial guess at the coarse
points. -/
theorem C98_symmetric (h : E.Good) (hmax : 0 < E.maxIter) (hT : Copying E) {A : Matrix ι ι ℝ}
    (hA : A.transpose = A) (hpos : ∀ (v : ι → ℝ) (μ : ℝ), v ≠ 0 → A.mulVec v = μ • v → 0 ≤ μ)
    (b : Nat → ℝ → ℝ → ι → ℝ)
    (hstep : ∀ l u t t', l < E.ts.length → t ≤ t' → Lin.Solves ((t' - t) • A + 1) (u + b l t t') (E.step l u t t'))
    (hnest : E.nested = false) (hnorm : ∀ x, E.norm x = eucl x)
    {β : ℝ} (hβ : TimeFactor E.tnorm ((allC E.ts 0).filter (· ≠ 0)).length β)
    (tol : ℝ) (hlt : ∀ x, E.ltTol x = true ↔ x < tol) (D : ℝ) (hD0 : 0 ≤ D)
    (hD : ∑ i ∈ (allC E.ts 0).toFinset.erase 0, ∑ x, (E.guess i x - timeStepping E i x) ^ 2 ≤ D ^ 2)
    (k : Nat) (hk : 1 ≤ k)
    (hsmall : (E.convCrit = 0 ∧ β * (2 * convRate E (1 / 3) ^ k * D) < tol) ∨
      (E.convCrit = 1 ∧ β * ((convRate E (1 / 3) ^ k + convRate E (1 / 3) ^ (k - 1)) * D) < tol))
    {c : Conf E.P (Msg (ι → ℝ) ℝ) (PState (ι → ℝ) ℝ)} (h1 : Steps (startConf E) c) (hc : ∀ d, ¬ Step c d)
    (r : Fin E.P) (s : PState (ι → ℝ) ℝ) (hr : c.prog r = Prog.ret s) :
    s.solveIter ≤ k ∧ (k ≤ E.maxIter → s.conv s.solveIter < tol) := by
  obtain ⟨f, μ, hμ, hparseval, hfA⟩ := eigen_coords hA hpos
  refine count_symmetric h hmax hT hA b hstep f μ hμ hparseval hfA hnorm hβ tol hlt
    (fun p => √(∑ i ∈ (allC E.ts 0).toFinset.erase 0, (f p (E.guess i - timeStepping E i)) ^ 2)) D hD0 ?_ ?_
    k hk hsmall h1 hc r s hr
  · refine le_trans (le_of_eq ?_) hD
    have : ∀ p, √(∑ i ∈ (allC E.ts 0).toFinset.erase 0, (f p (E.guess i - timeStepping E i)) ^ 2) ^ 2 =
        ∑ i ∈ (allC E.ts 0).toFinset.erase 0, (f p (E.guess i - timeStepping E i)) ^ 2 :=
      fun p => Real.sq_sqrt (Finset.sum_nonneg fun _ _ => sq_nonneg _)
    simp only [this]
    rw [Finset.sum_comm]
    exact Finset.sum_congr rfl fun i _ => hparseval (E.guess i - timeStepping E i)
  · intro p i hi
    rw [constructor_value hnest]
    split
    · next e =>
      subst e
      show |f p (E.start 0 - E.start 0)| ≤ _
      rw [sub_self, map_zero, abs_zero]
      exact Real.sqrt_nonneg _
    · next e =>
      rw [if_pos rfl, ← Real.sqrt_sq_eq_abs]
      exact Real.sqrt_le_sqrt (Finset.single_le_sum (f := fun i => (f p (E.guess i - timeStepping E i)) ^ 2)
        (fun _ _ => sq_nonneg _) (Finset.mem_erase.2 ⟨e, List.mem_toFinset.2 hi⟩))

/-- C98.  The same with nested iteration and without source: `D` is `nestRate` times the norm of the start
vector, whatever the initial guess. -/
theorem C98_symmetric_nested (h : E.Good) (hmax : 0 < E.maxIter) (hT : Copying E) {A : Matrix ι ι ℝ}
    (hA : A.transpose = A) (hpos : ∀ (v : ι → ℝ) (μ : ℝ), v ≠ 0 → A.mulVec v = μ • v → 0 ≤ μ)
    (hstep : ∀ l u t t', l < E.ts.length → t ≤ t' → Lin.Solves ((t' - t) • A + 1) u (E.step l u t t'))
    (hnest : E.nested = true) (hzero : ∀ l, l ≠ 0 → l < E.ts.length → E.zero l = 0)
    (hstart : ∀ l, l < E.ts.length → E.start l = E.start 0) (hnorm : ∀ x, E.norm x = eucl x)
    {β : ℝ} (hβ : TimeFactor E.tnorm ((allC E.ts 0).filter (· ≠ 0)).length β)
    (tol : ℝ) (hlt : ∀ x, E.ltTol x = true ↔ x < tol) (k : Nat) (hk : 1 ≤ k)
    (hsmall : (E.convCrit = 0 ∧
        β * (2 * convRate E (1 / 3) ^ k * (nestRate E (1 / 3) * eucl (E.start 0))) < tol) ∨
      (E.convCrit = 1 ∧ β * ((convRate E (1 / 3) ^ k + convRate E (1 / 3) ^ (k - 1)) *
        (nestRate E (1 / 3) * eucl (E.start 0))) < tol))
    {c : Conf E.P (Msg (ι → ℝ) ℝ) (PState (ι → ℝ) ℝ)} (h1 : Steps (startConf E) c) (hc : ∀ d, ¬ Step c d)
    (r : Fin E.P) (s : PState (ι → ℝ) ℝ) (hr : c.prog r = Prog.ret s) :
    s.solveIter ≤ k ∧ (k ≤ E.maxIter → s.conv s.solveIter < tol) := by
  obtain ⟨f, μ, hμ, hparseval, hfA⟩ := eigen_coords hA hpos
  have hd : ∀ p, Damped E (f p) (μ p) := fun p =>
    eigen_damped (hμ p) (hfA p) LinearMap.id (fun l u v t t' hl ht => by
      show Matrix.mulVec _ _ = _
      simp only [LinearMap.id_apply]
      rw [Matrix.mulVec_sub, hstep l u t t' hl ht, hstep l v t t' hl ht])
  have hf0 : ∀ p l t t', l < E.ts.length → t ≤ t' → f p (E.step l 0 t t') = 0 := by
    intro p l t t' hl ht
    have e := congrArg (f p) (hstep l 0 t t' hl ht)
    rw [Matrix.add_mulVec, Matrix.smul_mulVec, Matrix.one_mulVec, map_add, map_smul, hfA, map_zero,
      smul_eq_mul] at e
    have hpos' : 0 < (t' - t) * μ p + 1 := by
      have := mul_nonneg (sub_nonneg.2 ht) (hμ p)
      linarith
    have : ((t' - t) * μ p + 1) * f p (E.step l 0 t t') = 0 := by linarith
    exact (mul_eq_zero.1 this).resolve_left hpos'.ne'
  refine count_symmetric h hmax hT hA (fun _ _ _ => 0) (fun l u t t' hl ht => by
      rw [add_zero]; exact hstep l u t t' hl ht) f μ hμ hparseval hfA hnorm hβ tol hlt
    (fun p => nestRate E (1 / 3) * |f p (E.start 0)|) (nestRate E (1 / 3) * eucl (E.start 0))
    (mul_nonneg (nestRate_nonneg E (by norm_num)) (Real.sqrt_nonneg _)) (le_of_eq ?_) (fun p i hi =>
      damped_nested h hnest hT (hμ p) (hd p) (hf0 p) hzero hstart i hi) k hk hsmall h1 hc r s hr
  rw [mul_pow, eucl_sq, ← hparseval (E.start 0), Finset.mul_sum]
  exact Finset.sum_congr rfl fun p _ => by rw [mul_pow, sq_abs]

end

section
variable {n : Nat} {E : Cfg (Fin n → ℝ) ℝ ℝ ℝ}

/-- C98.  The shipped one-dimensional heat equation. -/
theorem C98_heat_1d (h : E.Good) (hmax : 0 < E.maxIter) (hT : Copying E) {a dx : ℝ} (ha : 0 ≤ a)
    (rhs : ℝ → Fin n → ℝ)
    (hstep : ∀ l u t t', l < E.ts.length → t ≤ t' → Apps.heat1dStep a dx rhs u t t' (E.step l u t t'))
    (hnest : E.nested = false) (hnorm : ∀ x, E.norm x = eucl x)
    {β : ℝ} (hβ : TimeFactor E.tnorm ((allC E.ts 0).filter (· ≠ 0)).length β)
    (tol : ℝ) (hlt : ∀ x, E.ltTol x = true ↔ x < tol) (D : ℝ) (hD0 : 0 ≤ D)
    (hD : ∑ i ∈ (allC E.ts 0).toFinset.erase 0, ∑ x, (E.guess i x - timeStepping E i x) ^ 2 ≤ D ^ 2)
    (k : Nat) (hk : 1 ≤ k)
    (hsmall : (E.convCrit = 0 ∧ β * (2 * convRate E (1 / 3) ^ k * D) < tol) ∨
      (E.convCrit = 1 ∧ β * ((convRate E (1 / 3) ^ k + convRate E (1 / 3) ^ (k - 1)) * D) < tol))
    {c : Conf E.P (Msg (Fin n → ℝ) ℝ) (PState (Fin n → ℝ) ℝ)} (h1 : Steps (startConf E) c)
    (hc : ∀ d, ¬ Step c d) (r : Fin E.P) (s : PState (Fin n → ℝ) ℝ) (hr : c.prog r = Prog.ret s) :
    s.solveIter ≤ k ∧ (k ≤ E.maxIter → s.conv s.solveIter < tol) :=
  C98_symmetric h hmax hT (Apps.heatMatrix_symm n a dx) (fun v μ hv he => heat_eigen_nonneg ha v μ hv he)
    (fun _ t t' => (t' - t) • rhs t') hstep hnest hnorm hβ tol hlt D hD0 hD k hk hsmall h1 hc r s hr

/-- C98.  The same with nested iteration, without source. -/
theorem C98_heat_1d_nested (h : E.Good) (hmax : 0 < E.maxIter) (hT : Copying E) {a dx : ℝ} (ha : 0 ≤ a)
    (hstep : ∀ l u t t', l < E.ts.length → t ≤ t' →
      Apps.heat1dStep a dx (fun _ _ => 0) u t t' (E.step l u t t'))
    (hnest : E.nested = true) (hzero : ∀ l, l ≠ 0 → l < E.ts.length → E.zero l = 0)
    (hstart : ∀ l, l < E.ts.length → E.start l = E.start 0) (hnorm : ∀ x, E.norm x = eucl x)
    {β : ℝ} (hβ : TimeFactor E.tnorm ((allC E.ts 0).filter (· ≠ 0)).length β)
    (tol : ℝ) (hlt : ∀ x, E.ltTol x = true ↔ x < tol) (k : Nat) (hk : 1 ≤ k)
    (hsmall : (E.convCrit = 0 ∧
        β * (2 * convRate E (1 / 3) ^ k * (nestRate E (1 / 3) * eucl (E.start 0))) < tol) ∨
      (E.convCrit = 1 ∧ β * ((convRate E (1 / 3) ^ k + convRate E (1 / 3) ^ (k - 1)) *
        (nestRate E (1 / 3) * eucl (E.start 0))) < tol))
    {c : Conf E.P (Msg (Fin n → ℝ) ℝ) (PState (Fin n → ℝ) ℝ)} (h1 : Steps (startConf E) c)
    (hc : ∀ d, ¬ Step c d) (r : Fin E.P) (s : PState (Fin n → ℝ) ℝ) (hr : c.prog r = Prog.ret s) :
    s.solveIter ≤ k ∧ (k ≤ E.maxIter → s.conv s.solveIter < tol) :=
  C98_symmetric_nested h hmax hT (Apps.heatMatrix_symm n a dx) (fun v μ hv he => heat_eigen_nonneg ha v μ hv he)
    (fun l u t t' hl ht => by
      have := hstep l u t t' hl ht
      unfold Apps.heat1dStep at this
      rwa [show (t' - t) • (fun _ => (0 : ℝ)) = (0 : Fin n → ℝ) from smul_zero _, add_zero] at this) hnest hzero hstart hnorm hβ tol hlt k hk hsmall h1 hc r s hr

end

/-! ## The hypotheses can be met -/

/-- The solver of `exReal` with real norms, tolerance `1 / 100` and the given criterion. -/
noncomputable def exTol {V : Type} [Zero V] (step : Nat → V → ℝ → ℝ → V) (start guess : V) (nested : Bool)
    (crit : Nat) (norm : V → ℝ) (tnorm : List ℝ → ℝ) : Cfg V ℝ ℝ ℝ where
  ts := exRealGrid
  step := step
  R := fun _ x => x
  I := fun _ x => x
  cf := fun _ => 1
  w := 1 / 2
  start := fun _ => start
  zero := fun _ => 0
  guess := fun _ => guess
  cyc := Sys.Cycle.V
  nested := nested
  maxIter := 6
  convCrit := crit
  norm := norm
  tnorm := tnorm
  ltTol := fun x => decide (x < 1 / 100)
  outLvl := 2
  ord := fun _ _ xs => xs
  P := 3
  instr := false

theorem exTol_good {V : Type} [AddCommGroup V] [Module ℝ V] (step : Nat → V → ℝ → ℝ → V) (start guess : V)
    (nested : Bool) {crit : Nat} (hcrit : crit = 0 ∨ crit = 1) (norm : V → ℝ) (tnorm : List ℝ → ℝ) :
    (exTol step start guess nested crit norm tnorm).Good ∧
      TwoLevelCopy (exTol step start guess nested crit norm tnorm) := by
  have gap : ∀ i, i ∈ allC exRealGrid 0 → i + 1 ∉ allC exRealGrid 0 := by
    intro i h1 h2
    have := exRealGrid_allC h1
    have := exRealGrid_allC h2
    omega
  refine ⟨good_of_gap exRealGrid_valid (show 0 < 3 by decide) (show 3 ≤ 5 by decide)
    (fun r l hr hl => ordOK_id exRealGrid_valid (show 3 ≤ 5 by decide) hl hr) hcrit ?_, ?_⟩
  · intro l i hl
    have hl' : l = 0 := by
      have : l + 1 < 2 := hl
      omega
    subst hl'
    exact fun e => gap i e.1 e.2
  · exact ⟨rfl, fun _ => rfl, fun _ => rfl, by show (0 : ℝ) ≤ 1 / 2; norm_num, by show (1 / 2 : ℝ) ≤ 1; norm_num⟩

theorem exTol_lt {V : Type} [Zero V] (step : Nat → V → ℝ → ℝ → V) (start guess : V) (nested : Bool)
    (crit : Nat) (norm : V → ℝ) (tnorm : List ℝ → ℝ) (x : ℝ) :
    (exTol step start guess nested crit norm tnorm).ltTol x = true ↔ x < 1 / 100 := by
  show decide (x < 1 / 100) = true ↔ _
  rw [decide_eq_true_iff]

/-- Backward Euler for the Dahlquist problem with `λ = -2`. -/
noncomputable def exBE : Nat → ℝ → ℝ → ℝ → ℝ := fun _ u t t' => Apps.dahlquist .BE (-2) u t t'

/-- `C97_dahlquist` and `C97_dahlquist_tolerance`. -/
example {c : Conf 3 (Msg ℝ ℝ) (PState ℝ ℝ)}
    (h1 : Steps (startConf (exTol exBE 1 0 true 1 (fun x => |x|) norm2)) c)
    (hc : ∀ d, ¬ Step c d) (r : Fin 3) (s : PState ℝ ℝ) (hr : c.prog r = Prog.ret s) :=
  C97_dahlquist (exTol_good exBE 1 0 true (Or.inr rfl) (fun x => |x|) norm2).1 (by show 0 < 6; decide) rfl
    (exTol_good exBE 1 0 true (Or.inr rfl) (fun x => |x|) norm2).2.copying (lam := -2) (by norm_num)
    (fun _ _ _ _ _ => rfl)
    (by rw [((exTol_good exBE 1 0 true (Or.inr rfl) (fun x => |x|) norm2).2.rate _).1]; norm_num)
    (fun _ => rfl) norm2_entry h1 hc r s hr

example {c : Conf 3 (Msg ℝ ℝ) (PState ℝ ℝ)}
    (h1 : Steps (startConf (exTol exBE 1 0 true 1 (fun x => |x|) norm2)) c)
    (hc : ∀ d, ¬ Step c d) (r : Fin 3) (s : PState ℝ ℝ) (hr : c.prog r = Prog.ret s) :=
  C97_dahlquist_tolerance (exTol_good exBE 1 0 true (Or.inr rfl) (fun x => |x|) norm2).1 rfl
    (exTol_good exBE 1 0 true (Or.inr rfl) (fun x => |x|) norm2).2 (lam := -2) (by norm_num)
    (fun _ _ _ _ _ => rfl) (fun _ => rfl) norm2_entry (1 / 100) (fun x => (exTol_lt _ _ _ _ _ _ _ x).1)
    h1 hc r s hr

/-- `C97_heat_1d` and `C97_heat_1d_tolerance` with 7 unknowns and a source. -/
example {c : Conf 3 (Msg (Fin 7 → ℝ) ℝ) (PState (Fin 7 → ℝ) ℝ)}
    (h1 : Steps (startConf (exTol (exHeat 7 2 (1 / 8) fun t _ => t) 1 0 false 1 eucl norm1)) c)
    (hc : ∀ d, ¬ Step c d) (r : Fin 3) (s : PState (Fin 7 → ℝ) ℝ) (hr : c.prog r = Prog.ret s) :=
  C97_heat_1d (exTol_good (exHeat 7 2 (1 / 8) fun t _ => t) 1 0 false (Or.inr rfl) eucl norm1).1
    (by show 0 < 6; decide) rfl
    (exTol_good (exHeat 7 2 (1 / 8) fun t _ => t) 1 0 false (Or.inr rfl) eucl norm1).2.copying
    (a := 2) (dx := 1 / 8) (by norm_num) (fun t _ => t)
    (fun l u _ _ _ ht => exHeat_step (by norm_num) _ l u ht)
    (by rw [((exTol_good (exHeat 7 2 (1 / 8) fun t _ => t) 1 0 false (Or.inr rfl) eucl norm1).2.rate _).1]; norm_num)
    (fun _ => rfl) norm2_le_norm1 h1 hc r s hr

example {c : Conf 3 (Msg (Fin 7 → ℝ) ℝ) (PState (Fin 7 → ℝ) ℝ)}
    (h1 : Steps (startConf (exTol (exHeat 7 2 (1 / 8) fun t _ => t) 1 0 false 1 eucl norm1)) c)
    (hc : ∀ d, ¬ Step c d) (r : Fin 3) (s : PState (Fin 7 → ℝ) ℝ) (hr : c.prog r = Prog.ret s) :=
  C97_heat_1d_tolerance (exTol_good (exHeat 7 2 (1 / 8) fun t _ => t) 1 0 false (Or.inr rfl) eucl norm1).1 rfl
    (exTol_good (exHeat 7 2 (1 / 8) fun t _ => t) 1 0 false (Or.inr rfl) eucl norm1).2
    (a := 2) (dx := 1 / 8) (by norm_num) (fun t _ => t)
    (fun l u _ _ _ ht => exHeat_step (by norm_num) _ l u ht) (fun _ => rfl) norm2_le_norm1
    (1 / 100) (fun x => (exTol_lt _ _ _ _ _ _ _ x).1) h1 hc r s hr

/-- `C98_dahlquist_nested`: at most four iterations with the residual criterion. -/
example {c : Conf 3 (Msg ℝ ℝ) (PState ℝ ℝ)}
    (h1 : Steps (startConf (exTol exBE 1 0 true 0 (fun x => |x|) normInf)) c)
    (hc : ∀ d, ¬ Step c d) (r : Fin 3) (s : PState ℝ ℝ) (hr : c.prog r = Prog.ret s) :
    s.solveIter ≤ 4 ∧ s.conv s.solveIter < 1 / 100 := by
  have hg := exTol_good exBE 1 0 true (Or.inl rfl) (fun x => |x|) normInf
  have := C98_dahlquist_nested hg.1 (by show 0 < 6; decide) hg.2.copying (lam := -2) (by norm_num)
    (fun _ _ _ _ _ => rfl) rfl (fun _ _ _ => rfl) (fun _ _ => rfl) (fun _ => rfl) (timeFactor_normInf _) (1 / 100)
    (exTol_lt _ _ _ _ _ _ _) 4 (by decide) (Or.inl ⟨rfl, by
      rw [(hg.2.rate _).1, (hg.2.rate _).2]
      show 1 * (2 * (1 / 3) ^ 4 * (1 / 3 * |(1 : ℝ)|)) < 1 / 100
      norm_num⟩) h1 hc r s hr
  exact ⟨this.1, this.2 (by show 4 ≤ 6; decide)⟩

/-- `C98_dahlquist`: at most six iterations with the jump criterion, from the guess `1` for the solution `0`. -/
example {c : Conf 3 (Msg ℝ ℝ) (PState ℝ ℝ)}
    (h1 : Steps (startConf (exTol exBE 0 1 false 1 (fun x => |x|) normInf)) c)
    (hc : ∀ d, ¬ Step c d) (r : Fin 3) (s : PState ℝ ℝ) (hr : c.prog r = Prog.ret s) :
    s.solveIter ≤ 6 ∧ s.conv s.solveIter < 1 / 100 := by
  have hg := exTol_good exBE 0 1 false (Or.inr rfl) (fun x => |x|) normInf
  have hz : ∀ i, timeStepping (exTol exBE 0 1 false 1 (fun x => |x|) normInf) i = 0 := by
    intro i
    unfold timeStepping
    induction i with
    | zero => rfl
    | succ i ih =>
      show exBE 0 (seqSol _ _ i) _ _ = 0
      rw [ih]
      simp [exBE, Apps.dahlquist]
  have := C98_dahlquist hg.1 (by show 0 < 6; decide) hg.2.copying (lam := -2) (by norm_num)
    (fun _ _ _ _ _ => rfl) rfl (fun _ => rfl) (timeFactor_normInf _) (1 / 100)
    (exTol_lt _ _ _ _ _ _ _) 1 (by norm_num) (fun i _ _ => by
      rw [hz]
      show |(1 : ℝ) - 0| ≤ 1
      norm_num) 6 (by decide) (Or.inr ⟨rfl, by
      rw [(hg.2.rate _).1]
      norm_num⟩) h1 hc r s hr
  exact ⟨this.1, this.2 (by show 6 ≤ 6; decide)⟩

/-- `C98_heat_1d_nested` with 7 unknowns and start vector `1`. -/
example {c : Conf 3 (Msg (Fin 7 → ℝ) ℝ) (PState (Fin 7 → ℝ) ℝ)}
    (h1 : Steps (startConf (exTol (exHeat 7 2 (1 / 8) fun _ _ => 0) 1 0 true 0 eucl normInf)) c)
    (hc : ∀ d, ¬ Step c d) (r : Fin 3) (s : PState (Fin 7 → ℝ) ℝ) (hr : c.prog r = Prog.ret s) :
    s.solveIter ≤ 5 ∧ s.conv s.solveIter < 1 / 100 := by
  have hg := exTol_good (exHeat 7 2 (1 / 8) fun _ _ => 0) 1 0 true (Or.inl rfl) eucl normInf
  have := C98_heat_1d_nested hg.1 (by show 0 < 6; decide) hg.2.copying (a := 2) (dx := 1 / 8) (by norm_num)
    (fun l u _ _ _ ht => exHeat_step (by norm_num) _ l u ht) rfl (fun _ _ _ => rfl) (fun _ _ => rfl)
    (fun _ => rfl) (timeFactor_normInf _) (1 / 100) (exTol_lt _ _ _ _ _ _ _) 5 (by decide) (Or.inl ⟨rfl, by
      rw [(hg.2.rate _).1, (hg.2.rate _).2]
      have : eucl (1 : Fin 7 → ℝ) ≤ 3 := eucl_le (by norm_num) (by norm_num)
      show 1 * (2 * (1 / 3) ^ 5 * (1 / 3 * eucl (1 : Fin 7 → ℝ))) < 1 / 100
      linarith⟩) h1 hc r s hr
  exact ⟨this.1, this.2 (by show 5 ≤ 6; decide)⟩

/-- `C98_heat_1d` with 7 unknowns, from the guess `1 / 4` for the solution `0`. -/
example {c : Conf 3 (Msg (Fin 7 → ℝ) ℝ) (PState (Fin 7 → ℝ) ℝ)}
    (h1 : Steps (startConf (exTol (exHeat 7 2 (1 / 8) fun _ _ => 0) 0 (fun _ => 1 / 4) false 1 eucl normInf)) c)
    (hc : ∀ d, ¬ Step c d) (r : Fin 3) (s : PState (Fin 7 → ℝ) ℝ) (hr : c.prog r = Prog.ret s) :
    s.solveIter ≤ 6 ∧ s.conv s.solveIter < 1 / 100 := by
  have hg := exTol_good (exHeat 7 2 (1 / 8) fun _ _ => 0) 0 (fun _ => 1 / 4) false (Or.inr rfl) eucl normInf
  have hz : ∀ i, i < 5 →
      timeStepping (exTol (exHeat 7 2 (1 / 8) fun _ _ => 0) 0 (fun _ => 1 / 4) false 1 eucl normInf) i = 0 := by
    intro i
    unfold timeStepping
    induction i with
    | zero => intro _; rfl
    | succ i ih =>
      intro hi
      show exHeat 7 2 (1 / 8) (fun _ _ => 0) 0 (seqSol _ _ i) _ _ = 0
      rw [ih (by omega)]
      have ht := tAt_mono (exRealGrid_valid.sorted 0) (i := i + 1 - 1) (j := i + 1) (by omega) (by show i + 1 < 5; omega)
      refine (Apps.C46_wellposed (1 / 8) (by norm_num : (0 : ℝ) ≤ 2) (fun _ _ => 0) 0 ht).unique
        (exHeat_step (by norm_num) _ 0 0 ht) ?_
      unfold Apps.heat1dStep Lin.Solves
      rw [Matrix.mulVec_zero]
      ext x
      simp
  have := C98_heat_1d hg.1 (by show 0 < 6; decide) hg.2.copying (a := 2) (dx := 1 / 8) (by norm_num) (fun _ _ => 0)
    (fun l u _ _ _ ht => exHeat_step (by norm_num) _ l u ht) rfl
    (fun _ => rfl) (timeFactor_normInf _) (1 / 100) (exTol_lt _ _ _ _ _ _ _) 1 (by norm_num) ?_ 6 (by decide)
    (Or.inr ⟨rfl, by rw [(hg.2.rate _).1]; norm_num⟩) h1 hc r s hr
  · exact ⟨this.1, this.2 (by show 6 ≤ 6; decide)⟩
  · have hsub : (allC exRealGrid 0).toFinset.erase 0 ⊆ ({2, 4} : Finset Nat) := by
      intro i hi
      obtain ⟨h0, hi⟩ := Finset.mem_erase.1 hi
      rcases exRealGrid_allC (List.mem_toFinset.1 hi) with e | e | e <;> simp [e] at h0 ⊢
    refine (Finset.sum_le_sum_of_subset_of_nonneg hsub fun i _ _ => Finset.sum_nonneg fun _ _ => sq_nonneg _).trans ?_
    rw [Finset.sum_pair (by decide), hz 2 (by decide), hz 4 (by decide)]
    show ∑ x : Fin 7, ((1 / 4 : ℝ) - 0) ^ 2 + ∑ x : Fin 7, ((1 / 4 : ℝ) - 0) ^ 2 ≤ 1 ^ 2
    norm_num

end Pymgrit
