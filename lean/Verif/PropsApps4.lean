import Verif.PropsApps3

/-!
# Allen-Cahn (C51, C60)
-/

namespace Pymgrit.Apps
open Matrix Lin

variable {K : Type} [Field K]

/-- What is assumed of `spsolve`: it returns the solution of every uniquely solvable system. -/
def SolverOK {ι : Type} [Fintype ι] (solve : Matrix ι ι K → (ι → K) → ι → K) : Prop :=
  ∀ A b, (∃! x, Solves A b x) → Solves A b (solve A b)

theorem SolverOK.eq {ι : Type} [Fintype ι] {solve : Matrix ι ι K → (ι → K) → ι → K}
    (h : SolverOK solve) {A : Matrix ι ι K} {b x : ι → K} (hu : ∃! x, Solves A b x)
    (hx : Solves A b x) : solve A b = x := hu.unique (h A b hu) hx

/-! ## The matrix (C60) -/

theorem periodic1_entry {n : Nat} (hn : 3 ≤ n) (i j : Fin n) :
    (periodic1 n : Matrix (Fin n) (Fin n) K) i j = (if j = pred i then 1 else 0) +
      ((if j = i then -2 else 0) + (if j = succ i then 1 else 0)) := by
  have hi := i.isLt
  have hj := j.isLt
  unfold periodic1
  rw [diags_apply]
  simp only [List.map_cons, List.map_nil, List.sum_cons, List.sum_nil, add_zero]
  have e0 : (j = i) ↔ (j : Int) = i := by rw [Fin.ext_iff]; omega
  have ep : (j = pred i) ↔ ((j : Int) = i + ((n : Int) - 1) ∨ (j : Int) = i + (0 - 1)) := by
    rw [Fin.ext_iff]; simp only [pred]; split <;> omega
  have es : (j = succ i) ↔ ((j : Int) = i + 1 ∨ (j : Int) = i + (1 - (n : Int))) := by
    rw [Fin.ext_iff]; simp only [succ]; split <;> omega
  by_cases h1 : (j : Int) = i + ((n : Int) - 1)
  · rw [if_pos h1, if_neg (by omega), if_neg (by omega), if_neg (by omega), if_neg (by omega),
      if_pos (ep.2 (Or.inl h1)), if_neg (by rw [e0]; omega), if_neg (by rw [es]; omega)]
    simp
  · by_cases h2 : (j : Int) = i + (0 - 1)
    · rw [if_neg h1, if_neg (by omega), if_neg (by omega), if_pos h2, if_neg (by omega),
        if_pos (ep.2 (Or.inr h2)), if_neg (by rw [e0]; omega), if_neg (by rw [es]; omega)]
      simp
    · have hp : ¬ j = pred i := fun h => by rcases ep.1 h with h | h <;> contradiction
      rw [if_neg h1, if_neg h2, if_neg hp]
      by_cases h3 : (j : Int) = i
      · rw [if_pos h3, if_pos (e0.2 h3), if_neg (by omega), if_neg (by omega),
          if_neg (by rw [es]; omega)]
        simp
      · rw [if_neg h3, if_neg (show ¬ j = i from fun h => h3 (e0.1 h))]
        by_cases h4 : (j : Int) = i + 1
        · rw [if_pos h4, if_neg (by omega), if_pos (es.2 (Or.inl h4))]
          simp
        · by_cases h5 : (j : Int) = i + (1 - (n : Int))
          · rw [if_neg h4, if_pos h5, if_pos (es.2 (Or.inr h5))]
            simp
          · have hs : ¬ j = succ i := fun h => by rcases es.1 h with h | h <;> contradiction
            rw [if_neg h4, if_neg h5, if_neg hs]
            simp

namespace AllenCahn
variable (P : AllenCahn K)

/-- The assembled matrix is the periodic five-point Laplacian, for every grid with at least three
points per direction. -/
theorem C60_stencil (hn : 3 ≤ P.nx) (v : P.Vec) (i k : Fin P.nx) :
    P.mat.mulVec v (i, k) = 1 / P.dx ^ 2 *
      (v (pred i, k) + v (succ i, k) + v (i, pred k) + v (i, succ k) - 4 * v (i, k)) := by
  unfold mat allenCahnMatrix
  rw [Matrix.smul_mulVec, Pi.smul_apply, smul_eq_mul, Matrix.add_mulVec, Pi.add_apply]
  have e1 : (kroneckerMap (· * ·) (periodic1 P.nx) (1 : Matrix (Fin P.nx) (Fin P.nx) K)).mulVec v (i, k)
      = v (pred i, k) - 2 * v (i, k) + v (succ i, k) := by
    simp only [Matrix.mulVec, dotProduct, Fintype.sum_prod_type, kroneckerMap_apply, Matrix.one_apply,
      mul_ite, mul_one, mul_zero, ite_mul, zero_mul, Finset.sum_ite_eq, Finset.mem_univ, if_true,
      periodic1_entry hn, add_mul, Finset.sum_add_distrib, Finset.sum_ite_eq', one_mul]
    ring
  have e2 : (kroneckerMap (· * ·) (1 : Matrix (Fin P.nx) (Fin P.nx) K) (periodic1 P.nx)).mulVec v (i, k)
      = v (i, pred k) - 2 * v (i, k) + v (i, succ k) := by
    simp only [Matrix.mulVec, dotProduct, Fintype.sum_prod_type, kroneckerMap_apply, Matrix.one_apply,
      ite_mul, one_mul, zero_mul]
    rw [Finset.sum_eq_single i]
    · simp only [if_true, periodic1_entry hn, add_mul, Finset.sum_add_distrib, ite_mul, one_mul, zero_mul,
        Finset.sum_ite_eq', Finset.mem_univ]
      ring
    · intro b _ hb
      simp [hb.symm]
    · intro h; exact absurd (Finset.mem_univ _) h
  rw [e1, e2]
  ring

theorem mat_const (hn : 3 ≤ P.nx) (c : K) : P.mat.mulVec (fun _ => c) = 0 := by
  funext ⟨i, k⟩
  rw [C60_stencil P hn]
  simp
  right
  ring

section ordered
variable [LinearOrder K] [IsStrictOrderedRing K]

/-- Systems `s x - c Lap x = b` are uniquely solvable for `s > 0`, and for `s < 0` if `c` is small. -/
theorem lap_unique (hn : 3 ≤ P.nx) {s c : K} (hc : 0 ≤ c) (hs : 0 < s ∨ 8 * (c / P.dx ^ 2) < -s)
    (A : Matrix (Fin P.nx × Fin P.nx) (Fin P.nx × Fin P.nx) K)
    (hA : ∀ x, A.mulVec x = s • x - c • P.mat.mulVec x) (b : P.Vec) : ∃! x, Solves A b x := by
  refine existsUnique_of_kernel (fun x hx => ?_) b
  have hcd : 0 ≤ c / P.dx ^ 2 := div_nonneg hc (sq_nonneg _)
  have hne : (Finset.univ : Finset (Fin P.nx × Fin P.nx)).Nonempty :=
    ⟨(⟨0, by omega⟩, ⟨0, by omega⟩), Finset.mem_univ _⟩
  obtain ⟨⟨i, k⟩, -, hm⟩ := Finset.exists_max_image Finset.univ (fun q => |x q|) hne
  have h1 := congrFun hx (i, k)
  rw [hA, Pi.sub_apply, Pi.smul_apply, Pi.smul_apply, C60_stencil P hn] at h1
  simp only [smul_eq_mul, Pi.zero_apply] at h1
  have b1 := abs_le.1 (hm (pred i, k) (Finset.mem_univ _))
  have b2 := abs_le.1 (hm (succ i, k) (Finset.mem_univ _))
  have b3 := abs_le.1 (hm (i, pred k) (Finset.mem_univ _))
  have b4 := abs_le.1 (hm (i, succ k) (Finset.mem_univ _))
  have h2 : s * x (i, k) = c / P.dx ^ 2 * (x (pred i, k) + x (succ i, k) + x (i, pred k)
      + x (i, succ k) - 4 * x (i, k)) := by linear_combination h1
  have h0 : |x (i, k)| = 0 := by
    have hσ : |x (pred i, k) + x (succ i, k) + x (i, pred k) + x (i, succ k)| ≤ 4 * |x (i, k)| := by
      rw [abs_le]; constructor <;> linarith
    generalize c / P.dx ^ 2 = d at *
    generalize x (pred i, k) + x (succ i, k) + x (i, pred k) + x (i, succ k) = σ at *
    have hM := abs_nonneg (x (i, k))
    rcases hs with hs | hs
    · have e : |(s + 4 * d) * x (i, k)| = |d * σ| := by congr 1; linear_combination h2
      rw [abs_mul, abs_mul, abs_of_nonneg (a := s + 4 * d) (by linarith), abs_of_nonneg hcd] at e
      have := mul_le_mul_of_nonneg_left hσ hcd
      nlinarith
    · have e : |s * x (i, k)| = |d * (σ - 4 * x (i, k))| := by congr 1
      rw [abs_mul, abs_mul, abs_of_nonpos (a := s) (by linarith), abs_of_nonneg hcd] at e
      have h8 : |σ - 4 * x (i, k)| ≤ 8 * |x (i, k)| := by
        refine le_trans (abs_sub _ _) ?_
        rw [abs_mul, abs_of_nonneg (a := (4 : K)) (by norm_num)]
        linarith
      have := mul_le_mul_of_nonneg_left h8 hcd
      nlinarith
  funext q
  have := hm q (Finset.mem_univ q)
  rw [h0] at this
  exact abs_nonpos_iff.1 this

/-! ## The Newton loop (C51) -/

variable (solve : Matrix (Fin P.nx × Fin P.nx) (Fin P.nx × Fin P.nx) K → P.Vec → P.Vec)

/-- Specification: the Newton iterates. -/
def iterate (fac : K) (rhs u : P.Vec) : Nat → P.Vec
  | 0 => u
  | k + 1 => iterate fac rhs u k -
      solve (P.jacobian fac (iterate fac rhs u k)) (P.residual fac rhs (iterate fac rhs u k))

theorem iterate_succ' (fac : K) (rhs u : P.Vec) (k : Nat) :
    P.iterate solve fac rhs u (k + 1) = P.iterate solve fac rhs
      (u - solve (P.jacobian fac u) (P.residual fac rhs u)) k := by
  induction k with
  | zero => rfl
  | succ k ih => rw [iterate, ih]; rfl

theorem newton_spec (hmax : 0 < P.maxiter) (fac : K) (rhs : P.Vec) (fuel : Nat) (u : P.Vec) (n : Nat)
    (r : P.Vec × Nat) :
    P.newton solve fac rhs fuel (u, n) = some r ↔
      ∃ k < fuel, (∀ j < k, ¬ P.small (P.residual fac rhs (P.iterate solve fac rhs u j))) ∧
        P.small (P.residual fac rhs (P.iterate solve fac rhs u k)) ∧
        r = (P.iterate solve fac rhs u k, n + k) := by
  induction fuel generalizing u n with
  | zero => simp [newton]
  | succ fuel ih =>
    rw [newton, if_pos hmax]
    by_cases hs : P.small (P.residual fac rhs u)
    · rw [if_pos hs]
      constructor
      · intro h
        exact ⟨0, by omega, fun j hj => absurd hj (by omega), hs, by
          rw [iterate]; injection h with h; exact h.symm⟩
      · rintro ⟨k, hk, hlt, hsm, rfl⟩
        rcases Nat.eq_zero_or_pos k with rfl | hpos
        · rfl
        · exact absurd hs (hlt 0 hpos)
    · rw [if_neg hs, ih]
      constructor
      · rintro ⟨k, hk, hlt, hsm, rfl⟩
        refine ⟨k + 1, by omega, fun j hj => ?_, ?_, ?_⟩
        · cases j with
          | zero => exact hs
          | succ j => rw [iterate_succ']; exact hlt j (by omega)
        · rw [iterate_succ']; exact hsm
        · rw [iterate_succ', Nat.add_right_comm]; rfl
      · rintro ⟨k, hk, hlt, hsm, rfl⟩
        cases k with
        | zero => exact absurd hsm hs
        | succ k =>
          refine ⟨k, by omega, fun j hj => ?_, ?_, ?_⟩
          · have := hlt (j + 1) (by omega)
            rwa [iterate_succ'] at this
          · rwa [iterate_succ'] at hsm
          · rw [iterate_succ', Nat.add_right_comm]; rfl

theorem newton_step (hmax : 0 < P.maxiter) (fac : K) (rhs : P.Vec) (fuel : Nat) (u : P.Vec) (n : Nat)
    (hs : ¬ P.small (P.residual fac rhs u)) :
    P.newton solve fac rhs (fuel + 1) (u, n) = P.newton solve fac rhs fuel
      (u - solve (P.jacobian fac u) (P.residual fac rhs u), n + 1) := by
  rw [newton, if_pos hmax, if_neg hs]

/-- What the loop does for every positive limit: it returns the first iterate with a residual below
the tolerance, after as many updates as that takes; the limit plays no role. -/
theorem C51_loop (hmax : 0 < P.maxiter) (fac : K) (rhs u : P.Vec) (r : P.Vec × Nat) :
    (∃ fuel, P.newton solve fac rhs fuel (u, 0) = some r) ↔
      ∃ k, (∀ j < k, ¬ P.small (P.residual fac rhs (P.iterate solve fac rhs u j))) ∧
        P.small (P.residual fac rhs (P.iterate solve fac rhs u k)) ∧
        r = (P.iterate solve fac rhs u k, k) := by
  constructor
  · rintro ⟨fuel, h⟩
    obtain ⟨k, -, h1, h2, h3⟩ := (P.newton_spec solve hmax fac rhs fuel u 0 r).1 h
    exact ⟨k, h1, h2, by rw [h3, Nat.zero_add]⟩
  · rintro ⟨k, h1, h2, h3⟩
    exact ⟨k + 1, (P.newton_spec solve hmax fac rhs (k + 1) u 0 r).2
      ⟨k, by omega, h1, h2, by rw [h3, Nat.zero_add]⟩⟩

/-- If the tolerance is reached by an iterate within the limit, the step returns after at most
`newton_maxiter` updates.  (The full property has no such hypothesis and fails, see below.) -/
theorem C51_bounded_partial (fac : K) (rhs u : P.Vec) (k : Nat) (hk : (k : Int) ≤ P.maxiter)
    (hpos : 0 < P.maxiter)
    (hs : P.small (P.residual fac rhs (P.iterate solve fac rhs u k))) :
    ∃ n : Nat, (n : Int) ≤ P.maxiter ∧ ∃ fuel,
      P.newton solve fac rhs fuel (u, 0) = some (P.iterate solve fac rhs u n, n) := by
  classical
  have hex : ∃ k, P.small (P.residual fac rhs (P.iterate solve fac rhs u k)) := ⟨k, hs⟩
  refine ⟨Nat.find hex, ?_, ?_⟩
  · have := Nat.find_min' hex hs
    omega
  · exact (P.C51_loop solve hpos fac rhs u _).2
      ⟨Nat.find hex, fun j hj => Nat.find_min hex hj, Nat.find_spec hex, rfl⟩

/-- With a non-positive limit the implicit step returns the start value unchanged. -/
theorem C51_no_iterations (hmax : P.maxiter ≤ 0) (m : ACMethod) (hm : m ≠ .IMEX) (fuel : Nat)
    (u : P.Vec) (t0 t1 : K) : P.step solve m (fuel + 1) u t0 t1 = some u := by
  unfold step
  rw [if_neg hm, newton, if_neg (by omega)]
  rfl

/-- The implicit-explicit step always returns. -/
theorem C51_imex (fuel : Nat) (u : P.Vec) (t0 t1 : K) : (P.step solve .IMEX fuel u t0 t1).isSome := rfl

/-! ## Constant states (C60) -/

theorem force_const (hn : 3 ≤ P.nx) (c : K) :
    P.force (fun _ => c) = fun _ => 1 / P.eps ^ 2 * c * (1 - c ^ P.nu) := by
  unfold force
  rw [mat_const P hn, zero_add]

/-- The stationary constants (`0`, `1`, and `-1` for even `nu`) are returned unchanged by every method,
for every step size (forward for IMEX). -/
theorem C60_stationary (hn : 3 ≤ P.nx) (hsolve : SolverOK solve) (htol : 0 < P.tol)
    (hmax : 0 < P.maxiter) (c : K) (hc : c * (1 - c ^ P.nu) = 0) (m : ACMethod) (fuel : Nat)
    (hfuel : 0 < fuel) {t0 t1 : K} (ht : t0 ≤ t1) :
    P.step solve m fuel (fun _ => c) t0 t1 = some fun _ => c := by
  obtain ⟨fuel, rfl⟩ : ∃ f, fuel = f + 1 := ⟨fuel - 1, by omega⟩
  have hz : (1 / P.eps ^ 2 * c * (1 - c ^ P.nu)) = 0 := by rw [mul_assoc, hc, mul_zero]
  unfold step
  by_cases hm : m = .IMEX
  · rw [if_pos hm]
    congr 1
    have hb : ((fun _ => c) + (t1 - t0) • fun _ : Fin P.nx × Fin P.nx =>
        1 / P.eps ^ 2 * c * (1 - c ^ P.nu)) = (fun _ => c : P.Vec) := by
      funext q
      rw [Pi.add_apply, Pi.smul_apply, hz, smul_zero, add_zero]
    have := (hsolve.eq (A := 1 - (t1 - t0) • P.mat) (b := fun _ => c) (x := fun _ => c)
      (P.lap_unique hn (sub_nonneg.2 ht) (Or.inl one_pos) _ (fun x => by
        rw [Matrix.sub_mulVec, Matrix.one_mulVec, Matrix.smul_mulVec, one_smul]) _)
      (by
        show (1 - (t1 - t0) • P.mat).mulVec (fun _ => c) = fun _ => c
        rw [Matrix.sub_mulVec, Matrix.one_mulVec, Matrix.smul_mulVec, mat_const P hn, smul_zero,
          sub_zero]))
    exact (congrArg _ hb).trans this
  · rw [if_neg hm, newton, if_pos hmax, if_pos]
    · rfl
    · have hF : P.force (fun _ => c) = 0 := by
        rw [force_const P hn, hz]; rfl
      have hr : (P.system m (fun _ => c) t0 t1).2 = fun _ => c := by
        unfold system
        split
        · simp only; rw [hF, smul_zero, add_zero]
        · rfl
      intro q
      unfold residual
      rw [hF, hr]
      simp [htol]

end ordered
end AllenCahn

/-! ## The property fails (C51) -/

/-- Default parameters of the application (`eps = 0.04`, `newton_maxiter = 100`,
`newton_tol = 1e-12`) on a small grid. -/
def exAC : AllenCahn ℚ where
  nx := 3
  dx := 1 / 3
  nu := 2
  eps := 4 / 100
  maxiter := 100
  tol := 1 / 10 ^ 12

/-- Step size of the example, about 0.0022. -/
def exDt : ℚ := 81 / 58 * (4 / 100) ^ 2

theorem exAC_residual (x : ℚ) :
    exAC.residual exDt (fun _ => 1 / 9) (fun _ => x) = fun _ => x - 81 / 58 * (x * (1 - x ^ 2)) - 1 / 9 := by
  unfold AllenCahn.residual
  rw [AllenCahn.force_const exAC (by decide)]
  funext q
  show x - exDt * (1 / exAC.eps ^ 2 * x * (1 - x ^ 2)) - 1 / 9 = _
  simp only [exDt, exAC]
  ring

theorem exAC_jacobian (x : ℚ) (v : exAC.Vec) :
    (exAC.jacobian exDt (fun _ => x)).mulVec v =
      (1 - 81 / 58 * (1 - 3 * x ^ 2)) • v - exDt • exAC.mat.mulVec v := by
  unfold AllenCahn.jacobian
  rw [Matrix.sub_mulVec, Matrix.one_mulVec, Matrix.smul_mulVec, Matrix.add_mulVec, Matrix.smul_mulVec]
  funext q
  simp only [Pi.sub_apply, Pi.smul_apply, Pi.add_apply, smul_eq_mul, Matrix.mulVec_diagonal]
  have h1 : exDt * (1 / exAC.eps ^ 2) = 81 / 58 := by simp only [exDt, exAC]; norm_num
  have h2 : (exAC.nu : ℚ) = 2 := rfl
  have h3 : x ^ exAC.nu = x ^ 2 := rfl
  rw [h2, h3]
  linear_combination (-(1 - 3 * x ^ 2) * v q) * h1

theorem exAC_solve (solve : Matrix (Fin exAC.nx × Fin exAC.nx) (Fin exAC.nx × Fin exAC.nx) ℚ → exAC.Vec → exAC.Vec)
    (hs : SolverOK solve) (x : ℚ)
    (h : 0 < 1 - 81 / 58 * (1 - 3 * x ^ 2) ∨ 8 * (exDt / (1 / 3) ^ 2) < -(1 - 81 / 58 * (1 - 3 * x ^ 2)))
    (h0 : 1 - 81 / 58 * (1 - 3 * x ^ 2) ≠ 0) (r : ℚ) :
    solve (exAC.jacobian exDt fun _ => x) (fun _ => r) =
      fun _ => r / (1 - 81 / 58 * (1 - 3 * x ^ 2)) := by
  refine hs.eq (exAC.lap_unique (by decide) (c := exDt) (by unfold exDt; norm_num) h _
    (exAC_jacobian x) _) ?_
  show (exAC.jacobian exDt fun _ => x).mulVec _ = _
  rw [exAC_jacobian, AllenCahn.mat_const exAC (by decide), smul_zero, sub_zero]
  funext q
  exact mul_div_cancel₀ r h0

/-- The iterates alternate between the constants `1/9` and `-1/3`, and neither has a small residual. -/
theorem exAC_newton (solve : Matrix (Fin exAC.nx × Fin exAC.nx) (Fin exAC.nx × Fin exAC.nx) ℚ → exAC.Vec → exAC.Vec)
    (hs : SolverOK solve) (fuel n : Nat) :
    exAC.newton solve exDt (fun _ => 1 / 9) fuel (fun _ => 1 / 9, n) = none ∧
    exAC.newton solve exDt (fun _ => 1 / 9) fuel (fun _ => -1 / 3, n) = none := by
  induction fuel generalizing n with
  | zero => exact ⟨rfl, rfl⟩
  | succ fuel ih =>
    have hmax : 0 < exAC.maxiter := by decide
    constructor
    · rw [exAC.newton_step solve hmax, exAC_residual, exAC_solve solve hs _
        (by unfold exDt; right; norm_num) (by norm_num)]
      · rw [show ((fun _ => 1 / 9 : exAC.Vec) - fun _ =>
            (1 / 9 - 81 / 58 * (1 / 9 * (1 - (1 / 9) ^ 2)) - 1 / 9) /
              (1 - 81 / 58 * (1 - 3 * (1 / 9 : ℚ) ^ 2))) = fun _ => -1 / 3 by
          funext q; simp only [Pi.sub_apply]; norm_num]
        exact (ih _).2
      · rw [exAC_residual]
        intro h
        have := h (⟨0, by decide⟩, ⟨0, by decide⟩)
        simp only [exAC] at this
        rw [abs_lt] at this
        norm_num at this
    · rw [exAC.newton_step solve hmax, exAC_residual, exAC_solve solve hs _
        (by left; norm_num) (by norm_num)]
      · rw [show ((fun _ => -1 / 3 : exAC.Vec) - fun _ =>
            (-1 / 3 - 81 / 58 * (-1 / 3 * (1 - (-1 / 3) ^ 2)) - 1 / 9) /
              (1 - 81 / 58 * (1 - 3 * (-1 / 3 : ℚ) ^ 2))) = fun _ => 1 / 9 by
          funext q; simp only [Pi.sub_apply]; norm_num]
        exact (ih _).1
      · rw [exAC_residual]
        intro h
        have := h (⟨0, by decide⟩, ⟨0, by decide⟩)
        simp only [exAC] at this
        rw [abs_lt] at this
        norm_num at this

/-- With the default parameters, a step of size about 0.0022 from the constant state `1/9` never
returns, for every solver that solves uniquely solvable systems (in exact arithmetic). -/
theorem C51_counterexample
    (solve : Matrix (Fin exAC.nx × Fin exAC.nx) (Fin exAC.nx × Fin exAC.nx) ℚ → exAC.Vec → exAC.Vec) (hs : SolverOK solve)
    (fuel : Nat) : exAC.step solve .IMPL fuel (fun _ => 1 / 9) 0 exDt = none := by
  unfold AllenCahn.step
  rw [if_neg (by decide)]
  have e : exAC.system .IMPL (fun _ => 1 / 9) 0 exDt = (exDt, fun _ => 1 / 9) := by
    unfold AllenCahn.system
    rw [if_neg (by decide), sub_zero]
  rw [e, (exAC_newton solve hs fuel 0).1]
  rfl

/-- A solver as assumed exists. -/
theorem solver_exists {ι : Type} [Fintype ι] : ∃ solve : Matrix ι ι K → (ι → K) → ι → K, SolverOK solve := by
  classical
  refine ⟨fun A b => if h : ∃ x, Solves A b x then h.choose else b, fun A b hu => ?_⟩
  simp only [dif_pos hu.exists]
  exact hu.exists.choose_spec

end Pymgrit.Apps
