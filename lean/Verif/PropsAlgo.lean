import Verif.TwoLevel
import Verif.Examples
import Mathlib.Analysis.Normed.Group.Basic
import Mathlib.Analysis.Normed.Module.Basic
import Mathlib.Algebra.Order.BigOperators.Group.Finset
import Mathlib.Tactic.Linarith
import Mathlib.Tactic.GCongr

/-!
# Properties C68-C72: two-level iterations in closed form, error bounds

`(S.C 0).getD j 0` is the `j`-th coarse point of the finest level; `fineInterval Φ C j x` propagates `x`
with the fine steps from the `(j-1)`-th to the `j`-th coarse point; `cfSweeps` applies CF-relaxations to
the values at the coarse points.  `S.n 1` is the number of coarse points.
-/

set_option linter.unusedSectionVars false

namespace Pymgrit
open Sys

variable {V K : Type} {S : Sys V K}

/-! ## C70 -/

/-- C70.  On a two-level hierarchy the F-cycle is the V-cycle. -/
theorem C70_cycles_agree [Add V] [Sub V] [SMul K V] [One K] [Sub K] (hL : S.L ≤ 2)
    (coarse : Nat → GState V → GState V) (k : Nat) (s : GState V) :
    iterates S coarse Cycle.F k s = iterates S coarse Cycle.V k s := by
  induction k with
  | zero => rfl
  | succ k ih =>
    simp only [iterates, ih, fineIteration]
    have : S.L - 1 = 0 ∨ S.L - 1 = 1 := by omega
    rcases this with e | e <;> simp [e, iteration]

/-! ## C69 -/

section
variable [AddCommGroup V] [SMul K V] [One K] [Sub K]

theorem iterates_relaxed (h : S.WF) (hL : 1 < S.L) (coarse : Nat → GState V → GState V) (cyc : Cycle)
    (m : Nat) (s : GState V) : m = 0 ∨ FRelaxed S 0 (iterates S coarse cyc m s) := by
  cases m with
  | zero => exact Or.inl rfl
  | succ m => exact Or.inr (h.fineIteration_relaxed coarse cyc m _ hL)

theorem pre_cvals (h : S.WF) (hL : S.L = 2)
    (hadj : S.cf 0 = 0 ∨ ∀ i, i ∈ S.C 0 → i + 1 ∉ S.C 0) (it : Nat) {s : GState V}
    (hF : it = 0 ∨ FRelaxed S 0 s) {j : Nat} (hj : j < S.n 1) :
    S.cvals (S.pre it s) j
      = cfSweeps (fineInterval (S.Φ 0) (S.C 0)) S.w (S.cf 0) (S.cvals s) j := by
  have hr := h.lead_relaxed (by omega) it hF
  have hc : ∀ j, j < S.n 1 →
      S.cvals (if (0 < 0 ∨ (it = 0 ∧ 0 = 0)) ∧ true then S.fRelax 0 s else s) j = S.cvals s j := by
    intro j hj
    split
    · exact h.fRelax_C (by omega) _ (cpt_mem (by rw [h.C_len 0 (by omega)]; exact hj))
    · rfl
  unfold pre
  rcases hadj with h0 | hadj
  · rw [h0]; exact hc j hj
  · rw [h.cfSweeps_eq (by omega) hadj _ hr hj]
    exact cfSweeps_congr _ _ (S.n 1) _ hc j hj

/-- C69.  With two levels and copying transfers, one iteration maps the values `U` at the coarse points
to `U'` with `U'_0` unchanged and `U'_j = F_j(Ũ_{j-1}) + G_j(U'_{j-1}) - G_j(Ũ_{j-1})`, where `F_j` is
the fine propagation over the `j`-th coarse interval, `G_j` the coarse step and `Ũ` the values after the
CF-relaxations.  (With CF-relaxation no two coarse points may be adjacent.) -/
theorem C69_two_level_update (h : S.WF) (hL : S.L = 2) (hR : ∀ x, S.R 0 x = x)
    (hI : ∀ x, S.I 0 x = x) (hadj : S.cf 0 = 0 ∨ ∀ i, i ∈ S.C 0 → i + 1 ∉ S.C 0) (cyc : Cycle)
    (s : GState V) (m : Nat) :
    let U := fun m j => (iterates S S.forwardSolve cyc m s).u 0 ((S.C 0).getD j 0)
    let F := fineInterval (S.Φ 0) (S.C 0)
    let Ur := cfSweeps F S.w (S.cf 0) (U m)
    U (m + 1) 0 = U m 0 ∧
    ∀ j, 1 ≤ j → j < S.n 1 →
      U (m + 1) j = F j (Ur (j - 1)) + S.Φ 1 j (U (m + 1) (j - 1)) - S.Φ 1 j (Ur (j - 1)) := by
  have hF := iterates_relaxed h (by omega) S.forwardSolve cyc m s
  have hn := h.npos 1 (by omega)
  have hpre := fun {j} hj => pre_cvals h hL hadj m hF (j := j) hj
  constructor
  · have := h.two_level hL hR hI cyc m hF (j := 0) hn
    rw [if_pos rfl, hpre hn] at this
    refine Eq.trans this ?_
    have : ∀ r (U : Nat → V), cfSweeps (fineInterval (S.Φ 0) (S.C 0)) S.w r U 0 = U 0 := by
      intro r
      induction r with
      | zero => intro U; rfl
      | succ r ih => intro U; simp only [cfSweeps]; rw [ih]; simp [cfSweep]
    exact this _ _
  · intro j h1 hj
    have := h.two_level hL hR hI cyc m hF hj
    rw [if_neg (by omega), hpre (by omega)] at this
    exact this

/-- C69.  Without CF-relaxation this is the parareal recursion
`U'_j = F_j(U_{j-1}) + G_j(U'_{j-1}) - G_j(U_{j-1})`, for any relaxation weight and any cycle type. -/
theorem C69_parareal (h : S.WF) (hL : S.L = 2) (hR : ∀ x, S.R 0 x = x) (hI : ∀ x, S.I 0 x = x)
    (hcf : S.cf 0 = 0) (cyc : Cycle) (s : GState V) (m : Nat) :
    let U := fun m j => (iterates S S.forwardSolve cyc m s).u 0 ((S.C 0).getD j 0)
    U (m + 1) 0 = U m 0 ∧
    ∀ j, 1 ≤ j → j < S.n 1 →
      U (m + 1) j = fineInterval (S.Φ 0) (S.C 0) j (U m (j - 1)) + S.Φ 1 j (U (m + 1) (j - 1))
        - S.Φ 1 j (U m (j - 1)) := by
  have := C69_two_level_update h hL hR hI (Or.inl hcf) cyc s m
  simpa only [hcf, cfSweeps] using this

/-- C69.  Between the coarse points the iterate is the fine propagation of the coarse-point value to
the left. -/
theorem C69_fine_points (h : S.WF) (hL : 1 < S.L) (coarse : Nat → GState V → GState V) (cyc : Cycle)
    (s : GState V) (m : Nat) {a i : Nat} (ha : a ≤ i) (hi : i < S.n 0)
    (hno : ∀ k, a < k → k ≤ i → k ∉ S.C 0) :
    (iterates S coarse cyc (m + 1) s).u 0 i
      = stepsFrom (S.Φ 0) a (i - a) ((iterates S coarse cyc (m + 1) s).u 0 a) := by
  have hF : FRelaxed S 0 (iterates S coarse cyc (m + 1) s) := h.fineIteration_relaxed coarse cyc m _ hL
  have e : i = a + (i - a) := by omega
  conv_lhs => rw [e]
  exact relaxed_steps hF (by omega) (fun k h1 h2 => hno k h1 (by omega))

/-! ## C68 -/

/-- C68.  Two levels, copying transfers, and a coarse step that equals the fine propagation over its
interval: one iteration gives the sequential solution at every point, whatever the initial guess, the
number of CF-relaxations, the weight and the cycle type (also when coarse points are adjacent). -/
theorem C68_ideal_coarse (h : S.WF) (hL : S.L = 2) (hR : ∀ x, S.R 0 x = x) (hI : ∀ x, S.I 0 x = x)
    (hG : ∀ j, 1 ≤ j → j < S.n 1 → ∀ x, S.Φ 1 j x = fineInterval (S.Φ 0) (S.C 0) j x)
    (cyc : Cycle) (s : GState V) (m : Nat) :
    Solved (S.Φ 0) (S.n 0) ((iterates S S.forwardSolve cyc (m + 1) s).u 0) := by
  have hl : 0 + 1 < S.L := by omega
  have hF := iterates_relaxed h (by omega) S.forwardSolve cyc m s
  have hF' : FRelaxed S 0 (iterates S S.forwardSolve cyc (m + 1) s) :=
    h.fineIteration_relaxed _ cyc m _ (by omega)
  rw [solved_iff]
  intro i h1 hi
  by_cases hC : i ∈ S.C 0
  · obtain ⟨j, hj, rfl⟩ := (h.mem_C_iff hl).1 hC
    have h0 : j ≠ 0 := by
      rintro rfl
      rw [h.cpt_zero hl] at h1
      omega
    have e := h.two_level hL hR hI cyc m hF (j := j) hj
    rw [if_neg h0, hG j (by omega) hj, hG j (by omega) hj] at e
    rw [h.interval_eq (by omega) hF' hj h0]
    refine Eq.trans e ?_
    simp only [add_sub_cancel_left, cvals, iterates]
  · simpa [prop] using hF' i hi hC

end

/-! ## C71 -/

/-- Error of an array against the recurrence, from its defects. -/
theorem error_le_of_defects [SeminormedAddCommGroup V] (Φ : Nat → V → V) (n : Nat) (lam : ℝ)
    (hlam : 0 ≤ lam)
    (hΦ : ∀ i, 1 ≤ i → i < n → ∀ x y, ‖Φ i x - Φ i y‖ ≤ lam * ‖x - y‖) (u : Nat → V) (i : Nat)
    (hi : i < n) :
    ‖u i - seqSol Φ (u 0) i‖
      ≤ ∑ c ∈ Finset.Icc 1 i, lam ^ (i - c) * ‖Φ c (u (c - 1)) - u c‖ := by
  induction i with
  | zero => simp [seqSol]
  | succ i ih =>
    have ih := ih (by omega)
    rw [Finset.sum_Icc_succ_top (by omega)]
    have e : ∑ c ∈ Finset.Icc 1 i, lam ^ (i + 1 - c) * ‖Φ c (u (c - 1)) - u c‖
        = lam * ∑ c ∈ Finset.Icc 1 i, lam ^ (i - c) * ‖Φ c (u (c - 1)) - u c‖ := by
      rw [Finset.mul_sum]
      refine Finset.sum_congr rfl fun c hc => ?_
      have := Finset.mem_Icc.1 hc
      rw [show i + 1 - c = (i - c) + 1 by omega, pow_succ]
      ring
    rw [e]
    simp only [Nat.sub_self, pow_zero, one_mul, Nat.add_sub_cancel]
    have h1 : u (i + 1) - seqSol Φ (u 0) (i + 1)
        = (Φ (i + 1) (u i) - Φ (i + 1) (seqSol Φ (u 0) i)) - (Φ (i + 1) (u i) - u (i + 1)) := by
      simp only [seqSol]; abel
    rw [h1]
    refine (norm_sub_le _ _).trans ?_
    have h2 := hΦ (i + 1) (by omega) hi (u i) (seqSol Φ (u 0) i)
    have h3 := mul_le_mul_of_nonneg_left ih hlam
    linarith

section
variable [NormedAddCommGroup V] [SMul K V] [One K] [Sub K]

/-- C71.  A posteriori error bound.  If every fine step is Lipschitz with constant `lam`, the error of an
iterate at point `i` against sequential time stepping from its first value is at most the sum, over the
coarse points `c ≤ i` other than the first point, of `lam^(i-c)` times the norm of the residual that
`compute_residual` evaluates at `c`; for any number of levels, transfers, cycles, relaxations and any
coarsest-level solver. -/
theorem C71_a_posteriori (h : S.WF) (hL : 1 < S.L) (coarse : Nat → GState V → GState V) (cyc : Cycle)
    (lam : ℝ) (hlam : 0 ≤ lam)
    (hΦ : ∀ i, 1 ≤ i → i < S.n 0 → ∀ x y, ‖S.Φ 0 i x - S.Φ 0 i y‖ ≤ lam * ‖x - y‖) (m : Nat)
    (s : GState V) (i : Nat) (hi : i < S.n 0) :
    let u := (iterates S coarse cyc (m + 1) s).u 0
    ‖u i - seqSol (S.Φ 0) (u 0) i‖
      ≤ ∑ c ∈ (Finset.Icc 1 i).filter (· ∈ S.C 0), lam ^ (i - c) * ‖S.Φ 0 c (u (c - 1)) - u c‖ := by
  intro u
  have hF : FRelaxed S 0 (iterates S coarse cyc (m + 1) s) := h.fineIteration_relaxed coarse cyc m _ hL
  refine (error_le_of_defects (S.Φ 0) (S.n 0) lam hlam hΦ u i hi).trans (le_of_eq ?_)
  rw [Finset.sum_filter]
  refine Finset.sum_congr rfl fun c hc => ?_
  split
  · rfl
  · next hC =>
    have := hF c (by have := Finset.mem_Icc.1 hc; omega) hC
    simp only [prop, if_true] at this
    simp only [u]
    rw [← this]
    simp

/-- C71.  What the tolerance means: if the value recorded after an iteration under the residual criterion
is at most `tol`, and the norm in time is at least each of its entries (maximum, sum or Euclidean norm),
then the error at point `i` is at most `tol` times the sum of `lam^(i-c)` over the coarse points
`1 ≤ c ≤ i`. -/
theorem C71_tolerance (h : S.WF) (hL : 1 < S.L) (coarse : Nat → GState V → GState V) (c : Ctl V ℝ)
    (hcrit : c.convCrit = 0) (hnorm : ∀ x, c.norm x = ‖x‖)
    (htnorm : ∀ xs : List ℝ, (∀ x ∈ xs, 0 ≤ x) → ∀ x ∈ xs, x ≤ c.tnorm xs)
    (lam : ℝ) (hlam : 0 ≤ lam)
    (hΦ : ∀ i, 1 ≤ i → i < S.n 0 → ∀ x y, ‖S.Φ 0 i x - S.Φ 0 i y‖ ≤ lam * ‖x - y‖) (m : Nat)
    (s : Run V ℝ) (tol : ℝ) (htol : S.critValue c coarse s m ≤ tol) (i : Nat) (hi : i < S.n 0) :
    let u := (iterates S coarse c.cyc (m + 1) s.st).u 0
    ‖u i - seqSol (S.Φ 0) (u 0) i‖
      ≤ tol * ∑ c ∈ (Finset.Icc 1 i).filter (· ∈ S.C 0), lam ^ (i - c) := by
  intro u
  refine (C71_a_posteriori h hL coarse c.cyc lam hlam hΦ m s.st i hi).trans ?_
  rw [Finset.mul_sum]
  refine Finset.sum_le_sum fun k hk => ?_
  obtain ⟨hk1, hk2⟩ := Finset.mem_filter.1 hk
  have hk1 := Finset.mem_Icc.1 hk1
  have hle : ‖S.Φ 0 k (u (k - 1)) - u k‖ ≤ tol := by
    refine le_trans ?_ htol
    simp only [Sys.critValue, hcrit, if_true]
    refine htnorm _ ?_ _ ?_
    · intro x hx
      obtain ⟨y, _, rfl⟩ := List.mem_map.1 hx
      rw [hnorm]; exact norm_nonneg _
    · refine List.mem_map.2 ⟨k, List.mem_filter.2 ⟨hk2, by simp; omega⟩, ?_⟩
      rw [hnorm]
  rw [mul_comm]
  exact mul_le_mul_of_nonneg_right hle (pow_nonneg hlam _)

end

/-! ## C72 -/

section
variable {𝕜 : Type} [NormedField 𝕜] [NormedAddCommGroup V] [NormedSpace 𝕜 V] {S : Sys V 𝕜}

theorem cfSweeps_error (P : Nat → V → V) (w : 𝕜) (n : Nat) (X : Nat → V) (φ : ℝ)
    (hX : ∀ j, 1 ≤ j → j < n → X j = P j (X (j - 1)))
    (hP : ∀ j, 1 ≤ j → j < n → ∀ x y, ‖P j x - P j y‖ ≤ φ * ‖x - y‖) (hφ : 0 ≤ φ)
    (r : Nat) (D : ℝ) (hD : 0 ≤ D) (U : Nat → V) (h0 : U 0 = X 0)
    (hU : ∀ j, j < n → ‖U j - X j‖ ≤ D) :
    ∀ j, j < n → ‖cfSweeps P w r U j - X j‖ ≤ (‖w‖ * φ + ‖1 - w‖) ^ r * D := by
  induction r generalizing U D with
  | zero => intro j hj; simpa [cfSweeps] using hU j hj
  | succ r ih =>
    intro j hj
    have hρ : 0 ≤ ‖w‖ * φ + ‖1 - w‖ := by positivity
    have := ih ((‖w‖ * φ + ‖1 - w‖) * D) (by positivity) (cfSweep P w U) (by simp [cfSweep, h0])
      (by
        intro j hj
        unfold cfSweep
        split
        · next h => subst h; rw [h0, sub_self, norm_zero]; positivity
        · next h =>
          have e : w • P j (U (j - 1)) + (1 - w) • U j - X j
              = w • (P j (U (j - 1)) - P j (X (j - 1))) + (1 - w) • (U j - X j) := by
            rw [← hX j (by omega) hj, smul_sub, smul_sub, sub_smul 1 w (X j), one_smul]
            abel
          rw [e]
          refine (norm_add_le _ _).trans ?_
          rw [norm_smul, norm_smul]
          have a := hP j (by omega) hj (U (j - 1)) (X (j - 1))
          have b := hU (j - 1) (by omega)
          have c := hU j hj
          have a' : ‖P j (U (j - 1)) - P j (X (j - 1))‖ ≤ φ * D :=
            a.trans (mul_le_mul_of_nonneg_left b hφ)
          have a2 := mul_le_mul_of_nonneg_left a' (norm_nonneg w)
          have c2 := mul_le_mul_of_nonneg_left c (norm_nonneg (1 - w))
          calc _ ≤ ‖w‖ * (φ * D) + ‖1 - w‖ * D := add_le_add a2 c2
            _ = _ := by ring) j hj
    calc _ ≤ (‖w‖ * φ + ‖1 - w‖) ^ r * ((‖w‖ * φ + ‖1 - w‖) * D) := this
      _ = _ := by ring

/-- C72.  Two-level convergence bound.  Let `F_j` (fine propagation over a coarse interval) be Lipschitz
with constant `φ`, the coarse steps `G_j` with constant `β` and the differences `F_j - G_j` with constant
`α`.  If the initial guess is off by at most `D` at the coarse points and holds the start value, then
after `m` iterations the error at each of the `n` coarse points is at most
`(α (|w| φ + |1-w|)^cf (1 + β + … + β^(n-2)))^m D`. -/
theorem C72_two_level_bound (h : S.WF) (hL : S.L = 2) (hR : ∀ x, S.R 0 x = x)
    (hI : ∀ x, S.I 0 x = x) (hadj : S.cf 0 = 0 ∨ ∀ i, i ∈ S.C 0 → i + 1 ∉ S.C 0) (cyc : Cycle)
    (φ β α : ℝ) (hφ : 0 ≤ φ) (hβ : 0 ≤ β) (hα : 0 ≤ α)
    (hF : ∀ j, 1 ≤ j → j < S.n 1 → ∀ x y,
      ‖fineInterval (S.Φ 0) (S.C 0) j x - fineInterval (S.Φ 0) (S.C 0) j y‖ ≤ φ * ‖x - y‖)
    (hG : ∀ j, 1 ≤ j → j < S.n 1 → ∀ x y, ‖S.Φ 1 j x - S.Φ 1 j y‖ ≤ β * ‖x - y‖)
    (hFG : ∀ j, 1 ≤ j → j < S.n 1 → ∀ x y,
      ‖(fineInterval (S.Φ 0) (S.C 0) j x - S.Φ 1 j x)
        - (fineInterval (S.Φ 0) (S.C 0) j y - S.Φ 1 j y)‖ ≤ α * ‖x - y‖)
    (s : GState V) (D : ℝ)
    (hD : ∀ j, j < S.n 1 →
      ‖s.u 0 ((S.C 0).getD j 0) - seqSol (S.Φ 0) (s.u 0 0) ((S.C 0).getD j 0)‖ ≤ D) (m : Nat) :
    ∀ j, j < S.n 1 →
      ‖(iterates S S.forwardSolve cyc m s).u 0 ((S.C 0).getD j 0)
          - seqSol (S.Φ 0) (s.u 0 0) ((S.C 0).getD j 0)‖
        ≤ (α * (‖S.w‖ * φ + ‖1 - S.w‖) ^ S.cf 0 * ∑ k ∈ Finset.range (S.n 1 - 1), β ^ k) ^ m * D := by
  have hn := h.npos 1 (by omega)
  have hD0 : 0 ≤ D := (norm_nonneg _).trans (hD 0 hn)
  have hc0 : (S.C 0).getD 0 0 = 0 := h.cpt_zero (by omega)
  set X : Nat → V := fun j => seqSol (S.Φ 0) (s.u 0 0) ((S.C 0).getD j 0) with hXdef
  have hX : ∀ j, 1 ≤ j → j < S.n 1 → X j = fineInterval (S.Φ 0) (S.C 0) j (X (j - 1)) :=
    fun j h1 hj => seqSol_cpt h (by omega) _ hj (by omega)
  set ψ := (‖S.w‖ * φ + ‖1 - S.w‖) ^ S.cf 0 with hψ
  have hψ0 : 0 ≤ ψ := by positivity
  set Gs := ∑ k ∈ Finset.range (S.n 1 - 1), β ^ k with hGs
  have hGs0 : 0 ≤ Gs := Finset.sum_nonneg fun k _ => pow_nonneg hβ k
  have hstart : ∀ m, (iterates S S.forwardSolve cyc m s).u 0 ((S.C 0).getD 0 0) = X 0 := by
    intro m
    induction m with
    | zero => simp only [hXdef, iterates]; rw [hc0]; rfl
    | succ m ih =>
      rw [← ih]
      exact (C69_two_level_update h hL hR hI hadj cyc s m).1
  induction m with
  | zero => intro j hj; simpa [iterates] using hD j hj
  | succ m ih =>
    set E := (α * ψ * Gs) ^ m * D with hE
    have hE0 : 0 ≤ E := by positivity
    set U := fun m j => (iterates S S.forwardSolve cyc m s).u 0 ((S.C 0).getD j 0) with hU
    have hr := cfSweeps_error (fineInterval (S.Φ 0) (S.C 0)) S.w (S.n 1) X φ hX hF hφ (S.cf 0) E hE0
      (U m) (hstart m) ih
    obtain ⟨_, hupd⟩ := C69_two_level_update h hL hR hI hadj cyc s m
    have key : ∀ j, j < S.n 1 → ‖U (m + 1) j - X j‖ ≤ α * ψ * (∑ k ∈ Finset.range j, β ^ k) * E := by
      intro j
      induction j with
      | zero =>
        intro _
        have : U (m + 1) 0 = X 0 := hstart (m + 1)
        simp [this]
      | succ j ihj =>
        intro hj
        have ihj := ihj (by omega)
        have e1 := hupd (j + 1) (by omega) hj
        simp only [Nat.add_sub_cancel] at e1
        have e2 := hX (j + 1) (by omega) hj
        simp only [Nat.add_sub_cancel] at e2
        set Ur := cfSweeps (fineInterval (S.Φ 0) (S.C 0)) S.w (S.cf 0) (U m) with hUr
        have a := hFG (j + 1) (by omega) hj (Ur j) (X j)
        have b := hG (j + 1) (by omega) hj (U (m + 1) j) (X j)
        have c : ‖Ur j - X j‖ ≤ ψ * E := hr j (by omega)
        have e3 : U (m + 1) (j + 1) - X (j + 1)
            = ((fineInterval (S.Φ 0) (S.C 0) (j + 1) (Ur j) - S.Φ 1 (j + 1) (Ur j))
              - (fineInterval (S.Φ 0) (S.C 0) (j + 1) (X j) - S.Φ 1 (j + 1) (X j)))
              + (S.Φ 1 (j + 1) (U (m + 1) j) - S.Φ 1 (j + 1) (X j)) := by
          rw [e2]
          refine Eq.trans (congrArg (· - _) e1) ?_
          abel
        rw [e3]
        refine (norm_add_le _ _).trans ?_
        have c2 := mul_le_mul_of_nonneg_left c hα
        have b2 := mul_le_mul_of_nonneg_left ihj hβ
        have e4 : ∑ k ∈ Finset.range (j + 1), β ^ k = β * (∑ k ∈ Finset.range j, β ^ k) + 1 := by
          rw [Finset.sum_range_succ', Finset.mul_sum]
          simp only [pow_succ, pow_zero]
          congr 1
          exact Finset.sum_congr rfl fun k _ => mul_comm _ _
        rw [e4]
        calc _ ≤ α * (ψ * E) + β * (α * ψ * (∑ k ∈ Finset.range j, β ^ k) * E) :=
              add_le_add (a.trans c2) (b.trans b2)
          _ = _ := by ring
    intro j hj
    refine (key j hj).trans ?_
    have : ∑ k ∈ Finset.range j, β ^ k ≤ Gs :=
      Finset.sum_le_sum_of_subset_of_nonneg (Finset.range_mono (by omega))
        fun k _ _ => pow_nonneg hβ k
    calc α * ψ * (∑ k ∈ Finset.range j, β ^ k) * E ≤ α * ψ * Gs * E := by
          gcongr
      _ = _ := by rw [hE, pow_succ]; ring

end

/-! ## The hypotheses are met -/

/-- Times `0..8`, coarsened by four: coarse points `0, 4, 8`. -/
def exTwoGrid : List (List Nat) := [[0, 1, 2, 3, 4, 5, 6, 7, 8], [0, 4, 8]]

theorem exTwoGrid_valid : Valid exTwoGrid where
  pos := by decide
  ne0 := by decide
  sorted := by
    intro l
    match l with
    | 0 => decide
    | 1 => decide
    | _ + 2 => exact List.Pairwise.nil
  nested := by
    intro l hl
    match l with
    | 0 => decide
    | _ + 1 => exact absurd hl (by simp [exTwoGrid])
  start := by
    intro l hl
    match l with
    | 0 => rfl
    | 1 => rfl
    | _ + 2 => exact absurd hl (by simp [exTwoGrid])

/-- `u ↦ u/2 + 1` per fine step, a coarse step `u ↦ u/8`, two CF-relaxations of weight `1/2`. -/
noncomputable def exTwo : Cfg ℝ ℝ Nat ℝ where
  ts := exTwoGrid
  step := fun l x _ _ => if l = 0 then x / 2 + 1 else x / 8
  R := fun _ x => x
  I := fun _ x => x
  cf := fun _ => 2
  w := 1 / 2
  start := fun _ => 1
  zero := fun _ => 0
  guess := fun _ => 0
  cyc := Sys.Cycle.F
  nested := true
  maxIter := 5
  convCrit := 0
  norm := fun x => ‖x‖
  tnorm := fun xs => (xs.map fun x => ‖x‖).sum
  ltTol := fun x => decide (x < 1)
  outLvl := 2
  ord := fun _ _ xs => xs
  P := 1
  instr := false

theorem exTwo_wf : exTwo.sys.WF := exTwo.sys_wf exTwoGrid_valid

theorem exTwo_C : exTwo.sys.C 0 = [0, 4, 8] := by
  change allC exTwoGrid 0 = [0, 4, 8]
  decide

theorem exTwo_n : exTwo.sys.n 1 = 3 := rfl

theorem exTwo_adj : ∀ i, i ∈ exTwo.sys.C 0 → i + 1 ∉ exTwo.sys.C 0 := by
  rw [exTwo_C]; decide

theorem exTwo_fine {j : Nat} (h1 : 1 ≤ j) (hj : j < 3) (x : ℝ) :
    fineInterval (exTwo.sys.Φ 0) (exTwo.sys.C 0) j x = x / 16 + 15 / 8 := by
  rw [exTwo_C]
  have : j = 1 ∨ j = 2 := by omega
  rcases this with rfl | rfl <;>
  · simp only [fineInterval, List.getD_cons_succ, List.getD_cons_zero, stepsFrom, Cfg.sys, exTwo,
      if_true, Nat.sub_self, Nat.reduceSub]
    ring

/-- The two-level formula applies to a problem with two damped CF-relaxations. -/
example (m : Nat) (s : GState ℝ) := C69_two_level_update exTwo_wf rfl (fun _ => rfl) (fun _ => rfl)
  (Or.inr exTwo_adj) Cycle.V s m

/-- The convergence bound applies, with `φ = 1/16`, `β = 1/8`, `α = 1/16`: the error shrinks by a factor
`(1/16) (17/32)^2 (9/8) < 1/50` per iteration. -/
example (s : GState ℝ) (D : ℝ)
    (hD : ∀ j, j < exTwo.sys.n 1 →
      ‖s.u 0 ((exTwo.sys.C 0).getD j 0)
        - seqSol (exTwo.sys.Φ 0) (s.u 0 0) ((exTwo.sys.C 0).getD j 0)‖ ≤ D) (m : Nat) :=
  C72_two_level_bound exTwo_wf rfl (fun _ => rfl) (fun _ => rfl) (Or.inr exTwo_adj) Cycle.F
    (1 / 16) (1 / 8) (1 / 16) (by norm_num) (by norm_num) (by norm_num)
    (by
      intro j h1 hj x y
      rw [exTwo_fine h1 hj, exTwo_fine h1 hj, show x / 16 + 15 / 8 - (y / 16 + 15 / 8)
        = 1 / 16 * (x - y) by ring, norm_mul]
      norm_num)
    (by
      intro j h1 hj x y
      change ‖x / 8 - y / 8‖ ≤ _
      rw [show x / 8 - y / 8 = 1 / 8 * (x - y) by ring, norm_mul]
      norm_num)
    (by
      intro j h1 hj x y
      rw [exTwo_fine h1 hj, exTwo_fine h1 hj]
      change ‖x / 16 + 15 / 8 - x / 8 - (y / 16 + 15 / 8 - y / 8)‖ ≤ _
      rw [show x / 16 + 15 / 8 - x / 8 - (y / 16 + 15 / 8 - y / 8) = -(1 / 16) * (x - y) by ring,
        norm_mul]
      norm_num)
    s D hD m

/-- The a posteriori bound applies with `lam = 1/2`. -/
example (m : Nat) (s : GState ℝ) (i : Nat) (hi : i < exTwo.sys.n 0) :=
  C71_a_posteriori exTwo_wf (by decide) exTwo.sys.forwardSolve Cycle.F (1 / 2) (by norm_num)
    (by
      intro i _ _ x y
      change ‖x / 2 + 1 - (y / 2 + 1)‖ ≤ _
      rw [show x / 2 + 1 - (y / 2 + 1) = 1 / 2 * (x - y) by ring, norm_mul]
      norm_num) m s i hi

/-- The ideal coarse step `u ↦ u/16 + 15/8` on the same grids. -/
noncomputable def exIdeal : Cfg ℝ ℝ Nat ℝ :=
  { exTwo with step := fun l x _ _ => if l = 0 then x / 2 + 1 else x / 16 + 15 / 8 }

example (m : Nat) (s : GState ℝ) :=
  C68_ideal_coarse (S := exIdeal.sys) (exIdeal.sys_wf exTwoGrid_valid) rfl (fun _ => rfl) (fun _ => rfl)
    (fun _ h1 hj x => (exTwo_fine h1 hj x).symm) Cycle.F s m

/-- A three-level hierarchy without CF-relaxation, on which the two cycle types differ. -/
def exNoCF : Cfg Int Int Nat Int := { exCfg 1 with cf := fun _ => 0 }

example : ∃ s : GState Int, (iterates exNoCF.sys exNoCF.sys.forwardSolve Cycle.F 1 s).u 0 8
    ≠ (iterates exNoCF.sys exNoCF.sys.forwardSolve Cycle.V 1 s).u 0 8 := by
  refine ⟨⟨fun _ i => if i = 3 then 1 else 0, fun _ _ => 0, fun _ _ => 0⟩, ?_⟩
  decide +kernel

end Pymgrit
