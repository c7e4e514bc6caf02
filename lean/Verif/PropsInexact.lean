import Verif.PropsConv
import Verif.Inexact
import Mathlib.Algebra.Order.Chebyshev

/-!
# Property C104: convergence with inexact steps

The steps a user supplies solve linear systems up to a tolerance and round.  If every step is within `ε` of an ideal
step for which MGRIT converges (C93), the returned values come as close to the ideal time stepping as the errors of
the steps allow: the convergence factors are the same, and what remains is an explicit multiple of the number of time
points times `ε`.
-/

set_option linter.unusedSectionVars false

namespace Pymgrit
open Cfg Sys Matrix Lin

section
variable {V T N : Type} [LinearOrder T] [Inhabited T] [AddCommGroup V] [Module ℝ V] [Zero N]

/-- The solver with other steps. -/
def Cfg.withStep (E : Cfg V ℝ T N) (ideal : Nat → V → T → T → V) : Cfg V ℝ T N := { E with step := ideal }

/-- What one iteration adds, in units of the number of time points times the error of a step, see
`C104_factor_two`, `C104_factor_V`. -/
noncomputable def inexactFactor (E : Cfg V ℝ T N) (κ : ℝ) : ℝ :=
  pert κ (relaxFactor E) (fun l => E.cf l) E.cyc (E.ts.length - 1)

variable {E : Cfg V ℝ T N}

theorem npts_le (hv : Valid E.ts) : ∀ l, l < E.ts.length → npts E.ts l ≤ npts E.ts 0 := by
  intro l
  induction l with
  | zero => intro _; exact le_rfl
  | succ l ih =>
    intro hl
    have h := E.sys_wf hv
    refine le_trans ?_ (ih (by omega))
    have e1 : (allC E.ts l).length = npts E.ts (l + 1) := h.C_len l hl
    have h2 : allC E.ts l ⊆ List.range (npts E.ts l) := fun c hc => List.mem_range.2 (h.C_lt l hl c hc)
    have h3 := (List.subperm_of_subset (h.C_nodup hl) h2).length_le
    rw [← e1]
    exact h3.trans (List.length_range ..).le

/-- C104.  The steps of `E` are within `ε` of the ideal steps on the time grids; the ideal steps satisfy the
hypotheses of C93; if there is CF-relaxation on a level, no two coarse points are neighbours.  After `m` iterations the
returned values differ from the ideal sequential time stepping by at most `q ^ m` times the error at the coarse points
after the constructor plus a multiple of `ε`. -/
theorem C104_inexact (h : E.Good) (hmax : 0 < E.maxIter) (hT : Copying E)
    (hadj : ∀ l, l + 1 < E.ts.length → E.cf l = 0 ∨ ∀ i, i ∈ allC E.ts l → i + 1 ∉ allC E.ts l)
    (ideal : Nat → V → T → T → V) {p : Seminorm ℝ V} {κ ε : ℝ} (hκ : 0 ≤ κ) (hε : 0 ≤ ε)
    (hA : Approx (E.withStep ideal).sys p κ)
    (hnear : ∀ l i x, l < E.ts.length → i + 1 < npts E.ts l →
      p (E.step l x (tAt (grid E.ts l) i) (tAt (grid E.ts l) (i + 1))
        - ideal l x (tAt (grid E.ts l) i) (tAt (grid E.ts l) (i + 1))) ≤ ε)
    (hq : convRate E κ < 1) (D : ℝ)
    (hD : ∀ i, i ∈ allC E.ts 0 → p ((afterConstructor E).st.u 0 i - timeStepping (E.withStep ideal) i) ≤ D)
    {c : Conf E.P (Msg V N) (PState V N)} (h1 : Steps (startConf E) c) (hc : ∀ d, ¬ Step c d)
    (r : Fin E.P) (s : PState V N) (hr : c.prog r = Prog.ret s)
    (k i j : Nat) (hi : (E.info r 0).pts[k]? = some i) (hj : (E.info r 0).idx[k]? = some j) :
    p (s.u 0 j - timeStepping (E.withStep ideal) i)
      ≤ convRate E κ ^ s.solveIter * D + inexactFactor E κ * (npts E.ts 0 * ε) / (1 - convRate E κ) := by
  obtain ⟨a1, -, -, -, a5⟩ := returned h hmax h1 hc r s hr
  obtain ⟨b1, b2⟩ := a5 k i j hi hj
  have hs0 : (afterConstructor E).st.u 0 0 = E.start 0 := start_value h 0
  have H : NearHyp (E.withStep ideal).sys E.sys.Φ p κ ε (npts E.ts 0 * ε) :=
    { wf := (E.withStep ideal).sys_wf h.valid
      approx := hA
      nonneg := hκ
      R := hT.R
      I := hT.I
      adj := hadj
      near :=
        { nonneg := hε
          step := fun l i x hl hi1 hi2 => by
            obtain ⟨i, rfl⟩ : ∃ j, i = j + 1 := ⟨i - 1, by omega⟩
            exact hnear l i x hl hi2
          size := fun l hl => mul_le_mul_of_nonneg_right (Nat.cast_le.2 (npts_le h.valid l hl)) hε } }
  have hsol : exactSol (E.withStep ideal).sys 0 (afterConstructor E).st = timeStepping (E.withStep ideal) := by
    rw [exactSol_zero (fun h => absurd rfl h), hs0]
    rfl
  obtain ⟨-, c2, c3⟩ := iterates_near H hT.L E.cyc s.solveIter (afterConstructor E).st D (by
    intro i hi
    rw [hsol]
    exact hD i hi)
  have h2 := c2 a1 i b1
  rw [exactSol_keeps c3, hsol] at h2
  rw [b2]
  refine h2.trans ?_
  have hrelax : ∀ l, 0 ≤ relaxFactor E l := fun l => by unfold relaxFactor; positivity
  have hq0 : 0 ≤ convRate E κ := rate_nonneg hκ hrelax _ _
  have hp0 : 0 ≤ inexactFactor E κ * (npts E.ts 0 * ε) :=
    mul_nonneg (pert_nonneg hκ hrelax (fun l => Nat.cast_nonneg _) _ _) (by positivity)
  have hgeo : ∑ j ∈ Finset.range s.solveIter, convRate E κ ^ j ≤ 1 / (1 - convRate E κ) := by
    rw [geom_sum_eq hq.ne, ← neg_div_neg_eq, neg_sub, neg_sub]
    refine div_le_div_of_nonneg_right ?_ (by linarith)
    have := pow_nonneg hq0 s.solveIter
    linarith
  show convRate E κ ^ s.solveIter * D + (∑ j ∈ Finset.range s.solveIter, convRate E κ ^ j)
    * (inexactFactor E κ * (npts E.ts 0 * ε)) ≤ _
  refine add_le_add le_rfl ?_
  rw [← one_div_mul_eq_div]
  exact mul_le_mul_of_nonneg_right hgeo hp0

/-- C104.  Two levels, weight in `[0, 1]`: rate `κ`, factor `κ (ν + 1) + 4` with `ν` CF-relaxations. -/
theorem C104_factor_two (h0 : 0 ≤ E.w) (h1 : E.w ≤ 1) (hL : E.ts.length = 2) (κ : ℝ) :
    convRate E κ = κ ∧ inexactFactor E κ = κ * (E.cf 0 + 1) + 4 := by
  unfold inexactFactor convRate
  rw [relaxFactor_one E h0 h1, hL]
  constructor
  · cases E.cyc <;> simp [rate, rateV, rateF]
  · cases E.cyc
    · simp only [pert, pertV, rateV, Nat.reduceSub]; ring
    · simp only [pert, pertF, pertV, rateV, rateF, Nat.reduceSub]; ring

/-- C104.  Three levels, V-cycles, weight in `[0, 1]`, `κ = 1/3`: rate `7/9`, factor
`7/9 (ν₀ + 1) + 1/3 (ν₁ + 1) + 23/3`. -/
theorem C104_factor_V (h0 : 0 ≤ E.w) (h1 : E.w ≤ 1) (hL : E.ts.length = 3) (hcyc : E.cyc = Cycle.V) :
    convRate E (1 / 3) = 7 / 9 ∧
      inexactFactor E (1 / 3) = 7 / 9 * (E.cf 0 + 1) + 1 / 3 * (E.cf 1 + 1) + 23 / 3 := by
  unfold inexactFactor convRate
  rw [relaxFactor_one E h0 h1, hL, hcyc]
  constructor
  · simp only [rate, rateV, Nat.reduceSub]; norm_num
  · simp only [pert, pertV, rateV, Nat.reduceSub]; ring

end

section
variable {V N : Type} [AddCommGroup V] [Module ℝ V] [Zero N] {E : Cfg V ℝ ℝ N}

/-- A damped component. -/
theorem damped_near (h : E.Good) (hmax : 0 < E.maxIter) (hT : Copying E)
    (hadj : ∀ l, l + 1 < E.ts.length → E.cf l = 0 ∨ ∀ i, i ∈ allC E.ts l → i + 1 ∉ allC E.ts l)
    (ideal : Nat → V → ℝ → ℝ → V) {f : V →ₗ[ℝ] ℝ} {μ ε : ℝ} (hμ : 0 ≤ μ) (hε : 0 ≤ ε)
    (hf : Damped (E.withStep ideal) f μ)
    (hnear : ∀ l i x, l < E.ts.length → i + 1 < npts E.ts l →
      |f (E.step l x (tAt (grid E.ts l) i) (tAt (grid E.ts l) (i + 1))
        - ideal l x (tAt (grid E.ts l) i) (tAt (grid E.ts l) (i + 1)))| ≤ ε)
    (hq : convRate E (1 / 3) < 1) (D : ℝ)
    (hD : ∀ i, i ∈ allC E.ts 0 → |f ((afterConstructor E).st.u 0 i - timeStepping (E.withStep ideal) i)| ≤ D)
    {c : Conf E.P (Msg V N) (PState V N)} (h1 : Steps (startConf E) c) (hc : ∀ d, ¬ Step c d)
    (r : Fin E.P) (s : PState V N) (hr : c.prog r = Prog.ret s)
    (k i j : Nat) (hi : (E.info r 0).pts[k]? = some i) (hj : (E.info r 0).idx[k]? = some j) :
    |f (s.u 0 j - timeStepping (E.withStep ideal) i)|
      ≤ convRate E (1 / 3) ^ s.solveIter * D
        + inexactFactor E (1 / 3) * (npts E.ts 0 * ε) / (1 - convRate E (1 / 3)) :=
  C104_inexact (p := (normSeminorm ℝ ℝ).comp f) h hmax hT hadj ideal (by norm_num) hε
    (hf.approx (E := E.withStep ideal) h.valid hμ) hnear hq D hD h1 hc r s hr k i j hi hj

end

/-- C104.  Dahlquist problem with `λ ≤ 0` and backward Euler computed with an error of at most `ε` (e.g. rounding). -/
theorem C104_dahlquist {N : Type} [Zero N] {E : Cfg ℝ ℝ ℝ N} (h : E.Good) (hmax : 0 < E.maxIter) (hT : Copying E)
    (hadj : ∀ l, l + 1 < E.ts.length → E.cf l = 0 ∨ ∀ i, i ∈ allC E.ts l → i + 1 ∉ allC E.ts l)
    {lam ε : ℝ} (hlam : lam ≤ 0) (hε : 0 ≤ ε)
    (hstep : ∀ l u t t', l < E.ts.length → t ≤ t' → |E.step l u t t' - Apps.dahlquist .BE lam u t t'| ≤ ε)
    (hq : convRate E (1 / 3) < 1) (hnest : E.nested = false) (D : ℝ) (hD0 : 0 ≤ D)
    (hD : ∀ i, i ∈ allC E.ts 0 → i ≠ 0 →
      |E.guess i - timeStepping (E.withStep fun _ => Apps.dahlquist .BE lam) i| ≤ D)
    {c : Conf E.P (Msg ℝ N) (PState ℝ N)} (h1 : Steps (startConf E) c) (hc : ∀ d, ¬ Step c d)
    (r : Fin E.P) (s : PState ℝ N) (hr : c.prog r = Prog.ret s)
    (k i j : Nat) (hi : (E.info r 0).pts[k]? = some i) (hj : (E.info r 0).idx[k]? = some j) :
    |s.u 0 j - timeStepping (E.withStep fun _ => Apps.dahlquist .BE lam) i|
      ≤ convRate E (1 / 3) ^ s.solveIter * D
        + inexactFactor E (1 / 3) * (npts E.ts 0 * ε) / (1 - convRate E (1 / 3)) := by
  refine damped_near h hmax hT hadj (fun _ => Apps.dahlquist .BE lam) (by linarith) hε
    (dahlquist_damped (E := E.withStep fun _ => Apps.dahlquist .BE lam) fun _ _ _ _ _ => rfl)
    (fun l i x hl hi => hstep l x _ _ hl (tAt_mono (h.valid.sorted l) (by omega) hi)) hq D ?_ h1 hc r s hr k i j hi hj
  intro i hi
  rw [constructor_value hnest]
  split
  · next e =>
    subst e
    show |E.start 0 - E.start 0| ≤ D
    rw [sub_self, abs_zero]; exact hD0
  · next e => rw [if_pos rfl]; exact hD i hi e

/-- C104.  Backward Euler for a symmetric matrix with nonnegative eigenvalues, where the solver of the linear systems
only achieves residuals of Euclidean norm at most `ε`: `ideal` is the time stepper with exact solutions.  Euclidean norm of
the error at each point in terms of the errors of the initial guess at the coarse points. -/
theorem C104_symmetric {N : Type} [Zero N] {ι : Type} [Fintype ι] [DecidableEq ι] {E : Cfg (ι → ℝ) ℝ ℝ N}
    (h : E.Good) (hmax : 0 < E.maxIter) (hT : Copying E)
    (hadj : ∀ l, l + 1 < E.ts.length → E.cf l = 0 ∨ ∀ i, i ∈ allC E.ts l → i + 1 ∉ allC E.ts l)
    {A : Matrix ι ι ℝ} (hA : A.transpose = A) (hpos : ∀ (v : ι → ℝ) (μ : ℝ), v ≠ 0 → A.mulVec v = μ • v → 0 ≤ μ)
    (b : Nat → ℝ → ℝ → ι → ℝ) (ideal : Nat → (ι → ℝ) → ℝ → ℝ → ι → ℝ)
    (hideal : ∀ l u t t', l < E.ts.length → t ≤ t' → Solves ((t' - t) • A + 1) (u + b l t t') (ideal l u t t'))
    {ε : ℝ} (hε : 0 ≤ ε)
    (hstep : ∀ l u t t', l < E.ts.length → t ≤ t' →
      √(∑ x, ((((t' - t) • A + 1).mulVec (E.step l u t t')) x - (u + b l t t') x) ^ 2) ≤ ε)
    (hq : convRate E (1 / 3) < 1) (hnest : E.nested = false)
    {c : Conf E.P (Msg (ι → ℝ) N) (PState (ι → ℝ) N)} (h1 : Steps (startConf E) c) (hc : ∀ d, ¬ Step c d)
    (r : Fin E.P) (s : PState (ι → ℝ) N) (hr : c.prog r = Prog.ret s)
    (k i j : Nat) (hi : (E.info r 0).pts[k]? = some i) (hj : (E.info r 0).idx[k]? = some j) :
    √(∑ x, (s.u 0 j x - timeStepping (E.withStep ideal) i x) ^ 2)
      ≤ convRate E (1 / 3) ^ s.solveIter *
          √(∑ i ∈ (allC E.ts 0).toFinset.erase 0, ∑ x, (E.guess i x - timeStepping (E.withStep ideal) i x) ^ 2)
        + √(Fintype.card ι) * (inexactFactor E (1 / 3) * (npts E.ts 0 * ε) / (1 - convRate E (1 / 3))) := by
  obtain ⟨f, μ, hμ, hparseval, hfA⟩ := eigen_coords hA hpos
  set q := convRate E (1 / 3) with hqdef
  set B := inexactFactor E (1 / 3) * (npts E.ts 0 * ε) / (1 - q) with hB
  have hrelax : ∀ l, 0 ≤ relaxFactor E l := fun l => by unfold relaxFactor; positivity
  have hq0 : 0 ≤ q := rate_nonneg (by norm_num) hrelax _ _
  have hB0 : 0 ≤ B := div_nonneg (mul_nonneg (pert_nonneg (by norm_num) hrelax (fun l => Nat.cast_nonneg _) _ _)
    (by positivity)) (by linarith)
  let D : ι → ℝ := fun p =>
    √(∑ i ∈ (allC E.ts 0).toFinset.erase 0, (f p (E.guess i - timeStepping (E.withStep ideal) i)) ^ 2)
  have hle : ∀ p (v : ι → ℝ), |f p v| ≤ √(∑ x, v x ^ 2) := by
    intro p v
    rw [← hparseval v, ← Real.sqrt_sq_eq_abs]
    exact Real.sqrt_le_sqrt (Finset.single_le_sum (f := fun p => (f p v) ^ 2) (fun _ _ => sq_nonneg _)
      (Finset.mem_univ p))
  have hcomp : ∀ p, |f p (s.u 0 j - timeStepping (E.withStep ideal) i)| ≤ q ^ s.solveIter * D p + B := by
    intro p
    refine damped_near h hmax hT hadj ideal (hμ p) hε
      (eigen_damped (E := E.withStep ideal) (hμ p) (hfA p) LinearMap.id (fun l u v t t' hl ht => by
        show Matrix.mulVec _ _ = _
        simp only [LinearMap.id_apply]
        show Matrix.mulVec _ (ideal l u t t' - ideal l v t t') = _
        rw [Matrix.mulVec_sub, hideal l u t t' hl ht, hideal l v t t' hl ht]
        abel)) ?_ hq (D p) ?_ h1 hc r s hr k i j hi hj
    · intro l i x hl hi
      have ht : tAt (grid E.ts l) i ≤ tAt (grid E.ts l) (i + 1) := tAt_mono (h.valid.sorted l) (by omega) hi
      set t := tAt (grid E.ts l) i
      set t' := tAt (grid E.ts l) (i + 1)
      have hres := (hle p _).trans (hstep l x t t' hl ht)
      have e : (fun y => ((((t' - t) • A + 1).mulVec (E.step l x t t')) y - (x + b l t t') y))
          = (t' - t) • A.mulVec (E.step l x t t' - ideal l x t t') + (E.step l x t t' - ideal l x t t') := by
        have h3 := hideal l x t t' hl ht
        unfold Solves at h3
        have : (fun y => ((((t' - t) • A + 1).mulVec (E.step l x t t')) y - (x + b l t t') y))
            = ((t' - t) • A + 1).mulVec (E.step l x t t' - ideal l x t t') := by
          rw [Matrix.mulVec_sub, h3]
          rfl
        rw [this, Matrix.add_mulVec, Matrix.smul_mulVec, Matrix.one_mulVec]
      rw [e, map_add, map_smul, hfA, smul_eq_mul] at hres
      refine le_trans ?_ hres
      have hd : 0 ≤ (t' - t) * μ p := mul_nonneg (sub_nonneg.2 ht) (hμ p)
      rw [show (t' - t) * (μ p * f p (E.step l x t t' - ideal l x t t')) + f p (E.step l x t t' - ideal l x t t')
        = (1 + (t' - t) * μ p) * f p (E.step l x t t' - ideal l x t t') by ring, abs_mul]
      refine le_mul_of_one_le_left (abs_nonneg _) ?_
      rw [abs_of_nonneg (by linarith)]
      linarith
    · intro i hi
      rw [constructor_value hnest]
      split
      · next e =>
        subst e
        show |f p (E.start 0 - E.start 0)| ≤ _
        rw [sub_self, map_zero, abs_zero]
        exact Real.sqrt_nonneg _
      · next e =>
        rw [if_pos rfl, ← Real.sqrt_sq_eq_abs]
        refine Real.sqrt_le_sqrt ?_
        exact Finset.single_le_sum (f := fun i => (f p (E.guess i - timeStepping (E.withStep ideal) i)) ^ 2)
          (fun _ _ => sq_nonneg _) (Finset.mem_erase.2 ⟨e, List.mem_toFinset.2 hi⟩)
  have e1 : ∑ x, (s.u 0 j x - timeStepping (E.withStep ideal) i x) ^ 2
      = ∑ p, (f p (s.u 0 j - timeStepping (E.withStep ideal) i)) ^ 2 :=
    (hparseval (s.u 0 j - timeStepping (E.withStep ideal) i)).symm
  have e2 : ∑ i ∈ (allC E.ts 0).toFinset.erase 0, ∑ x, (E.guess i x - timeStepping (E.withStep ideal) i x) ^ 2
      = ∑ p, (D p) ^ 2 := by
    have : ∀ p, (D p) ^ 2
        = ∑ i ∈ (allC E.ts 0).toFinset.erase 0, (f p (E.guess i - timeStepping (E.withStep ideal) i)) ^ 2 :=
      fun p => Real.sq_sqrt (Finset.sum_nonneg fun _ _ => sq_nonneg _)
    simp only [this]
    refine Eq.trans ?_ Finset.sum_comm
    exact Finset.sum_congr rfl fun i _ => (hparseval (E.guess i - timeStepping (E.withStep ideal) i)).symm
  rw [e1, e2]
  set a := q ^ s.solveIter with ha
  have ha0 : 0 ≤ a := pow_nonneg hq0 _
  have hD0 : ∀ p, 0 ≤ D p := fun p => Real.sqrt_nonneg _
  rw [Real.sqrt_le_left (by positivity)]
  have s1 : ∑ p, (f p (s.u 0 j - timeStepping (E.withStep ideal) i)) ^ 2 ≤ ∑ p, (a * D p + B) ^ 2 := by
    refine Finset.sum_le_sum fun p _ => ?_
    have h3 := mul_self_le_mul_self (abs_nonneg _) (hcomp p)
    rwa [← sq, sq_abs, ← sq] at h3
  have s2 : ∑ p, (a * D p + B) ^ 2 = a ^ 2 * ∑ p, D p ^ 2 + 2 * a * B * ∑ p, D p + Fintype.card ι * B ^ 2 := by
    rw [Finset.mul_sum, Finset.mul_sum, ← Finset.sum_add_distrib]
    have : (Fintype.card ι : ℝ) * B ^ 2 = ∑ _p : ι, B ^ 2 := by
      rw [Finset.sum_const, nsmul_eq_mul, Finset.card_univ]
    rw [this, ← Finset.sum_add_distrib]
    exact Finset.sum_congr rfl fun p _ => by ring
  have s3 : ∑ p, D p ≤ √(Fintype.card ι) * √(∑ p, D p ^ 2) := by
    rw [← Real.sqrt_mul (Nat.cast_nonneg _)]
    refine Real.le_sqrt_of_sq_le ?_
    have := sq_sum_le_card_mul_sum_sq (s := (Finset.univ : Finset ι)) (f := D)
    rwa [Finset.card_univ] at this
  have q1 : √(∑ p, D p ^ 2) ^ 2 = ∑ p, D p ^ 2 := Real.sq_sqrt (Finset.sum_nonneg fun _ _ => sq_nonneg _)
  have q2 : √(Fintype.card ι : ℝ) ^ 2 = Fintype.card ι := Real.sq_sqrt (Nat.cast_nonneg _)
  refine s1.trans ?_
  rw [s2]
  have s4 : 2 * a * B * ∑ p, D p ≤ 2 * a * B * (√(Fintype.card ι) * √(∑ p, D p ^ 2)) :=
    mul_le_mul_of_nonneg_left s3 (by positivity)
  calc _ ≤ a ^ 2 * √(∑ p, D p ^ 2) ^ 2 + 2 * a * B * (√(Fintype.card ι) * √(∑ p, D p ^ 2))
        + √(Fintype.card ι : ℝ) ^ 2 * B ^ 2 := by rw [q1, q2]; linarith
    _ = _ := by ring

/-- C104.  The shipped one-dimensional heat equation when the linear systems are solved up to residuals of Euclidean
norm `ε`. -/
theorem C104_heat_1d {N : Type} [Zero N] {n : Nat} {E : Cfg (Fin n → ℝ) ℝ ℝ N}
    (h : E.Good) (hmax : 0 < E.maxIter) (hT : Copying E)
    (hadj : ∀ l, l + 1 < E.ts.length → E.cf l = 0 ∨ ∀ i, i ∈ allC E.ts l → i + 1 ∉ allC E.ts l)
    {a dx : ℝ} (ha : 0 ≤ a) (rhs : ℝ → Fin n → ℝ) (ideal : Nat → (Fin n → ℝ) → ℝ → ℝ → Fin n → ℝ)
    (hideal : ∀ l u t t', l < E.ts.length → t ≤ t' → Apps.heat1dStep a dx rhs u t t' (ideal l u t t'))
    {ε : ℝ} (hε : 0 ≤ ε)
    (hstep : ∀ l u t t', l < E.ts.length → t ≤ t' →
      √(∑ x, ((((t' - t) • Apps.heatMatrix n a dx + 1).mulVec (E.step l u t t')) x
        - (u + (t' - t) • rhs t') x) ^ 2) ≤ ε)
    (hq : convRate E (1 / 3) < 1) (hnest : E.nested = false)
    {c : Conf E.P (Msg (Fin n → ℝ) N) (PState (Fin n → ℝ) N)} (h1 : Steps (startConf E) c) (hc : ∀ d, ¬ Step c d)
    (r : Fin E.P) (s : PState (Fin n → ℝ) N) (hr : c.prog r = Prog.ret s)
    (k i j : Nat) (hi : (E.info r 0).pts[k]? = some i) (hj : (E.info r 0).idx[k]? = some j) :
    √(∑ x, (s.u 0 j x - timeStepping (E.withStep ideal) i x) ^ 2)
      ≤ convRate E (1 / 3) ^ s.solveIter *
          √(∑ i ∈ (allC E.ts 0).toFinset.erase 0, ∑ x, (E.guess i x - timeStepping (E.withStep ideal) i x) ^ 2)
        + √n * (inexactFactor E (1 / 3) * (npts E.ts 0 * ε) / (1 - convRate E (1 / 3))) := by
  have := C104_symmetric h hmax hT hadj (Apps.heatMatrix_symm n a dx)
    (fun v μ hv he => heat_eigen_nonneg ha v μ hv he) (fun _ t t' => (t' - t) • rhs t') ideal hideal hε hstep hq hnest
    h1 hc r s hr k i j hi hj
  rwa [Fintype.card_fin] at this

/-! ## Examples -/

theorem exReal_gap {V : Type} [AddCommGroup V] [Module ℝ V] (step : Nat → V → ℝ → ℝ → V) (start guess : V)
    (nested : Bool) : ∀ l, l + 1 < (exReal step start guess nested).ts.length →
      (exReal step start guess nested).cf l = 0 ∨
        ∀ i, i ∈ allC (exReal step start guess nested).ts l → i + 1 ∉ allC (exReal step start guess nested).ts l := by
  intro l hl
  right
  intro i h1 h2
  have hl' : l = 0 := by
    have : l + 1 < 2 := hl
    omega
  subst hl'
  have := exRealGrid_allC h1
  have := exRealGrid_allC h2
  omega

/-- `C104_dahlquist` for `λ = -2` with steps that are off by `1/1000` always in the same direction: two levels, one
CF-relaxation, five points. -/
example {c : Conf 3 (Msg ℝ Nat) (PState ℝ Nat)}
    (h1 : Steps (startConf (exReal (fun _ u t t' => Apps.dahlquist .BE (-2) u t t' + 1 / 1000) 1 0 false)) c)
    (hc : ∀ d, ¬ Step c d) (r : Fin 3) (s : PState ℝ Nat) (hr : c.prog r = Prog.ret s) (D : ℝ) (hD0 : 0 ≤ D)
    (hD : ∀ i, i ∈ allC exRealGrid 0 → i ≠ 0 → |0 - timeStepping
      ((exReal (fun _ u t t' => Apps.dahlquist .BE (-2) u t t' + 1 / 1000) 1 0 false).withStep
        fun _ => Apps.dahlquist .BE (-2)) i| ≤ D)
    (k i j : Nat)
    (hi : ((exReal (fun _ u t t' => Apps.dahlquist .BE (-2) u t t' + 1 / 1000) 1 0 false).info r 0).pts[k]? = some i)
    (hj : ((exReal (fun _ u t t' => Apps.dahlquist .BE (-2) u t t' + 1 / 1000) 1 0 false).info r 0).idx[k]? = some j) :
    |s.u 0 j - timeStepping ((exReal (fun _ u t t' => Apps.dahlquist .BE (-2) u t t' + 1 / 1000) 1 0 false).withStep
        fun _ => Apps.dahlquist .BE (-2)) i| ≤ (1 / 3) ^ s.solveIter * D + 7 / 200 := by
  have hG := exReal_good (fun _ u t t' => Apps.dahlquist .BE (-2) u t t' + 1 / 1000) (1 : ℝ) 0 false
  have hf := C104_factor_two hG.2.w0 hG.2.w1 rfl (1 / 3)
  have := C104_dahlquist hG.1 (by show 0 < 5; decide) hG.2.copying (exReal_gap _ 1 0 false) (lam := -2)
    (ε := 1 / 1000) (by norm_num) (by norm_num)
    (fun _ u t t' _ _ => by
      show |Apps.dahlquist .BE (-2) u t t' + 1 / 1000 - Apps.dahlquist .BE (-2) u t t'| ≤ _
      rw [add_sub_cancel_left]; norm_num) (by rw [hf.1]; norm_num) rfl D hD0 hD h1 hc r s hr k i j hi hj
  rw [hf.1, hf.2] at this
  have e : npts (exReal (fun _ u t t' => Apps.dahlquist .BE (-2) u t t' + 1 / 1000) (1 : ℝ) 0 false).ts 0 = 5 := rfl
  have e2 : (exReal (fun _ u t t' => Apps.dahlquist .BE (-2) u t t' + 1 / 1000) (1 : ℝ) 0 false).cf 0 = 1 := rfl
  rw [e, e2] at this
  norm_num at this ⊢
  exact this

/-- `C104_heat_1d` with 7 unknowns, exact solutions (`ε = 0` and any larger number meet the hypothesis). -/
example (ε : ℝ) (hε : 0 ≤ ε) {c : Conf 3 (Msg (Fin 7 → ℝ) Nat) (PState (Fin 7 → ℝ) Nat)}
    (h1 : Steps (startConf (exReal (exHeat 7 2 (1 / 8) fun t _ => t) 1 0 false)) c)
    (hc : ∀ d, ¬ Step c d) (r : Fin 3) (s : PState (Fin 7 → ℝ) Nat) (hr : c.prog r = Prog.ret s) :=
  C104_heat_1d (exReal_good _ 1 0 false).1 (by show 0 < 5; decide) (exReal_good _ 1 0 false).2.copying
    (exReal_gap _ 1 0 false) (a := 2) (dx := 1 / 8) (by norm_num) (fun t _ => t) (exHeat 7 2 (1 / 8) fun t _ => t)
    (fun l u _ _ _ ht => exHeat_step (by norm_num) _ l u ht) hε
    (fun l u t t' _ ht => by
      have := exHeat_step (n := 7) (a := 2) (dx := 1 / 8) (by norm_num) (fun t _ => t) l u ht
      unfold Apps.heat1dStep Solves at this
      show √(∑ x, ((((t' - t) • Apps.heatMatrix 7 (2 : ℝ) (1 / 8) + 1).mulVec
        (exHeat 7 2 (1 / 8) (fun t _ => t) l u t t')) x - (u + (t' - t) • fun _ : Fin 7 => t') x) ^ 2) ≤ ε
      rw [this]
      simpa using hε)
    (by rw [(C104_factor_two (exReal_good _ 1 0 false).2.w0 (exReal_good _ 1 0 false).2.w1 rfl (1 / 3)).1]; norm_num)
    rfl h1 hc r s hr

end Pymgrit
