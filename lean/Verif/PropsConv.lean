import Verif.Contract
import Verif.EndToEnd2
import Verif.PropsApps1
import Verif.PropsApps3
import Mathlib.Analysis.Matrix.Spectrum

/-!
# Properties C88, C89, C90, C93: MGRIT converges for decaying problems under backward Euler

For the shipped Dahlquist and heat applications with copying transfers the error of two-level MGRIT goes down by
a factor of three or more per iteration, whatever the time grids, step sizes, coefficients, number of
unknowns, CF-relaxations, relaxation weight in `[0, 1]`, cycle type, number of processes and interleaving.
With more levels the factor is bounded by `convRate`.  `timeStepping E i` is sequential time stepping.
-/

set_option linter.unusedSectionVars false

namespace Pymgrit
open Cfg Sys Matrix Lin

section
variable {V N : Type} [AddCommGroup V] [Module ℝ V] [Zero N] {E : Cfg V ℝ ℝ N}

/-- The conditions on the solver, besides the time stepper: at least two levels, copying transfers, and on each
level a relaxation weight in `[0, 1]`, no CF-relaxation, or no neighbouring coarse points. -/
structure Copying {T : Type} [LinearOrder T] [Inhabited T] (E : Cfg V ℝ T N) : Prop where
  L : 1 < E.ts.length
  R : ∀ l, l + 1 < E.ts.length → ∀ x, E.R l x = x
  I : ∀ l, l + 1 < E.ts.length → ∀ x, E.I l x = x
  relax : ∀ l, l + 1 < E.ts.length →
    (0 ≤ E.w ∧ E.w ≤ 1) ∨ E.cf l = 0 ∨ ∀ i, i ∈ allC E.ts l → i + 1 ∉ allC E.ts l

/-- The same for two levels and weight in `[0, 1]`. -/
structure TwoLevelCopy (E : Cfg V ℝ ℝ N) : Prop where
  L : E.ts.length = 2
  R : ∀ x, E.R 0 x = x
  I : ∀ x, E.I 0 x = x
  w0 : 0 ≤ E.w
  w1 : E.w ≤ 1

/-- Bound of the growth of errors by the relaxation of level `l`; one if the weight is in `[0, 1]`. -/
noncomputable def relaxFactor {T : Type} (E : Cfg V ℝ T N) (l : Nat) : ℝ := (|E.w| + |1 - E.w|) ^ E.cf l

/-- Bound of the error reduction by one iteration, see `C93_rate_V` and `C93_rate_F`. -/
noncomputable def convRate {T : Type} (E : Cfg V ℝ T N) (κ : ℝ) : ℝ :=
  rate κ (relaxFactor E) E.cyc (E.ts.length - 1)

/-- Bound of the relative error of nested iteration. -/
noncomputable def nestRate {T : Type} (E : Cfg V ℝ T N) (κ : ℝ) : ℝ :=
  rateN κ (relaxFactor E) 1 (E.ts.length - 2) + κ

theorem relaxFactor_nonneg {T : Type} (E : Cfg V ℝ T N) (l : Nat) : 0 ≤ relaxFactor E l := by
  unfold relaxFactor; positivity

theorem convRate_nonneg {T : Type} (E : Cfg V ℝ T N) {κ : ℝ} (hκ : 0 ≤ κ) : 0 ≤ convRate E κ :=
  rate_nonneg hκ (relaxFactor_nonneg E) _ _

theorem nestRate_nonneg {T : Type} (E : Cfg V ℝ T N) {κ : ℝ} (hκ : 0 ≤ κ) : 0 ≤ nestRate E κ :=
  add_nonneg (rateN_nonneg hκ (relaxFactor_nonneg E) _ _) hκ

theorem relaxFactor_one {T : Type} (E : Cfg V ℝ T N) (h0 : 0 ≤ E.w) (h1 : E.w ≤ 1) : relaxFactor E = fun _ => 1 := by
  funext l
  unfold relaxFactor
  rw [abs_of_nonneg h0, abs_of_nonneg (by linarith), add_sub_cancel, one_pow]

theorem TwoLevelCopy.copying (hT : TwoLevelCopy E) : Copying E where
  L := by have := hT.L; omega
  R := fun l hl => by
    obtain rfl : l = 0 := by have := hT.L; omega
    exact hT.R
  I := fun l hl => by
    obtain rfl : l = 0 := by have := hT.L; omega
    exact hT.I
  relax := fun _ _ => Or.inl ⟨hT.w0, hT.w1⟩

theorem TwoLevelCopy.rate (hT : TwoLevelCopy E) (κ : ℝ) : convRate E κ = κ ∧ nestRate E κ = κ := by
  unfold convRate nestRate Pymgrit.rate
  rw [hT.L, relaxFactor_one E hT.w0 hT.w1]
  cases E.cyc <;> simp [rateV, rateF, rateN]

theorem two_zero (hT : TwoLevelCopy E) (hzero : E.zero 1 = 0) :
    ∀ l, l ≠ 0 → l < E.ts.length → E.zero l = 0 := by
  intro l h0 hl
  obtain rfl : l = 1 := by have := hT.L; omega
  exact hzero

theorem two_start (hT : TwoLevelCopy E) (hstart : E.start 1 = E.start 0) :
    ∀ l, l < E.ts.length → E.start l = E.start 0 := by
  intro l hl
  rw [hT.L] at hl
  interval_cases l
  · rfl
  · exact hstart

section
variable {T : Type} [LinearOrder T] [Inhabited T] {E : Cfg V ℝ T N} {p : Seminorm ℝ V} {κ : ℝ}

theorem Copying.multi (h : E.Good) (hT : Copying E) (hκ : 0 ≤ κ) (hA : Approx E.sys p κ) :
    MultiHyp E.sys p κ where
  wf := E.sys_wf h.valid
  approx := hA
  nonneg := hκ
  R := hT.R
  I := hT.I
  adj := fun l hl => by
    rcases hT.relax l hl with a | a | a
    · left
      show |E.w| + |1 - E.w| = 1
      rw [abs_of_nonneg a.1, abs_of_nonneg (by linarith [a.2]), add_sub_cancel]
    · exact Or.inr (Or.inl a)
    · exact Or.inr (Or.inr a)

/-- C93.  Any time stepper (linear or not) whose steps do not increase differences in the seminorm `p`, and
for which on every coarse interval of every level the difference of fine and coarse propagation changes by at
most `κ (1 - β)`, `β` the Lipschitz constant of the coarse step: in terms of the error at the coarse points
after the constructor, the error of the returned values is at most `convRate E κ ^ m` times as large. -/
theorem C93_multilevel (h : E.Good) (hmax : 0 < E.maxIter) (hT : Copying E) (hκ : 0 ≤ κ)
    (hA : Approx E.sys p κ) (D : ℝ)
    (hD : ∀ i, i ∈ allC E.ts 0 → p ((afterConstructor E).st.u 0 i - timeStepping E i) ≤ D)
    {c : Conf E.P (Msg V N) (PState V N)} (h1 : Steps (startConf E) c) (hc : ∀ d, ¬ Step c d)
    (r : Fin E.P) (s : PState V N) (hr : c.prog r = Prog.ret s)
    (k i j : Nat) (hi : (E.info r 0).pts[k]? = some i) (hj : (E.info r 0).idx[k]? = some j) :
    p (s.u 0 j - timeStepping E i) ≤ convRate E κ ^ s.solveIter * D := by
  obtain ⟨a1, -, -, -, a5⟩ := returned h hmax h1 hc r s hr
  obtain ⟨b1, b2⟩ := a5 k i j hi hj
  have hs0 : (afterConstructor E).st.u 0 0 = E.start 0 := start_value h 0
  have H := hT.multi h hκ hA
  have hsol : exactSol E.sys 0 (afterConstructor E).st = timeStepping E := by
    rw [exactSol_zero (fun h => absurd rfl h), hs0]
    rfl
  obtain ⟨-, c2, c3⟩ := iterates_err H hT.L E.cyc s.solveIter (afterConstructor E).st D (by
    intro i hi
    rw [hsol]
    exact hD i hi)
  have := c2 a1 i b1
  rw [exactSol_keeps c3, hsol] at this
  rw [b2]
  exact this

/-- C93.  The initial guess that nested iteration makes, for problems without source. -/
theorem C93_nested (h : E.Good) (hnest : E.nested = true) (hT : Copying E) (hκ : 0 ≤ κ)
    (hA : Approx E.sys p κ) (h0 : NoSource E.sys p) (hzero : ∀ l, l ≠ 0 → l < E.ts.length → E.zero l = 0)
    (hstart : ∀ l, l < E.ts.length → E.start l = E.start 0) (i : Nat) (hi : i ∈ allC E.ts 0) :
    p ((afterConstructor E).st.u 0 i - timeStepping E i) ≤ nestRate E κ * p (E.start 0) := by
  rw [constructor_nested hnest]
  exact nested_err (hT.multi h hκ hA) h0 hT.L _ (E.start 0) (fun l hl => hstart l hl)
    (fun l i hne hl => hzero l hne hl) i hi

end

/-- A damped component of the returned values, in terms of the state after the constructor. -/
theorem damped_returned (h : E.Good) (hmax : 0 < E.maxIter) (hT : Copying E) {f : V →ₗ[ℝ] ℝ} {μ : ℝ}
    (hμ : 0 ≤ μ) (hf : Damped E f μ) (D : ℝ)
    (hD : ∀ i, i ∈ allC E.ts 0 → |f ((afterConstructor E).st.u 0 i - timeStepping E i)| ≤ D)
    {c : Conf E.P (Msg V N) (PState V N)} (h1 : Steps (startConf E) c) (hc : ∀ d, ¬ Step c d)
    (r : Fin E.P) (s : PState V N) (hr : c.prog r = Prog.ret s)
    (k i j : Nat) (hi : (E.info r 0).pts[k]? = some i) (hj : (E.info r 0).idx[k]? = some j) :
    |f (s.u 0 j - timeStepping E i)| ≤ convRate E (1 / 3) ^ s.solveIter * D :=
  C93_multilevel (p := (normSeminorm ℝ ℝ).comp f) h hmax hT (by norm_num) (hf.approx h.valid hμ) D hD h1 hc r s
    hr k i j hi hj

/-- A damped component after nested iteration, for problems without source. -/
theorem damped_nested (h : E.Good) (hnest : E.nested = true) (hT : Copying E) {f : V →ₗ[ℝ] ℝ} {μ : ℝ}
    (hμ : 0 ≤ μ) (hf : Damped E f μ)
    (hf0 : ∀ l t t', l < E.ts.length → t ≤ t' → f (E.step l 0 t t') = 0)
    (hzero : ∀ l, l ≠ 0 → l < E.ts.length → E.zero l = 0)
    (hstart : ∀ l, l < E.ts.length → E.start l = E.start 0) (i : Nat) (hi : i ∈ allC E.ts 0) :
    |f ((afterConstructor E).st.u 0 i - timeStepping E i)| ≤ nestRate E (1 / 3) * |f (E.start 0)| :=
  C93_nested (p := (normSeminorm ℝ ℝ).comp f) h hnest hT (by norm_num) (hf.approx h.valid hμ)
    (fun l i hl h1 hi => by
      show |f (E.step l 0 _ _)| = 0
      rw [hf0 l _ _ hl (tAt_mono (h.valid.sorted l) (by omega) hi), abs_zero]) hzero hstart i hi

/-- C93.  V-cycles with weight in `[0, 1]`: the bound is `(4/3) ^ (L - 1) - 1`, so `1/3` for two and `7/9` for
three levels. -/
theorem C93_rate_V (h0 : 0 ≤ E.w) (h1 : E.w ≤ 1) (hcyc : E.cyc = Cycle.V) :
    convRate E (1 / 3) = (4 / 3) ^ (E.ts.length - 1) - 1 := by
  unfold convRate
  rw [relaxFactor_one E h0 h1, hcyc]
  have : ∀ d l, rateV (1 / 3) (fun _ => 1) l d = (4 / 3) ^ d - 1 := by
    intro d
    induction d with
    | zero => intro l; simp [rateV]
    | succ d ih => intro l; simp only [rateV]; rw [ih, pow_succ]; ring
  exact this _ 0

/-- C93.  F-cycles with weight in `[0, 1]`: the bound is `1/3` for two, `13/27` for three and `607/729` for four
levels. -/
theorem C93_rate_F (h0 : 0 ≤ E.w) (h1 : E.w ≤ 1) (hcyc : E.cyc = Cycle.F) :
    (E.ts.length = 2 → convRate E (1 / 3) = 1 / 3) ∧ (E.ts.length = 3 → convRate E (1 / 3) = 13 / 27) ∧
      (E.ts.length = 4 → convRate E (1 / 3) = 607 / 729) := by
  unfold convRate
  rw [relaxFactor_one E h0 h1, hcyc]
  refine ⟨fun h => ?_, fun h => ?_, fun h => ?_⟩ <;>
  · rw [h]
    simp only [rate, rateF, rateV, Nat.reduceSub]
    norm_num

/-- C93.  Overrelaxation (weight at least one), two levels, no neighbouring coarse points: one iteration with
`ν` CF-relaxations reduces the error at least by `(2 w - 1) ^ ν / 3`. -/
theorem C93_rate_over (h1 : 1 ≤ E.w) (hL : E.ts.length = 2) :
    convRate E (1 / 3) = (2 * E.w - 1) ^ E.cf 0 / 3 := by
  unfold convRate rate
  rw [hL]
  have e : |E.w| + |1 - E.w| = 2 * E.w - 1 := by
    rw [abs_of_nonneg (by linarith), abs_of_nonpos (by linarith)]; ring
  cases E.cyc <;> simp [rateV, rateF, relaxFactor, e] <;> ring

end

/-! ## Dahlquist's problem -/

section
variable {N : Type} [Zero N] {E : Cfg ℝ ℝ ℝ N}

theorem dahlquist_damped {lam : ℝ}
    (hstep : ∀ l u t t', l < E.ts.length → E.step l u t t' = Apps.dahlquist .BE lam u t t') :
    Damped E LinearMap.id (-lam) := by
  intro l x y t t' hl _
  simp only [LinearMap.id_apply, hstep l _ t t' hl, Apps.dahlquist]
  rw [show 1 - (t' - t) * lam = 1 + (t' - t) * -lam by ring]
  ring

/-- C93.  Dahlquist problem with `λ ≤ 0` and backward Euler on any number of levels, without nested iteration:
if the initial guess is off by at most `D` at the coarse points, the returned values are off by at most
`convRate ^ m * D` at every point, `m` the number of iterations performed. -/
theorem C93_dahlquist (h : E.Good) (hmax : 0 < E.maxIter) (hT : Copying E) {lam : ℝ} (hlam : lam ≤ 0)
    (hstep : ∀ l u t t', l < E.ts.length → E.step l u t t' = Apps.dahlquist .BE lam u t t')
    (hnest : E.nested = false) (D : ℝ) (hD0 : 0 ≤ D)
    (hD : ∀ i, i ∈ allC E.ts 0 → i ≠ 0 → |E.guess i - timeStepping E i| ≤ D)
    {c : Conf E.P (Msg ℝ N) (PState ℝ N)} (h1 : Steps (startConf E) c) (hc : ∀ d, ¬ Step c d)
    (r : Fin E.P) (s : PState ℝ N) (hr : c.prog r = Prog.ret s)
    (k i j : Nat) (hi : (E.info r 0).pts[k]? = some i) (hj : (E.info r 0).idx[k]? = some j) :
    |s.u 0 j - timeStepping E i| ≤ convRate E (1 / 3) ^ s.solveIter * D := by
  refine damped_returned h hmax hT (by linarith) (dahlquist_damped hstep) D ?_ h1 hc r s hr k i j hi hj
  intro i hi
  rw [constructor_value hnest]
  split
  · next e =>
    subst e
    show |E.start 0 - E.start 0| ≤ D
    rw [sub_self, abs_zero]; exact hD0
  · next e => rw [if_pos rfl]; exact hD i hi e

/-- C93.  With nested iteration (the default), whatever the initial guess. -/
theorem C93_dahlquist_nested (h : E.Good) (hmax : 0 < E.maxIter) (hT : Copying E) {lam : ℝ}
    (hlam : lam ≤ 0) (hstep : ∀ l u t t', l < E.ts.length → E.step l u t t' = Apps.dahlquist .BE lam u t t')
    (hnest : E.nested = true) (hzero : ∀ l, l ≠ 0 → l < E.ts.length → E.zero l = 0)
    (hstart : ∀ l, l < E.ts.length → E.start l = E.start 0)
    {c : Conf E.P (Msg ℝ N) (PState ℝ N)} (h1 : Steps (startConf E) c) (hc : ∀ d, ¬ Step c d)
    (r : Fin E.P) (s : PState ℝ N) (hr : c.prog r = Prog.ret s)
    (k i j : Nat) (hi : (E.info r 0).pts[k]? = some i) (hj : (E.info r 0).idx[k]? = some j) :
    |s.u 0 j - timeStepping E i| ≤ convRate E (1 / 3) ^ s.solveIter * (nestRate E (1 / 3) * |E.start 0|) := by
  have hd := dahlquist_damped hstep
  exact damped_returned h hmax hT (by linarith) hd _
    (fun i hi => damped_nested h hnest hT (by linarith) hd
      (fun l t t' hl _ => by simp [hstep l 0 t t' hl, Apps.dahlquist]) hzero hstart i hi)
    h1 hc r s hr k i j hi hj

/-- C88.  Dahlquist problem with `λ ≤ 0` and backward Euler on both levels, without nested iteration: if the
initial guess is off by at most `D` at the coarse points, the returned values are off by at most
`D / 3 ^ m` at every point, `m` the number of iterations performed. -/
theorem C88_dahlquist (h : E.Good) (hmax : 0 < E.maxIter) (hT : TwoLevelCopy E) {lam : ℝ} (hlam : lam ≤ 0)
    (hstep : ∀ l u t t', l < 2 → E.step l u t t' = Apps.dahlquist .BE lam u t t')
    (hnest : E.nested = false) (D : ℝ) (hD0 : 0 ≤ D)
    (hD : ∀ i, i ∈ allC E.ts 0 → i ≠ 0 → |E.guess i - timeStepping E i| ≤ D)
    {c : Conf E.P (Msg ℝ N) (PState ℝ N)} (h1 : Steps (startConf E) c) (hc : ∀ d, ¬ Step c d)
    (r : Fin E.P) (s : PState ℝ N) (hr : c.prog r = Prog.ret s)
    (k i j : Nat) (hi : (E.info r 0).pts[k]? = some i) (hj : (E.info r 0).idx[k]? = some j) :
    |s.u 0 j - timeStepping E i| ≤ D / 3 ^ s.solveIter := by
  have := C93_dahlquist h hmax hT.copying hlam (by rw [hT.L]; exact hstep) hnest D hD0 hD h1 hc r s hr k i j hi hj
  rw [(hT.rate _).1] at this
  rw [div_eq_mul_inv, mul_comm, ← inv_pow, ← one_div]
  exact this

/-- C88.  With nested iteration (the default), whatever the initial guess: at most `|u(t_0)| / 3 ^ (m + 1)`
after `m` iterations. -/
theorem C88_dahlquist_nested (h : E.Good) (hmax : 0 < E.maxIter) (hT : TwoLevelCopy E) {lam : ℝ}
    (hlam : lam ≤ 0) (hstep : ∀ l u t t', l < 2 → E.step l u t t' = Apps.dahlquist .BE lam u t t')
    (hnest : E.nested = true) (hzero : E.zero 1 = 0) (hstart : E.start 1 = E.start 0)
    {c : Conf E.P (Msg ℝ N) (PState ℝ N)} (h1 : Steps (startConf E) c) (hc : ∀ d, ¬ Step c d)
    (r : Fin E.P) (s : PState ℝ N) (hr : c.prog r = Prog.ret s)
    (k i j : Nat) (hi : (E.info r 0).pts[k]? = some i) (hj : (E.info r 0).idx[k]? = some j) :
    |s.u 0 j - timeStepping E i| ≤ |E.start 0| / 3 ^ (s.solveIter + 1) := by
  have := C93_dahlquist_nested h hmax hT.copying hlam (by rw [hT.L]; exact hstep) hnest (two_zero hT hzero)
    (two_start hT hstart) h1 hc r s hr k i j hi hj
  rw [(hT.rate _).1, (hT.rate _).2] at this
  refine this.trans (le_of_eq ?_)
  rw [pow_succ, one_div, inv_pow]
  field_simp

end

/-! ## Symmetric problems -/

section
variable {V N : Type} [AddCommGroup V] [Module ℝ V] [Zero N] {ι : Type} [Fintype ι] [DecidableEq ι]
  {E : Cfg V ℝ ℝ N}

/-- Coordinates with respect to an orthonormal basis of eigenvectors. -/
theorem eigen_coords {A : Matrix ι ι ℝ} (hA : A.transpose = A)
    (hpos : ∀ (v : ι → ℝ) (μ : ℝ), v ≠ 0 → A.mulVec v = μ • v → 0 ≤ μ) :
    ∃ (f : ι → (ι → ℝ) →ₗ[ℝ] ℝ) (μ : ι → ℝ), (∀ p, 0 ≤ μ p) ∧ (∀ x : ι → ℝ, ∑ p, (f p x) ^ 2 = ∑ q, x q ^ 2) ∧
      ∀ p x, f p (A.mulVec x) = μ p * f p x := by
  have hH : A.IsHermitian := by
    show A.conjTranspose = A
    rw [Matrix.conjTranspose_eq_transpose_of_trivial, hA]
  let v : ι → ι → ℝ := fun p => (hH.eigenvectorBasis p).ofLp
  have hv : ∀ p, A.mulVec (v p) = hH.eigenvalues p • v p := fun p => hH.mulVec_eigenvectorBasis p
  have hv0 : ∀ p, v p ≠ 0 := by
    intro p e
    apply hH.eigenvectorBasis.orthonormal.ne_zero p
    ext x
    exact congrFun e x
  let f : ι → (ι → ℝ) →ₗ[ℝ] ℝ := fun p =>
    { toFun := fun x => v p ⬝ᵥ x
      map_add' := fun x y => dotProduct_add _ _ _
      map_smul' := fun a x => dotProduct_smul _ _ _ }
  refine ⟨f, hH.eigenvalues, fun p => hpos _ _ (hv0 p) (hv p), ?_, ?_⟩
  · intro x
    have h1 := hH.eigenvectorBasis.sum_sq_norm_inner_right (WithLp.toLp 2 x)
    rw [EuclideanSpace.norm_sq_eq] at h1
    simp only [Real.norm_eq_abs, sq_abs] at h1
    rw [← h1]
    refine Finset.sum_congr rfl fun p _ => ?_
    congr 1
    show v p ⬝ᵥ x = _
    rw [EuclideanSpace.inner_eq_star_dotProduct]
    simp [v, dotProduct_comm]
  · intro p x
    show v p ⬝ᵥ A.mulVec x = _ * (v p ⬝ᵥ x)
    rw [Matrix.dotProduct_mulVec, ← Matrix.mulVec_transpose, hA, hv, smul_dotProduct, smul_eq_mul]

theorem eigen_damped {A : Matrix ι ι ℝ} {f : (ι → ℝ) →ₗ[ℝ] ℝ} {μ : ℝ} (hμ : 0 ≤ μ)
    (hfA : ∀ x, f (A.mulVec x) = μ * f x) (π : V →ₗ[ℝ] ι → ℝ)
    (hstep : ∀ l u v t t', l < E.ts.length → t ≤ t' →
      Solves ((t' - t) • A + 1) (π u - π v) (π (E.step l u t t') - π (E.step l v t t'))) :
    Damped E (f ∘ₗ π) μ := by
  intro l x y t t' hl ht
  have e : (1 + (t' - t) * μ) * (f (π (E.step l x t t')) - f (π (E.step l y t t'))) = f (π x) - f (π y) := by
    have := congrArg f (hstep l x y t t' hl ht)
    rw [Matrix.add_mulVec, Matrix.smul_mulVec, Matrix.one_mulVec, map_add, map_smul, hfA, map_sub, map_sub,
      smul_eq_mul] at this
    rw [← this]
    ring
  have hne : 1 + (t' - t) * μ ≠ 0 := by
    have := mul_nonneg (sub_nonneg.2 ht) hμ
    linarith
  simp only [LinearMap.comp_apply]
  rw [← e]
  field_simp

/-- Part `π` of the vectors on which the difference of two runs of the time stepper is a backward Euler step
of a symmetric problem with nonnegative eigenvalues. -/
theorem projected_returned (h : E.Good) (hmax : 0 < E.maxIter) (hT : Copying E) {A : Matrix ι ι ℝ}
    (hA : A.transpose = A) (hpos : ∀ (v : ι → ℝ) (μ : ℝ), v ≠ 0 → A.mulVec v = μ • v → 0 ≤ μ)
    (π : V →ₗ[ℝ] ι → ℝ)
    (hstep : ∀ l u v t t', l < E.ts.length → t ≤ t' →
      Solves ((t' - t) • A + 1) (π u - π v) (π (E.step l u t t') - π (E.step l v t t')))
    (hnest : E.nested = false)
    {c : Conf E.P (Msg V N) (PState V N)} (h1 : Steps (startConf E) c) (hc : ∀ d, ¬ Step c d)
    (r : Fin E.P) (s : PState V N) (hr : c.prog r = Prog.ret s)
    (k i j : Nat) (hi : (E.info r 0).pts[k]? = some i) (hj : (E.info r 0).idx[k]? = some j) :
    ∑ x, (π (s.u 0 j - timeStepping E i) x) ^ 2
      ≤ (convRate E (1 / 3) ^ 2) ^ s.solveIter *
        ∑ i ∈ (allC E.ts 0).toFinset.erase 0, ∑ x, (π (E.guess i - timeStepping E i) x) ^ 2 := by
  obtain ⟨f, μ, hμ, hparseval, hfA⟩ := eigen_coords hA hpos
  let D : ι → ℝ := fun p =>
    √(∑ i ∈ (allC E.ts 0).toFinset.erase 0, (f p (π (E.guess i - timeStepping E i))) ^ 2)
  have hcomp : ∀ p, |f p (π (s.u 0 j - timeStepping E i))| ≤ convRate E (1 / 3) ^ s.solveIter * D p := by
    intro p
    refine damped_returned h hmax hT (hμ p) (eigen_damped (hμ p) (hfA p) π hstep) (D p) ?_ h1 hc r s hr k i j
      hi hj
    intro i hi
    rw [constructor_value hnest]
    split
    · next e =>
      subst e
      show |f p (π (E.start 0 - E.start 0))| ≤ _
      rw [sub_self, map_zero, map_zero, abs_zero]
      exact Real.sqrt_nonneg _
    · next e =>
      rw [if_pos rfl, ← Real.sqrt_sq_eq_abs]
      refine Real.sqrt_le_sqrt ?_
      exact Finset.single_le_sum (f := fun i => (f p (π (E.guess i - timeStepping E i))) ^ 2)
        (fun _ _ => sq_nonneg _) (Finset.mem_erase.2 ⟨e, List.mem_toFinset.2 hi⟩)
  have e2 : ∑ i ∈ (allC E.ts 0).toFinset.erase 0, ∑ x, (π (E.guess i - timeStepping E i) x) ^ 2
      = ∑ p, (D p) ^ 2 := by
    have : ∀ p, (D p) ^ 2 = ∑ i ∈ (allC E.ts 0).toFinset.erase 0, (f p (π (E.guess i - timeStepping E i))) ^ 2 :=
      fun p => Real.sq_sqrt (Finset.sum_nonneg fun _ _ => sq_nonneg _)
    simp only [this]
    refine Eq.trans ?_ Finset.sum_comm
    exact Finset.sum_congr rfl fun i _ => (hparseval (π (E.guess i - timeStepping E i))).symm
  rw [← hparseval (π (s.u 0 j - timeStepping E i)), e2, Finset.mul_sum]
  refine Finset.sum_le_sum fun p _ => ?_
  have h3 := mul_self_le_mul_self (abs_nonneg _) (hcomp p)
  rw [← sq, sq_abs] at h3
  refine h3.trans (le_of_eq ?_)
  rw [← pow_mul, mul_comm 2, pow_mul]
  ring

/-- A quantity that every step sets independently of its start vector is exact in the returned values. -/
theorem reset_returned (h : E.Good) (hmax : 0 < E.maxIter) (hT : Copying E) {f : V →ₗ[ℝ] ℝ}
    (hf : ∀ l x y t t', l < E.ts.length → t ≤ t' → f (E.step l x t t') = f (E.step l y t t'))
    {c : Conf E.P (Msg V N) (PState V N)} (h1 : Steps (startConf E) c) (hc : ∀ d, ¬ Step c d)
    (r : Fin E.P) (s : PState V N) (hr : c.prog r = Prog.ret s)
    (k i j : Nat) (hi : (E.info r 0).pts[k]? = some i) (hj : (E.info r 0).idx[k]? = some j) :
    f (s.u 0 j) = f (timeStepping E i) := by
  have hD : ∀ i, i ∈ allC E.ts 0 → |f ((afterConstructor E).st.u 0 i - timeStepping E i)|
      ≤ ∑ i ∈ (allC E.ts 0).toFinset, |f ((afterConstructor E).st.u 0 i - timeStepping E i)| := fun i hi =>
    Finset.single_le_sum (f := fun i => |f ((afterConstructor E).st.u 0 i - timeStepping E i)|)
      (fun _ _ => abs_nonneg _) (List.mem_toFinset.2 hi)
  have := C93_multilevel (p := (normSeminorm ℝ ℝ).comp f) h hmax hT le_rfl (reset_approx h.valid hf) _ hD h1 hc r s
    hr k i j hi hj
  obtain ⟨a1, -⟩ := returned h hmax h1 hc r s hr
  unfold convRate at this
  rw [rate_zero, zero_pow (by omega), zero_mul] at this
  have h0 : |f (s.u 0 j - timeStepping E i)| ≤ 0 := this
  have := abs_nonpos_iff.1 h0
  rwa [map_sub, sub_eq_zero] at this

end

section
variable {N : Type} [Zero N] {ι : Type} [Fintype ι] [DecidableEq ι] {E : Cfg (ι → ℝ) ℝ ℝ N}

/-- C93.  Backward Euler `(I + Δt A) y = x + b` for a symmetric matrix `A` with nonnegative eigenvalues (any
source `b`), without nested iteration: the sum of squares of the error at each point is at most
`(convRate ^ 2) ^ m` times the sum of squares of all errors of the initial guess at the coarse points. -/
theorem C93_symmetric (h : E.Good) (hmax : 0 < E.maxIter) (hT : Copying E) {A : Matrix ι ι ℝ}
    (hA : A.transpose = A) (hpos : ∀ (v : ι → ℝ) (μ : ℝ), v ≠ 0 → A.mulVec v = μ • v → 0 ≤ μ)
    (b : Nat → ℝ → ℝ → ι → ℝ)
    (hstep : ∀ l u t t', l < E.ts.length → t ≤ t' → Solves ((t' - t) • A + 1) (u + b l t t') (E.step l u t t'))
    (hnest : E.nested = false)
    {c : Conf E.P (Msg (ι → ℝ) N) (PState (ι → ℝ) N)} (h1 : Steps (startConf E) c) (hc : ∀ d, ¬ Step c d)
    (r : Fin E.P) (s : PState (ι → ℝ) N) (hr : c.prog r = Prog.ret s)
    (k i j : Nat) (hi : (E.info r 0).pts[k]? = some i) (hj : (E.info r 0).idx[k]? = some j) :
    ∑ x, (s.u 0 j x - timeStepping E i x) ^ 2
      ≤ (convRate E (1 / 3) ^ 2) ^ s.solveIter *
        ∑ i ∈ (allC E.ts 0).toFinset.erase 0, ∑ x, (E.guess i x - timeStepping E i x) ^ 2 := by
  have := projected_returned h hmax hT hA hpos LinearMap.id (fun l u v t t' hl ht => by
    show Matrix.mulVec _ _ = _
    simp only [LinearMap.id_apply]
    rw [Matrix.mulVec_sub, hstep l u t t' hl ht, hstep l v t t' hl ht]
    abel) hnest h1 hc r s hr k i j hi hj
  simpa using this

/-- C93.  With nested iteration and without source: whatever the initial guess. -/
theorem C93_symmetric_nested (h : E.Good) (hmax : 0 < E.maxIter) (hT : Copying E) {A : Matrix ι ι ℝ}
    (hA : A.transpose = A) (hpos : ∀ (v : ι → ℝ) (μ : ℝ), v ≠ 0 → A.mulVec v = μ • v → 0 ≤ μ)
    (hstep : ∀ l u t t', l < E.ts.length → t ≤ t' → Solves ((t' - t) • A + 1) u (E.step l u t t'))
    (hnest : E.nested = true) (hzero : ∀ l, l ≠ 0 → l < E.ts.length → E.zero l = 0)
    (hstart : ∀ l, l < E.ts.length → E.start l = E.start 0)
    {c : Conf E.P (Msg (ι → ℝ) N) (PState (ι → ℝ) N)} (h1 : Steps (startConf E) c) (hc : ∀ d, ¬ Step c d)
    (r : Fin E.P) (s : PState (ι → ℝ) N) (hr : c.prog r = Prog.ret s)
    (k i j : Nat) (hi : (E.info r 0).pts[k]? = some i) (hj : (E.info r 0).idx[k]? = some j) :
    ∑ x, (s.u 0 j x - timeStepping E i x) ^ 2 
      ≤ (convRate E (1 / 3) ^ 2) ^ s.solveIter * (nestRate E (1 / 3) ^ 2 * ∑ x, E.start 0 x ^ 2) := by
  obtain ⟨f, μ, hμ, hparseval, hfA⟩ := eigen_coords hA hpos
  have hd : ∀ p, Damped E (f p) (μ p) := fun p =>
    eigen_damped (hμ p) (hfA p) LinearMap.id (E := E) (fun l u v t t' hl ht => by
      show Matrix.mulVec _ _ = _
      simp only [LinearMap.id_apply]
      rw [Matrix.mulVec_sub, hstep l u t t' hl ht, hstep l v t t' hl ht])
  have hs : ∀ p l t t', l < E.ts.length → t ≤ t' → f p (E.step l 0 t t') = 0 := by
    intro p l t t' hl ht
    have := congrArg (f p) (hstep l 0 t t' hl ht)
    rw [Matrix.add_mulVec, Matrix.smul_mulVec, Matrix.one_mulVec, map_add, map_smul, hfA, map_zero,
      smul_eq_mul] at this
    have hne : 1 + (t' - t) * μ p ≠ 0 := by
      have := mul_nonneg (sub_nonneg.2 ht) (hμ p)
      linarith
    have : (1 + (t' - t) * μ p) * f p (E.step l 0 t t') = 0 := by linarith
    exact (mul_eq_zero.1 this).resolve_left hne
  have hcomp : ∀ p, |f p (s.u 0 j - timeStepping E i)| 
      ≤ convRate E (1 / 3) ^ s.solveIter * (nestRate E (1 / 3) * |f p (E.start 0)|) :=
    fun p => damped_returned h hmax hT (hμ p) (hd p) _
      (fun i hi => damped_nested h hnest hT (hμ p) (hd p) (hs p) hzero hstart i hi) h1 hc r s hr k i j hi hj
  have e1 : ∑ x, (s.u 0 j x - timeStepping E i x) ^ 2 = ∑ p, (f p (s.u 0 j - timeStepping E i)) ^ 2 :=
    (hparseval (s.u 0 j - timeStepping E i)).symm
  rw [e1, ← hparseval (E.start 0), Finset.mul_sum, Finset.mul_sum]
  refine Finset.sum_le_sum fun p _ => ?_
  have h3 := mul_self_le_mul_self (abs_nonneg _) (hcomp p)
  rw [← sq, sq_abs] at h3
  refine h3.trans (le_of_eq ?_)
  rw [← sq_abs (f p (E.start 0)), ← pow_mul, mul_comm 2, pow_mul]
  ring

/-- C89.  Backward Euler `(I + Δt A) y = x + b` for a symmetric matrix `A` with nonnegative eigenvalues (any
source `b`) on two levels, without nested iteration: the sum of squares of the error at each point is at most
`1 / 9 ^ m` times the sum of squares of all errors of the initial guess at the coarse points. -/
theorem C89_symmetric (h : E.Good) (hmax : 0 < E.maxIter) (hT : TwoLevelCopy E) {A : Matrix ι ι ℝ}
    (hA : A.transpose = A) (hpos : ∀ (v : ι → ℝ) (μ : ℝ), v ≠ 0 → A.mulVec v = μ • v → 0 ≤ μ)
    (b : Nat → ℝ → ℝ → ι → ℝ)
    (hstep : ∀ l u t t', l < 2 → t ≤ t' → Solves ((t' - t) • A + 1) (u + b l t t') (E.step l u t t'))
    (hnest : E.nested = false)
    {c : Conf E.P (Msg (ι → ℝ) N) (PState (ι → ℝ) N)} (h1 : Steps (startConf E) c) (hc : ∀ d, ¬ Step c d)
    (r : Fin E.P) (s : PState (ι → ℝ) N) (hr : c.prog r = Prog.ret s)
    (k i j : Nat) (hi : (E.info r 0).pts[k]? = some i) (hj : (E.info r 0).idx[k]? = some j) :
    ∑ x, (s.u 0 j x - timeStepping E i x) ^ 2
      ≤ (1 / 9) ^ s.solveIter *
        ∑ i ∈ (allC E.ts 0).toFinset.erase 0, ∑ x, (E.guess i x - timeStepping E i x) ^ 2 := by
  have := C93_symmetric h hmax hT.copying hA hpos b (by rw [hT.L]; exact hstep) hnest h1 hc r s hr k i j hi hj
  rwa [(hT.rate _).1, show (1 / 3 : ℝ) ^ 2 = 1 / 9 by norm_num] at this

/-- C89.  With nested iteration and without source: at most `1 / 9 ^ (m + 1)` times the sum of squares of the
initial value, whatever the initial guess. -/
theorem C89_symmetric_nested (h : E.Good) (hmax : 0 < E.maxIter) (hT : TwoLevelCopy E) {A : Matrix ι ι ℝ}
    (hA : A.transpose = A) (hpos : ∀ (v : ι → ℝ) (μ : ℝ), v ≠ 0 → A.mulVec v = μ • v → 0 ≤ μ)
    (hstep : ∀ l u t t', l < 2 → t ≤ t' → Solves ((t' - t) • A + 1) u (E.step l u t t'))
    (hnest : E.nested = true) (hzero : E.zero 1 = 0) (hstart : E.start 1 = E.start 0)
    {c : Conf E.P (Msg (ι → ℝ) N) (PState (ι → ℝ) N)} (h1 : Steps (startConf E) c) (hc : ∀ d, ¬ Step c d)
    (r : Fin E.P) (s : PState (ι → ℝ) N) (hr : c.prog r = Prog.ret s)
    (k i j : Nat) (hi : (E.info r 0).pts[k]? = some i) (hj : (E.info r 0).idx[k]? = some j) :
    ∑ x, (s.u 0 j x - timeStepping E i x) ^ 2 ≤ (1 / 9) ^ (s.solveIter + 1) * ∑ x, E.start 0 x ^ 2 := by
  have := C93_symmetric_nested h hmax hT.copying hA hpos (by rw [hT.L]; exact hstep) hnest (two_zero hT hzero)
    (two_start hT hstart) h1 hc r s hr k i j hi hj
  rwa [(hT.rate _).1, (hT.rate _).2, show (1 / 3 : ℝ) ^ 2 = 1 / 9 by norm_num, ← mul_assoc, ← pow_succ] at this

end

section
variable {N : Type} [Zero N] {n : Nat} {E : Cfg (Fin n → ℝ) ℝ ℝ N}

theorem heat_eigen_nonneg {a dx : ℝ} (ha : 0 ≤ a) (v : Fin n → ℝ) (μ : ℝ) (hv : v ≠ 0)
    (he : (Apps.heatMatrix n a dx).mulVec v = μ • v) : 0 ≤ μ := by
  by_contra hμ
  push Not at hμ
  apply hv
  have hdom := Apps.heat_dominant n dx ha (zero_le_one' ℝ) (-μ)
  have hsol : Solves ((1 : ℝ) • Apps.heatMatrix n a dx + (-μ) • (1 : Matrix (Fin n) (Fin n) ℝ)) 0 v := by
    show Matrix.mulVec _ v = 0
    rw [one_smul, Matrix.add_mulVec, he, Matrix.smul_mulVec, Matrix.one_mulVec, ← add_smul]
    simp
  funext x
  have := hdom.bound (by linarith) hsol (c := 0) (by simp) x
  have h0 : |v x| ≤ 0 := by nlinarith [abs_nonneg (v x)]
  simpa using h0

/-- C93.  The shipped one-dimensional heat equation (any diffusivity `a ≥ 0`, number of unknowns, spacing,
source) on any number of levels. -/
theorem C93_heat_1d (h : E.Good) (hmax : 0 < E.maxIter) (hT : Copying E) {a dx : ℝ} (ha : 0 ≤ a)
    (rhs : ℝ → Fin n → ℝ)
    (hstep : ∀ l u t t', l < E.ts.length → t ≤ t' → Apps.heat1dStep a dx rhs u t t' (E.step l u t t'))
    (hnest : E.nested = false)
    {c : Conf E.P (Msg (Fin n → ℝ) N) (PState (Fin n → ℝ) N)} (h1 : Steps (startConf E) c)
    (hc : ∀ d, ¬ Step c d)
    (r : Fin E.P) (s : PState (Fin n → ℝ) N) (hr : c.prog r = Prog.ret s)
    (k i j : Nat) (hi : (E.info r 0).pts[k]? = some i) (hj : (E.info r 0).idx[k]? = some j) :
    ∑ x, (s.u 0 j x - timeStepping E i x) ^ 2
      ≤ (convRate E (1 / 3) ^ 2) ^ s.solveIter *
        ∑ i ∈ (allC E.ts 0).toFinset.erase 0, ∑ x, (E.guess i x - timeStepping E i x) ^ 2 :=
  C93_symmetric h hmax hT (Apps.heatMatrix_symm n a dx) (fun v μ hv he => heat_eigen_nonneg ha v μ hv he)
    (fun _ t t' => (t' - t) • rhs t') hstep hnest h1 hc r s hr k i j hi hj

/-- C93.  The same with nested iteration, without source. -/
theorem C93_heat_1d_nested (h : E.Good) (hmax : 0 < E.maxIter) (hT : Copying E) {a dx : ℝ} (ha : 0 ≤ a)
    (hstep : ∀ l u t t', l < E.ts.length → t ≤ t' →
      Apps.heat1dStep a dx (fun _ _ => 0) u t t' (E.step l u t t'))
    (hnest : E.nested = true) (hzero : ∀ l, l ≠ 0 → l < E.ts.length → E.zero l = 0)
    (hstart : ∀ l, l < E.ts.length → E.start l = E.start 0)
    {c : Conf E.P (Msg (Fin n → ℝ) N) (PState (Fin n → ℝ) N)} (h1 : Steps (startConf E) c)
    (hc : ∀ d, ¬ Step c d)
    (r : Fin E.P) (s : PState (Fin n → ℝ) N) (hr : c.prog r = Prog.ret s)
    (k i j : Nat) (hi : (E.info r 0).pts[k]? = some i) (hj : (E.info r 0).idx[k]? = some j) :
    ∑ x, (s.u 0 j x - timeStepping E i x) ^ 2
      ≤ (convRate E (1 / 3) ^ 2) ^ s.solveIter * (nestRate E (1 / 3) ^ 2 * ∑ x, E.start 0 x ^ 2) :=
  C93_symmetric_nested h hmax hT (Apps.heatMatrix_symm n a dx)
    (fun v μ hv he => heat_eigen_nonneg ha v μ hv he)
    (fun l u t t' hl ht => by
      have := hstep l u t t' hl ht
      unfold Apps.heat1dStep at this
      have e : u + (t' - t) • (fun _ : Fin n => (0 : ℝ)) = u := by funext x; simp
      rwa [e] at this)
    hnest hzero hstart h1 hc r s hr k i j hi hj

/-- C89.  The shipped one-dimensional heat equation (any diffusivity `a ≥ 0`, number of unknowns, spacing,
source): two-level MGRIT reduces the error by a factor of at least three per iteration. -/
theorem C89_heat_1d (h : E.Good) (hmax : 0 < E.maxIter) (hT : TwoLevelCopy E) {a dx : ℝ} (ha : 0 ≤ a)
    (rhs : ℝ → Fin n → ℝ)
    (hstep : ∀ l u t t', l < 2 → t ≤ t' → Apps.heat1dStep a dx rhs u t t' (E.step l u t t'))
    (hnest : E.nested = false)
    {c : Conf E.P (Msg (Fin n → ℝ) N) (PState (Fin n → ℝ) N)} (h1 : Steps (startConf E) c)
    (hc : ∀ d, ¬ Step c d)
    (r : Fin E.P) (s : PState (Fin n → ℝ) N) (hr : c.prog r = Prog.ret s)
    (k i j : Nat) (hi : (E.info r 0).pts[k]? = some i) (hj : (E.info r 0).idx[k]? = some j) :
    ∑ x, (s.u 0 j x - timeStepping E i x) ^ 2
      ≤ (1 / 9) ^ s.solveIter *
        ∑ i ∈ (allC E.ts 0).toFinset.erase 0, ∑ x, (E.guess i x - timeStepping E i x) ^ 2 :=
  C89_symmetric h hmax hT (Apps.heatMatrix_symm n a dx) (fun v μ hv he => heat_eigen_nonneg ha v μ hv he)
    (fun _ t t' => (t' - t) • rhs t') hstep hnest h1 hc r s hr k i j hi hj

/-- C89.  The same with nested iteration, without source. -/
theorem C89_heat_1d_nested (h : E.Good) (hmax : 0 < E.maxIter) (hT : TwoLevelCopy E) {a dx : ℝ} (ha : 0 ≤ a)
    (hstep : ∀ l u t t', l < 2 → t ≤ t' → Apps.heat1dStep a dx (fun _ _ => 0) u t t' (E.step l u t t'))
    (hnest : E.nested = true) (hzero : E.zero 1 = 0) (hstart : E.start 1 = E.start 0)
    {c : Conf E.P (Msg (Fin n → ℝ) N) (PState (Fin n → ℝ) N)} (h1 : Steps (startConf E) c)
    (hc : ∀ d, ¬ Step c d)
    (r : Fin E.P) (s : PState (Fin n → ℝ) N) (hr : c.prog r = Prog.ret s)
    (k i j : Nat) (hi : (E.info r 0).pts[k]? = some i) (hj : (E.info r 0).idx[k]? = some j) :
    ∑ x, (s.u 0 j x - timeStepping E i x) ^ 2 ≤ (1 / 9) ^ (s.solveIter + 1) * ∑ x, E.start 0 x ^ 2 :=
  C89_symmetric_nested h hmax hT (Apps.heatMatrix_symm n a dx)
    (fun v μ hv he => heat_eigen_nonneg ha v μ hv he)
    (fun l u t t' hl ht => by
      have := hstep l u t t' hl ht
      unfold Apps.heat1dStep at this
      have e : u + (t' - t) • (fun _ : Fin n => (0 : ℝ)) = u := by funext x; simp
      rwa [e] at this)
    hnest hzero hstart h1 hc r s hr k i j hi hj

end

/-! ## Two space dimensions -/

namespace Apps.Heat2D
variable (P : Heat2D ℝ)

/-- The interior grid points, as indices of the flattened array. -/
abbrev In : Type := {k : Fin (P.nx * P.ny) // innerIdx P.nx P.ny k}

/-- The values at the interior grid points. -/
def part : (Nat → Nat → ℝ) →ₗ[ℝ] P.In → ℝ where
  toFun u := fun k => P.flat u k.1
  map_add' _ _ := rfl
  map_smul' _ _ := rfl

/-- The value at one grid point. -/
def at' (i j : Nat) : (Nat → Nat → ℝ) →ₗ[ℝ] ℝ where
  toFun u := u i j
  map_add' _ _ := rfl
  map_smul' _ _ := rfl

noncomputable def inMat : Matrix P.In P.In ℝ := P.mat.submatrix Subtype.val Subtype.val

theorem inMat_symm (hny : 2 ≤ P.ny) : P.inMat.transpose = P.inMat := by
  ext i j
  simp only [inMat, Matrix.transpose_apply, Matrix.submatrix_apply, mat, C47_entries hny, if_pos i.2, if_pos j.2]
  have e : ∀ (Q Q' : Prop) [Decidable Q] [Decidable Q'] (v : ℝ), (Q ↔ Q') →
      (if Q then v else 0) = if Q' then v else 0 := by
    intro Q Q' _ _ v h
    exact if_congr h rfl rfl
  rw [e ((i.1 : Int) = j.1) ((j.1 : Int) = i.1) _ (by omega),
    e ((i.1 : Int) = (j.1 : Int) - 1) ((j.1 : Int) = (i.1 : Int) + 1) _ (by omega),
    e ((i.1 : Int) = (j.1 : Int) + 1) ((j.1 : Int) = (i.1 : Int) - 1) _ (by omega),
    e ((i.1 : Int) = (j.1 : Int) - P.ny) ((j.1 : Int) = (i.1 : Int) + P.ny) _ (by omega),
    e ((i.1 : Int) = (j.1 : Int) + P.ny) ((j.1 : Int) = (i.1 : Int) - P.ny) _ (by omega)]
  ring

/-- For vectors that are zero on the boundary the matrix acts as its interior part. -/
theorem inMat_mulVec (d : Fin (P.nx * P.ny) → ℝ) (hd : ∀ k : Fin (P.nx * P.ny), ¬ innerIdx P.nx P.ny k → d k = 0)
    (k : P.In) : P.inMat.mulVec (fun q => d q.1) k = P.mat.mulVec d k.1 := by
  simp only [Matrix.mulVec, dotProduct, inMat, Matrix.submatrix_apply]
  rw [← Finset.sum_subtype (Finset.univ.filter fun k : Fin (P.nx * P.ny) => innerIdx P.nx P.ny k)
    (p := fun k : Fin (P.nx * P.ny) => innerIdx P.nx P.ny k) (by simp) (fun j => P.mat k.1 j * d j)]
  refine Finset.sum_subset (Finset.subset_univ _) fun j _ hj => ?_
  rw [hd j (by simpa using hj), mul_zero]

theorem inMat_nonneg (hny : 2 ≤ P.ny) (ha : 0 ≤ P.a) (v : P.In → ℝ) (μ : ℝ) (hv : v ≠ 0)
    (he : P.inMat.mulVec v = μ • v) : 0 ≤ μ := by
  by_contra hμ
  push Not at hμ
  apply hv
  let d : Fin (P.nx * P.ny) → ℝ := fun k => if h : innerIdx P.nx P.ny k then v ⟨k, h⟩ else 0
  have hd : ∀ k : Fin (P.nx * P.ny), ¬ innerIdx P.nx P.ny k → d k = 0 := fun k hk => dif_neg hk
  have hdv : (fun q : P.In => d q.1) = v := funext fun q => dif_pos q.2
  have hsol : Solves ((-μ)⁻¹ • P.mat + 1) 0 d := by
    show Matrix.mulVec _ d = 0
    funext k
    rw [step_matrix_mulVec, Pi.add_apply, Pi.smul_apply, Pi.zero_apply]
    by_cases hk : innerIdx P.nx P.ny k
    · have := P.inMat_mulVec d hd ⟨k, hk⟩
      rw [hdv, he] at this
      rw [← this, Pi.smul_apply, ← congrFun hdv ⟨k, hk⟩, smul_eq_mul, smul_eq_mul]
      have : μ ≠ 0 := hμ.ne
      field_simp
      ring
    · rw [P.mat_row d hny, if_neg hk, hd k hk, smul_zero, zero_add]
  have hdom := P.dominant hny ha (c := (-μ)⁻¹) (inv_nonneg.2 (by linarith))
  funext q
  have := hdom.bound zero_le_one hsol (c := 0) (by simp) q.1
  rw [one_mul] at this
  rw [← congrFun hdv q]
  simpa using this

variable {N : Type} [Zero N] {E : Cfg (Nat → Nat → ℝ) ℝ ℝ N}

/-- Specification: sum of squares of the difference of two arrays. -/
noncomputable def sqDiff (x y : Nat → Nat → ℝ) : ℝ := ∑ p : Fin P.nx × Fin P.ny, (x p.1 p.2 - y p.1 p.2) ^ 2

theorem sqDiff_eq (x y : Nat → Nat → ℝ) : P.sqDiff x y = ∑ k, (P.flat x k - P.flat y k) ^ 2 := by
  unfold sqDiff
  refine Fintype.sum_equiv finProdFinEquiv _ _ fun p => ?_
  have e : finProdFinEquiv p = ⟨p.1 * P.ny + p.2, P.flatIdx_lt p.1.2 p.2.2⟩ :=
    Fin.ext (by simp [finProdFinEquiv, Nat.mul_comm, Nat.add_comm])
  rw [e, flat_at P x p.1.2 p.2.2, flat_at P y p.1.2 p.2.2]

/-- C93.  The shipped two-dimensional heat equation with backward Euler (any diffusivity `a ≥ 0`, grid, source
and boundary data), on any number of levels, without nested iteration: error over all grid points; boundary
values are exact. -/
theorem C93_heat_2d (h : E.Good) (hmax : 0 < E.maxIter) (hT : Copying E) (hnx : 2 ≤ P.nx) (hny : 2 ≤ P.ny)
    (ha : 0 ≤ P.a) (hth : P.theta = 1)
    (hstep : ∀ l u t t', l < E.ts.length → t ≤ t' → P.step u t t' (E.step l u t t'))
    (hnest : E.nested = false)
    {c : Conf E.P (Msg (Nat → Nat → ℝ) N) (PState (Nat → Nat → ℝ) N)} (h1 : Steps (startConf E) c)
    (hc : ∀ d, ¬ Step c d)
    (r : Fin E.P) (s : PState (Nat → Nat → ℝ) N) (hr : c.prog r = Prog.ret s)
    (k i j : Nat) (hi : (E.info r 0).pts[k]? = some i) (hj : (E.info r 0).idx[k]? = some j) :
    P.sqDiff (s.u 0 j) (timeStepping E i)
        ≤ (convRate E (1 / 3) ^ 2) ^ s.solveIter *
          ∑ i ∈ (allC E.ts 0).toFinset.erase 0, P.sqDiff (E.guess i) (timeStepping E i) ∧
      ∀ p q, p < P.nx → q < P.ny → (p = 0 ∨ p + 1 = P.nx ∨ q = 0 ∨ q + 1 = P.ny) →
        s.u 0 j p q = timeStepping E i p q := by
  have hB : ∀ l u t t', l < E.ts.length → t ≤ t' → ∀ p q, p < P.nx → q < P.ny → ¬ P.inner p q →
      E.step l u t t' p q = P.setBC (fun _ _ => 0) p q := by
    intro l u t t' hl ht
    have := P.C48_implicit_partial hnx hny (by rw [hth]; exact one_ne_zero) u t t' _ (hstep l u t t' hl ht)
    exact (P.boundaryOK_iff hnx hny _).1 this
  have hbd : ∀ p q, p < P.nx → q < P.ny → ¬ P.inner p q → s.u 0 j p q = timeStepping E i p q := by
    intro p q hp hq hb
    exact reset_returned (f := at' p q) h hmax hT (fun l x y t t' hl ht => by
      show E.step l x t t' p q = E.step l y t t' p q
      rw [hB l x t t' hl ht p q hp hq hb, hB l y t t' hl ht p q hp hq hb]) h1 hc r s hr k i j hi hj
  refine ⟨?_, fun p q hp hq hb => hbd p q hp hq (by unfold inner; omega)⟩
  have hsolve : ∀ l u t t', l < E.ts.length → t ≤ t' →
      Solves ((t' - t) • P.mat + 1) (P.computeRhs u t t') (P.flat (E.step l u t t')) := by
    intro l u t t' hl ht
    have := hstep l u t t' hl ht
    unfold step at this
    rw [if_neg (by rw [hth]; exact one_ne_zero), hth, mul_one] at this
    obtain ⟨y, hy, e⟩ := this
    rw [e, flat_shape]
    exact hy
  have hflat : ∀ (x : Nat → Nat → ℝ) (k : Fin (P.nx * P.ny)), P.flat x k = x (k / P.ny) (k % P.ny) := fun _ _ => rfl
  have hb0 : ∀ k : Fin (P.nx * P.ny), (k : Nat) / P.ny < P.nx ∧ (k : Nat) % P.ny < P.ny := fun k =>
    ⟨(Nat.div_lt_iff_lt_mul (by omega)).2 k.2, Nat.mod_lt _ (by omega)⟩
  have hin : ∀ k : Fin (P.nx * P.ny), innerIdx P.nx P.ny k ↔ P.inner (k / P.ny) (k % P.ny) := fun _ => Iff.rfl
  have key := projected_returned h hmax hT (P.inMat_symm hny) (fun v μ hv he => P.inMat_nonneg hny ha v μ hv he)
    P.part (fun l u v t t' hl ht => by
      show Matrix.mulVec _ _ = _
      have hd : ∀ k : Fin (P.nx * P.ny), ¬ innerIdx P.nx P.ny k →
          (P.flat (E.step l u t t') - P.flat (E.step l v t t')) k = 0 := by
        intro k hk
        rw [Pi.sub_apply, hflat, hflat, hB l u t t' hl ht _ _ (hb0 k).1 (hb0 k).2 (by rwa [← hin]),
          hB l v t t' hl ht _ _ (hb0 k).1 (hb0 k).2 (by rwa [← hin]), sub_self]
      funext k
      have e1 := congrFun (hsolve l u t t' hl ht) k.1
      have e2 := congrFun (hsolve l v t t' hl ht) k.1
      have e3 := P.inMat_mulVec _ hd k
      rw [Matrix.mulVec_sub, Pi.sub_apply] at e3
      rw [step_matrix_mulVec, Pi.add_apply, Pi.smul_apply, smul_eq_mul] at e1 e2
      have e4 : P.part (E.step l u t t') - P.part (E.step l v t t')
          = fun q => (P.flat (E.step l u t t') - P.flat (E.step l v t t')) q.1 := rfl
      rw [step_matrix_mulVec, Pi.add_apply, Pi.smul_apply, smul_eq_mul, e4, e3]
      have e5 : ∀ w, P.computeRhs w t t' k.1 = P.flat w k.1 + (t' - t) * P.rhs t' (k.1 / P.ny) (k.1 % P.ny) := by
        intro w
        have hk := (hin k.1).1 k.2
        unfold computeRhs
        rw [if_pos hth, hflat, setBC_inner P hk, if_pos hk]
        rfl
      rw [e5] at e1 e2
      show (t' - t) * _ + (P.flat (E.step l u t t') k.1 - P.flat (E.step l v t t') k.1) = P.flat u k.1 - P.flat v k.1
      linear_combination e1 - e2) hnest h1 hc r s hr k i j hi hj
  have e1 : P.sqDiff (s.u 0 j) (timeStepping E i) = ∑ x, (P.part (s.u 0 j - timeStepping E i) x) ^ 2 := by
    rw [sqDiff_eq]
    show _ = ∑ x : P.In, (P.flat (s.u 0 j) x.1 - P.flat (timeStepping E i) x.1) ^ 2
    rw [← Finset.sum_subtype (Finset.univ.filter fun k : Fin (P.nx * P.ny) => innerIdx P.nx P.ny k)
      (p := fun k : Fin (P.nx * P.ny) => innerIdx P.nx P.ny k) (by simp)
      (fun k => (P.flat (s.u 0 j) k - P.flat (timeStepping E i) k) ^ 2)]
    refine (Finset.sum_subset (Finset.subset_univ _) fun k _ hk => ?_).symm
    have hk : ¬ innerIdx P.nx P.ny k := by simpa using hk
    rw [hflat, hflat, hbd _ _ (hb0 k).1 (hb0 k).2 (by rwa [← hin]), sub_self]
    norm_num
  have e2 : ∀ i, ∑ x, (P.part (E.guess i - timeStepping E i) x) ^ 2 ≤ P.sqDiff (E.guess i) (timeStepping E i) := by
    intro i
    rw [sqDiff_eq]
    show ∑ x : P.In, (P.flat (E.guess i) x.1 - P.flat (timeStepping E i) x.1) ^ 2 ≤ _
    rw [← Finset.sum_subtype (Finset.univ.filter fun k : Fin (P.nx * P.ny) => innerIdx P.nx P.ny k)
      (p := fun k : Fin (P.nx * P.ny) => innerIdx P.nx P.ny k) (by simp)
      (fun k => (P.flat (E.guess i) k - P.flat (timeStepping E i) k) ^ 2)]
    exact Finset.sum_le_sum_of_subset_of_nonneg (Finset.subset_univ _) fun _ _ _ => sq_nonneg _
  rw [e1]
  refine key.trans ?_
  exact mul_le_mul_of_nonneg_left (Finset.sum_le_sum fun i _ => e2 i) (by positivity)

/-- C90.  The shipped two-dimensional heat equation with backward Euler (any diffusivity `a ≥ 0`, grid, source
and boundary data), without nested iteration: two-level MGRIT reduces the error, over all grid points, by a
factor of at least three per iteration; boundary values are exact. -/
theorem C90_heat_2d (h : E.Good) (hmax : 0 < E.maxIter) (hT : TwoLevelCopy E) (hnx : 2 ≤ P.nx) (hny : 2 ≤ P.ny)
    (ha : 0 ≤ P.a) (hth : P.theta = 1)
    (hstep : ∀ l u t t', l < 2 → t ≤ t' → P.step u t t' (E.step l u t t'))
    (hnest : E.nested = false)
    {c : Conf E.P (Msg (Nat → Nat → ℝ) N) (PState (Nat → Nat → ℝ) N)} (h1 : Steps (startConf E) c)
    (hc : ∀ d, ¬ Step c d)
    (r : Fin E.P) (s : PState (Nat → Nat → ℝ) N) (hr : c.prog r = Prog.ret s)
    (k i j : Nat) (hi : (E.info r 0).pts[k]? = some i) (hj : (E.info r 0).idx[k]? = some j) :
    P.sqDiff (s.u 0 j) (timeStepping E i)
        ≤ (1 / 9) ^ s.solveIter * ∑ i ∈ (allC E.ts 0).toFinset.erase 0, P.sqDiff (E.guess i) (timeStepping E i) ∧
      ∀ p q, p < P.nx → q < P.ny → (p = 0 ∨ p + 1 = P.nx ∨ q = 0 ∨ q + 1 = P.ny) →
        s.u 0 j p q = timeStepping E i p q := by
  have := P.C93_heat_2d h hmax hT.copying hnx hny ha hth (by rw [hT.L]; exact hstep) hnest h1 hc r s hr k i j hi hj
  rwa [(hT.rate _).1, show (1 / 3 : ℝ) ^ 2 = 1 / 9 by norm_num] at this

end Apps.Heat2D

/-! ## Examples -/

/-- A nonuniform grid of times and every second point of it. -/
def exRealGrid : List (List ℝ) := [[0, 1, 3, 4, 10], [0, 3, 10]]

theorem exRealGrid_valid : Valid exRealGrid where
  pos := by decide
  ne0 := by simp [exRealGrid, grid]
  sorted := by
    intro l
    match l with
    | 0 => simp [exRealGrid, grid]; norm_num
    | 1 => simp [exRealGrid, grid]; norm_num
    | _ + 2 => exact List.Pairwise.nil
  nested := by
    intro l hl
    match l with
    | 0 => simp [exRealGrid, grid]
    | _ + 1 => exact absurd hl (by simp [exRealGrid])
  start := by
    intro l hl
    match l with
    | 0 => rfl
    | 1 => rfl
    | _ + 2 => exact absurd hl (by simp [exRealGrid])

theorem exRealGrid_allC {i : Nat} (hi : i ∈ allC exRealGrid 0) : i = 0 ∨ i = 2 ∨ i = 4 := by
  obtain ⟨h1, h2⟩ := (mem_allC_iff (ts := exRealGrid) (l := 0) (by decide)).1 hi
  have h1 : i < 5 := h1
  interval_cases i
  · simp
  · exact absurd h2 (by simp [exRealGrid, grid, tAt])
  · simp
  · exact absurd h2 (by simp [exRealGrid, grid, tAt])
  · simp

/-- A solver on that grid with three processes, from a time stepper. -/
noncomputable def exReal {V : Type} [Zero V] (step : Nat → V → ℝ → ℝ → V) (start guess : V) (nested : Bool) :
    Cfg V ℝ ℝ Nat where
  ts := exRealGrid
  step := step
  R := fun _ x => x
  I := fun _ x => x
  cf := fun _ => 1
  w := 1 / 2
  start := fun _ => start
  zero := fun _ => 0
  guess := fun _ => guess
  cyc := Sys.Cycle.V
  nested := nested
  maxIter := 5
  convCrit := 0
  norm := fun _ => 0
  tnorm := fun xs => xs.sum
  ltTol := fun x => decide (x < 1)
  outLvl := 2
  ord := fun _ _ xs => xs
  P := 3
  instr := false

theorem exReal_good {V : Type} [AddCommGroup V] [Module ℝ V] (step : Nat → V → ℝ → ℝ → V) (start guess : V)
    (nested : Bool) : (exReal step start guess nested).Good ∧ TwoLevelCopy (exReal step start guess nested) := by
  have gap : ∀ i, i ∈ allC exRealGrid 0 → i + 1 ∉ allC exRealGrid 0 := by
    intro i h1 h2
    have := exRealGrid_allC h1
    have := exRealGrid_allC h2
    omega
  refine ⟨good_of_gap exRealGrid_valid (show 0 < 3 by decide) (show 3 ≤ 5 by decide)
    (fun r l hr hl => ordOK_id exRealGrid_valid (show 3 ≤ 5 by decide) hl hr) (Or.inl rfl) ?_, ?_⟩
  · intro l i hl
    have hl' : l = 0 := by
      have : l + 1 < 2 := hl
      omega
    subst hl'
    exact fun e => gap i e.1 e.2
  · exact ⟨rfl, fun _ => rfl, fun _ => rfl, by show (0 : ℝ) ≤ 1 / 2; norm_num, by show (1 / 2 : ℝ) ≤ 1; norm_num⟩

/-- `C88_dahlquist_nested` for `λ = -2`. -/
example {c : Conf 3 (Msg ℝ Nat) (PState ℝ Nat)}
    (h1 : Steps (startConf (exReal (fun _ u t t' => Apps.dahlquist .BE (-2) u t t') 1 0 true)) c)
    (hc : ∀ d, ¬ Step c d) (r : Fin 3) (s : PState ℝ Nat) (hr : c.prog r = Prog.ret s) :=
  C88_dahlquist_nested (exReal_good _ 1 0 true).1 (by show 0 < 5; decide) (exReal_good _ 1 0 true).2
    (lam := -2) (by norm_num) (fun _ _ _ _ _ => rfl) rfl rfl rfl h1 hc r s hr

/-- `C88_dahlquist` for `λ = -2`. -/
example {c : Conf 3 (Msg ℝ Nat) (PState ℝ Nat)}
    (h1 : Steps (startConf (exReal (fun _ u t t' => Apps.dahlquist .BE (-2) u t t') 1 0 false)) c)
    (hc : ∀ d, ¬ Step c d) (r : Fin 3) (s : PState ℝ Nat) (hr : c.prog r = Prog.ret s) (D : ℝ) (hD0 : 0 ≤ D)
    (hD : ∀ i, i ∈ allC exRealGrid 0 → i ≠ 0 → |0 - timeStepping
      (exReal (fun _ u t t' => Apps.dahlquist .BE (-2) u t t') 1 0 false) i| ≤ D) :=
  C88_dahlquist (exReal_good _ 1 0 false).1 (by show 0 < 5; decide) (exReal_good _ 1 0 false).2
    (lam := -2) (by norm_num) (fun _ _ _ _ _ => rfl) rfl D hD0 hD h1 hc r s hr

/-- The time stepper of the one-dimensional heat equation, by choice of the unique solution. -/
noncomputable def exHeat (n : Nat) (a dx : ℝ) (rhs : ℝ → Fin n → ℝ) : Nat → (Fin n → ℝ) → ℝ → ℝ → Fin n → ℝ :=
  open Classical in
  fun _ u t t' => if h : ∃ x, Apps.heat1dStep a dx rhs u t t' x then h.choose else 0

theorem exHeat_step {n : Nat} {a dx : ℝ} (ha : 0 ≤ a) (rhs : ℝ → Fin n → ℝ) (l : Nat) (u : Fin n → ℝ) {t t' : ℝ}
    (ht : t ≤ t') : Apps.heat1dStep a dx rhs u t t' (exHeat n a dx rhs l u t t') := by
  have h : ∃ x, Apps.heat1dStep a dx rhs u t t' x := (Apps.C46_wellposed dx ha rhs u ht).exists
  unfold exHeat
  rw [dif_pos h]
  exact h.choose_spec

/-- `C89_heat_1d` with 7 unknowns and a source. -/
example {c : Conf 3 (Msg (Fin 7 → ℝ) Nat) (PState (Fin 7 → ℝ) Nat)}
    (h1 : Steps (startConf (exReal (exHeat 7 2 (1 / 8) fun t _ => t) 1 0 false)) c)
    (hc : ∀ d, ¬ Step c d) (r : Fin 3) (s : PState (Fin 7 → ℝ) Nat) (hr : c.prog r = Prog.ret s) :=
  C89_heat_1d (exReal_good _ 1 0 false).1 (by show 0 < 5; decide) (exReal_good _ 1 0 false).2
    (a := 2) (dx := 1 / 8) (by norm_num) (fun t _ => t)
    (fun l u _ _ _ ht => exHeat_step (by norm_num) _ l u ht) rfl h1 hc r s hr

/-- `C89_heat_1d_nested` with 7 unknowns. -/
example {c : Conf 3 (Msg (Fin 7 → ℝ) Nat) (PState (Fin 7 → ℝ) Nat)}
    (h1 : Steps (startConf (exReal (exHeat 7 2 (1 / 8) fun _ _ => 0) 1 0 true)) c)
    (hc : ∀ d, ¬ Step c d) (r : Fin 3) (s : PState (Fin 7 → ℝ) Nat) (hr : c.prog r = Prog.ret s) :=
  C89_heat_1d_nested (exReal_good _ 1 0 true).1 (by show 0 < 5; decide) (exReal_good _ 1 0 true).2
    (a := 2) (dx := 1 / 8) (by norm_num)
    (fun l u _ _ _ ht => exHeat_step (by norm_num) _ l u ht) rfl rfl rfl h1 hc r s hr

/-- A backward Euler problem on a 4 × 5 grid. -/
noncomputable def exSquare : Apps.Heat2D ℝ where
  nx := 4
  ny := 5
  a := 1
  dx := 1 / 3
  dy := 1 / 4
  theta := 1
  rhs := fun t i j => t * i + j
  left := fun _ => 1
  right := fun i => i
  bottom := fun _ => 2
  top := fun j => j

/-- Its time stepper, by choice of the unique solution. -/
noncomputable def exSquareStep : Nat → (Nat → Nat → ℝ) → ℝ → ℝ → Nat → Nat → ℝ :=
  open Classical in
  fun _ u t t' => if h : ∃ x, exSquare.step u t t' x then h.choose else 0

theorem exSquareStep_step (l : Nat) (u : Nat → Nat → ℝ) {t t' : ℝ} (ht : t ≤ t') :
    exSquare.step u t t' (exSquareStep l u t t') := by
  have h : ∃ x, exSquare.step u t t' x :=
    (exSquare.C59_wellposed (by decide) (by norm_num [exSquare]) (by norm_num [exSquare]) u ht).exists
  unfold exSquareStep
  rw [dif_pos h]
  exact h.choose_spec

/-- `C90_heat_2d` for it. -/
example {c : Conf 3 (Msg (Nat → Nat → ℝ) Nat) (PState (Nat → Nat → ℝ) Nat)}
    (h1 : Steps (startConf (exReal exSquareStep (exSquare.start fun _ _ => 0) 0 false)) c)
    (hc : ∀ d, ¬ Step c d) (r : Fin 3) (s : PState (Nat → Nat → ℝ) Nat) (hr : c.prog r = Prog.ret s) :=
  exSquare.C90_heat_2d (exReal_good _ _ 0 false).1 (by show 0 < 5; decide) (exReal_good _ _ 0 false).2
    (by decide) (by decide) (by norm_num [exSquare]) rfl
    (fun l u _ _ _ ht => exSquareStep_step l u ht) rfl h1 hc r s hr

/-! ### Four levels -/

/-- A nonuniform grid of times and three coarser ones. -/
def exFourGrid : List (List ℝ) := [[0, 1, 2, 4, 5, 7, 8, 9, 10], [0, 2, 5, 8, 10], [0, 5, 10], [0, 10]]

theorem exFourGrid_valid : Valid exFourGrid where
  pos := by decide
  ne0 := by simp [exFourGrid, grid]
  sorted := by
    intro l
    match l with
    | 0 => simp [exFourGrid, grid]; norm_num
    | 1 => simp [exFourGrid, grid]; norm_num
    | 2 => simp [exFourGrid, grid]; norm_num
    | 3 => simp [exFourGrid, grid]
    | _ + 4 => exact List.Pairwise.nil
  nested := by
    intro l hl
    match l with
    | 0 => simp [exFourGrid, grid]
    | 1 => simp [exFourGrid, grid]
    | 2 => simp [exFourGrid, grid]
    | _ + 3 => exact absurd hl (by simp [exFourGrid])
  start := by
    intro l hl
    match l with
    | 0 => rfl
    | 1 => rfl
    | 2 => rfl
    | 3 => rfl
    | _ + 4 => exact absurd hl (by simp [exFourGrid])

theorem exFourGrid_even {l i : Nat} (hl : l + 1 < 4) (hi : i ∈ allC exFourGrid l) : i % 2 = 0 := by
  obtain ⟨h1, h2⟩ := (mem_allC_iff (ts := exFourGrid) (l := l) hl).1 hi
  have hl : l < 3 := by omega
  interval_cases l
  · have h1 : i < 9 := h1
    interval_cases i <;> first | rfl | exact absurd h2 (by simp [exFourGrid, grid, tAt])
  · have h1 : i < 5 := h1
    interval_cases i <;> first | rfl | exact absurd h2 (by simp [exFourGrid, grid, tAt])
  · have h1 : i < 3 := h1
    interval_cases i <;> first | rfl | exact absurd h2 (by simp [exFourGrid, grid, tAt])

/-- The solver of `exReal` on these grids, with the given cycle and relaxation weight. -/
noncomputable def exFour {V : Type} [Zero V] (step : Nat → V → ℝ → ℝ → V) (start guess : V) (nested : Bool)
    (cyc : Cycle) (w : ℝ) : Cfg V ℝ ℝ Nat :=
  { exReal step start guess nested with ts := exFourGrid, cyc := cyc, w := w }

theorem exFour_good {V : Type} [AddCommGroup V] [Module ℝ V] (step : Nat → V → ℝ → ℝ → V) (start guess : V)
    (nested : Bool) (cyc : Cycle) (w : ℝ) :
    (exFour step start guess nested cyc w).Good ∧ Copying (exFour step start guess nested cyc w) := by
  have gap : ∀ l i, l + 1 < 4 → i ∈ allC exFourGrid l → i + 1 ∉ allC exFourGrid l := by
    intro l i hl h1 h2
    have := exFourGrid_even hl h1
    have := exFourGrid_even hl h2
    omega
  exact ⟨good_of_gap exFourGrid_valid (show 0 < 3 by decide) (show 3 ≤ 9 by decide)
      (fun r l hr hl => ordOK_id exFourGrid_valid (show 3 ≤ 9 by decide) hl hr) (Or.inl rfl)
      (fun l i hl e => gap l i hl e.1 e.2),
    ⟨by show 1 < 4; decide, fun _ _ _ => rfl, fun _ _ _ => rfl, fun l hl => Or.inr (Or.inr fun i => gap l i hl)⟩⟩

/-- `C93_dahlquist_nested` and `C93_rate_F` for `λ = -2`, F-cycles on four levels. -/
example {c : Conf 3 (Msg ℝ Nat) (PState ℝ Nat)}
    (h1 : Steps (startConf (exFour (fun _ u t t' => Apps.dahlquist .BE (-2) u t t') 1 0 true .F (1 / 2))) c)
    (hc : ∀ d, ¬ Step c d) (r : Fin 3) (s : PState ℝ Nat) (hr : c.prog r = Prog.ret s) :=
  (C93_rate_F (E := exFour (fun _ u t t' => Apps.dahlquist .BE (-2) u t t') (1 : ℝ) 0 true .F (1 / 2))
      (by norm_num [exFour]) (by norm_num [exFour]) rfl).2.2 rfl ▸
    C93_dahlquist_nested (exFour_good _ 1 0 true .F (1 / 2)).1 (by show 0 < 5; decide)
      (exFour_good _ 1 0 true .F (1 / 2)).2 (lam := -2) (by norm_num) (fun _ _ _ _ _ => rfl) rfl
      (fun _ _ _ => rfl) (fun _ _ => rfl) h1 hc r s hr

/-- `C93_dahlquist` with overrelaxation. -/
example {c : Conf 3 (Msg ℝ Nat) (PState ℝ Nat)}
    (h1 : Steps (startConf (exFour (fun _ u t t' => Apps.dahlquist .BE (-2) u t t') 1 0 false .V (13 / 10))) c)
    (hc : ∀ d, ¬ Step c d) (r : Fin 3) (s : PState ℝ Nat) (hr : c.prog r = Prog.ret s) (D : ℝ) (hD0 : 0 ≤ D)
    (hD : ∀ i, i ∈ allC exFourGrid 0 → i ≠ 0 → |0 - timeStepping
      (exFour (fun _ u t t' => Apps.dahlquist .BE (-2) u t t') 1 0 false .V (13 / 10)) i| ≤ D) :=
  C93_dahlquist (exFour_good _ 1 0 false .V (13 / 10)).1 (by show 0 < 5; decide)
    (exFour_good _ 1 0 false .V (13 / 10)).2
    (lam := -2) (by norm_num) (fun _ _ _ _ _ => rfl) rfl D hD0 hD h1 hc r s hr

/-- `C93_heat_1d` with 7 unknowns and a source. -/
example {c : Conf 3 (Msg (Fin 7 → ℝ) Nat) (PState (Fin 7 → ℝ) Nat)}
    (h1 : Steps (startConf (exFour (exHeat 7 2 (1 / 8) fun t _ => t) 1 0 false .F 1)) c)
    (hc : ∀ d, ¬ Step c d) (r : Fin 3) (s : PState (Fin 7 → ℝ) Nat) (hr : c.prog r = Prog.ret s) :=
  C93_heat_1d (exFour_good _ 1 0 false .F 1).1 (by show 0 < 5; decide) (exFour_good _ 1 0 false .F 1).2
    (a := 2) (dx := 1 / 8) (by norm_num) (fun t _ => t)
    (fun l u _ _ _ ht => exHeat_step (by norm_num) _ l u ht) rfl h1 hc r s hr

/-- `C93_heat_1d_nested` with 7 unknowns. -/
example {c : Conf 3 (Msg (Fin 7 → ℝ) Nat) (PState (Fin 7 → ℝ) Nat)}
    (h1 : Steps (startConf (exFour (exHeat 7 2 (1 / 8) fun _ _ => 0) 1 0 true .F 1)) c)
    (hc : ∀ d, ¬ Step c d) (r : Fin 3) (s : PState (Fin 7 → ℝ) Nat) (hr : c.prog r = Prog.ret s) :=
  C93_heat_1d_nested (exFour_good _ 1 0 true .F 1).1 (by show 0 < 5; decide) (exFour_good _ 1 0 true .F 1).2
    (a := 2) (dx := 1 / 8) (by norm_num)
    (fun l u _ _ _ ht => exHeat_step (by norm_num) _ l u ht) rfl (fun _ _ _ => rfl) (fun _ _ => rfl) h1 hc r s hr

/-- `C93_heat_2d` for the problem above. -/
example {c : Conf 3 (Msg (Nat → Nat → ℝ) Nat) (PState (Nat → Nat → ℝ) Nat)}
    (h1 : Steps (startConf (exFour exSquareStep (exSquare.start fun _ _ => 0) 0 false .V 1)) c)
    (hc : ∀ d, ¬ Step c d) (r : Fin 3) (s : PState (Nat → Nat → ℝ) Nat) (hr : c.prog r = Prog.ret s) :=
  exSquare.C93_heat_2d (exFour_good _ _ 0 false .V 1).1 (by show 0 < 5; decide) (exFour_good _ _ 0 false .V 1).2
    (by decide) (by decide) (by norm_num [exSquare]) rfl
    (fun l u _ _ _ ht => exSquareStep_step l u ht) rfl h1 hc r s hr

end Pymgrit
