import Verif.Multi
import Mathlib.Analysis.SpecialFunctions.ExpDeriv
import Mathlib.Analysis.Calculus.Deriv.MeanValue
import Mathlib.Analysis.Complex.ExponentialBounds

/-!
# Backward Euler on neighbouring levels

Auxiliary facts for `Verif.PropsConv`: components that decay under backward Euler meet the conditions of
`Verif.Multi`.
-/

set_option linter.unusedSectionVars false

namespace Pymgrit
open Sys

/-! ### Implicit Euler: fine and coarse amplification factors -/

theorem exp_bound {y : ℝ} (hy : 0 ≤ y) : (1 - y / 3) * Real.exp y ≤ 1 + y := by
  have key : ∀ z : ℝ, (2 - z) * Real.exp z ≤ 3 := by
    intro z
    have h1 : (1 - z) + 1 ≤ Real.exp (1 - z) := Real.add_one_le_exp _
    have h2 : Real.exp (1 - z) * Real.exp z = Real.exp 1 := by rw [← Real.exp_add]; congr 1; ring
    have h3 := Real.exp_one_lt_d9
    nlinarith [Real.exp_pos z]
  let f : ℝ → ℝ := fun y => 1 + y - (1 - y / 3) * Real.exp y
  have hd : ∀ z, HasDerivAt f (1 - (2 - z) * Real.exp z / 3) z := by
    intro z
    have h1 : HasDerivAt (fun y : ℝ => 1 + y) 1 z := by simpa using (hasDerivAt_id z).const_add 1
    have h2 : HasDerivAt (fun y : ℝ => 1 - y / 3) (-(1 / 3)) z := by
      simpa using ((hasDerivAt_id z).div_const 3).const_sub 1
    have h3 := h1.sub (h2.mul (Real.hasDerivAt_exp z))
    refine h3.congr_deriv ?_
    ring
  have hm : Monotone f := by
    refine monotone_of_deriv_nonneg (fun z => (hd z).differentiableAt) fun z => ?_
    rw [(hd z).deriv]
    have := key z
    linarith
  have : f 0 ≤ f y := hm hy
  simp only [f] at this
  simp at this
  linarith

/-- Amplification factors of implicit Euler over one coarse interval: `x i` are the (nonnegative) products
of step sizes and decay rate. -/
theorem euler_factors (n : Nat) (x : Nat → ℝ) (hx : ∀ i, 0 ≤ x i) :
    let F := ∏ i ∈ Finset.range n, (1 / (1 + x i))
    let G := 1 / (1 + ∑ i ∈ Finset.range n, x i)
    0 ≤ F ∧ F ≤ G ∧ G ≤ 1 ∧ 0 ≤ G ∧ G - F ≤ 1 / 3 * (1 - G) := by
  intro F G
  have hs : 0 ≤ ∑ i ∈ Finset.range n, x i := Finset.sum_nonneg fun i _ => hx i
  set y := ∑ i ∈ Finset.range n, x i with hy
  have hF0 : 0 ≤ F := Finset.prod_nonneg fun i _ => by have := hx i; positivity
  have hprod : F = 1 / ∏ i ∈ Finset.range n, (1 + x i) := by
    simp only [F, one_div, Finset.prod_inv_distrib]
  have hge : 1 + y ≤ ∏ i ∈ Finset.range n, (1 + x i) := by
    rw [hy]
    clear hprod hF0 hs hy
    induction n with
    | zero => simp
    | succ n ih =>
      rw [Finset.sum_range_succ, Finset.prod_range_succ]
      have h1 := ih
      have h2 : 0 ≤ ∑ i ∈ Finset.range n, x i := Finset.sum_nonneg fun i _ => hx i
      nlinarith [hx n, mul_nonneg h2 (hx n)]
  have hle : ∏ i ∈ Finset.range n, (1 + x i) ≤ Real.exp y := by
    rw [hy, Real.exp_sum]
    refine Finset.prod_le_prod (fun i _ => by have := hx i; linarith) fun i _ => ?_
    have := Real.add_one_le_exp (x i)
    linarith
  have hFG : F ≤ G := by
    rw [hprod]
    exact one_div_le_one_div_of_le (by linarith) hge
  have hG1 : G ≤ 1 := by
    simp only [G]
    rw [div_le_one (by linarith)]
    linarith
  refine ⟨hF0, hFG, hG1, by positivity, ?_⟩
  have hlow : Real.exp (-y) ≤ F := by
    rw [hprod, Real.exp_neg, ← one_div]
    exact one_div_le_one_div_of_le (lt_of_lt_of_le (by linarith) hge) hle
  have hb := exp_bound hs
  have he : Real.exp (-y) * Real.exp y = 1 := by rw [← Real.exp_add]; simp
  have hGy : G * (1 + y) = 1 := by
    show 1 / (1 + y) * (1 + y) = 1
    exact div_mul_cancel₀ _ (by linarith)
  have hp := Real.exp_pos (-y)
  have h1 : 1 - y / 3 ≤ (1 + y) * F := by
    have : 1 - y / 3 ≤ (1 + y) * Real.exp (-y) := by
      have := mul_le_mul_of_nonneg_right hb hp.le
      nlinarith
    nlinarith
  have hy1 : 0 < 1 + y := by linarith
  have : (G - F) * (1 + y) ≤ 1 / 3 * (1 - G) * (1 + y) := by nlinarith
  exact le_of_mul_le_mul_right this hy1

/-! ### Components of a problem that decay under implicit Euler -/

section
variable {V N : Type} [AddCommGroup V] [Module ℝ V] {E : Cfg V ℝ ℝ N}

/-- On all levels the component `c` of differences is damped as by implicit Euler with decay rate `μ`. -/
def Damped (E : Cfg V ℝ ℝ N) (c : V →ₗ[ℝ] ℝ) (μ : ℝ) : Prop :=
  ∀ l x y t t', l < E.ts.length → t ≤ t' →
    c (E.step l x t t') - c (E.step l y t t') = 1 / (1 + (t' - t) * μ) * (c x - c y)

/-- Product of decay rate and `i`-th step size of level `l`. -/
def decay (ts : List (List ℝ)) (μ : ℝ) (l i : Nat) : ℝ :=
  |tAt (grid ts l) (i + 1) - tAt (grid ts l) i| * μ

theorem decay_eq (h : Valid E.ts) (μ : ℝ) {l i : Nat} (hi : i + 1 < npts E.ts l) :
    decay E.ts μ l i = (tAt (grid E.ts l) (i + 1) - tAt (grid E.ts l) i) * μ := by
  unfold decay
  rw [abs_of_nonneg]
  have := tAt_mono (h.sorted l) (i := i) (j := i + 1) (by omega) hi
  linarith

theorem decay_nonneg (ts : List (List ℝ)) {μ : ℝ} (hμ : 0 ≤ μ) (l i : Nat) : 0 ≤ decay ts μ l i :=
  mul_nonneg (abs_nonneg _) hμ

theorem decay_sum (h : Valid E.ts) (μ : ℝ) (l a m : Nat) (hm : a + m < npts E.ts l) :
    ∑ i ∈ Finset.range m, decay E.ts μ l (a + i) = (tAt (grid E.ts l) (a + m) - tAt (grid E.ts l) a) * μ := by
  induction m with
  | zero => simp
  | succ m ih =>
    rw [Finset.sum_range_succ, ih (by omega), decay_eq h μ (by omega)]
    rw [show a + (m + 1) = a + m + 1 by omega]
    ring

theorem Damped.point (h : Valid E.ts) {c : V →ₗ[ℝ] ℝ} {μ : ℝ} (hc : Damped E c μ) {l i : Nat}
    (hl : l < E.ts.length) (h1 : 1 ≤ i) (hi : i < npts E.ts l) (x y : V) :
    c (E.sys.Φ l i x) - c (E.sys.Φ l i y)
      = 1 / (1 + (tAt (grid E.ts l) i - tAt (grid E.ts l) (i - 1)) * μ) * (c x - c y) :=
  hc l x y _ _ hl (tAt_mono (h.sorted l) (by omega) hi)

theorem Damped.steps (h : Valid E.ts) {c : V →ₗ[ℝ] ℝ} {μ : ℝ} (hc : Damped E c μ) (g : Nat → Nat → V) {l : Nat}
    (hl : l < E.ts.length) (a m : Nat) (hm : a + m < npts E.ts l) (x y : V) :
    c (stepsFrom (E.sys.prop g l) a m x) - c (stepsFrom (E.sys.prop g l) a m y)
      = (∏ i ∈ Finset.range m, (1 / (1 + decay E.ts μ l (a + i)))) * (c x - c y) := by
  induction m with
  | zero => simp [stepsFrom]
  | succ m ih =>
    rw [Finset.prod_range_succ, decay_eq h μ (i := a + m) (by omega)]
    show c (E.sys.prop g l (a + m + 1) _) - c (E.sys.prop g l (a + m + 1) _) = _
    rw [← map_sub, prop_sub, map_sub, hc.point h hl (by omega) (by omega), ih (by omega), Nat.add_sub_cancel]
    ring

/-- Such a component meets the conditions of the convergence theorem with `κ = 1/3`. -/
theorem Damped.approx (h : Valid E.ts) {c : V →ₗ[ℝ] ℝ} {μ : ℝ} (hμ : 0 ≤ μ) (hc : Damped E c μ) :
    Approx E.sys ((normSeminorm ℝ ℝ).comp c) (1 / 3) := by
  have hwf := E.sys_wf h
  constructor
  · intro l i x y hl h1 hi
    show |c (_ - _)| ≤ |c (x - y)|
    have hmono := tAt_mono (h.sorted l) (i := i - 1) (j := i) (by omega) hi
    rw [map_sub, hc.point h hl h1 hi, abs_mul, map_sub]
    have hd : 0 ≤ (tAt (grid E.ts l) i - tAt (grid E.ts l) (i - 1)) * μ := mul_nonneg (by linarith) hμ
    refine mul_le_of_le_one_left (abs_nonneg _) ?_
    rw [abs_of_nonneg (by positivity), div_le_one (by linarith)]
    linarith
  · intro l k hl h1 hk
    have hl' : l + 1 < E.ts.length := hl
    have hlt : E.sys.cpt l (k - 1) < E.sys.cpt l k := hwf.cpt_lt hl (by omega) hk
    have hb : E.sys.cpt l k < npts E.ts l := hwf.cpt_bound hl hk
    obtain ⟨m, hm⟩ : ∃ m, E.sys.cpt l k = E.sys.cpt l (k - 1) + m := ⟨_, (Nat.add_sub_cancel' hlt.le).symm⟩
    have hsum : (tAt (grid E.ts (l + 1)) k - tAt (grid E.ts (l + 1)) (k - 1)) * μ
        = ∑ i ∈ Finset.range m, decay E.ts μ l (E.sys.cpt l (k - 1) + i) := by
      have t1 : tAt (grid E.ts l) (E.sys.cpt l k) = tAt (grid E.ts (l + 1)) k := tAt_cpt h hl' hk
      have t0 : tAt (grid E.ts l) (E.sys.cpt l (k - 1)) = tAt (grid E.ts (l + 1)) (k - 1) :=
        tAt_cpt h hl' (show k - 1 < npts E.ts (l + 1) from lt_of_le_of_lt (Nat.sub_le _ _) hk)
      rw [decay_sum h μ _ _ _ (by omega), ← hm, t1, t0]
    obtain ⟨f1, f2, f3, f4, f5⟩ := euler_factors m
      (fun i => decay E.ts μ l (E.sys.cpt l (k - 1) + i)) (fun i => decay_nonneg _ hμ _ _)
    refine ⟨_, f4, f3, ?_, ?_⟩
    · intro x y
      show |c (_ - _)| ≤ _ * |c (x - y)|
      rw [map_sub, hc.point h hl' h1 hk, hsum, abs_mul, map_sub, abs_of_nonneg f4]
    · intro g x y
      show |c (_ - _)| ≤ _ * |c (x - y)|
      have e4 : ∀ a b a' b' : V, c (a - b - (a' - b')) = (c a - c a') - (c b - c b') := by
        intro a b a' b'; simp only [map_sub]; ring
      rw [e4, hc.point h hl' h1 hk, hsum, show E.sys.cpt l k - E.sys.cpt l (k - 1) = m by omega,
        hc.steps h g (show l < E.ts.length by omega) _ _ (by omega), ← sub_mul, abs_mul, map_sub, abs_sub_comm,
        abs_of_nonneg (by linarith)]
      exact mul_le_mul_of_nonneg_right f5 (abs_nonneg _)

/-- A linear quantity that a step sets independently of the start vector meets them with `κ = 0`. -/
theorem reset_approx (h : Valid E.ts) {c : V →ₗ[ℝ] ℝ}
    (hc : ∀ l x y t t', l < E.ts.length → t ≤ t' → c (E.step l x t t') = c (E.step l y t t')) :
    Approx E.sys ((normSeminorm ℝ ℝ).comp c) 0 := by
  have hwf := E.sys_wf h
  have hΦ : ∀ l i x y, l < E.ts.length → 1 ≤ i → i < npts E.ts l → c (E.sys.Φ l i x) = c (E.sys.Φ l i y) :=
    fun l i x y hl h1 hi => hc l x y _ _ hl (tAt_mono (h.sorted l) (by omega) hi)
  constructor
  · intro l i x y hl h1 hi
    show |c (_ - _)| ≤ |c (x - y)|
    rw [map_sub, hΦ l i x y hl h1 hi, sub_self, abs_zero]
    exact abs_nonneg _
  · intro l k hl h1 hk
    have hl' : l + 1 < E.ts.length := hl
    have hlt : E.sys.cpt l (k - 1) < E.sys.cpt l k := hwf.cpt_lt hl (by omega) hk
    have hb : E.sys.cpt l k < npts E.ts l := hwf.cpt_bound hl hk
    obtain ⟨m, hm⟩ : ∃ m, E.sys.cpt l k = E.sys.cpt l (k - 1) + (m + 1) :=
      ⟨E.sys.cpt l k - E.sys.cpt l (k - 1) - 1, by omega⟩
    refine ⟨0, le_rfl, zero_le_one, ?_, ?_⟩
    · intro x y
      show |c (_ - _)| ≤ _
      rw [map_sub, hΦ (l + 1) k x y hl' h1 hk, sub_self, abs_zero, zero_mul]
    · intro g x y
      show |c (_ - _)| ≤ _
      have e4 : ∀ a b a' b' : V, c (a - b - (a' - b')) = c (a - a') - (c b - c b') := by
        intro a b a' b'; simp only [map_sub]; ring
      rw [e4, hΦ (l + 1) k x y hl' h1 hk, sub_self, sub_zero,
        show E.sys.cpt l k - E.sys.cpt l (k - 1) = m + 1 by omega]
      show |c (E.sys.prop g l _ _ - E.sys.prop g l _ _)| ≤ _
      rw [prop_sub, map_sub, hΦ l _ _ _ (by omega) (by omega) (by omega), sub_self, abs_zero, zero_mul, zero_mul]

end

end Pymgrit
