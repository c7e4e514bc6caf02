import Verif.PropsConv

/-!
# Property C94: MGRIT converges for the heat equation on pairs of time points

The application `Heat1DBDF1` stores the solution at `t` and `t + dtau`; one step is a backward Euler step from the
second point of the pair and another one of size `dtau`.  Fine and coarse steps are therefore not steps of the
same method with different sizes, and yet the bounds of C93 hold.
-/

set_option linter.unusedSectionVars false

namespace Pymgrit
open Cfg Sys Matrix Lin

section
variable {V N : Type} [AddCommGroup V] [Module ℝ V] {E : Cfg V ℝ ℝ N}

/-- The components `c₁`, `c₂` (first and second point of the pair) under steps of `Heat1DBDF1`. -/
structure PairDamped (E : Cfg V ℝ ℝ N) (c₁ c₂ : V →ₗ[ℝ] ℝ) (μ τ : ℝ) : Prop where
  first : ∀ l x y t t', l < E.ts.length → t + τ ≤ t' →
    c₁ (E.step l x t t') - c₁ (E.step l y t t') = 1 / (1 + (t' - t - τ) * μ) * (c₂ x - c₂ y)
  second : ∀ l x y t t', l < E.ts.length → t + τ ≤ t' →
    c₂ (E.step l x t t') - c₂ (E.step l y t t')
      = 1 / (1 + τ * μ) * (c₁ (E.step l x t t') - c₁ (E.step l y t t'))

/-- Specification: all steps of the finest grid have at least size `τ`. -/
def MinStep (ts : List (List ℝ)) (τ : ℝ) : Prop :=
  ∀ i, i + 1 < npts ts 0 → tAt (grid ts 0) i + τ ≤ tAt (grid ts 0) (i + 1)

theorem MinStep.levels (h : Valid E.ts) {τ : ℝ} (hτ : MinStep E.ts τ) (l : Nat) (hl : l < E.ts.length) (i : Nat)
    (hi : i + 1 < npts E.ts l) : tAt (grid E.ts l) i + τ ≤ tAt (grid E.ts l) (i + 1) := by
  have hwf := E.sys_wf h
  induction l generalizing i with
  | zero => exact hτ i hi
  | succ l ih =>
    have hlt : E.sys.cpt l i < E.sys.cpt l (i + 1) := hwf.cpt_lt hl (by omega) hi
    have hb : E.sys.cpt l (i + 1) < npts E.ts l := hwf.cpt_bound hl hi
    have t1 : tAt (grid E.ts l) (E.sys.cpt l (i + 1)) = tAt (grid E.ts (l + 1)) (i + 1) := tAt_cpt h hl hi
    have t0 : tAt (grid E.ts l) (E.sys.cpt l i) = tAt (grid E.ts (l + 1)) i := tAt_cpt h hl (by omega)
    rw [← t0, ← t1]
    refine (ih (by omega) _ (by omega)).trans ?_
    exact tAt_mono (h.sorted l) (by omega) hb

/-- The two backward Euler steps of every `Heat1DBDF1` step, one after the other. -/
def pairDecay (x : Nat → ℝ) (y : ℝ) (j : Nat) : ℝ := if j % 2 = 0 then x (j / 2) else y

theorem pairDecay_prod (x : Nat → ℝ) (y : ℝ) (m : Nat) :
    ∏ j ∈ Finset.range (2 * m), (1 / (1 + pairDecay x y j))
      = ∏ i ∈ Finset.range m, (1 / (1 + x i) * (1 / (1 + y))) := by
  induction m with
  | zero => simp
  | succ m ih =>
    rw [show 2 * (m + 1) = 2 * m + 1 + 1 by ring, Finset.prod_range_succ, Finset.prod_range_succ, ih,
      Finset.prod_range_succ]
    have e1 : pairDecay x y (2 * m) = x m := by
      unfold pairDecay
      rw [if_pos (by omega), show 2 * m / 2 = m by omega]
    have e2 : pairDecay x y (2 * m + 1) = y := by
      unfold pairDecay
      rw [if_neg (by omega)]
    rw [e1, e2, mul_assoc]

theorem pairDecay_sum (x : Nat → ℝ) (y : ℝ) (m : Nat) :
    ∑ j ∈ Finset.range (2 * m), pairDecay x y j = ∑ i ∈ Finset.range m, (x i + y) := by
  induction m with
  | zero => simp
  | succ m ih =>
    rw [show 2 * (m + 1) = 2 * m + 1 + 1 by ring, Finset.sum_range_succ, Finset.sum_range_succ, ih,
      Finset.sum_range_succ]
    have e1 : pairDecay x y (2 * m) = x m := by
      unfold pairDecay
      rw [if_pos (by omega), show 2 * m / 2 = m by omega]
    have e2 : pairDecay x y (2 * m + 1) = y := by
      unfold pairDecay
      rw [if_neg (by omega)]
    rw [e1, e2, add_assoc]

variable {c₁ c₂ : V →ₗ[ℝ] ℝ} {μ τ : ℝ}

theorem PairDamped.point₁ (h : Valid E.ts) (hτ : MinStep E.ts τ) (hc : PairDamped E c₁ c₂ μ τ) {l i : Nat}
    (hl : l < E.ts.length) (h1 : 1 ≤ i) (hi : i < npts E.ts l) (x y : V) :
    c₁ (E.sys.Φ l i x) - c₁ (E.sys.Φ l i y)
      = 1 / (1 + (tAt (grid E.ts l) i - tAt (grid E.ts l) (i - 1) - τ) * μ) * (c₂ x - c₂ y) :=
  hc.first l x y _ _ hl (by
    have := hτ.levels h l hl (i - 1) (by omega)
    rwa [Nat.sub_add_cancel h1] at this)

theorem PairDamped.point₂ (h : Valid E.ts) (hτ : MinStep E.ts τ) (hc : PairDamped E c₁ c₂ μ τ) {l i : Nat}
    (hl : l < E.ts.length) (h1 : 1 ≤ i) (hi : i < npts E.ts l) (x y : V) :
    c₂ (E.sys.Φ l i x) - c₂ (E.sys.Φ l i y)
      = 1 / (1 + τ * μ) * (c₁ (E.sys.Φ l i x) - c₁ (E.sys.Φ l i y)) :=
  hc.second l x y _ _ hl (by
    have := hτ.levels h l hl (i - 1) (by omega)
    rwa [Nat.sub_add_cancel h1] at this)

/-- Decay in the first part of step `i` of level `l`. -/
def pairStep (ts : List (List ℝ)) (μ τ : ℝ) (l i : Nat) : ℝ :=
  |tAt (grid ts l) (i + 1) - tAt (grid ts l) i - τ| * μ

theorem pairStep_eq (h : Valid E.ts) (hτ : MinStep E.ts τ) (μ : ℝ) {l i : Nat} (hl : l < E.ts.length)
    (hi : i + 1 < npts E.ts l) :
    pairStep E.ts μ τ l i = (tAt (grid E.ts l) (i + 1) - tAt (grid E.ts l) i - τ) * μ := by
  unfold pairStep
  rw [abs_of_nonneg]
  have := hτ.levels h l hl i hi
  linarith

theorem PairDamped.steps₂ (h : Valid E.ts) (hτ : MinStep E.ts τ) (hc : PairDamped E c₁ c₂ μ τ)
    (g : Nat → Nat → V) {l : Nat} (hl : l < E.ts.length) (a m : Nat) (hm : a + m < npts E.ts l) (x y : V) :
    c₂ (stepsFrom (E.sys.prop g l) a m x) - c₂ (stepsFrom (E.sys.prop g l) a m y)
      = (∏ i ∈ Finset.range m, (1 / (1 + pairStep E.ts μ τ l (a + i)) * (1 / (1 + τ * μ)))) * (c₂ x - c₂ y) := by
  induction m with
  | zero => simp [stepsFrom]
  | succ m ih =>
    rw [Finset.prod_range_succ, pairStep_eq h hτ μ hl (i := a + m) (by omega)]
    show c₂ (E.sys.prop g l (a + m + 1) _) - c₂ (E.sys.prop g l (a + m + 1) _) = _
    rw [← map_sub, prop_sub, map_sub, hc.point₂ h hτ hl (by omega) (by omega),
      hc.point₁ h hτ hl (by omega) (by omega), ih (by omega), Nat.add_sub_cancel]
    ring

theorem PairDamped.steps₁ (h : Valid E.ts) (hτ : MinStep E.ts τ) (hc : PairDamped E c₁ c₂ μ τ)
    (g : Nat → Nat → V) {l : Nat} (hl : l < E.ts.length) (a m : Nat) (hm : a + (m + 1) < npts E.ts l) (x y : V) :
    c₁ (stepsFrom (E.sys.prop g l) a (m + 1) x) - c₁ (stepsFrom (E.sys.prop g l) a (m + 1) y)
      = (∏ j ∈ Finset.range (2 * m + 1),
          (1 / (1 + pairDecay (fun i => pairStep E.ts μ τ l (a + i)) (τ * μ) j))) * (c₂ x - c₂ y) := by
  rw [Finset.prod_range_succ, pairDecay_prod]
  have e1 : pairDecay (fun i => pairStep E.ts μ τ l (a + i)) (τ * μ) (2 * m) = pairStep E.ts μ τ l (a + m) := by
    unfold pairDecay
    rw [if_pos (by omega), show 2 * m / 2 = m by omega]
  rw [e1, pairStep_eq h hτ μ hl (i := a + m) (by omega)]
  show c₁ (E.sys.prop g l (a + m + 1) _) - c₁ (E.sys.prop g l (a + m + 1) _) = _
  rw [← map_sub, prop_sub, map_sub, hc.point₁ h hτ hl (by omega) (by omega), hc.steps₂ h hτ g hl a m (by omega),
    Nat.add_sub_cancel]
  ring

theorem pairStep_sum (h : Valid E.ts) (hτ : MinStep E.ts τ) (μ : ℝ) {l : Nat} (hl : l < E.ts.length) (a m : Nat)
    (hm : a + (m + 1) < npts E.ts l) :
    ∑ j ∈ Finset.range (2 * m + 1), pairDecay (fun i => pairStep E.ts μ τ l (a + i)) (τ * μ) j
      = (tAt (grid E.ts l) (a + (m + 1)) - tAt (grid E.ts l) a - τ) * μ := by
  have e1 : pairDecay (fun i => pairStep E.ts μ τ l (a + i)) (τ * μ) (2 * m) = pairStep E.ts μ τ l (a + m) := by
    unfold pairDecay
    rw [if_pos (by omega), show 2 * m / 2 = m by omega]
  rw [Finset.sum_range_succ, pairDecay_sum, e1, pairStep_eq h hτ μ hl (i := a + m) (by omega)]
  have : ∀ n, a + n < npts E.ts l → ∑ i ∈ Finset.range n, (pairStep E.ts μ τ l (a + i) + τ * μ)
      = (tAt (grid E.ts l) (a + n) - tAt (grid E.ts l) a) * μ := by
    intro n
    induction n with
    | zero => simp
    | succ n ih =>
      intro hn
      rw [Finset.sum_range_succ, ih (by omega), pairStep_eq h hτ μ hl (i := a + n) (by omega)]
      rw [show a + (n + 1) = a + n + 1 by omega]
      ring
  rw [this m (by omega), show a + (m + 1) = a + m + 1 by omega]
  ring

/-- The larger of the two components. -/
noncomputable def pairNorm (c₁ c₂ : V →ₗ[ℝ] ℝ) : Seminorm ℝ V :=
  (normSeminorm ℝ ℝ).comp c₁ ⊔ (normSeminorm ℝ ℝ).comp c₂

theorem pairNorm_apply (c₁ c₂ : V →ₗ[ℝ] ℝ) (x : V) : pairNorm c₁ c₂ x = max |c₁ x| |c₂ x| := rfl

/-- If the first component is at most `D` in absolute value and the second is the first times a number in
`[0, 1]`, then the pair is at most `D`. -/
theorem pairNorm_le {x : V} {D q : ℝ} (h1 : |c₁ x| ≤ D) (h2 : c₂ x = q * c₁ x) (h0 : 0 ≤ q) (hq : q ≤ 1) :
    pairNorm c₁ c₂ x ≤ D := by
  rw [pairNorm_apply]
  refine max_le h1 ?_
  rw [h2, abs_mul, abs_of_nonneg h0]
  exact (mul_le_of_le_one_left (abs_nonneg _) hq).trans h1

theorem PairDamped.approx (h : Valid E.ts) (hτ0 : 0 ≤ τ) (hτ : MinStep E.ts τ) (hμ : 0 ≤ μ)
    (hc : PairDamped E c₁ c₂ μ τ) : Approx E.sys (pairNorm c₁ c₂) (1 / 3) := by
  have hwf := E.sys_wf h
  have hq : 0 ≤ τ * μ := mul_nonneg hτ0 hμ
  have hq0 : 0 ≤ 1 / (1 + τ * μ) := by positivity
  have hq1 : 1 / (1 + τ * μ) ≤ 1 := by rw [div_le_one (by linarith)]; linarith
  have hle : ∀ x : V, |c₂ x| ≤ pairNorm c₁ c₂ x := fun x => le_max_right _ _
  constructor
  · intro l i x y hl h1 hi
    have hl : l < E.ts.length := hl
    have hi : i < npts E.ts l := hi
    have hd : 0 ≤ tAt (grid E.ts l) i - tAt (grid E.ts l) (i - 1) - τ := by
      have := hτ.levels h l hl (i - 1) (by omega)
      rw [Nat.sub_add_cancel h1] at this
      linarith
    have hd := mul_nonneg hd hμ
    refine pairNorm_le ?_ (by rw [map_sub, map_sub, hc.point₂ h hτ hl h1 hi]) hq0 hq1
    rw [map_sub, hc.point₁ h hτ hl h1 hi, abs_mul, ← map_sub]
    refine (mul_le_of_le_one_left (abs_nonneg _) ?_).trans (hle _)
    rw [abs_of_nonneg (by positivity), div_le_one (by linarith)]
    linarith
  · intro l k hl h1 hk
    have hl' : l + 1 < E.ts.length := hl
    have hlt : E.sys.cpt l (k - 1) < E.sys.cpt l k := hwf.cpt_lt hl (by omega) hk
    have hb : E.sys.cpt l k < npts E.ts l := hwf.cpt_bound hl hk
    obtain ⟨m, hm⟩ : ∃ m, E.sys.cpt l k = E.sys.cpt l (k - 1) + (m + 1) :=
      ⟨E.sys.cpt l k - E.sys.cpt l (k - 1) - 1, by omega⟩
    have hsum := pairStep_sum h hτ μ (l := l) (by omega) (E.sys.cpt l (k - 1)) m (by omega)
    have t1 : tAt (grid E.ts l) (E.sys.cpt l k) = tAt (grid E.ts (l + 1)) k := tAt_cpt h hl' hk
    have t0 : tAt (grid E.ts l) (E.sys.cpt l (k - 1)) = tAt (grid E.ts (l + 1)) (k - 1) :=
      tAt_cpt h hl' (show k - 1 < npts E.ts (l + 1) from lt_of_le_of_lt (Nat.sub_le _ _) hk)
    rw [← hm, t1, t0] at hsum
    obtain ⟨f1, f2, f3, f4, f5⟩ := euler_factors (2 * m + 1)
      (pairDecay (fun i => pairStep E.ts μ τ l (E.sys.cpt l (k - 1) + i)) (τ * μ)) (fun j => by
        unfold pairDecay pairStep
        split
        · exact mul_nonneg (abs_nonneg _) hμ
        · exact hq)
    refine ⟨_, f4, f3, ?_, ?_⟩
    · intro x y
      refine pairNorm_le ?_ (by rw [map_sub, map_sub, hc.point₂ h hτ hl' h1 hk]) hq0 hq1
      rw [map_sub, hc.point₁ h hτ hl' h1 hk, ← hsum, abs_mul, ← map_sub, abs_of_nonneg f4]
      exact mul_le_mul_of_nonneg_left (hle _) f4
    · intro g x y
      have e4 : ∀ (c : V →ₗ[ℝ] ℝ) (a b a' b' : V), c (a - b - (a' - b')) = (c a - c a') - (c b - c b') := by
        intro c a b a' b'; simp only [map_sub]; ring
      rw [show E.sys.cpt l k - E.sys.cpt l (k - 1) = m + 1 by omega]
      refine pairNorm_le (q := 1 / (1 + τ * μ)) ?_ ?_ hq0 hq1
      · rw [e4, hc.steps₁ h hτ g (l := l) (by omega) _ m (by omega), hc.point₁ h hτ hl' h1 hk, ← hsum, ← sub_mul,
          abs_mul, abs_sub_comm, abs_of_nonneg (by linarith), ← map_sub]
        exact mul_le_mul f5 (hle _) (abs_nonneg _) (by linarith)
      · rw [e4, e4, hc.point₂ h hτ hl' h1 hk]
        have : c₂ (stepsFrom (E.sys.prop g l) (E.sys.cpt l (k - 1)) (m + 1) x)
            - c₂ (stepsFrom (E.sys.prop g l) (E.sys.cpt l (k - 1)) (m + 1) y)
            = 1 / (1 + τ * μ) * (c₁ (stepsFrom (E.sys.prop g l) (E.sys.cpt l (k - 1)) (m + 1) x)
              - c₁ (stepsFrom (E.sys.prop g l) (E.sys.cpt l (k - 1)) (m + 1) y)) := by
          show c₂ (E.sys.prop g l (_ + m + 1) _) - c₂ (E.sys.prop g l (_ + m + 1) _)
            = _ * (c₁ (E.sys.prop g l (_ + m + 1) _) - c₁ (E.sys.prop g l (_ + m + 1) _))
          rw [← map_sub, ← map_sub, prop_sub, map_sub, map_sub, hc.point₂ h hτ (by omega) (by omega) (by omega)]
        rw [this]
        ring

end

/-! ## The application -/

section
variable {N : Type} [Zero N] {n : Nat} {E : Cfg ((Fin n → ℝ) × (Fin n → ℝ)) ℝ ℝ N}

theorem bdf1_damped {a dx τ μ : ℝ} (hτ0 : 0 ≤ τ) (hμ : 0 ≤ μ) (rhs : ℝ → Fin n → ℝ) {f : (Fin n → ℝ) →ₗ[ℝ] ℝ}
    (hfA : ∀ x, f ((Apps.heatMatrix n a dx).mulVec x) = μ * f x)
    (hstep : ∀ l u t t', l < E.ts.length → t + τ ≤ t' → Apps.bdf1Step a dx rhs τ u t t' (E.step l u t t')) :
    PairDamped E (f ∘ₗ LinearMap.fst ℝ _ _) (f ∘ₗ LinearMap.snd ℝ _ _) μ τ := by
  have key : ∀ (s : ℝ) (b b' x x' : Fin n → ℝ), 0 ≤ s → Solves (s • Apps.heatMatrix n a dx + 1) b x →
      Solves (s • Apps.heatMatrix n a dx + 1) b' x' → f x - f x' = 1 / (1 + s * μ) * (f b - f b') := by
    intro s b b' x x' hs e e'
    have h1 := congrArg f e
    have h2 := congrArg f e'
    rw [Matrix.add_mulVec, Matrix.smul_mulVec, Matrix.one_mulVec, map_add, map_smul, hfA, smul_eq_mul] at h1 h2
    have hne : 1 + s * μ ≠ 0 := by
      have := mul_nonneg hs hμ
      linarith
    rw [← h1, ← h2]
    field_simp
    ring
  constructor
  · intro l x y t t' hl ht
    show f (E.step l x t t').1 - f (E.step l y t t').1 = _ * (f x.2 - f y.2)
    rw [key _ _ _ _ _ (by linarith) (hstep l x t t' hl ht).1 (hstep l y t t' hl ht).1, map_add, map_add]
    ring
  · intro l x y t t' hl ht
    show f (E.step l x t t').2 - f (E.step l y t t').2 = _ * (f (E.step l x t t').1 - f (E.step l y t t').1)
    rw [key _ _ _ _ _ hτ0 (hstep l x t t' hl ht).2 (hstep l y t t' hl ht).2, map_add, map_add]
    ring

/-- Specification: sum of squares of all values of a pair. -/
def sqPair (x : (Fin n → ℝ) × (Fin n → ℝ)) : ℝ := ∑ k, x.1 k ^ 2 + ∑ k, x.2 k ^ 2

/-- C94.  The heat equation on pairs of time points with backward Euler (any diffusivity `a ≥ 0`, number of
unknowns, spacing, source; `0 ≤ dtau` and `dtau` at most the smallest step), any number of levels, without nested
iteration: at each point the sums of squares of the errors of the first and of the second member of the pair are
both at most `(convRate ^ 2) ^ m` times the sum of squares of all errors of the initial guess at the coarse
points. -/
theorem C94_bdf1 (h : E.Good) (hmax : 0 < E.maxIter) (hT : Copying E) {a dx dtau : ℝ} (ha : 0 ≤ a)
    (hτ0 : 0 ≤ dtau) (hτ : MinStep E.ts dtau) (rhs : ℝ → Fin n → ℝ)
    (hstep : ∀ l u t t', l < E.ts.length → t + dtau ≤ t' → Apps.bdf1Step a dx rhs dtau u t t' (E.step l u t t'))
    (hnest : E.nested = false)
    {c : Conf E.P (Msg ((Fin n → ℝ) × (Fin n → ℝ)) N) (PState ((Fin n → ℝ) × (Fin n → ℝ)) N)}
    (h1 : Steps (startConf E) c) (hc : ∀ d, ¬ Step c d)
    (r : Fin E.P) (s : PState ((Fin n → ℝ) × (Fin n → ℝ)) N) (hr : c.prog r = Prog.ret s)
    (k i j : Nat) (hi : (E.info r 0).pts[k]? = some i) (hj : (E.info r 0).idx[k]? = some j) :
    let D := ∑ i ∈ (allC E.ts 0).toFinset.erase 0, sqPair (E.guess i - timeStepping E i)
    ∑ x, ((s.u 0 j).1 x - (timeStepping E i).1 x) ^ 2 ≤ (convRate E (1 / 3) ^ 2) ^ s.solveIter * D ∧
      ∑ x, ((s.u 0 j).2 x - (timeStepping E i).2 x) ^ 2 ≤ (convRate E (1 / 3) ^ 2) ^ s.solveIter * D := by
  obtain ⟨f, μ, hμ, hparseval, hfA⟩ := eigen_coords (Apps.heatMatrix_symm n a dx)
    (fun v μ hv he => heat_eigen_nonneg ha v μ hv he)
  let D : Fin n → ℝ := fun p =>
    √(∑ i ∈ (allC E.ts 0).toFinset.erase 0,
      ((f p (E.guess i - timeStepping E i).1) ^ 2 + (f p (E.guess i - timeStepping E i).2) ^ 2))
  have hcomp : ∀ p, pairNorm (f p ∘ₗ LinearMap.fst ℝ _ _) (f p ∘ₗ LinearMap.snd ℝ _ _) (s.u 0 j - timeStepping E i)
      ≤ convRate E (1 / 3) ^ s.solveIter * D p := by
    intro p
    refine C93_multilevel h hmax hT (by norm_num)
      ((bdf1_damped hτ0 (hμ p) rhs (hfA p) hstep).approx h.valid hτ0 hτ (hμ p)) (D p) ?_ h1 hc r s hr k i j hi hj
    intro i hi
    rw [constructor_value hnest]
    split
    · next e =>
      subst e
      show pairNorm _ _ (E.start 0 - E.start 0) ≤ _
      rw [sub_self, map_zero]
      exact Real.sqrt_nonneg _
    · next e =>
      rw [if_pos rfl, pairNorm_apply]
      have hs := Finset.single_le_sum
        (f := fun i => (f p (E.guess i - timeStepping E i).1) ^ 2 + (f p (E.guess i - timeStepping E i).2) ^ 2)
        (fun _ _ => by positivity) (Finset.mem_erase.2 ⟨e, List.mem_toFinset.2 hi⟩)
      refine max_le ?_ ?_
      · rw [← Real.sqrt_sq_eq_abs]
        refine Real.sqrt_le_sqrt (le_trans ?_ hs)
        exact le_add_of_nonneg_right (sq_nonneg _)
      · rw [← Real.sqrt_sq_eq_abs]
        refine Real.sqrt_le_sqrt (le_trans ?_ hs)
        exact le_add_of_nonneg_left (sq_nonneg _)
  have e2 : ∑ i ∈ (allC E.ts 0).toFinset.erase 0, sqPair (E.guess i - timeStepping E i) = ∑ p, (D p) ^ 2 := by
    have : ∀ p, (D p) ^ 2 = ∑ i ∈ (allC E.ts 0).toFinset.erase 0,
        ((f p (E.guess i - timeStepping E i).1) ^ 2 + (f p (E.guess i - timeStepping E i).2) ^ 2) :=
      fun p => Real.sq_sqrt (Finset.sum_nonneg fun _ _ => by positivity)
    simp only [this]
    refine Eq.trans ?_ Finset.sum_comm
    refine Finset.sum_congr rfl fun i _ => ?_
    rw [Finset.sum_add_distrib, hparseval, hparseval]
    rfl
  have fin : ∀ g : Fin n → ℝ, (∀ p, |f p g| ≤ convRate E (1 / 3) ^ s.solveIter * D p) →
      ∑ x, g x ^ 2 ≤ (convRate E (1 / 3) ^ 2) ^ s.solveIter * ∑ p, (D p) ^ 2 := by
    intro g hg
    rw [← hparseval g, Finset.mul_sum]
    refine Finset.sum_le_sum fun p _ => ?_
    have h3 := mul_self_le_mul_self (abs_nonneg _) (hg p)
    rw [← sq, sq_abs] at h3
    refine h3.trans (le_of_eq ?_)
    rw [← pow_mul, mul_comm 2, pow_mul]
    ring
  intro D'
  simp only [D', e2]
  exact ⟨fin (s.u 0 j - timeStepping E i).1 fun p => (le_max_left _ _).trans (hcomp p),
    fin (s.u 0 j - timeStepping E i).2 fun p => (le_max_right _ _).trans (hcomp p)⟩

/-- C94.  With nested iteration and without source, whatever the initial guess; the initial pair is the one the
constructor of the application makes. -/
theorem C94_bdf1_nested (h : E.Good) (hmax : 0 < E.maxIter) (hT : Copying E) {a dx dtau t0 : ℝ} (ha : 0 ≤ a)
    (hτ0 : 0 ≤ dtau) (hτ : MinStep E.ts dtau)
    (hstep : ∀ l u t t', l < E.ts.length → t + dtau ≤ t' →
      Apps.bdf1Step a dx (fun _ _ => 0) dtau u t t' (E.step l u t t'))
    (init : Fin n → ℝ) (hinit : Apps.bdf1Start a dx (fun _ _ => 0) dtau t0 init (E.start 0))
    (hnest : E.nested = true) (hzero : ∀ l, l ≠ 0 → l < E.ts.length → E.zero l = 0)
    (hstart : ∀ l, l < E.ts.length → E.start l = E.start 0)
    {c : Conf E.P (Msg ((Fin n → ℝ) × (Fin n → ℝ)) N) (PState ((Fin n → ℝ) × (Fin n → ℝ)) N)}
    (h1 : Steps (startConf E) c) (hc : ∀ d, ¬ Step c d)
    (r : Fin E.P) (s : PState ((Fin n → ℝ) × (Fin n → ℝ)) N) (hr : c.prog r = Prog.ret s)
    (k i j : Nat) (hi : (E.info r 0).pts[k]? = some i) (hj : (E.info r 0).idx[k]? = some j) :
    let D := nestRate E (1 / 3) ^ 2 * ∑ x, init x ^ 2
    ∑ x, ((s.u 0 j).1 x - (timeStepping E i).1 x) ^ 2 ≤ (convRate E (1 / 3) ^ 2) ^ s.solveIter * D ∧
      ∑ x, ((s.u 0 j).2 x - (timeStepping E i).2 x) ^ 2 ≤ (convRate E (1 / 3) ^ 2) ^ s.solveIter * D := by
  obtain ⟨f, μ, hμ, hparseval, hfA⟩ := eigen_coords (Apps.heatMatrix_symm n a dx)
    (fun v μ hv he => heat_eigen_nonneg ha v μ hv he)
  have hne : ∀ p (q : ℝ), 0 ≤ q → 0 < 1 + q * μ p := fun p q hq => by
    have := mul_nonneg hq (hμ p)
    linarith
  have hsol : ∀ p (q : ℝ) (b x : Fin n → ℝ), 0 ≤ q → Solves (q • Apps.heatMatrix n a dx + 1) b x →
      f p x = 1 / (1 + q * μ p) * f p b := by
    intro p q b x hq e
    have h1 := congrArg (f p) e
    rw [Matrix.add_mulVec, Matrix.smul_mulVec, Matrix.one_mulVec, map_add, map_smul, hfA, smul_eq_mul] at h1
    have := (hne p q hq).ne'
    rw [← h1]
    field_simp
    ring
  have hz : ∀ (q : ℝ) (u : Fin n → ℝ), u + q • (fun _ : Fin n => (0 : ℝ)) = u := by
    intro q u; funext x; simp
  have hcomp : ∀ p, pairNorm (f p ∘ₗ LinearMap.fst ℝ _ _) (f p ∘ₗ LinearMap.snd ℝ _ _) (s.u 0 j - timeStepping E i)
      ≤ convRate E (1 / 3) ^ s.solveIter * (nestRate E (1 / 3) * |f p init|) := by
    intro p
    have hA := (bdf1_damped hτ0 (hμ p) _ (hfA p) hstep).approx h.valid hτ0 hτ (hμ p)
    refine C93_multilevel h hmax hT (by norm_num) hA _ ?_ h1 hc r s hr k i j hi hj
    intro i hi
    refine (C93_nested h hnest hT (by norm_num) hA ?_ hzero hstart i hi).trans ?_
    · intro l i hl h1 hi
      have hst := hstep l 0 (tAt (grid E.ts l) (i - 1)) (tAt (grid E.ts l) i) hl (by
        have := hτ.levels h.valid l hl (i - 1) (by have : i < npts E.ts l := hi; omega)
        rwa [Nat.sub_add_cancel h1] at this)
      have hd : 0 ≤ tAt (grid E.ts l) i - tAt (grid E.ts l) (i - 1) - dtau := by
        have := hτ.levels h.valid l hl (i - 1) (by have : i < npts E.ts l := hi; omega)
        rw [Nat.sub_add_cancel h1] at this
        linarith
      have a1 := hsol p _ _ _ hd hst.1
      have a2 := hsol p _ _ _ hτ0 hst.2
      rw [hz] at a1 a2
      have a0 : f p ((0 : (Fin n → ℝ) × (Fin n → ℝ)).2) = 0 := map_zero (f p)
      rw [a0, mul_zero] at a1
      rw [a1, mul_zero] at a2
      show max |f p (E.step l 0 _ _).1| |f p (E.step l 0 _ _).2| = 0
      rw [a1, a2, abs_zero, max_self]
    · refine mul_le_mul_of_nonneg_left ?_ (nestRate_nonneg E (by norm_num))
      have a2 := hsol p _ _ _ hτ0 hinit.2
      rw [hz] at a2
      refine pairNorm_le (q := 1 / (1 + dtau * μ p)) ?_ ?_ ?_ ?_
      · show |f p (E.start 0).1| ≤ _
        rw [hinit.1]
      · show f p (E.start 0).2 = _ * f p (E.start 0).1
        rw [a2, hinit.1]
      · exact one_div_nonneg.2 (hne p _ hτ0).le
      · rw [div_le_one (hne p _ hτ0)]
        have := mul_nonneg hτ0 (hμ p)
        linarith
  have fin : ∀ g : Fin n → ℝ, (∀ p, |f p g| ≤ convRate E (1 / 3) ^ s.solveIter * (nestRate E (1 / 3) * |f p init|)) →
      ∑ x, g x ^ 2 ≤ (convRate E (1 / 3) ^ 2) ^ s.solveIter * (nestRate E (1 / 3) ^ 2 * ∑ x, init x ^ 2) := by
    intro g hg
    rw [← hparseval g, ← hparseval init, Finset.mul_sum, Finset.mul_sum]
    refine Finset.sum_le_sum fun p _ => ?_
    have h3 := mul_self_le_mul_self (abs_nonneg _) (hg p)
    rw [← sq, sq_abs] at h3
    refine h3.trans (le_of_eq ?_)
    rw [← sq_abs (f p init), ← pow_mul, mul_comm 2, pow_mul]
    ring
  intro D
  exact ⟨fin (s.u 0 j - timeStepping E i).1 fun p => (le_max_left _ _).trans (hcomp p),
    fin (s.u 0 j - timeStepping E i).2 fun p => (le_max_right _ _).trans (hcomp p)⟩

end

/-! ## Examples -/

/-- The time stepper for `dtau = 1 / 2`, from that of the one-dimensional heat equation. -/
noncomputable def exPair (n : Nat) (a dx : ℝ) (rhs : ℝ → Fin n → ℝ) (l : Nat) (u : (Fin n → ℝ) × (Fin n → ℝ))
    (t t' : ℝ) : (Fin n → ℝ) × (Fin n → ℝ) :=
  (exHeat n a dx rhs l u.2 (t + 1 / 2) t', exHeat n a dx rhs l (exHeat n a dx rhs l u.2 (t + 1 / 2) t') t' (t' + 1 / 2))

theorem exPair_step {n : Nat} {a dx : ℝ} (ha : 0 ≤ a) (rhs : ℝ → Fin n → ℝ) (l : Nat)
    (u : (Fin n → ℝ) × (Fin n → ℝ)) {t t' : ℝ} (ht : t + 1 / 2 ≤ t') :
    Apps.bdf1Step a dx rhs (1 / 2) u t t' (exPair n a dx rhs l u t t') :=
  (Apps.C58_two_steps ..).2 ⟨exHeat_step ha rhs l _ ht, exHeat_step ha rhs l _ (by linarith)⟩

/-- The pair of the constructor. -/
noncomputable def exPairStart (n : Nat) (a dx : ℝ) (init : Fin n → ℝ) : (Fin n → ℝ) × (Fin n → ℝ) :=
  (init, exHeat n a dx (fun _ _ => 0) 0 init 0 (0 + 1 / 2))

theorem exPairStart_start {n : Nat} {a dx : ℝ} (ha : 0 ≤ a) (init : Fin n → ℝ) :
    Apps.bdf1Start a dx (fun _ _ => 0) (1 / 2) 0 init (exPairStart n a dx init) :=
  (Apps.C58_start ..).2 ⟨rfl, exHeat_step ha _ 0 _ (by norm_num)⟩

theorem exFourGrid_minStep : MinStep exFourGrid (1 / 2) := by
  intro i hi
  have hi : i + 1 < 9 := hi
  have : i < 8 := by omega
  interval_cases i <;> simp [exFourGrid, grid, tAt] <;> norm_num

/-- `C94_bdf1` with 7 unknowns and a source, four levels. -/
example {c : Conf 3 (Msg ((Fin 7 → ℝ) × (Fin 7 → ℝ)) Nat) (PState ((Fin 7 → ℝ) × (Fin 7 → ℝ)) Nat)}
    (h1 : Steps (startConf (exFour (exPair 7 2 (1 / 8) fun t _ => t) 1 0 false .F 1)) c)
    (hc : ∀ d, ¬ Step c d) (r : Fin 3) (s : PState ((Fin 7 → ℝ) × (Fin 7 → ℝ)) Nat) (hr : c.prog r = Prog.ret s) :=
  C94_bdf1 (exFour_good _ 1 0 false .F 1).1 (by show 0 < 5; decide) (exFour_good _ 1 0 false .F 1).2
    (a := 2) (dx := 1 / 8) (dtau := 1 / 2) (by norm_num) (by norm_num) exFourGrid_minStep (fun t _ => t)
    (fun l u _ _ _ ht => exPair_step (by norm_num) _ l u ht) rfl h1 hc r s hr

/-- `C94_bdf1_nested` with 7 unknowns, four levels. -/
example {c : Conf 3 (Msg ((Fin 7 → ℝ) × (Fin 7 → ℝ)) Nat) (PState ((Fin 7 → ℝ) × (Fin 7 → ℝ)) Nat)}
    (h1 : Steps (startConf (exFour (exPair 7 2 (1 / 8) fun _ _ => 0) (exPairStart 7 2 (1 / 8) 1) 0 true .V 1)) c)
    (hc : ∀ d, ¬ Step c d) (r : Fin 3) (s : PState ((Fin 7 → ℝ) × (Fin 7 → ℝ)) Nat) (hr : c.prog r = Prog.ret s) :=
  C94_bdf1_nested (exFour_good _ _ 0 true .V 1).1 (by show 0 < 5; decide) (exFour_good _ _ 0 true .V 1).2
    (a := 2) (dx := 1 / 8) (dtau := 1 / 2) (t0 := 0) (by norm_num) (by norm_num) exFourGrid_minStep
    (fun l u _ _ _ ht => exPair_step (by norm_num) _ l u ht) 1 (exPairStart_start (by norm_num) 1) rfl
    (fun _ _ _ => rfl) (fun _ _ => rfl) h1 hc r s hr

end Pymgrit
