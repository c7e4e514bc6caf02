import Verif.PropsConv
import Verif.PropsAt

/-!
# Property C103: convergence of AT-MGRIT

AT-MGRIT solves the coarsest level only over a window of `k` points.  If the coarsest step damps differences by
`β`, what the window leaves of an error is `β ^ (k - 1)`; with it the rates of MGRIT (C93) change in an explicit
way.  On one process (on several AT-MGRIT does not run, C57).
-/

set_option linter.unusedSectionVars false

namespace Pymgrit
open Cfg Sys Matrix Lin

/-- `rateV` for a coarsest solver that leaves the part `γ` of an error. -/
def atRateV (γ κ : ℝ) (a : Nat → ℝ) : Nat → Nat → ℝ
  | _, 0 => γ
  | l, d + 1 => a l * (κ + (1 + κ) * atRateV γ κ a (l + 1) d)

/-- `rateF` for a coarsest solver that leaves the part `γ` of an error; with a V-cycle after it on levels
other than 0 and the coarsest. -/
def atRateF (γ κ : ℝ) (a : Nat → ℝ) : Nat → Nat → ℝ
  | _, 0 => γ
  | l, d + 1 => a l * (κ + (1 + κ) * (atRateF γ κ a (l + 1) d * if d = 0 then 1 else atRateV γ κ a (l + 1) d))

section
variable {𝕜 V : Type} [NormedField 𝕜] [AddCommGroup V] [Module 𝕜 V] {S : Sys V 𝕜} {p : Seminorm 𝕜 V} {κ γ : ℝ}

theorem vcyc_coarse_err (H : MultiHyp S p κ) {coarse : Nat → GState V → GState V}
    (hk : ∀ s, Keeps (S.L - 1) s (coarse (S.L - 1) s))
    (hγ : ∀ s D, ErrLe S p (S.L - 1) s D → ErrLe S p (S.L - 1) (coarse (S.L - 1) s) (γ * D))
    (d l it : Nat) (ff : Bool) (hd : l + d + 1 = S.L) {s : GState V} {D : ℝ}
    (hD : if d = 0 then ErrLe S p l s D else CErrLe S p l s D)
    (hF : ¬ ((0 < l ∨ (it = 0 ∧ l = 0)) ∧ ff = true) → 0 < d → FRelaxed S l s) :
    ErrLe S p l (S.vcyc coarse d l it ff s) (atRateV γ κ (relaxGrowth S) l d * D) := by
  induction d generalizing l ff s D with
  | zero =>
    obtain rfl : l = S.L - 1 := by omega
    simp only [vcyc, atRateV]
    exact hγ s D (by simpa using hD)
  | succ d ih =>
    have hl : l + 1 < S.L := by omega
    simp only [vcyc, atRateV]
    refine level_err H hl _ (S.vcyc coarse d (l + 1) it true) _ ?_ ?_ (by simpa using hD)
      (fun hq => hF hq (by omega))
    · intro s
      rw [← iteration_V_eq_vcyc]
      exact H.wf.keeps_iteration hk d (l + 1) it Cycle.V true (by omega) s
    · intro s D hs
      refine ih (l + 1) true (by omega) ?_ (fun hq => absurd (by simp) hq)
      split
      · exact hs
      · exact hs.toC H.wf (by omega)

theorem iteration_coarse_err (H : MultiHyp S p κ) {coarse : Nat → GState V → GState V}
    (hk : ∀ s, Keeps (S.L - 1) s (coarse (S.L - 1) s))
    (hγ : ∀ s D, ErrLe S p (S.L - 1) s D → ErrLe S p (S.L - 1) (coarse (S.L - 1) s) (γ * D))
    (d l it : Nat) (cyc : Cycle) (ff : Bool) (hd : l + d + 1 = S.L)
    {s : GState V} {D : ℝ} (hD : if d = 0 then ErrLe S p l s D else CErrLe S p l s D)
    (hF : ¬ ((0 < l ∨ (it = 0 ∧ l = 0)) ∧ ff = true) → 0 < d → FRelaxed S l s) :
    ErrLe S p l (S.iteration coarse d l cyc it ff s)
      ((match cyc with
        | .V => atRateV γ κ (relaxGrowth S) l d
        | .F => atRateF γ κ (relaxGrowth S) l d * if l = 0 ∨ d = 0 then 1 else atRateV γ κ (relaxGrowth S) l d) * D) := by
  cases cyc with
  | V =>
    rw [iteration_V_eq_vcyc]
    exact vcyc_coarse_err H hk hγ d l it ff hd hD hF
  | F =>
    induction d generalizing l ff s D with
    | zero =>
      obtain rfl : l = S.L - 1 := by omega
      simp only [iteration, atRateF, or_true, if_true, mul_one]
      exact hγ s D (by simpa using hD)
    | succ d ih =>
      have hl : l + 1 < S.L := by omega
      have key := level_err H hl ((0 < l ∨ it = 0 ∧ l = 0) ∧ ff = true)
        (S.iteration coarse d (l + 1) .F it true)
        (atRateF γ κ (relaxGrowth S) (l + 1) d * if d = 0 then 1 else atRateV γ κ (relaxGrowth S) (l + 1) d)
        (fun s => H.wf.keeps_iteration hk d (l + 1) it .F true (by omega) s)
        (fun s D hs => by
          have := ih (l + 1) true (by omega) (s := s) (D := D) ?_ (fun hq => absurd (by simp) hq)
          · simpa using this
          · split
            · exact hs
            · exact hs.toC H.wf (by omega)) (by simpa using hD) (fun hq => hF hq (by omega))
      generalize hcore : S.fRelax l (S.errorCorrection l (S.iteration coarse d (l + 1) .F it true
        (S.fasResidual l (times (fun s => S.fRelax l (S.cRelax l s)) (S.cf l)
          (if (0 < l ∨ it = 0 ∧ l = 0) ∧ ff = true then S.fRelax l s else s))))) = core at key
      have hrel : FRelaxed S l core := by rw [← hcore]; exact H.wf.fRelax_relaxed hl _
      have e : S.iteration coarse (d + 1) l .F it ff s
          = if l ≠ 0 ∧ Cycle.F = Cycle.F then S.vcyc coarse (d + 1) l it false core else core := by
        rw [← hcore]; rfl
      rw [e]
      by_cases h0 : l = 0
      · rw [if_neg (by simp [h0])]
        simp only [h0, true_or, if_true, mul_one]
        subst h0
        exact key
      · rw [if_pos ⟨h0, rfl⟩]
        simp only [h0, false_or]
        have := vcyc_coarse_err H hk hγ (d + 1) l it false hd (by rw [if_neg (by omega)]; exact key.toC H.wf hl) (fun _ _ => hrel)
        refine fun i hi => (this i hi).trans (le_of_eq ?_)
        simp only [atRateF]
        rw [if_neg (show ¬ d + 1 = 0 by omega)]
        ring

theorem iterates_coarse_err (H : MultiHyp S p κ) (hL : 1 < S.L) {coarse : Nat → GState V → GState V}
    (hk : ∀ s, Keeps (S.L - 1) s (coarse (S.L - 1) s))
    (hγ : ∀ s D, ErrLe S p (S.L - 1) s D → ErrLe S p (S.L - 1) (coarse (S.L - 1) s) (γ * D))
    (cyc : Cycle) (m : Nat) (s : GState V) (D : ℝ) (hD : CErrLe S p 0 s D) :
    let q := match cyc with
      | .V => atRateV γ κ (relaxGrowth S) 0 (S.L - 1)
      | .F => atRateF γ κ (relaxGrowth S) 0 (S.L - 1)
    CErrLe S p 0 (iterates S coarse cyc m s) (q ^ m * D) ∧
    (1 ≤ m → ErrLe S p 0 (iterates S coarse cyc m s) (q ^ m * D)) ∧
    Keeps 0 s (iterates S coarse cyc m s) := by
  intro q
  induction m with
  | zero => exact ⟨by simpa [iterates] using hD, fun h => by omega, Keeps.refl 0 s⟩
  | succ m ih =>
    obtain ⟨i1, -, i3⟩ := ih
    have hstep : ErrLe S p 0 (iterates S coarse cyc (m + 1) s) (q ^ (m + 1) * D) := by
      have := iteration_coarse_err H hk hγ (S.L - 1) 0 m cyc true (by omega)
        (by rw [if_neg (by omega)]; exact i1) (fun hq _ => by
        cases m with
        | zero => exact absurd (by simp) hq
        | succ m => exact H.wf.fineIteration_relaxed coarse cyc m _ hL)
      refine fun i hi => (this i hi).trans (le_of_eq ?_)
      rw [pow_succ]
      cases cyc <;> simp [q] <;> ring
    exact ⟨hstep.toC H.wf hL, fun _ => hstep, i3.trans (H.wf.fineIteration_keeps hk cyc m _)⟩

theorem nestedIteration_start (h : S.WF) {coarse : Nat → GState V → GState V}
    (hk : ∀ s, Keeps (S.L - 1) s (coarse (S.L - 1) s)) (s : GState V) :
    (S.nestedIteration coarse s).u 0 0 = s.u 0 0 := by
  have key : ∀ m s, m < S.L → (S.nestedLoop coarse m s).u 0 0 = s.u 0 0 := by
    intro m
    induction m with
    | zero => intro _ _; rfl
    | succ m ih =>
      intro s hm
      simp only [nestedLoop]
      rw [ih _ (by omega)]
      have h1 : (S.interpolate m s).u 0 0 = s.u 0 0 := by
        by_cases h0 : m = 0
        · subst h0; exact h.interpolate_not (by omega) s (Or.inr rfl)
        · rw [interpolate_u_ne s (by omega)]
      split
      · have := h.keeps_iteration hk (S.L - 1 - m) m 0 Cycle.V true (by omega) (S.interpolate m s)
        rw [this.u_lt 0 (by omega), h1]
      · exact h1
  have hL := h.Lpos
  unfold nestedIteration
  rw [key _ _ (by omega)]
  by_cases h0 : S.L - 1 = 0
  · have := (hk s).zero
    rwa [h0] at this ⊢
  · rw [(hk s).u_lt 0 (by omega)]

/-- What the window leaves of an error. -/
theorem atForward_err (hL : 2 ≤ S.L) (hn : 0 < S.n (S.L - 1)) {k : Nat} (hk : 1 ≤ k) {β : ℝ} (hβ0 : 0 ≤ β)
    (hβ : ∀ i x y, 1 ≤ i → i < S.n (S.L - 1) → p (S.Φ (S.L - 1) i x - S.Φ (S.L - 1) i y) ≤ β * p (x - y))
    (s : GState V) (D : ℝ) (hD : ErrLe S p (S.L - 1) s D) :
    ErrLe S p (S.L - 1) (S.atForward k (S.L - 1) s) (β ^ (k - 1) * D) := by
  intro i hi
  rw [exactSol_keeps (keeps_atForward k hk hL s hn), (C35_window_value (by omega) hk s).1 i hi]
  set a := i + 1 - k with ha
  have hD0 := hD.nonneg hn
  have e : ∀ m, exactSol S (S.L - 1) s (a + m)
      = stepsFrom (fun i x => s.g (S.L - 1) i + S.Φ (S.L - 1) i x) a m (exactSol S (S.L - 1) s a) := by
    intro m
    induction m with
    | zero => rfl
    | succ m ih =>
      show S.prop s.g (S.L - 1) (a + m + 1) (exactSol S (S.L - 1) s (a + m)) = _
      rw [ih]
      unfold Sys.prop
      rw [if_neg (by omega)]
      rfl
  have key : ∀ m, a + m < S.n (S.L - 1) → ∀ x y,
      p (stepsFrom (fun i x => s.g (S.L - 1) i + S.Φ (S.L - 1) i x) a m x
        - stepsFrom (fun i x => s.g (S.L - 1) i + S.Φ (S.L - 1) i x) a m y) ≤ β ^ m * p (x - y) := by
    intro m
    induction m with
    | zero => intro _ x y; simp [stepsFrom]
    | succ m ih =>
      intro hm x y
      simp only [stepsFrom]
      rw [add_sub_add_left_eq_sub]
      refine (hβ _ _ _ (by omega) hm).trans ?_
      rw [pow_succ', mul_assoc]
      exact mul_le_mul_of_nonneg_left (ih (by omega) x y) hβ0
  have hm : i = a + min i (k - 1) := by omega
  rw [show exactSol S (S.L - 1) s i = exactSol S (S.L - 1) s (a + min i (k - 1)) by rw [← hm], e]
  refine (key _ (by omega) _ _).trans ?_
  by_cases h0 : a = 0
  · have : s.u (S.L - 1) a - exactSol S (S.L - 1) s a = 0 := by
      rw [h0]
      exact sub_self _
    rw [this, map_zero, mul_zero]
    positivity
  · rw [show min i (k - 1) = k - 1 by omega]
    exact mul_le_mul_of_nonneg_left (hD a (by omega)) (by positivity)

end

section
variable {V T N : Type} [LinearOrder T] [Inhabited T] [AddCommGroup V] [Module ℝ V] [Zero N]

/-- Constructor and `solve()` of `AtMgrit` with distance `k` on one process (at_mgrit.py:16-34, 36-87; the rest
is inherited from `Mgrit`). -/
def atRun (E : Cfg V ℝ T N) (k : Nat) : Run V N :=
  E.sys.solve E.ctl (E.sys.atForward k) (E.sys.setup E.ctl (E.sys.atForward k) (Run.init E.start E.zero E.guess))

/-- State after the constructor. -/
def atStart (E : Cfg V ℝ T N) (k : Nat) : Run V N :=
  E.sys.setup E.ctl (E.sys.atForward k) (Run.init E.start E.zero E.guess)

/-- Bound of the error reduction by one iteration, see `C103_rate_two`, `C103_rate_V`; `γ` is what the window leaves of an
error. -/
noncomputable def atConvRate (E : Cfg V ℝ T N) (κ γ : ℝ) : ℝ :=
  match E.cyc with
  | .V => atRateV γ κ (relaxFactor E) 0 (E.ts.length - 1)
  | .F => atRateF γ κ (relaxFactor E) 0 (E.ts.length - 1)

variable {E : Cfg V ℝ T N}

/-- C103.  AT-MGRIT with copying transfers for a nonexpansive time stepper in a seminorm for which on every
coarse interval of every level fine and coarse propagation differ as little as in C93 (`Approx`, constant `κ`),
and whose coarsest steps damp differences by `β`: the error of the values after `m` iterations is
at most `atConvRate ^ m` times the error at the coarse points after the constructor. -/
theorem C103_at_mgrit (hv : Valid E.ts) (hmax : 0 < E.maxIter) (hT : Copying E) {p : Seminorm ℝ V} {κ : ℝ} (hκ : 0 ≤ κ)
    (hA : Approx E.sys p κ) {k : Nat} (hk : 1 ≤ k) {β : ℝ} (hβ0 : 0 ≤ β)
    (hβ : ∀ i x y, i + 1 < npts E.ts (E.ts.length - 1) →
      p (E.step (E.ts.length - 1) x (tAt (grid E.ts (E.ts.length - 1)) i) (tAt (grid E.ts (E.ts.length - 1)) (i + 1))
        - E.step (E.ts.length - 1) y (tAt (grid E.ts (E.ts.length - 1)) i)
          (tAt (grid E.ts (E.ts.length - 1)) (i + 1))) ≤ β * p (x - y))
    (D : ℝ) (hD : ∀ i, i ∈ allC E.ts 0 → p ((atStart E k).st.u 0 i - timeStepping E i) ≤ D)
    (i : Nat) (hi : i < npts E.ts 0) :
    p ((atRun E k).st.u 0 i - timeStepping E i) ≤ atConvRate E κ (β ^ (k - 1)) ^ (atRun E k).iter * D := by
  have hL : 1 < E.sys.L := hT.L
  have H : MultiHyp E.sys p κ :=
    { wf := E.sys_wf hv, approx := hA, nonneg := hκ, R := hT.R, I := hT.I
      adj := fun l hl => by
        rcases hT.relax l hl with a | a | a
        · left
          show |E.w| + |1 - E.w| = 1
          rw [abs_of_nonneg a.1, abs_of_nonneg (by linarith [a.2]), add_sub_cancel]
        · exact Or.inr (Or.inl a)
        · exact Or.inr (Or.inr a) }
  have hn := H.wf.npos (E.sys.L - 1) (by omega)
  obtain ⟨m, hm1, -, hit, hst, -⟩ := C17_stopping_rule (S := E.sys) E.ctl (E.sys.atForward k) (atStart E k) hmax
  have hs0 : (atStart E k).st.u 0 0 = E.start 0 := by
    show (E.sys.setup E.ctl (E.sys.atForward k) _).st.u 0 0 = _
    rw [setup_st]
    split
    · exact nestedIteration_start H.wf (fun s => keeps_atForward k hk (by omega) s hn) _
    · rfl
  have hsol : exactSol E.sys 0 (atStart E k).st = timeStepping E := by
    rw [exactSol_zero (fun h => absurd rfl h), hs0]
    rfl
  obtain ⟨-, c2, c3⟩ := iterates_coarse_err H hL (coarse := E.sys.atForward k) (γ := β ^ (k - 1))
    (fun s => keeps_atForward k hk (by omega) s hn)
    (fun s D hs => atForward_err (by omega) hn hk hβ0 (fun i x y h1 h2 => by
      obtain ⟨i, rfl⟩ : ∃ j, i = j + 1 := ⟨i - 1, by omega⟩
      exact hβ i x y h2) s D hs) E.cyc m (atStart E k).st D (by
    intro i hi
    rw [hsol]
    exact hD i hi)
  have := c2 hm1 i hi
  rw [exactSol_keeps c3, hsol] at this
  have e1 : (atRun E k).iter = m := hit
  have e2 : (atRun E k).st = iterates E.sys (E.sys.atForward k) E.cyc m (atStart E k).st := hst
  rw [e1, e2]
  exact this

/-- C103.  On two levels with weight in `[0, 1]` the factor is `κ + (1 + κ) γ`. -/
theorem C103_rate_two (h0 : 0 ≤ E.w) (h1 : E.w ≤ 1) (hL : E.ts.length = 2) (κ γ : ℝ) :
    atConvRate E κ γ = κ + (1 + κ) * γ := by
  unfold atConvRate
  rw [relaxFactor_one E h0 h1, hL]
  cases E.cyc <;> simp [atRateV, atRateF]

/-- C103.  V-cycles with weight in `[0, 1]`. -/
theorem C103_rate_V (h0 : 0 ≤ E.w) (h1 : E.w ≤ 1) (hcyc : E.cyc = Cycle.V) (κ γ : ℝ) :
    atConvRate E κ γ = (1 + κ) ^ (E.ts.length - 1) * (1 + γ) - 1 := by
  unfold atConvRate
  rw [relaxFactor_one E h0 h1, hcyc]
  have : ∀ d l, atRateV γ κ (fun _ => 1) l d = (1 + κ) ^ d * (1 + γ) - 1 := by
    intro d
    induction d with
    | zero => intro l; simp [atRateV]
    | succ d ih => intro l; simp only [atRateV]; rw [ih, pow_succ]; ring
  exact this _ 0

end

/-! ## Applications -/

section
variable {V N : Type} [AddCommGroup V] [Module ℝ V] [Zero N] {E : Cfg V ℝ ℝ N}

theorem atStart_value (hnest : E.nested = false) (k l i : Nat) :
    (atStart E k).st.u l i = if i = 0 then E.start l else if l = 0 then E.guess i else E.zero l := by
  unfold atStart
  rw [setup_st, if_neg (by rw [show E.ctl.nested = E.nested from rfl, hnest]; exact Bool.false_ne_true)]
  rfl

/-- A component damped by a decay constant that is at least `μ₀`, coarsest steps at least `H`. -/
theorem damped_at (hv : Valid E.ts) (hmax : 0 < E.maxIter) (hT : Copying E) {f : V →ₗ[ℝ] ℝ} {μ μ₀ H : ℝ}
    (hμ₀ : 0 ≤ μ₀) (hμ : μ₀ ≤ μ) (hH : 0 ≤ H) (hf : Damped E f μ) {k : Nat} (hk : 1 ≤ k)
    (hstep : ∀ i, i + 1 < npts E.ts (E.ts.length - 1) →
      H ≤ tAt (grid E.ts (E.ts.length - 1)) (i + 1) - tAt (grid E.ts (E.ts.length - 1)) i)
    (D : ℝ) (hD : ∀ i, i ∈ allC E.ts 0 → |f ((atStart E k).st.u 0 i - timeStepping E i)| ≤ D)
    (i : Nat) (hi : i < npts E.ts 0) :
    |f ((atRun E k).st.u 0 i - timeStepping E i)| ≤
      atConvRate E (1 / 3) ((1 / (1 + H * μ₀)) ^ (k - 1)) ^ (atRun E k).iter * D := by
  refine C103_at_mgrit (p := (normSeminorm ℝ ℝ).comp f) hv hmax hT (by norm_num) (hf.approx hv (hμ₀.trans hμ)) hk
    (by positivity) (fun i x y hi => ?_) D hD i hi
  have ht : tAt (grid E.ts (E.ts.length - 1)) i ≤ tAt (grid E.ts (E.ts.length - 1)) (i + 1) :=
    tAt_mono (hv.sorted _) (by omega) hi
  have hL := hT.L
  have e := hf (E.ts.length - 1) x y _ _ (by omega) ht
  show |f (E.step _ x _ _ - E.step _ y _ _)| ≤ _ * |f (x - y)|
  rw [map_sub, map_sub, e, abs_mul]
  have hd := hstep i hi
  refine mul_le_mul_of_nonneg_right ?_ (abs_nonneg _)
  have h1 : 0 < 1 + H * μ₀ := by positivity
  have h2 : H * μ₀ ≤ (tAt (grid E.ts (E.ts.length - 1)) (i + 1) - tAt (grid E.ts (E.ts.length - 1)) i) * μ :=
    mul_le_mul hd hμ hμ₀ (hH.trans hd)
  rw [abs_of_nonneg (by rw [one_div]; exact inv_nonneg.2 (by linarith))]
  exact one_div_le_one_div_of_le h1 (by linarith)

end

/-- C103.  Dahlquist problem with `λ ≤ 0` and backward Euler, without nested iteration: coarsest steps of size
`H` or more and distance `k`. -/
theorem C103_dahlquist {N : Type} [Zero N] {E : Cfg ℝ ℝ ℝ N} (hv : Valid E.ts) (hmax : 0 < E.maxIter)
    (hT : Copying E) {lam H : ℝ} (hlam : lam ≤ 0) (hH : 0 ≤ H)
    (hstep : ∀ l u t t', l < E.ts.length → E.step l u t t' = Apps.dahlquist .BE lam u t t')
    {k : Nat} (hk : 1 ≤ k)
    (hHs : ∀ i, i + 1 < npts E.ts (E.ts.length - 1) →
      H ≤ tAt (grid E.ts (E.ts.length - 1)) (i + 1) - tAt (grid E.ts (E.ts.length - 1)) i)
    (hnest : E.nested = false) (D : ℝ) (hD0 : 0 ≤ D)
    (hD : ∀ i, i ∈ allC E.ts 0 → i ≠ 0 → |E.guess i - timeStepping E i| ≤ D)
    (i : Nat) (hi : i < npts E.ts 0) :
    |(atRun E k).st.u 0 i - timeStepping E i| ≤
      atConvRate E (1 / 3) ((1 / (1 + H * |lam|)) ^ (k - 1)) ^ (atRun E k).iter * D := by
  rw [abs_of_nonpos hlam]
  refine damped_at hv hmax hT (by linarith) le_rfl hH (dahlquist_damped hstep) hk hHs D ?_ i hi
  intro i hi
  rw [atStart_value hnest]
  split
  · next e =>
    subst e
    show |E.start 0 - E.start 0| ≤ D
    rw [sub_self, abs_zero]; exact hD0
  · next e => rw [if_pos rfl]; exact hD i hi e

/-- C103.  Backward Euler for a symmetric matrix with eigenvalues at least `μ₀ ≥ 0` (any source): the sum of
squares of the error at each point, in terms of the errors of the initial guess at the coarse points. -/
theorem C103_symmetric {N : Type} [Zero N] {ι : Type} [Fintype ι] [DecidableEq ι] {E : Cfg (ι → ℝ) ℝ ℝ N}
    (hv : Valid E.ts) (hmax : 0 < E.maxIter) (hT : Copying E) {A : Matrix ι ι ℝ} (hA : A.transpose = A) {μ₀ H : ℝ}
    (hμ₀ : 0 ≤ μ₀) (hpos : ∀ (v : ι → ℝ) (μ : ℝ), v ≠ 0 → A.mulVec v = μ • v → μ₀ ≤ μ) (hH : 0 ≤ H)
    (b : Nat → ℝ → ℝ → ι → ℝ)
    (hstep : ∀ l u t t', l < E.ts.length → t ≤ t' → Solves ((t' - t) • A + 1) (u + b l t t') (E.step l u t t'))
    {k : Nat} (hk : 1 ≤ k)
    (hHs : ∀ i, i + 1 < npts E.ts (E.ts.length - 1) →
      H ≤ tAt (grid E.ts (E.ts.length - 1)) (i + 1) - tAt (grid E.ts (E.ts.length - 1)) i)
    (hnest : E.nested = false) (i : Nat) (hi : i < npts E.ts 0) :
    ∑ x, ((atRun E k).st.u 0 i x - timeStepping E i x) ^ 2
      ≤ (atConvRate E (1 / 3) ((1 / (1 + H * μ₀)) ^ (k - 1)) ^ 2) ^ (atRun E k).iter *
        ∑ i ∈ (allC E.ts 0).toFinset.erase 0, ∑ x, (E.guess i x - timeStepping E i x) ^ 2 := by
  obtain ⟨f, μ, hμ, hparseval, hfA⟩ := eigen_coords (A := A - μ₀ • (1 : Matrix ι ι ℝ)) (by
      rw [Matrix.transpose_sub, hA, Matrix.transpose_smul, Matrix.transpose_one])
    (fun v μ hv0 e => by
      have := hpos v (μ + μ₀) hv0 (by
        rw [Matrix.sub_mulVec, Matrix.smul_mulVec, Matrix.one_mulVec, sub_eq_iff_eq_add] at e
        rw [e, add_smul])
      linarith)
  have hfA' : ∀ p x, f p (A.mulVec x) = (μ p + μ₀) * f p x := by
    intro p x
    have := hfA p x
    rw [Matrix.sub_mulVec, Matrix.smul_mulVec, Matrix.one_mulVec, map_sub, map_smul, smul_eq_mul] at this
    linarith
  set q := atConvRate E (1 / 3) ((1 / (1 + H * μ₀)) ^ (k - 1)) with hq
  let D : ι → ℝ := fun p =>
    √(∑ i ∈ (allC E.ts 0).toFinset.erase 0, (f p (E.guess i - timeStepping E i)) ^ 2)
  have hcomp : ∀ p, |f p ((atRun E k).st.u 0 i - timeStepping E i)| ≤ q ^ (atRun E k).iter * D p := by
    intro p
    refine damped_at hv hmax hT (μ := μ p + μ₀) hμ₀ (by linarith [hμ p]) hH
      (eigen_damped (by linarith [hμ p]) (hfA' p) LinearMap.id (fun l u v t t' hl ht => by
        show Matrix.mulVec _ _ = _
        simp only [LinearMap.id_apply]
        rw [Matrix.mulVec_sub, hstep l u t t' hl ht, hstep l v t t' hl ht]
        abel)) hk hHs (D p) ?_ i hi
    intro i hi
    rw [atStart_value hnest]
    split
    · next e =>
      subst e
      show |f p (E.start 0 - E.start 0)| ≤ _
      rw [sub_self, map_zero, abs_zero]
      exact Real.sqrt_nonneg _
    · next e =>
      rw [if_pos rfl, ← Real.sqrt_sq_eq_abs]
      refine Real.sqrt_le_sqrt ?_
      exact Finset.single_le_sum (f := fun i => (f p (E.guess i - timeStepping E i)) ^ 2)
        (fun _ _ => sq_nonneg _) (Finset.mem_erase.2 ⟨e, List.mem_toFinset.2 hi⟩)
  have e1 : ∑ x, ((atRun E k).st.u 0 i x - timeStepping E i x) ^ 2
      = ∑ p, (f p ((atRun E k).st.u 0 i - timeStepping E i)) ^ 2 :=
    (hparseval ((atRun E k).st.u 0 i - timeStepping E i)).symm
  have e2 : ∑ i ∈ (allC E.ts 0).toFinset.erase 0, ∑ x, (E.guess i x - timeStepping E i x) ^ 2
      = ∑ p, (D p) ^ 2 := by
    have : ∀ p, (D p) ^ 2 = ∑ i ∈ (allC E.ts 0).toFinset.erase 0, (f p (E.guess i - timeStepping E i)) ^ 2 :=
      fun p => Real.sq_sqrt (Finset.sum_nonneg fun _ _ => sq_nonneg _)
    simp only [this]
    refine Eq.trans ?_ Finset.sum_comm
    exact Finset.sum_congr rfl fun i _ => (hparseval (E.guess i - timeStepping E i)).symm
  rw [e1, e2, Finset.mul_sum]
  refine Finset.sum_le_sum fun p _ => ?_
  have h3 := mul_self_le_mul_self (abs_nonneg _) (hcomp p)
  rw [← sq, sq_abs] at h3
  refine h3.trans (le_of_eq ?_)
  rw [← pow_mul, mul_comm 2, pow_mul]
  ring

/-- The eigenvalues of the matrix of the one-dimensional heat equation on an interval of length
`(n + 1) dx` are at least `8 a / ((n + 1) dx)²`. -/
theorem heat_eigen_ge {n : Nat} {a dx : ℝ} (ha : 0 ≤ a) (v : Fin n → ℝ) (μ : ℝ) (hv : v ≠ 0)
    (he : (Apps.heatMatrix n a dx).mulVec v = μ • v) : 8 * a / ((n + 1) * dx) ^ 2 ≤ μ := by
  have hfac : 0 ≤ a / dx ^ 2 := div_nonneg ha (sq_nonneg _)
  let w : Int → ℝ := fun i => ((i : ℝ) + 1) * (n - i)
  have hw : ∀ i : Fin n, 0 < w i := fun i => by
    have h1 : ((i : Nat) : ℝ) + 1 ≤ n := by exact_mod_cast i.2
    show 0 < (((i : Int) : ℝ) + 1) * ((n : ℝ) - ((i : Int) : ℝ))
    push_cast
    exact mul_pos (by positivity) (by linarith)
  obtain ⟨i₀, hi₀⟩ : ∃ i, v i ≠ 0 := by
    by_contra h
    push Not at h
    exact hv (funext h)
  obtain ⟨i, -, hmax⟩ := Finset.exists_max_image Finset.univ (fun i : Fin n => |v i| / w i) ⟨i₀, Finset.mem_univ _⟩
  set c := |v i| / w i with hc
  have hcpos : 0 < c := lt_of_lt_of_le (div_pos (abs_pos.2 hi₀) (hw i₀)) (hmax i₀ (Finset.mem_univ _))
  have hvi : |v i| = c * w i := by rw [hc, div_mul_cancel₀ _ (hw i).ne']
  have hle : ∀ j : Fin n, |v j| ≤ c * w j := fun j => by
    have := hmax j (Finset.mem_univ _)
    rwa [div_le_iff₀ (hw j)] at this
  have hz : ∀ z : Int, -1 ≤ z → z ≤ n → |atZ v z| ≤ c * w z := by
    intro z h1 h2
    by_cases hz : 0 ≤ z ∧ z < n
    · obtain ⟨m, rfl⟩ : ∃ m : Nat, z = m := ⟨z.toNat, by omega⟩
      have hm : m < n := by exact_mod_cast hz.2
      have := hle ⟨m, hm⟩
      rwa [← atZ_val v ⟨m, hm⟩] at this
    · have e : atZ v z = 0 := by
        unfold atZ
        rw [dif_neg (by omega)]
      rw [e, abs_zero]
      refine mul_nonneg hcpos.le (mul_nonneg ?_ ?_)
      · have : (-1 : ℝ) ≤ z := by exact_mod_cast h1
        linarith
      · have : (z : ℝ) ≤ n := by exact_mod_cast h2
        linarith
  have key := congrFun he i
  rw [Apps.heatMatrix_mulVec, Pi.smul_apply, smul_eq_mul] at key
  have h1 := hz ((i : Int) - 1) (by omega) (by omega)
  have h2 := hz ((i : Int) + 1) (by omega) (by omega)
  have hw2 : w ((i : Int) - 1) + w ((i : Int) + 1) = 2 * w i - 2 := by
    simp only [w]; push_cast; ring
  have h3 : a / dx ^ 2 * (2 * c) ≤ μ * (c * w i) := by
    rcases le_total 0 (v i) with hp | hp
    · rw [abs_of_nonneg hp] at hvi
      rw [hvi] at key
      rw [← key]
      refine mul_le_mul_of_nonneg_left ?_ hfac
      nlinarith [le_abs_self (atZ v ((i : Int) - 1)), le_abs_self (atZ v ((i : Int) + 1))]
    · rw [abs_of_nonpos hp] at hvi
      have hvi' : v i = -(c * w i) := by linarith
      rw [hvi'] at key
      have : μ * (c * w i) = a / dx ^ 2 * (2 * (c * w i) + atZ v ((i : Int) - 1) + atZ v ((i : Int) + 1)) := by
        linear_combination key
      rw [this]
      refine mul_le_mul_of_nonneg_left ?_ hfac
      nlinarith [neg_abs_le (atZ v ((i : Int) - 1)), neg_abs_le (atZ v ((i : Int) + 1))]
  have h4 : a / dx ^ 2 * 2 ≤ μ * w i := by
    have : c * (a / dx ^ 2 * 2) ≤ c * (μ * w i) := by linarith
    exact le_of_mul_le_mul_left this hcpos
  have hwle : w i ≤ (n + 1) ^ 2 / 4 := by
    simp only [w]
    nlinarith [sq_nonneg (2 * (((i : Int) : ℝ)) + 1 - n)]
  have hμ : 0 ≤ μ := by
    by_contra h
    push Not at h
    nlinarith [hw i]
  have h5 : a / dx ^ 2 * 2 ≤ μ * ((n + 1) ^ 2 / 4) := h4.trans (mul_le_mul_of_nonneg_left hwle hμ)
  have hn : (0 : ℝ) < (n + 1) ^ 2 := by positivity
  rw [mul_pow, mul_comm ((n + 1 : ℝ) ^ 2), ← div_div, div_le_iff₀ hn, mul_div_assoc]
  linarith

/-- C103.  The shipped one-dimensional heat equation on an interval of length `len` (`n` interior points at
distance `dx`, diffusivity `a ≥ 0`, any source), coarsest steps of size `H` or more, distance `k`: the window
leaves `(1 / (1 + 8 a H / len²)) ^ (k - 1)`, which does not depend on the number of spatial points. -/
theorem C103_heat_1d {N : Type} [Zero N] {n : Nat} {E : Cfg (Fin n → ℝ) ℝ ℝ N}
    (hv : Valid E.ts) (hmax : 0 < E.maxIter) (hT : Copying E) {a dx H len : ℝ} (ha : 0 ≤ a)
    (hlen : len = (n + 1) * dx) (hH : 0 ≤ H) (rhs : ℝ → Fin n → ℝ)
    (hstep : ∀ l u t t', l < E.ts.length → t ≤ t' → Apps.heat1dStep a dx rhs u t t' (E.step l u t t'))
    {k : Nat} (hk : 1 ≤ k)
    (hHs : ∀ i, i + 1 < npts E.ts (E.ts.length - 1) →
      H ≤ tAt (grid E.ts (E.ts.length - 1)) (i + 1) - tAt (grid E.ts (E.ts.length - 1)) i)
    (hnest : E.nested = false) (i : Nat) (hi : i < npts E.ts 0) :
    ∑ x, ((atRun E k).st.u 0 i x - timeStepping E i x) ^ 2
      ≤ (atConvRate E (1 / 3) ((1 / (1 + H * (8 * a / len ^ 2))) ^ (k - 1)) ^ 2) ^ (atRun E k).iter *
        ∑ i ∈ (allC E.ts 0).toFinset.erase 0, ∑ x, (E.guess i x - timeStepping E i x) ^ 2 := by
  subst hlen
  exact C103_symmetric hv hmax hT (Apps.heatMatrix_symm n a dx) (by positivity)
    (fun v μ hv he => heat_eigen_ge ha v μ hv he) hH (fun _ t t' => (t' - t) • rhs t') hstep hk hHs hnest i hi

/-! ## Examples -/

theorem exRealGrid_coarse {i : Nat} (hi : i + 1 < npts exRealGrid 1) :
    3 ≤ tAt (grid exRealGrid 1) (i + 1) - tAt (grid exRealGrid 1) i := by
  have : i + 1 < 3 := hi
  rcases i with _ | _ | i
  · simp [exRealGrid, grid, tAt]
  · simp [exRealGrid, grid, tAt]; norm_num
  · omega

/-- `C103_dahlquist` for `λ = -1` and distance 5: the factor is `1/3 + 4/3 · 1/256`. -/
example (D : ℝ) (hD0 : 0 ≤ D)
    (hD : ∀ i, i ∈ allC exRealGrid 0 → i ≠ 0 → |0 - timeStepping
      (exReal (fun _ u t t' => Apps.dahlquist .BE (-1) u t t') 1 0 false) i| ≤ D) (i : Nat) (hi : i < 5) :
    |(atRun (exReal (fun _ u t t' => Apps.dahlquist .BE (-1) u t t') 1 0 false) 5).st.u 0 i
      - timeStepping (exReal (fun _ u t t' => Apps.dahlquist .BE (-1) u t t') 1 0 false) i|
      ≤ (65 / 192) ^ (atRun (exReal (fun _ u t t' => Apps.dahlquist .BE (-1) u t t') 1 0 false) 5).iter * D := by
  have hG := exReal_good (fun _ u t t' => Apps.dahlquist .BE (-1) u t t') (1 : ℝ) 0 false
  have := C103_dahlquist exRealGrid_valid (by show 0 < 5; decide) hG.2.copying (lam := -1) (H := 3) (by norm_num)
    (by norm_num) (fun _ _ _ _ _ => rfl) (k := 5) (by decide) (fun i hi => exRealGrid_coarse hi) rfl D hD0 hD i hi
  rw [C103_rate_two hG.2.w0 hG.2.w1 rfl] at this
  norm_num at this ⊢
  exact this

/-- `C103_heat_1d` with 7 unknowns and a source. -/
example (i : Nat) (hi : i < 5) :=
  C103_heat_1d exRealGrid_valid (by show 0 < 5; decide)
    (exReal_good (exHeat 7 2 (1 / 8) fun t _ => t) 1 0 false).2.copying (a := 2) (dx := 1 / 8) (H := 3) (len := 1)
    (by norm_num) (by norm_num) (by norm_num) (fun t _ => t)
    (fun l u _ _ _ ht => exHeat_step (by norm_num) _ l u ht) (k := 3) (by decide)
    (fun i hi => exRealGrid_coarse hi) rfl i hi

end Pymgrit
