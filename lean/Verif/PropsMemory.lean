import Verif.PropsInexact
import Verif.MemoryProofs

/-!
# Property C137: steps that depend on the earlier calls

The application objects of a user need not be functions of their arguments: the solvers inside the Firedrake applications
start from the result of the previous call, wherever in time and on whatever iterate that call was made.  If every call is
within `ε` of an ideal step, whatever calls came before, then the error of the result is bounded as for inexact steps without
memory (C104); two runs with different histories differ by at most twice that bound, but they do differ.
-/

set_option linter.unusedSectionVars false

namespace Pymgrit
open Cfg Sys Memory

section
variable {V T N σ : Type} [LinearOrder T] [Inhabited T] [AddCommGroup V] [Module ℝ V] [Zero N]

/-- The calls made by the solver with the objects of a user: `mst m l x t t'` is `step[l](x, t, t')` with memory `m`. -/
def gridStep (E : Cfg V ℝ T N) (mst : σ → Nat → V → T → T → V × σ) : MStep V σ :=
  fun m l i x => mst m l x (tAt (grid E.ts l) (i - 1)) (tAt (grid E.ts l) i)

/-- After the constructor, on one time process. -/
def constructedM (E : Cfg V ℝ T N) (mst : σ → Nat → V → T → T → V × σ) (m : σ) : Run V N × σ :=
  setupM E.sys (gridStep E mst) E.ctl (Run.init E.start E.zero E.guess, m)

/-- After the constructor and `solve`. -/
def solvedM (E : Cfg V ℝ T N) (mst : σ → Nat → V → T → T → V × σ) (m : σ) : Run V N × σ :=
  solveM E.sys (gridStep E mst) E.ctl (constructedM E mst m)

variable {E : Cfg V ℝ T N} {mst : σ → Nat → V → T → T → V × σ} {Inv : σ → Prop} {p : Seminorm ℝ V} {κ ε : ℝ}

/-- C137.  Objects without memory: the functions of `Verif.Memory` are those of `Verif.Driver`. -/
theorem C137_memoryless (E : Cfg V ℝ T N) (m : σ) :
    solvedM E (fun m l x t t' => (E.step l x t t', m)) m
      = (E.sys.solve E.ctl E.sys.forwardSolve (afterConstructor E), m) := by
  have e : gridStep E (fun (m : σ) l x t t' => (E.step l x t t', m)) = plain E.sys.Φ := rfl
  have hi : ∀ cyc it s (m : σ), iterationM E.sys (plain E.sys.Φ) cyc it (s, m)
      = (E.sys.fineIteration E.sys.forwardSolve cyc it s, m) := by
    intro cyc it s m
    unfold iterationM Sys.fineIteration
    rw [iteration_pair E.sys.cf (opM_plain E.sys), Trace.iteration_sys]
  have hc : ∀ it (r : Run V N) (m : σ), convergenceM E.sys (plain E.sys.Φ) E.ctl it (r, m)
      = (E.sys.convergence E.ctl it r, m) := by
    intro it r m
    unfold convergenceM Sys.convergence
    split
    · simp only [residualsM_plain]
    · rfl
  have hb : ∀ it (r : Run V N) (m : σ), solveBodyM E.sys (plain E.sys.Φ) E.ctl it (r, m)
      = (E.sys.solveBody E.ctl E.sys.forwardSolve it r, m) := by
    intro it r m
    unfold solveBodyM Sys.solveBody
    simp only [hi, hc]
    split <;> rfl
  have hl : ∀ k it (r : Run V N) (m : σ), solveLoopM E.sys (plain E.sys.Φ) E.ctl k it (r, m)
      = (E.sys.solveLoop E.ctl E.sys.forwardSolve k it r, m) := by
    intro k
    induction k with
    | zero => intro it r m; rfl
    | succ k ih =>
      intro it r m
      simp only [solveLoopM, Sys.solveLoop, hb]
      split
      · rfl
      · exact ih _ _ _
  have hs : constructedM E (fun (m : σ) l x t t' => (E.step l x t t', m)) m = (afterConstructor E, m) := by
    unfold constructedM afterConstructor setupM Sys.setup nestedM
    rw [e, nested_pair _ _ (opM_plain E.sys), ← Trace.nested_sys]
    split <;> split <;> split <;> rfl
  unfold solvedM solveM Sys.solve
  rw [hs, e, hl]
  split <;> rfl

/-- The setting of C104 with a memory. -/
theorem memory_hyp (hv : Valid E.ts) (hR : ∀ l, l + 1 < E.ts.length → ∀ x, E.R l x = x)
    (hI : ∀ l, l + 1 < E.ts.length → ∀ x, E.I l x = x)
    (hadj : ∀ l, l + 1 < E.ts.length → E.cf l = 0 ∨ ∀ i, i ∈ allC E.ts l → i + 1 ∉ allC E.ts l)
    (hκ : 0 ≤ κ) (hε : 0 ≤ ε) (hA : Approx E.sys p κ)
    (hnear : ∀ m l i x, Inv m → l < E.ts.length → i + 1 < npts E.ts l →
      p ((mst m l x (tAt (grid E.ts l) i) (tAt (grid E.ts l) (i + 1))).1
        - E.step l x (tAt (grid E.ts l) i) (tAt (grid E.ts l) (i + 1))) ≤ ε ∧
      Inv (mst m l x (tAt (grid E.ts l) i) (tAt (grid E.ts l) (i + 1))).2) :
    MHyp E.sys (gridStep E mst) Inv p κ ε (npts E.ts 0 * ε) where
  wf := E.sys_wf hv
  approx := hA
  nonneg := hκ
  R := hR
  I := hI
  adj := hadj
  eps := hε
  size := fun l hl => mul_le_mul_of_nonneg_right (Nat.cast_le.2 (npts_le hv l hl)) hε
  near := fun m l i x hm hl h1 hi => by
    obtain ⟨i, rfl⟩ : ∃ j, i = j + 1 := ⟨i - 1, by omega⟩
    exact (hnear m l i x hm hl hi).1
  inv := fun m l i x hm hl h1 hi => by
    obtain ⟨i, rfl⟩ : ∃ j, i = j + 1 := ⟨i - 1, by omega⟩
    exact (hnear m l i x hm hl hi).2

theorem setup_keeps {S : Sys V ℝ} {st : MStep V σ} {η : ℝ} (H : MHyp S st Inv p κ ε η) (c : Ctl V N)
    (r : Run V N) {m : σ} (hm : Inv m) :
    (setupM S st c (r, m)).1.st.u 0 0 = r.st.u 0 0 ∧ Inv (setupM S st c (r, m)).2 := by
  have key : (nestedM S st (r.st, m)).1.u 0 0 = r.st.u 0 0 ∧ Inv (nestedM S st (r.st, m)).2 :=
    nested_inv (P := fun q : GState V × σ => q.1.u 0 0 = r.st.u 0 0 ∧ Inv q.2) S.cf
      (fun o l a hl ha => by
        have := opM_keeps H o hl ha.2
        exact ⟨this.1.trans ha.1, this.2⟩) H.wf.Lpos ⟨rfl, hm⟩
  unfold setupM
  split <;> split <;> split <;> first | exact key | exact ⟨rfl, hm⟩

/-- C137.  `E.step` are ideal steps that satisfy the hypotheses of C104.  The calls of `step()` may depend on the earlier
calls through a memory; as long as the memory is admissible, a call is within `ε` of the ideal step and leaves an admissible
memory.  After `m` iterations the values differ from the ideal sequential time stepping by at most `q ^ m` times the error
at the coarse points after the constructor plus the multiple of `ε` of C104. -/
theorem C137_memory (hv : Valid E.ts) (hmax : 0 < E.maxIter) (hR : ∀ l, l + 1 < E.ts.length → ∀ x, E.R l x = x)
    (hI : ∀ l, l + 1 < E.ts.length → ∀ x, E.I l x = x)
    (hadj : ∀ l, l + 1 < E.ts.length → E.cf l = 0 ∨ ∀ i, i ∈ allC E.ts l → i + 1 ∉ allC E.ts l)
    (hκ : 0 ≤ κ) (hε : 0 ≤ ε) (hA : Approx E.sys p κ)
    (hnear : ∀ m l i x, Inv m → l < E.ts.length → i + 1 < npts E.ts l →
      p ((mst m l x (tAt (grid E.ts l) i) (tAt (grid E.ts l) (i + 1))).1
        - E.step l x (tAt (grid E.ts l) i) (tAt (grid E.ts l) (i + 1))) ≤ ε ∧
      Inv (mst m l x (tAt (grid E.ts l) i) (tAt (grid E.ts l) (i + 1))).2)
    (hq : convRate E κ < 1) {m : σ} (hm : Inv m) (D : ℝ)
    (hD : ∀ i, i ∈ allC E.ts 0 → p ((constructedM E mst m).1.st.u 0 i - timeStepping E i) ≤ D) :
    let r := solvedM E mst m
    Inv r.2 ∧ 1 ≤ r.1.iter ∧ r.1.iter ≤ E.maxIter ∧ ∀ i, i < npts E.ts 0 →
      p (r.1.st.u 0 i - timeStepping E i)
        ≤ convRate E κ ^ r.1.iter * D + inexactFactor E κ * (npts E.ts 0 * ε) / (1 - convRate E κ) := by
  intro r
  have H := memory_hyp (mst := mst) (Inv := Inv) hv hR hI hadj hκ hε hA hnear
  obtain ⟨k1, k2⟩ := setup_keeps H E.ctl (Run.init (N := N) E.start E.zero E.guess) hm
  have hsol : exactSol E.sys 0 (constructedM E mst m).1.st = timeStepping E := by
    rw [exactSol_zero (fun h => absurd rfl h)]
    unfold constructedM
    rw [k1]
    rfl
  have hlast : r = solvedM E mst m ∧ r.1.st = (solveLoopM E.sys (gridStep E mst) E.ctl E.maxIter 0
      (constructedM E mst m)).1.st ∧ r.1.iter = (solveLoopM E.sys (gridStep E mst) E.ctl E.maxIter 0
      (constructedM E mst m)).1.iter ∧ r.2 = (solveLoopM E.sys (gridStep E mst) E.ctl E.maxIter 0
      (constructedM E mst m)).2 := by
    refine ⟨rfl, ?_⟩
    show (solveM _ _ _ _).1.st = _ ∧ (solveM _ _ _ _).1.iter = _ ∧ (solveM _ _ _ _).2 = _
    unfold solveM
    dsimp only
    split <;> exact ⟨rfl, rfl, rfl⟩
  obtain ⟨-, l1, l2, l3⟩ := hlast
  obtain ⟨a1, a2, a3, -⟩ := solveLoopM_out E.ctl H (s0 := (constructedM E mst m).1.st) (D := D) E.maxIter 0
    (constructedM E mst m) hmax k2 (fun i hi => by
      rw [hsol]
      simpa [bound] using hD i hi) (fun h => absurd h (lt_irrefl 0)) (Keeps.refl 0 _)
  rw [l1, l2, l3]
  refine ⟨a3.inv, by omega, by omega, fun i hi => ?_⟩
  have h2 := a3.err i hi
  dsimp only at h2
  rw [exactSol_keeps a3.keeps, hsol] at h2
  refine h2.trans ?_
  generalize (solveLoopM E.sys (gridStep E mst) E.ctl E.maxIter 0 (constructedM E mst m)).1.iter = n
  have hrelax : ∀ l, 0 ≤ relaxFactor E l := fun l => by unfold relaxFactor; positivity
  have hq0 : 0 ≤ convRate E κ := rate_nonneg hκ hrelax _ _
  have hp0 : 0 ≤ inexactFactor E κ * (npts E.ts 0 * ε) :=
    mul_nonneg (pert_nonneg hκ hrelax (fun l => Nat.cast_nonneg _) _ _) (by positivity)
  have hgeo : ∑ j ∈ Finset.range n, convRate E κ ^ j ≤ 1 / (1 - convRate E κ) := by
    rw [geom_sum_eq hq.ne, ← neg_div_neg_eq, neg_sub, neg_sub]
    refine div_le_div_of_nonneg_right ?_ (by linarith)
    have := pow_nonneg hq0 n
    linarith
  show convRate E κ ^ n * D + (∑ j ∈ Finset.range n, convRate E κ ^ j)
    * (inexactFactor E κ * (npts E.ts 0 * ε)) ≤ _
  refine add_le_add le_rfl ?_
  rw [← one_div_mul_eq_div]
  exact mul_le_mul_of_nonneg_right hgeo hp0

/-- The values after the constructor without nested iteration. -/
theorem constructedM_value (hnest : E.nested = false) (m : σ) (i : Nat) :
    (constructedM E mst m).1.st.u 0 i = if i = 0 then E.start 0 else E.guess i := by
  have : (constructedM E mst m).1.st = (Run.init (N := N) E.start E.zero E.guess).st := by
    have h0 : ¬ E.ctl.nested = true := by
      rw [show E.ctl.nested = E.nested from rfl, hnest]; exact Bool.false_ne_true
    unfold constructedM setupM
    split <;> split <;> split <;> first | exact absurd ‹E.ctl.nested = true› h0 | rfl
  rw [this]
  unfold Run.init
  dsimp only
  split
  · rfl
  · rw [if_pos rfl]

/-- C137.  Two runs of the same problem with objects of different kind or history (`mst`, `mst'`, memories `m`, `m'`), without
nested iteration: the results differ by at most the two bounds together. -/
theorem C137_histories {σ' : Type} {mst' : σ' → Nat → V → T → T → V × σ'} {Inv' : σ' → Prop}
    (hv : Valid E.ts) (hmax : 0 < E.maxIter) (hR : ∀ l, l + 1 < E.ts.length → ∀ x, E.R l x = x)
    (hI : ∀ l, l + 1 < E.ts.length → ∀ x, E.I l x = x)
    (hadj : ∀ l, l + 1 < E.ts.length → E.cf l = 0 ∨ ∀ i, i ∈ allC E.ts l → i + 1 ∉ allC E.ts l)
    (hκ : 0 ≤ κ) (hε : 0 ≤ ε) (hA : Approx E.sys p κ)
    (hnear : ∀ m l i x, Inv m → l < E.ts.length → i + 1 < npts E.ts l →
      p ((mst m l x (tAt (grid E.ts l) i) (tAt (grid E.ts l) (i + 1))).1
        - E.step l x (tAt (grid E.ts l) i) (tAt (grid E.ts l) (i + 1))) ≤ ε ∧
      Inv (mst m l x (tAt (grid E.ts l) i) (tAt (grid E.ts l) (i + 1))).2)
    (hnear' : ∀ m l i x, Inv' m → l < E.ts.length → i + 1 < npts E.ts l →
      p ((mst' m l x (tAt (grid E.ts l) i) (tAt (grid E.ts l) (i + 1))).1
        - E.step l x (tAt (grid E.ts l) i) (tAt (grid E.ts l) (i + 1))) ≤ ε ∧
      Inv' (mst' m l x (tAt (grid E.ts l) i) (tAt (grid E.ts l) (i + 1))).2)
    (hq : convRate E κ < 1) {m : σ} (hm : Inv m) {m' : σ'} (hm' : Inv' m') (hnest : E.nested = false) (D : ℝ)
    (hD0 : 0 ≤ D) (hD : ∀ i, i ∈ allC E.ts 0 → i ≠ 0 → p (E.guess i - timeStepping E i) ≤ D)
    (i : Nat) (hi : i < npts E.ts 0) :
    p ((solvedM E mst m).1.st.u 0 i - (solvedM E mst' m').1.st.u 0 i)
      ≤ (convRate E κ ^ (solvedM E mst m).1.iter + convRate E κ ^ (solvedM E mst' m').1.iter) * D
        + 2 * (inexactFactor E κ * (npts E.ts 0 * ε) / (1 - convRate E κ)) := by
  have hc : ∀ {τ : Type} (f : τ → Nat → V → T → T → V × τ) (n : τ), ∀ i, i ∈ allC E.ts 0 →
      p ((constructedM E f n).1.st.u 0 i - timeStepping E i) ≤ D := by
    intro τ f n i hi
    rw [constructedM_value hnest]
    split
    · next e =>
      subst e
      show p (E.start 0 - E.start 0) ≤ D
      rw [sub_self, map_zero]; exact hD0
    · next e => exact hD i hi e
  have a := (C137_memory hv hmax hR hI hadj hκ hε hA hnear hq hm D (hc mst m)).2.2.2 i hi
  have b := (C137_memory hv hmax hR hI hadj hκ hε hA hnear' hq hm' D (hc mst' m')).2.2.2 i hi
  have e : (solvedM E mst m).1.st.u 0 i - (solvedM E mst' m').1.st.u 0 i
      = ((solvedM E mst m).1.st.u 0 i - timeStepping E i) - ((solvedM E mst' m').1.st.u 0 i - timeStepping E i) := by abel
  rw [e]
  refine (map_sub_le_add p _ _).trans ((add_le_add a b).trans (le_of_eq ?_))
  ring

end

section
variable {V T σ : Type} [LinearOrder T] [Inhabited T] [AddCommGroup V] [Module ℝ V]
  {E : Cfg V ℝ T ℝ} {mst : σ → Nat → V → T → T → V × σ} {Inv : σ → Prop} {p : Seminorm ℝ V} {κ ε : ℝ}

theorem forall₂_get {α : Type} {R : α → α → Prop} {as bs : List α} (h : List.Forall₂ R as bs) {b : α} (hb : b ∈ bs) :
    ∃ a ∈ as, R a b := by
  induction h with
  | nil => simp at hb
  | cons h1 h2 ih =>
    rcases List.mem_cons.1 hb with rfl | hb
    · exact ⟨_, by simp, h1⟩
    · obtain ⟨a, ha, hr⟩ := ih hb
      exact ⟨a, by simp [ha], hr⟩

/-- C137.  The run stopped before `max_iter` because the residual was below `tol`, with a `t_norm` that is at least each
entry (all norms of the constructor are): the residuals of the returned values with the ideal steps are below `tol + ε`,
although the calls that computed the reported ones and those that computed the values had different memories. -/
theorem C137_stopped (hv : Valid E.ts) (hmax : 0 < E.maxIter) (hR : ∀ l, l + 1 < E.ts.length → ∀ x, E.R l x = x)
    (hI : ∀ l, l + 1 < E.ts.length → ∀ x, E.I l x = x)
    (hadj : ∀ l, l + 1 < E.ts.length → E.cf l = 0 ∨ ∀ i, i ∈ allC E.ts l → i + 1 ∉ allC E.ts l)
    (hκ : 0 ≤ κ) (hε : 0 ≤ ε) (hA : Approx E.sys p κ)
    (hnear : ∀ m l i x, Inv m → l < E.ts.length → i + 1 < npts E.ts l →
      p ((mst m l x (tAt (grid E.ts l) i) (tAt (grid E.ts l) (i + 1))).1
        - E.step l x (tAt (grid E.ts l) i) (tAt (grid E.ts l) (i + 1))) ≤ ε ∧
      Inv (mst m l x (tAt (grid E.ts l) i) (tAt (grid E.ts l) (i + 1))).2)
    {m : σ} (hm : Inv m) (hcrit : E.convCrit = 0) (hnorm : E.norm = p) {tol : ℝ}
    (htol : ∀ x, E.ltTol x = true → x < tol) (ht : ∀ xs : List ℝ, ∀ x ∈ xs, x ≤ E.tnorm xs)
    (hstop : (solvedM E mst m).1.iter < E.maxIter) :
    ∀ i, i + 1 ∈ allC E.ts 0 →
      p (E.step 0 ((solvedM E mst m).1.st.u 0 i) (tAt (grid E.ts 0) i) (tAt (grid E.ts 0) (i + 1))
        - (solvedM E mst m).1.st.u 0 (i + 1)) < tol + ε := by
  have H := memory_hyp (mst := mst) (Inv := Inv) hv hR hI hadj hκ hε hA hnear
  obtain ⟨-, k2⟩ := setup_keeps H E.ctl (Run.init (N := ℝ) E.start E.zero E.guess) hm
  set q := solveLoopM E.sys (gridStep E mst) E.ctl E.maxIter 0 (constructedM E mst m) with hq
  have hr : (solvedM E mst m).1.st = q.1.st ∧ (solvedM E mst m).1.iter = q.1.iter := by
    show (solveM _ _ _ _).1.st = _ ∧ (solveM _ _ _ _).1.iter = _
    unfold solveM
    dsimp only
    split <;> exact ⟨rfl, rfl⟩
  obtain ⟨D, hD⟩ : ∃ D, CErrLe E.sys p 0 (constructedM E mst m).1.st D := by
    obtain ⟨D, hD⟩ := ((allC E.ts 0).toFinset.image fun i => p ((constructedM E mst m).1.st.u 0 i
      - exactSol E.sys 0 (constructedM E mst m).1.st i)).exists_le
    exact ⟨D, fun i hi => hD _ (Finset.mem_image_of_mem _ (List.mem_toFinset.2 hi))⟩
  obtain ⟨a1, a2, -, a4, r', m', b1, b2, b3⟩ := solveLoopM_out E.ctl H (s0 := (constructedM E mst m).1.st) (D := D)
    E.maxIter 0 (constructedM E mst m) hmax k2 (fun i hi => by simpa [bound] using hD i hi)
    (fun h => absurd h (lt_irrefl 0)) (Keeps.refl 0 _)
  rw [← hq] at a1 a2 a4 b2 b3
  rw [hr.1]
  rw [hr.2] at hstop
  have hs := a4 (by omega)
  have hit : q.1.iter - 1 + 1 = q.1.iter := by omega
  unfold stops at hs
  rw [hit, Bool.or_eq_true, decide_eq_true_eq] at hs
  have hlt := htol _ (hs.resolve_right (fun h => by
    have : q.1.iter = E.maxIter := h
    omega))
  have hst := (solveBodyM_st (S := E.sys) (st := gridStep E mst) E.ctl (q.1.iter - 1) r').1
  rw [← b2] at hst
  have hconv : q.1.conv q.1.iter
      = E.tnorm ((residualsM E.sys (gridStep E mst) (q.1.st, m')).1.map E.norm) := by
    have e : (solveBodyM E.sys (gridStep E mst) E.ctl (q.1.iter - 1) r').1.conv (q.1.iter - 1 + 1)
        = E.tnorm ((residualsM E.sys (gridStep E mst) (iterationM E.sys (gridStep E mst) E.ctl.cyc (q.1.iter - 1)
          (r'.1.st, r'.2))).1.map E.norm) := by
      simp only [solveBodyM, convergenceM, if_pos (show E.ctl.convCrit = 0 from hcrit)]
      split
      · exact Function.update_self ..
      · exact Function.update_self ..
    rw [← b2, hit] at e
    rw [e, hst, b3]
  rw [hconv] at hlt
  intro i hi
  have hmem : E.step 0 (q.1.st.u 0 i) (tAt (grid E.ts 0) i) (tAt (grid E.ts 0) (i + 1)) - q.1.st.u 0 (i + 1)
      ∈ E.sys.residuals q.1.st := by
    refine List.mem_map.2 ⟨i + 1, List.mem_filter.2 ⟨hi, by simp⟩, rfl⟩
  obtain ⟨a, ha, hpa⟩ := forall₂_get (residualsM_near H (Ctl_lt H) q.1.st b1).1 hmem
  have h1 := ht _ _ (List.mem_map_of_mem (f := E.norm) ha)
  rw [hnorm] at h1 hlt
  have h2 := map_sub_le_add p a (a - (E.step 0 (q.1.st.u 0 i) (tAt (grid E.ts 0) i) (tAt (grid E.ts 0) (i + 1))
    - q.1.st.u 0 (i + 1)))
  rw [sub_sub_cancel] at h2
  linarith

end

/-! ## The calls -/

section
variable {V K : Type}

/-- Objects that write down the level and the point of every call. -/
def recording (Φ : Nat → Nat → V → V) : MStep V (List (Nat × Nat)) := fun m l i x => (Φ l i x, m ++ [(l, i)])

/-- The calls of `step()` of one operation on level `l`, in order: the F-points; the C-points but the first one; at each of
these the fine step to the point and the coarse step to its number; all points of the coarsest level. -/
def callsOf (S : Sys V K) : OpKind → Nat → List (Nat × Nat)
  | .fRelax, l => (S.F l).map fun i => (l, i)
  | .cRelax, l => ((S.C l).filter (· ≠ 0)).map fun i => (l, i)
  | .fas, l => ((S.C l).zipIdx.filter (·.2 ≠ 0)).flatMap fun ck => [(l, ck.1), (l + 1, ck.2)]
  | .corr, _ => []
  | .solve, l => (List.range' 1 (S.n l - 1)).map fun i => (l, i)
  | .interp, _ => []

theorem sweepM_recording (Φ : Nat → Nat → V → V) (l : Nat) (idx : List Nat) (f : (Nat → V) → Nat → V → V) (u : Nat → V)
    (m : List (Nat × Nat)) : (sweepM (recording Φ) l idx f (u, m)).2 = m ++ idx.map fun i => (l, i) := by
  induction idx generalizing u m with
  | nil => simp [sweepM]
  | cons i idx ih =>
    have e : sweepM (recording Φ) l (i :: idx) f (u, m)
        = sweepM (recording Φ) l idx f (Function.update u i (f u i (Φ l i (u (i - 1)))), m ++ [(l, i)]) := rfl
    rw [e, ih, List.map_cons]
    simp

theorem fasLoopM_recording (Φ : Nat → Nat → V → V) (l : Nat) (rhs : Nat × Nat → V → V → V) (x y : Nat × Nat → V)
    (cks : List (Nat × Nat)) (g : Nat → V) (m : List (Nat × Nat)) :
    (fasLoopM (recording Φ) l rhs x y cks (g, m)).2
      = m ++ (cks.filter (·.2 ≠ 0)).flatMap fun ck => [(l, ck.1), (l + 1, ck.2)] := by
  unfold fasLoopM
  induction cks generalizing g m with
  | nil => simp
  | cons ck cks ih =>
    rw [List.foldl_cons]
    by_cases h : ck.2 = 0
    · rw [if_pos h, ih, List.filter_cons_of_neg (by simpa using h)]
    · rw [if_neg h, List.filter_cons_of_pos (by simpa using h), List.flatMap_cons]
      refine (ih _ _).trans ?_
      simp [recording]

variable [Add V] [Sub V] [SMul K V] [One K] [Sub K]

theorem opM_recording (S : Sys V K) (Φ : Nat → Nat → V → V) (o : OpKind) (l : Nat) (r : GState V × List (Nat × Nat)) :
    (opM S (recording Φ) o l r).2 = r.2 ++ callsOf S o l := by
  obtain ⟨s, m⟩ := r
  cases o with
  | fRelax => exact sweepM_recording ..
  | cRelax => exact sweepM_recording ..
  | fas => exact fasLoopM_recording ..
  | corr => exact (List.append_nil m).symm
  | solve => exact sweepM_recording ..
  | interp => exact (List.append_nil m).symm

/-- C137.  The memory sees the calls of `step()` one after the other, in the order of the operations of the iteration
(`Trace.log`, C105) and, in each operation, in the order of the points; the residual adds the C-points of the finest level. -/
theorem C137_calls (S : Sys V K) (Φ : Nat → Nat → V → V) (cyc : Cycle) (it : Nat) (s : GState V)
    (m : List (Nat × Nat)) :
    (iterationM S (recording Φ) cyc it (s, m)).2
      = m ++ (Trace.log S.cf (S.L - 1) 0 cyc it true).flatMap (fun o => callsOf S o.1 o.2) ∧
    (nestedM S (recording Φ) (s, m)).2 = m ++ (Trace.nestedLog S.L S.cf).flatMap (fun o => callsOf S o.1 o.2) ∧
    (residualsM S (recording Φ) (s, m)).2 = m ++ ((S.C 0).filter (· ≠ 0)).map fun i => (0, i) := by
  have key : ∀ (ops : List (OpKind × Nat)) (r : GState V × List (Nat × Nat)),
      (Trace.runLog (opM S (recording Φ)) ops r).2 = r.2 ++ ops.flatMap fun o => callsOf S o.1 o.2 := by
    intro ops
    induction ops with
    | nil => intro r; simp [Trace.runLog]
    | cons o ops ih =>
      intro r
      have e : Trace.runLog (opM S (recording Φ)) (o :: ops) r
          = Trace.runLog (opM S (recording Φ)) ops (opM S (recording Φ) o.1 o.2 r) := rfl
      rw [e, ih, opM_recording, List.flatMap_cons, List.append_assoc]
  refine ⟨?_, ?_, ?_⟩
  · unfold iterationM
    rw [Trace.iteration_run, key, Trace.log_eq]
  · unfold nestedM Trace.nested
    rw [Trace.nestedLoop_run, key, opM_recording, Trace.nestedLog_eq, List.flatMap_cons, List.append_assoc]
  · have : ∀ (idx : List Nat) (as : List V) (m : List (Nat × Nat)), (idx.foldl (fun q i =>
        let r := recording Φ q.2 0 i (s.u 0 (i - 1))
        (q.1 ++ [r.1 - s.u 0 i], r.2)) (as, m)).2 = m ++ idx.map fun i => (0, i) := by
      intro idx
      induction idx with
      | nil => intro as m; simp
      | cons i idx ih =>
        intro as m
        rw [List.foldl_cons, List.map_cons, List.append_cons]
        exact ih _ _
    exact this _ _ _

/-- The calls of iteration `it` of `solve` and of the criterion after it. -/
def iterCalls (S : Sys V K) {N : Type} (c : Ctl V N) (it : Nat) : List (Nat × Nat) :=
  (Trace.log S.cf (S.L - 1) 0 c.cyc it true).flatMap (fun o => callsOf S o.1 o.2) ++
    if c.convCrit = 0 then ((S.C 0).filter (· ≠ 0)).map fun i => (0, i) else []

theorem solveBodyM_recording (S : Sys V K) {N : Type} (c : Ctl V N) (Φ : Nat → Nat → V → V) (it : Nat)
    (r : Run V N × List (Nat × Nat)) :
    (solveBodyM S (recording Φ) c it r).2 = r.2 ++ iterCalls S c it ∧ (solveBodyM S (recording Φ) c it r).1.iter = it + 1 := by
  obtain ⟨r, m⟩ := r
  unfold solveBodyM convergenceM iterCalls
  rw [← List.append_assoc, ← (C137_calls S Φ c.cyc it r.st m).1]
  dsimp only
  split <;> split
  · exact ⟨(C137_calls S Φ c.cyc it _ _).2.2, rfl⟩
  · exact ⟨(List.append_nil _).symm, rfl⟩
  · exact ⟨(C137_calls S Φ c.cyc it _ _).2.2, rfl⟩
  · exact ⟨(List.append_nil _).symm, rfl⟩

/-- C137.  The calls of the constructor and of `solve`: nested iteration; then for every iteration those of the cycle and of
the residual. -/
theorem C137_solve_calls (S : Sys V K) {N : Type} (c : Ctl V N) (hmax : 0 < c.maxIter) (Φ : Nat → Nat → V → V)
    (r : Run V N) (m : List (Nat × Nat)) :
    (setupM S (recording Φ) c (r, m)).2
      = m ++ (if c.nested then (Trace.nestedLog S.L S.cf).flatMap (fun o => callsOf S o.1 o.2) else []) ∧
    (solveM S (recording Φ) c (r, m)).2
      = m ++ (List.range (solveM S (recording Φ) c (r, m)).1.iter).flatMap (iterCalls S c) := by
  constructor
  · have h := (C137_calls S Φ c.cyc 0 r.st m).2.1
    unfold setupM
    cases c.nested
    · simp only [Bool.false_eq_true, if_false, List.append_nil]
      split <;> split <;> rfl
    · simp only [if_true]
      split <;> split <;> exact h
  · have key : ∀ k it (q : Run V N × List (Nat × Nat)), 0 < k → it < (solveLoopM S (recording Φ) c k it q).1.iter ∧
        (solveLoopM S (recording Φ) c k it q).2 = q.2 ++
          (List.range' it ((solveLoopM S (recording Φ) c k it q).1.iter - it)).flatMap (iterCalls S c) := by
      intro k
      induction k with
      | zero => intro it q h; omega
      | succ k ih =>
        intro it q _
        obtain ⟨e1, e2⟩ := solveBodyM_recording S c Φ it q
        have one : it < (solveBodyM S (recording Φ) c it q).1.iter ∧ (solveBodyM S (recording Φ) c it q).2 = q.2 ++
            (List.range' it ((solveBodyM S (recording Φ) c it q).1.iter - it)).flatMap (iterCalls S c) := by
          rw [e1, e2, Nat.add_sub_cancel_left]
          simp
        simp only [solveLoopM]
        split
        · exact one
        · rcases Nat.eq_zero_or_pos k with h0 | h0
          · subst h0; exact one
          · obtain ⟨b1, b2⟩ := ih (it + 1) (solveBodyM S (recording Φ) c it q) h0
            refine ⟨by omega, ?_⟩
            rw [b2, e1]
            obtain ⟨d, hd⟩ : ∃ d, (solveLoopM S (recording Φ) c k (it + 1) (solveBodyM S (recording Φ) c it q)).1.iter
              = it + 1 + d := ⟨_, (Nat.add_sub_cancel' b1.le).symm⟩
            rw [hd, show it + 1 + d - (it + 1) = d by omega, show it + 1 + d - it = d + 1 by omega, List.range'_succ,
              List.flatMap_cons, List.append_assoc]
    obtain ⟨-, b⟩ := key c.maxIter 0 (r, m) hmax
    unfold solveM
    dsimp only
    rw [List.range_eq_range']
    split <;> exact b

end

/-! ## A solver that starts from its last result -/

/-- A solver for the equation of a backward Euler step that starts from its last result and stops as soon as the error is at
most `ε`: if the last result is good enough, it is returned once more. -/
noncomputable def lastResult (lam ε : ℝ) (m : ℝ) (_ : Nat) (x t t' : ℝ) : ℝ × ℝ :=
  if |m - Apps.dahlquist .BE lam x t t'| ≤ ε then (m, m)
  else (Apps.dahlquist .BE lam x t t', Apps.dahlquist .BE lam x t t')

/-- C137.  Dahlquist problem with `λ ≤ 0`, backward Euler, any objects whose calls are within `ε` of it whatever calls came
before. -/
theorem C137_dahlquist {N σ : Type} [Zero N] {E : Cfg ℝ ℝ ℝ N} (h : E.Good) (hmax : 0 < E.maxIter) (hT : Copying E)
    (hadj : ∀ l, l + 1 < E.ts.length → E.cf l = 0 ∨ ∀ i, i ∈ allC E.ts l → i + 1 ∉ allC E.ts l)
    {lam ε : ℝ} (hlam : lam ≤ 0) (hε : 0 ≤ ε)
    (hstep : ∀ l u t t', l < E.ts.length → E.step l u t t' = Apps.dahlquist .BE lam u t t')
    (mst : σ → Nat → ℝ → ℝ → ℝ → ℝ × σ)
    (hnear : ∀ m l u t t', l < E.ts.length → t ≤ t' → |(mst m l u t t').1 - Apps.dahlquist .BE lam u t t'| ≤ ε)
    (hq : convRate E (1 / 3) < 1) (hnest : E.nested = false) (D : ℝ) (hD0 : 0 ≤ D)
    (hD : ∀ i, i ∈ allC E.ts 0 → i ≠ 0 → |E.guess i - timeStepping E i| ≤ D) (m : σ) (i : Nat)
    (hi : i < npts E.ts 0) :
    |(solvedM E mst m).1.st.u 0 i - timeStepping E i|
      ≤ convRate E (1 / 3) ^ (solvedM E mst m).1.iter * D
        + inexactFactor E (1 / 3) * (npts E.ts 0 * ε) / (1 - convRate E (1 / 3)) := by
  have hf := dahlquist_damped hstep
  refine (C137_memory (p := (normSeminorm ℝ ℝ).comp LinearMap.id) (Inv := fun _ => True) h.valid hmax hT.R hT.I hadj
    (by norm_num) hε (hf.approx h.valid (by linarith)) (fun m l i x _ hl hi => ⟨?_, trivial⟩) hq trivial D ?_).2.2.2 i hi
  · show |(mst m l x _ _).1 - _| ≤ ε
    rw [hstep l _ _ _ hl]
    exact hnear m l x _ _ hl (tAt_mono (h.valid.sorted l) (by omega) hi)
  · intro i hi
    show |_| ≤ D
    rw [constructedM_value hnest]
    split
    · next e =>
      subst e
      show |E.start 0 - E.start 0| ≤ D
      rw [sub_self, abs_zero]; exact hD0
    · next e => exact hD i hi e

theorem lastResult_near (lam : ℝ) {ε : ℝ} (hε : 0 ≤ ε) (m : ℝ) (l : Nat) (x t t' : ℝ) :
    |(lastResult lam ε m l x t t').1 - Apps.dahlquist .BE lam x t t'| ≤ ε := by
  unfold lastResult
  split
  · assumption
  · rw [sub_self, abs_zero]; exact hε

/-- `C137_dahlquist` with five points, two levels, CF-relaxation, and the solver that starts from its last result. -/
example (m D : ℝ) (hD0 : 0 ≤ D)
    (hD : ∀ i, i ∈ allC exRealGrid 0 → i ≠ 0 →
      |0 - timeStepping (exReal (fun _ => Apps.dahlquist .BE (-2)) 1 0 false) i| ≤ D) (i : Nat) (hi : i < 5) :
    |(solvedM (exReal (fun _ => Apps.dahlquist .BE (-2)) 1 0 false) (lastResult (-2) (1 / 1000)) m).1.st.u 0 i
        - timeStepping (exReal (fun _ => Apps.dahlquist .BE (-2)) 1 0 false) i|
      ≤ (1 / 3) ^ (solvedM (exReal (fun _ => Apps.dahlquist .BE (-2)) 1 0 false)
          (lastResult (-2) (1 / 1000)) m).1.iter * D + 7 / 200 := by
  have hG := exReal_good (fun _ => Apps.dahlquist .BE (-2)) (1 : ℝ) 0 false
  have hf := C104_factor_two hG.2.w0 hG.2.w1 rfl (1 / 3)
  have := C137_dahlquist hG.1 (by show 0 < 5; decide) hG.2.copying (exReal_gap _ 1 0 false) (lam := -2)
    (ε := 1 / 1000) (by norm_num) (by norm_num) (fun _ _ _ _ _ => rfl) (lastResult (-2) (1 / 1000))
    (fun m l u t t' _ _ => lastResult_near (-2) (by norm_num) m l u t t') (by rw [hf.1]; norm_num) rfl D hD0 hD m i hi
  rw [hf.1, hf.2] at this
  have e : npts (exReal (fun _ => Apps.dahlquist .BE (-2)) (1 : ℝ) 0 false).ts 0 = 5 := rfl
  have e2 : (exReal (fun _ => Apps.dahlquist .BE (-2)) (1 : ℝ) 0 false).cf 0 = 1 := rfl
  rw [e, e2] at this
  norm_num at this ⊢
  exact this

/-! ## The history matters -/

/-- Five points, two levels, the ideal step is the identity. -/
def memSys : Sys ℤ ℤ where
  L := 2
  n := fun l => if l = 0 then 5 else 3
  C := fun l => if l = 0 then [0, 2, 4] else [0, 1, 2]
  F := fun l => if l = 0 then [1, 3] else []
  Φ := fun _ _ x => x
  R := fun _ x => x
  I := fun _ x => x
  cf := fun _ => 1
  w := 1

def memCtl : Ctl ℤ ℤ where
  cyc := .V
  nested := false
  maxIter := 3
  convCrit := 0
  norm := fun x => |x|
  tnorm := fun xs => xs.sum
  ltTol := fun x => decide (x < 0)
  outLvl := 0

/-- The solver of `lastResult` for this step with tolerance 1. -/
def memStep : MStep ℤ ℤ := fun m _ _ x => if |m - x| ≤ 1 then (m, m) else (x, x)

def memRun (m : ℤ) : Run ℤ ℤ × ℤ :=
  solveM memSys memStep memCtl (setupM memSys memStep memCtl (Run.init (fun _ => 10) (fun _ => 0) (fun _ => 10), m))

/-- C137.  The result does depend on the calls made before the run: the calls are within 1 of the ideal step with either
memory, all reported residuals are zero in both runs, and the values differ by 1 at every point but the first. -/
theorem C137_history_matters :
    (∀ m l i x, |(memStep m l i x).1 - memSys.Φ l i x| ≤ 1) ∧
    (∀ k < 4, (memRun 10).1.conv k = 0 ∧ (memRun 11).1.conv k = 0) ∧
    (List.range 5).map ((memRun 10).1.st.u 0) = [10, 10, 10, 10, 10] ∧
    (List.range 5).map ((memRun 11).1.st.u 0) = [10, 11, 11, 11, 11] := by
  refine ⟨fun m l i x => ?_, by decide +kernel, by decide +kernel, by decide +kernel⟩
  unfold memStep
  split
  · assumption
  · show |x - x| ≤ 1
    rw [sub_self]; norm_num

/-- The calls of the first iteration of the example: F-relaxation, CF-relaxation, right-hand sides, coarsest level,
F-relaxation. -/
example : (iterationM memSys (recording memSys.Φ) .V 0 (⟨fun _ _ => 1, fun _ _ => 0, fun _ _ => 0⟩, [])).2
    = [(0, 1), (0, 3), (0, 2), (0, 4), (0, 1), (0, 3), (0, 2), (1, 1), (0, 4), (1, 2), (1, 1), (1, 2), (0, 1), (0, 3)] := by
  rw [(C137_calls ..).1]
  decide +kernel

/-- `C137_stopped`: the hypotheses on the control parameters are those of `conv_crit=0` with the maximum norm. -/
example (m : ℝ) {E : Cfg ℝ ℝ ℝ ℝ} (hE : E = { ts := exRealGrid, step := fun _ => Apps.dahlquist .BE (-2)
                                              R := fun _ x => x, I := fun _ x => x, cf := fun _ => 1, w := 1 / 2
                                              start := fun _ => 1, zero := fun _ => 0, guess := fun _ => 0
                                              cyc := Sys.Cycle.V, nested := true, maxIter := 50, convCrit := 0
                                              norm := fun x => |x|, tnorm := fun xs => xs.foldr max 0
                                              ltTol := fun x => x < 1 / 100, outLvl := 0, ord := fun _ _ xs => xs
                                              P := 1, instr := false })
    (hstop : (solvedM E (lastResult (-2) (1 / 1000)) m).1.iter < 50) (i : Nat) (hi : i + 1 ∈ allC exRealGrid 0) :
    |Apps.dahlquist .BE (-2) ((solvedM E (lastResult (-2) (1 / 1000)) m).1.st.u 0 i) (tAt (grid exRealGrid 0) i)
        (tAt (grid exRealGrid 0) (i + 1)) - (solvedM E (lastResult (-2) (1 / 1000)) m).1.st.u 0 (i + 1)|
      < 1 / 100 + 1 / 1000 := by
  have hv : Valid exRealGrid := (exReal_good (fun _ => Apps.dahlquist .BE (-2)) (1 : ℝ) 0 false).1.valid
  have hf : Damped E LinearMap.id (-(-2)) := dahlquist_damped (by subst hE; exact fun _ _ _ _ _ => rfl)
  have hts : E.ts = exRealGrid := by rw [hE]
  have hA := hf.approx (by rw [hts]; exact hv) (by norm_num)
  subst hE
  exact C137_stopped (p := (normSeminorm ℝ ℝ).comp LinearMap.id) (κ := 1 / 3) (ε := 1 / 1000) (Inv := fun _ => True)
    hv (by show 0 < 50; decide) (fun _ _ _ => rfl) (fun _ _ _ => rfl)
    (exReal_gap (fun _ => Apps.dahlquist .BE (-2)) (1 : ℝ) 0 false) (by norm_num) (by norm_num) hA
    (fun m l i x _ _ _ => ⟨lastResult_near (-2) (by norm_num) m l x _ _, trivial⟩) trivial rfl rfl
    (fun x hx => of_decide_eq_true hx) (fun xs x hx => by
      induction xs with
      | nil => simp at hx
      | cons a xs ih =>
        rcases List.mem_cons.1 hx with rfl | h
        · exact le_max_left _ _
        · exact (ih h).trans (le_max_right _ _)) hstop i hi

end Pymgrit
