import Verif.EndToEnd
import Verif.PropsAlgo
import Verif.PropsParam
import Verif.Causal

/-!
# Further end-to-end statements: what `solve()` returns on any number of processes

C12, C40, C68, C71, C72 and C74 for the values that the processes hold when all of them have returned, for
every interleaving of their operations.
-/

set_option linter.unusedSectionVars false

namespace Pymgrit
open Cfg Sys

variable {V K T N : Type} [LinearOrder T] [Inhabited T]

/-- The state after the constructor (`create_u_v_g`, nested iteration). -/
def afterConstructor [Add V] [Sub V] [SMul K V] [One K] [Sub K] [Zero N] (E : Cfg V K T N) : Run V N :=
  E.sys.setup E.ctl E.sys.forwardSolve (Run.init E.start E.zero E.guess)

section
variable [Add V] [Sub V] [SMul K V] [One K] [Sub K] [Zero N]

/-- Every process returns the values of the iterates at its points, the recorded numbers are the values
of the criterion, and the loop stopped for one of its two reasons. -/
theorem returned {E : Cfg V K T N} (h : E.Good) (hmax : 0 < E.maxIter)
    {c : Conf E.P (Msg V N) (PState V N)} (h1 : Steps (startConf E) c) (hc : ∀ d, ¬ Step c d)
    (r : Fin E.P) (s : PState V N) (hr : c.prog r = Prog.ret s) :
    1 ≤ s.solveIter ∧ s.solveIter ≤ E.maxIter ∧
    (E.ltTol (s.conv s.solveIter) = true ∨ s.solveIter = E.maxIter) ∧
    s.conv s.solveIter = E.sys.critValue E.ctl E.sys.forwardSolve (afterConstructor E) (s.solveIter - 1) ∧
    ∀ k i j : Nat, (E.info r 0).pts[k]? = some i → (E.info r 0).idx[k]? = some j → i < E.sys.n 0 ∧
      s.u 0 j = (iterates E.sys E.sys.forwardSolve E.cyc s.solveIter (afterConstructor E).st).u 0 i := by
  obtain ⟨s', e, hS⟩ := C20_same_as_serial_partial h h1 hc r
  rw [hr] at e
  cases e
  have hser : serialRun E = E.sys.solve E.ctl E.sys.forwardSolve (afterConstructor E) := rfl
  obtain ⟨m, hm1, hm2, hit, hst, -, hstop, hcv, -⟩ :=
    C17_stopping_rule (S := E.sys) E.ctl E.sys.forwardSolve (afterConstructor E) hmax
  have hI : s.solveIter = m := by rw [hS.iter, hser, hit]
  rw [hI]
  refine ⟨hm1, hm2, ?_, ?_, fun k i j hi hj => ⟨?_, ?_⟩⟩
  · rw [hS.conv, hser]; exact hstop
  · rw [hS.conv, hser]; exact hcv m hm1 (Nat.le_refl m)
  · obtain ⟨_, b, _⟩ := own_local h r.isLt h.valid.pos hi hj
    exact Nat.lt_of_lt_of_le b (h.lo_le _ _)
  · rw [hS.values 0 k i j h.valid.pos hi hj, hser, hst]
    rfl

/-- C18 on any number of processes: the history every process returns lists, in order, the values of the
criterion of the performed iterations except those that are exactly zero. -/
theorem C18_distributed_partial [DecidableEq N] {E : Cfg V K T N} (h : E.Good) (hmax : 0 < E.maxIter)
    {c : Conf E.P (Msg V N) (PState V N)} (h1 : Steps (startConf E) c) (hc : ∀ d, ¬ Step c d)
    (r : Fin E.P) (s : PState V N) (hr : c.prog r = Prog.ret s) :
    E.convHistory s = ((List.range s.solveIter).map fun j =>
      E.sys.critValue E.ctl E.sys.forwardSolve (afterConstructor E) j).filter fun x => decide (x ≠ 0) := by
  obtain ⟨s', e, hS⟩ := C20_same_as_serial_partial h h1 hc r
  rw [hr] at e
  cases e
  have hc' := C18_history_partial (S := E.sys) E.ctl E.sys.forwardSolve E.start E.zero E.guess hmax
  have e1 : E.convHistory s = (serialRun E).history E.ctl := by
    unfold Cfg.convHistory Run.history
    exact congrArg (List.filter _) (List.map_congr_left fun j _ => hS.conv j)
  rw [e1, hS.iter]
  exact hc'

theorem start_value {E : Cfg V K T N} (h : E.Good) (k : Nat) :
    (iterates E.sys E.sys.forwardSolve E.cyc k (afterConstructor E).st).u 0 0 = E.start 0 :=
  (C11_initial_value (E.sys_wf h.valid) E.ctl E.start E.zero E.guess).2.1 k

theorem constructor_value {E : Cfg V K T N} (hnest : E.nested = false) (l i : Nat) :
    (afterConstructor E).st.u l i = if i = 0 then E.start l else if l = 0 then E.guess i else E.zero l := by
  unfold afterConstructor
  rw [setup_st, if_neg (by rw [show E.ctl.nested = E.nested from rfl, hnest]; exact Bool.false_ne_true)]
  rfl

theorem constructor_nested {E : Cfg V K T N} (hnest : E.nested = true) :
    (afterConstructor E).st = E.sys.nestedIteration E.sys.forwardSolve
      (Run.init (N := N) E.start E.zero E.guess).st := by
  unfold afterConstructor
  rw [setup_st, if_pos (show E.ctl.nested = true from hnest)]

end

/-- C12 on any number of processes: started from sequential time stepping, `solve()` returns it,
whatever the number of iterations. -/
theorem C12_distributed [AddCommGroup V] [Ring K] [Module K V] [Zero N] {E : Cfg V K T N} (h : E.Good)
    (hmax : 0 < E.maxIter) (hnest : E.nested = false)
    (hR : ∀ l, l + 1 < E.ts.length → E.R l 0 = 0) (hI : ∀ l, l + 1 < E.ts.length → E.I l 0 = 0)
    (hg : ∀ i, 1 ≤ i → i < npts E.ts 0 → E.guess i = timeStepping E i)
    {c : Conf E.P (Msg V N) (PState V N)} (h1 : Steps (startConf E) c) (hc : ∀ d, ¬ Step c d) :
    AllSolved E c := by
  refine allSolved_of_serial h h1 hc ?_
  obtain ⟨m, -, -, -, hst, -⟩ :=
    C17_stopping_rule (S := E.sys) E.ctl E.sys.forwardSolve (afterConstructor E) hmax
  have hser : serialRun E = E.sys.solve E.ctl E.sys.forwardSolve (afterConstructor E) := rfl
  rw [hser, hst]
  clear hst
  induction m with
  | zero =>
    intro i hi
    show (afterConstructor E).st.u 0 i = seqSol (E.sys.Φ 0) ((afterConstructor E).st.u 0 0) i
    rw [constructor_value hnest, constructor_value hnest, if_pos rfl]
    by_cases h0 : i = 0
    · subst h0; rfl
    · rw [if_neg h0, if_pos rfl, hg i (by omega) hi]; rfl
  | succ m ih => exact (C12_fixed_point (E.sys_wf h.valid) hR hI E.ctl.cyc m _ ih).2.1

/-- C68 on any number of processes: if the coarse step is the composition of the fine steps, `solve()`
returns sequential time stepping. -/
theorem C68_distributed [AddCommGroup V] [SMul K V] [One K] [Sub K] [Zero N] {E : Cfg V K T N}
    (h : E.Good) (hL : E.ts.length = 2) (hmax : 0 < E.maxIter) (hR : ∀ x, E.R 0 x = x)
    (hI : ∀ x, E.I 0 x = x)
    (hG : ∀ j, 1 ≤ j → j < npts E.ts 1 → ∀ x,
      E.step 1 x (tAt (grid E.ts 1) (j - 1)) (tAt (grid E.ts 1) j)
        = fineInterval (E.sys.Φ 0) (allC E.ts 0) j x)
    {c : Conf E.P (Msg V N) (PState V N)} (h1 : Steps (startConf E) c) (hc : ∀ d, ¬ Step c d) :
    AllSolved E c := by
  refine allSolved_of_serial h h1 hc ?_
  obtain ⟨m, hm, -, -, hst, -⟩ :=
    C17_stopping_rule (S := E.sys) E.ctl E.sys.forwardSolve (afterConstructor E) hmax
  have hser : serialRun E = E.sys.solve E.ctl E.sys.forwardSolve (afterConstructor E) := rfl
  rw [hser, hst]
  obtain ⟨m, rfl⟩ : ∃ k, m = k + 1 := ⟨m - 1, by omega⟩
  exact C68_ideal_coarse (E.sys_wf h.valid) hL hR hI hG _ _ m

/-- C71 on any number of processes: if the last recorded value of the residual criterion is at most
`tol`, the value every process returns for one of its points is within `tol` times the sum of
`lam^(i-c)` over the coarse points `1 ≤ c ≤ i` of sequential time stepping. -/
theorem C71_distributed [NormedAddCommGroup V] [SMul K V] [One K] [Sub K] {E : Cfg V K T ℝ} (h : E.Good)
    (hL : 1 < E.ts.length) (hmax : 0 < E.maxIter) (hcrit : E.convCrit = 0) (hnorm : ∀ x, E.norm x = ‖x‖)
    (htnorm : ∀ xs : List ℝ, (∀ x ∈ xs, 0 ≤ x) → ∀ x ∈ xs, x ≤ E.tnorm xs)
    (lam : ℝ) (hlam : 0 ≤ lam)
    (hstep : ∀ i, 1 ≤ i → i < npts E.ts 0 → ∀ x y,
      ‖E.step 0 x (tAt (grid E.ts 0) (i - 1)) (tAt (grid E.ts 0) i)
        - E.step 0 y (tAt (grid E.ts 0) (i - 1)) (tAt (grid E.ts 0) i)‖ ≤ lam * ‖x - y‖)
    {c : Conf E.P (Msg V ℝ) (PState V ℝ)} (h1 : Steps (startConf E) c) (hc : ∀ d, ¬ Step c d)
    (r : Fin E.P) (s : PState V ℝ) (hr : c.prog r = Prog.ret s) (tol : ℝ)
    (htol : s.conv s.solveIter ≤ tol)
    (k i j : Nat) (hi : (E.info r 0).pts[k]? = some i) (hj : (E.info r 0).idx[k]? = some j) :
    ‖s.u 0 j - timeStepping E i‖
      ≤ tol * ∑ p ∈ (Finset.Icc 1 i).filter (· ∈ allC E.ts 0), lam ^ (i - p) := by
  obtain ⟨a1, -, -, a4, a5⟩ := returned h hmax h1 hc r s hr
  obtain ⟨b1, b2⟩ := a5 k i j hi hj
  rw [b2]
  rw [a4] at htol
  obtain ⟨m, hm⟩ : ∃ m, s.solveIter = m + 1 := ⟨s.solveIter - 1, by omega⟩
  rw [hm] at htol ⊢
  have := C71_tolerance (E.sys_wf h.valid) hL E.sys.forwardSolve E.ctl hcrit hnorm htnorm lam hlam hstep m
    (afterConstructor E) tol htol i b1
  dsimp only at this
  rw [show E.ctl.cyc = E.cyc from rfl, start_value h] at this
  exact this

/-- C71.  In particular with the tolerance `tol` given to the constructor: if `solve()` stopped before
`max_iter`, the bound holds on every process. -/
theorem C71_stopped_distributed [NormedAddCommGroup V] [SMul K V] [One K] [Sub K] {E : Cfg V K T ℝ}
    (h : E.Good) (hL : 1 < E.ts.length) (hcrit : E.convCrit = 0)
    (hnorm : ∀ x, E.norm x = ‖x‖)
    (htnorm : ∀ xs : List ℝ, (∀ x ∈ xs, 0 ≤ x) → ∀ x ∈ xs, x ≤ E.tnorm xs)
    (tol : ℝ) (hlt : ∀ x, E.ltTol x = true → x < tol) (lam : ℝ) (hlam : 0 ≤ lam)
    (hstep : ∀ i, 1 ≤ i → i < npts E.ts 0 → ∀ x y,
      ‖E.step 0 x (tAt (grid E.ts 0) (i - 1)) (tAt (grid E.ts 0) i)
        - E.step 0 y (tAt (grid E.ts 0) (i - 1)) (tAt (grid E.ts 0) i)‖ ≤ lam * ‖x - y‖)
    {c : Conf E.P (Msg V ℝ) (PState V ℝ)} (h1 : Steps (startConf E) c) (hc : ∀ d, ¬ Step c d)
    (r : Fin E.P) (s : PState V ℝ) (hr : c.prog r = Prog.ret s) (hs : s.solveIter < E.maxIter)
    (k i j : Nat) (hi : (E.info r 0).pts[k]? = some i) (hj : (E.info r 0).idx[k]? = some j) :
    ‖s.u 0 j - timeStepping E i‖
      ≤ tol * ∑ p ∈ (Finset.Icc 1 i).filter (· ∈ allC E.ts 0), lam ^ (i - p) := by
  have hmax : 0 < E.maxIter := by omega
  obtain ⟨-, -, a3, -, -⟩ := returned h hmax h1 hc r s hr
  refine C71_distributed h hL hmax hcrit hnorm htnorm lam hlam hstep h1 hc r s hr tol ?_ k i j hi hj
  rcases a3 with a | a
  · exact (hlt _ a).le
  · omega

/-- C72 on any number of processes: the error of the returned values at the coarse points is at most the
error of the initial guess there times the `m`-th power of the contraction factor, `m` the number of
iterations performed. -/
theorem C72_distributed {𝕜 : Type} [NormedField 𝕜] [NormedAddCommGroup V] [NormedSpace 𝕜 V] [Zero N]
    {E : Cfg V 𝕜 T N} (h : E.Good) (hL : E.ts.length = 2) (hmax : 0 < E.maxIter) (hnest : E.nested = false)
    (hR : ∀ x, E.R 0 x = x) (hI : ∀ x, E.I 0 x = x)
    (hadj : E.cf 0 = 0 ∨ ∀ i, i ∈ allC E.ts 0 → i + 1 ∉ allC E.ts 0)
    (φ β α : ℝ) (hφ : 0 ≤ φ) (hβ : 0 ≤ β) (hα : 0 ≤ α)
    (hF : ∀ j, 1 ≤ j → j < npts E.ts 1 → ∀ x y,
      ‖fineInterval (E.sys.Φ 0) (allC E.ts 0) j x - fineInterval (E.sys.Φ 0) (allC E.ts 0) j y‖
        ≤ φ * ‖x - y‖)
    (hG : ∀ j, 1 ≤ j → j < npts E.ts 1 → ∀ x y, ‖E.sys.Φ 1 j x - E.sys.Φ 1 j y‖ ≤ β * ‖x - y‖)
    (hFG : ∀ j, 1 ≤ j → j < npts E.ts 1 → ∀ x y,
      ‖(fineInterval (E.sys.Φ 0) (allC E.ts 0) j x - E.sys.Φ 1 j x)
        - (fineInterval (E.sys.Φ 0) (allC E.ts 0) j y - E.sys.Φ 1 j y)‖ ≤ α * ‖x - y‖)
    (D : ℝ) (hD0 : 0 ≤ D) (hD : ∀ i, i ∈ allC E.ts 0 → i ≠ 0 → ‖E.guess i - timeStepping E i‖ ≤ D)
    {c : Conf E.P (Msg V N) (PState V N)} (h1 : Steps (startConf E) c) (hc : ∀ d, ¬ Step c d)
    (r : Fin E.P) (s : PState V N) (hr : c.prog r = Prog.ret s)
    (k i j : Nat) (hi : (E.info r 0).pts[k]? = some i) (hj : (E.info r 0).idx[k]? = some j)
    (hiC : i ∈ allC E.ts 0) :
    ‖s.u 0 j - timeStepping E i‖
      ≤ (α * (‖E.w‖ * φ + ‖1 - E.w‖) ^ E.cf 0 * ∑ k ∈ Finset.range (npts E.ts 1 - 1), β ^ k)
          ^ s.solveIter * D := by
  obtain ⟨-, -, -, -, a5⟩ := returned h hmax h1 hc r s hr
  obtain ⟨b1, b2⟩ := a5 k i j hi hj
  have hwf := E.sys_wf h.valid
  have hs0 : (afterConstructor E).st.u 0 0 = E.start 0 := start_value h 0
  obtain ⟨p, hp, rfl⟩ := (hwf.mem_C_iff (l := 0) (show 0 + 1 < E.ts.length by omega)).1 hiC
  have := C72_two_level_bound hwf hL hR hI hadj E.cyc φ β α hφ hβ hα hF hG hFG (afterConstructor E).st D
    (by
      intro q hq
      rw [hs0, constructor_value hnest]
      have hmem := (hwf.mem_C_iff (l := 0) (show 0 + 1 < E.ts.length by omega)).2 ⟨q, hq, rfl⟩
      split
      · next e =>
        rw [e]
        show ‖E.start 0 - E.start 0‖ ≤ D
        rw [sub_self, norm_zero]; exact hD0
      · next e => rw [if_pos rfl]; exact hD _ hmem e)
    s.solveIter p hp
  rw [hs0] at this
  rw [b2]
  exact this

/-- C74 on any number of processes: a linear quantity that steps and transfers preserve has the value of
the start vector in everything that is returned, whatever the initial guess was, with nested iteration. -/
theorem C74_distributed [Ring K] [AddCommGroup V] [Module K V] {A : Type} [AddCommGroup A] [Module K A]
    [Zero N] {E : Cfg V K T N} (h : E.Good) (hmax : 0 < E.maxIter) (hnest : E.nested = true)
    (q : Nat → V →ₗ[K] A) (a : A)
    (hstep : ∀ l x t t', q l (E.step l x t t') = q l x)
    (hR : ∀ l x, l + 1 < E.ts.length → q (l + 1) (E.R l x) = q l x)
    (hI : ∀ l x, l + 1 < E.ts.length → q l (E.I l x) = q (l + 1) x)
    (hstart : ∀ l, l < E.ts.length → q l (E.start l) = a) (hzero : ∀ l, E.zero l = 0)
    {c : Conf E.P (Msg V N) (PState V N)} (h1 : Steps (startConf E) c) (hc : ∀ d, ¬ Step c d)
    (r : Fin E.P) (s : PState V N) (hr : c.prog r = Prog.ret s)
    (k i j : Nat) (hi : (E.info r 0).pts[k]? = some i) (hj : (E.info r 0).idx[k]? = some j) :
    q 0 (s.u 0 j) = a := by
  obtain ⟨a1, -, -, -, a5⟩ := returned h hmax h1 hc r s hr
  obtain ⟨b1, b2⟩ := a5 k i j hi hj
  rw [b2, constructor_nested hnest]
  obtain ⟨m, hm⟩ : ∃ m, s.solveIter = m + 1 := ⟨s.solveIter - 1, by omega⟩
  rw [hm]
  exact C74_conserved_nested (E.sys_wf h.valid) q a (fun l i x _ _ _ => hstep l x _ _) hR hI E.cyc m _
    (fun l hl => hstart l hl) (fun l i => hzero l) i b1

/-- C40 on any number of processes: change the problem and the initial guess after time `τ` only, and use
any number of processes; if both runs performed the same number of iterations, the returned values at
times up to `τ` are the same. -/
theorem C40_distributed [Add V] [Sub V] [SMul K V] [One K] [Sub K] [Zero N] {E : Cfg V K T N} (h : E.Good)
    (hmax : 0 < E.maxIter) (τ : T) (step' : Nat → V → T → T → V) (guess' : Nat → V) (P' : Nat)
    (hstep : ∀ l x t t', t' ≤ τ → step' l x t t' = E.step l x t t')
    (hguess : ∀ i, tAt (grid E.ts 0) i ≤ τ → guess' i = E.guess i)
    {E' : Cfg V K T N} (hE' : E' = { E with step := step', guess := guess', P := P' }) (h' : E'.Good)
    {c : Conf E.P (Msg V N) (PState V N)} (h1 : Steps (startConf E) c) (hc : ∀ d, ¬ Step c d)
    {c' : Conf E'.P (Msg V N) (PState V N)} (h1' : Steps (startConf E') c') (hc' : ∀ d, ¬ Step c' d)
    (r : Fin E.P) (s : PState V N) (hr : c.prog r = Prog.ret s)
    (r' : Fin E'.P) (s' : PState V N) (hr' : c'.prog r' = Prog.ret s')
    (hit : s'.solveIter = s.solveIter)
    (i k j k' j' : Nat) (ht : tAt (grid E.ts 0) i ≤ τ)
    (hi : (E.info r 0).pts[k]? = some i) (hj : (E.info r 0).idx[k]? = some j)
    (hi' : (E'.info r' 0).pts[k']? = some i) (hj' : (E'.info r' 0).idx[k']? = some j') :
    s'.u 0 j' = s.u 0 j := by
  obtain ⟨-, -, -, -, a5⟩ := returned h hmax h1 hc r s hr
  obtain ⟨b1, b2⟩ := a5 k i j hi hj
  obtain ⟨-, -, -, -, a5'⟩ := returned h' (by rw [hE']; exact hmax) h1' hc' r' s' hr'
  obtain ⟨-, b2'⟩ := a5' k' i j' hi' hj'
  rw [b2, b2', hit]
  subst hE'
  exact C40_causal E h.valid τ step' guess' hstep hguess s.solveIter 0 i h.valid.pos b1 ht

/-! ## The hypotheses are met -/

/-- The conserving example on four processes. -/
theorem exMass_good : ({ exMass with P := 4 } : Cfg (Int × Int) Int Nat Int).Good :=
  have hg := exCfg_good 4 (by decide) (by decide)
  good_of_gap hg.valid hg.Ppos hg.PN hg.ord (Or.inl rfl) exGrid_gap

example {c : Conf 4 (Msg (Int × Int) Int) (PState (Int × Int) Int)}
    (h1 : Steps (startConf { exMass with P := 4 }) c) (hc : ∀ d, ¬ Step c d) (r : Fin 4)
    (s : PState (Int × Int) Int) (hr : c.prog r = Prog.ret s) (k i j : Nat)
    (hi : (Cfg.info { exMass with P := 4 } r 0).pts[k]? = some i)
    (hj : (Cfg.info { exMass with P := 4 } r 0).idx[k]? = some j) : (s.u 0 j).1 + (s.u 0 j).2 = 3 :=
  C74_distributed (E := { exMass with P := 4 }) exMass_good (by decide) rfl (fun _ => exTotal) 3
    (fun l x t t' => by simp [exMass, exTotal]) (fun _ _ _ => rfl) (fun _ _ _ => rfl)
    (fun _ _ => rfl) (fun _ => rfl) h1 hc r s hr k i j hi hj

/-- `C18_distributed_partial` for this example. -/
example {c : Conf 4 (Msg (Int × Int) Int) (PState (Int × Int) Int)}
    (h1 : Steps (startConf { exMass with P := 4 }) c) (hc : ∀ d, ¬ Step c d) (r : Fin 4)
    (s : PState (Int × Int) Int) (hr : c.prog r = Prog.ret s) :=
  C18_distributed_partial (E := { exMass with P := 4 }) exMass_good (by decide) h1 hc r s hr

/-- The two-level example of `Verif.PropsAlgo` on three processes. -/
theorem exTwo_gap (l i : Nat) (hl : l + 1 < exTwoGrid.length) :
    ¬ (i ∈ allC exTwoGrid l ∧ i + 1 ∈ allC exTwoGrid l) := by
  have hl' : l = 0 := by
    have : l + 1 < 2 := hl
    omega
  subst hl'
  exact fun e => exTwo_adj i e.1 e.2

theorem exTwo_good (b : Bool) : ({ exTwo with P := 3, nested := b } : Cfg ℝ ℝ Nat ℝ).Good :=
  good_of_gap exTwoGrid_valid (show 0 < 3 by decide) (show 3 ≤ npts exTwoGrid 0 by decide)
    (fun r l hr hl => ordOK_id exTwoGrid_valid (show 3 ≤ npts exTwoGrid 0 by decide) hl hr) (Or.inl rfl) exTwo_gap

/-- `C71_stopped_distributed` with the tolerance 1 of the example. -/
example {c : Conf 3 (Msg ℝ ℝ) (PState ℝ ℝ)} (h1 : Steps (startConf { exTwo with P := 3 }) c)
    (hc : ∀ d, ¬ Step c d) (r : Fin 3) (s : PState ℝ ℝ) (hr : c.prog r = Prog.ret s)
    (hs : s.solveIter < 5) :=
  C71_stopped_distributed (E := { exTwo with P := 3 }) (exTwo_good true) (by decide) rfl (fun _ => rfl)
    (fun xs _ x hx => by
      have h0 : ∀ ys : List ℝ, 0 ≤ (ys.map fun y => ‖y‖).sum := fun ys =>
        List.sum_nonneg fun y hy => by
          obtain ⟨z, -, rfl⟩ := List.mem_map.1 hy
          exact norm_nonneg z
      show x ≤ (xs.map fun y => ‖y‖).sum
      clear h1 hc hr hs
      induction xs with
      | nil => simp at hx
      | cons y ys ih =>
        rw [List.map_cons, List.sum_cons]
        rcases List.mem_cons.1 hx with rfl | hx
        · have := h0 ys
          have := Real.le_norm_self x
          linarith
        · have := ih (fun z hz => by simp_all) hx
          have := norm_nonneg y
          linarith)
    1 (fun x hx => of_decide_eq_true hx) (1 / 2) (by norm_num)
    (by
      intro i _ _ x y
      change ‖x / 2 + 1 - (y / 2 + 1)‖ ≤ _
      rw [show x / 2 + 1 - (y / 2 + 1) = 1 / 2 * (x - y) by ring, norm_mul]
      norm_num)
    h1 hc r s hr hs

/-- `C72_distributed` for the example. -/
example (D : ℝ) (hD0 : 0 ≤ D)
    (hD : ∀ i, i ∈ allC exTwoGrid 0 → i ≠ 0 →
      ‖0 - timeStepping ({ exTwo with P := 3, nested := false } : Cfg ℝ ℝ Nat ℝ) i‖ ≤ D)
    {c : Conf 3 (Msg ℝ ℝ) (PState ℝ ℝ)} (h1 : Steps (startConf { exTwo with P := 3, nested := false }) c)
    (hc : ∀ d, ¬ Step c d) (r : Fin 3) (s : PState ℝ ℝ) (hr : c.prog r = Prog.ret s) :=
  C72_distributed (E := { exTwo with P := 3, nested := false }) (exTwo_good false) rfl (by decide) rfl
    (fun _ => rfl) (fun _ => rfl) (Or.inr exTwo_adj)
    (1 / 16) (1 / 8) (1 / 16) (by norm_num) (by norm_num) (by norm_num)
    (by
      intro j h1 hj x y
      have e := fun z => exTwo_fine h1 hj z
      change ‖fineInterval (exTwo.sys.Φ 0) (exTwo.sys.C 0) j x
        - fineInterval (exTwo.sys.Φ 0) (exTwo.sys.C 0) j y‖ ≤ _
      rw [e, e, show x / 16 + 15 / 8 - (y / 16 + 15 / 8) = 1 / 16 * (x - y) by ring, norm_mul]
      norm_num)
    (by
      intro j h1 hj x y
      change ‖x / 8 - y / 8‖ ≤ _
      rw [show x / 8 - y / 8 = 1 / 8 * (x - y) by ring, norm_mul]
      norm_num)
    (by
      intro j h1 hj x y
      have e := fun z => exTwo_fine h1 hj z
      change ‖(fineInterval (exTwo.sys.Φ 0) (exTwo.sys.C 0) j x - x / 8)
        - (fineInterval (exTwo.sys.Φ 0) (exTwo.sys.C 0) j y - y / 8)‖ ≤ _
      rw [e, e, show x / 16 + 15 / 8 - x / 8 - (y / 16 + 15 / 8 - y / 8) = -(1 / 16) * (x - y) by ring,
        norm_mul]
      norm_num)
    D hD0 hD h1 hc r s hr

/-- `C68_distributed` with the ideal coarse step. -/
example {c : Conf 3 (Msg ℝ ℝ) (PState ℝ ℝ)} (h1 : Steps (startConf { exIdeal with P := 3 }) c)
    (hc : ∀ d, ¬ Step c d) : AllSolved ({ exIdeal with P := 3 } : Cfg ℝ ℝ Nat ℝ) c :=
  C68_distributed (E := { exIdeal with P := 3 })
    (good_of_gap (exTwo_good true).valid (exTwo_good true).Ppos (exTwo_good true).PN (exTwo_good true).ord
      (Or.inl rfl) exTwo_gap)
    rfl (by decide) (fun _ => rfl) (fun _ => rfl) (fun _ h1 hj x => (exTwo_fine h1 hj x).symm) h1 hc

/-- The example with sequential time stepping as initial guess. -/
def exSolved : Cfg Int Int Nat Int :=
  { exCfg 4 with nested := false, guess := timeStepping (exCfg 4) }

theorem exSolved_good : exSolved.Good :=
  have hg := exCfg_good 4 (by decide) (by decide)
  { valid := hg.valid, Ppos := hg.Ppos, PN := hg.PN, ord := hg.ord, glob := rfl, noCC := hg.noCC }

/-- `C12_distributed` for it. -/
example {c : Conf exSolved.P (Msg Int Int) (PState Int Int)} (h1 : Steps (startConf exSolved) c)
    (hc : ∀ d, ¬ Step c d) : AllSolved exSolved c :=
  C12_distributed exSolved_good (by decide) rfl (fun _ _ => rfl) (fun _ _ => rfl) (fun _ _ _ => rfl)
    h1 hc

/-- The example with other steps and another guess after time 5, on two processes. -/
def exLater : Cfg Int Int Nat Int :=
  { exCfg 4 with
    step := fun l x t0 t1 => if t1 ≤ 5 then (exCfg 4).step l x t0 t1 else 7 * x
    guess := fun i => if 6 ≤ i ∧ i ≤ 8 then 0 else (i : Int)
    P := 2 }

theorem exLater_good : exLater.Good :=
  have hg := exCfg_good 2 (by decide) (by decide)
  good_of_gap hg.valid hg.Ppos hg.PN hg.ord (Or.inl rfl) exGrid_gap

/-- `C40_distributed` for these two runs. -/
example {c : Conf 4 (Msg Int Int) (PState Int Int)} (h1 : Steps (startConf (exCfg 4)) c)
    (hc : ∀ d, ¬ Step c d) {c' : Conf 2 (Msg Int Int) (PState Int Int)}
    (h1' : Steps (startConf exLater) c') (hc' : ∀ d, ¬ Step c' d) :=
  C40_distributed (E := exCfg 4) (E' := exLater) (exCfg_good 4 (by decide) (by decide)) (by decide) 5
    (fun l x t0 t1 => if t1 ≤ 5 then (exCfg 4).step l x t0 t1 else 7 * x)
    (fun i => if 6 ≤ i ∧ i ≤ 8 then 0 else (i : Int)) 2 (fun l x t t' h => if_pos h)
    (fun i hi => by
      have : ¬ (6 ≤ i ∧ i ≤ 8) := by
        rintro ⟨a, b⟩
        obtain rfl | rfl | rfl : i = 6 ∨ i = 7 ∨ i = 8 := by omega
        all_goals exact absurd hi (by decide)
      exact if_neg this) rfl exLater_good h1 hc h1' hc'

end Pymgrit
