import Verif.PropsDist

/-!
# End-to-end statements: constructor and `solve()` on any number of processes, any interleaving

Combination of C11-C14 with C20-C22.
-/

set_option linter.unusedSectionVars false

namespace Pymgrit
open Cfg Sys

variable {V K T N : Type} [LinearOrder T] [Inhabited T]

/-- Sequential time stepping with the fine problem from `vector_t_start`. -/
def timeStepping (E : Cfg V K T N) (i : Nat) : V :=
  seqSol (fun i x => E.step 0 x (tAt (grid E.ts 0) (i - 1)) (tAt (grid E.ts 0) i)) (E.start 0) i

/-- All processes have returned with sequential time stepping at their fine points. -/
def AllSolved (E : Cfg V K T N) (c : Conf E.P (Msg V N) (PState V N)) : Prop :=
  ∀ r : Fin E.P, ∃ s, c.prog r = Prog.ret s ∧ ∀ k i j : Nat, (E.info r 0).pts[k]? = some i →
    (E.info r 0).idx[k]? = some j → s.u 0 j = timeStepping E i

section
variable [Add V] [Sub V] [SMul K V] [One K] [Sub K] [Zero N]

theorem allSolved_of_serial {E : Cfg V K T N} (h : E.Good) {c : Conf E.P (Msg V N) (PState V N)}
    (h1 : Steps (startConf E) c) (hc : ∀ d, ¬ Step c d)
    (hs : Solved (E.sys.Φ 0) (E.sys.n 0) ((serialRun E).st.u 0)) : AllSolved E c := by
  intro r
  obtain ⟨s, e, hS⟩ := C20_same_as_serial_partial h h1 hc r
  refine ⟨s, e, fun k i j hi hj => ?_⟩
  have hz : (serialRun E).st.u 0 0 = E.start 0 :=
    (C11_initial_value (E.sys_wf h.valid) E.ctl E.start E.zero E.guess).2.2.1
  have hin : i < npts E.ts 0 := by
    obtain ⟨_, b, _⟩ := own_local h r.isLt h.valid.pos hi hj
    exact Nat.lt_of_lt_of_le b (h.lo_le _ _)
  rw [hS.values 0 k i j h.valid.pos hi hj, hs i hin, hz]
  rfl

end

/-- C13 on any number of processes: if the last recorded residual is zero, the result is sequential
time stepping.  (`norm` and `tnorm` vanish only at zero.) -/
theorem C13_distributed [AddCommGroup V] [SMul K V] [One K] [Sub K] [Zero N] {E : Cfg V K T N}
    (h : E.Good) (hcrit : E.convCrit = 0) (hmax : 0 < E.maxIter)
    (hnorm : ∀ x, E.norm x = 0 → x = 0) (htnorm : ∀ xs, E.tnorm xs = 0 → ∀ x, x ∈ xs → x = 0)
    {c : Conf E.P (Msg V N) (PState V N)} (h1 : Steps (startConf E) c) (hc : ∀ d, ¬ Step c d)
    (r : Fin E.P) (s : PState V N) (hr : c.prog r = Prog.ret s) (hz : s.conv s.solveIter = 0) :
    AllSolved E c := by
  refine allSolved_of_serial h h1 hc ?_
  obtain ⟨s', e, hS⟩ := C20_same_as_serial_partial h h1 hc r
  rw [hr] at e
  cases e
  rw [hS.conv, hS.iter] at hz
  set R := E.sys.setup E.ctl E.sys.forwardSolve (Run.init E.start E.zero E.guess) with hR
  have hser : serialRun E = E.sys.solve E.ctl E.sys.forwardSolve R := rfl
  rw [hser] at hz ⊢
  obtain ⟨m, hm1, -, hit, hst, -, -, hcv, -⟩ :=
    C17_stopping_rule (S := E.sys) E.ctl E.sys.forwardSolve R hmax
  rw [hit, hcv m hm1 (Nat.le_refl m)] at hz
  unfold critValue at hz
  dsimp only at hz
  rw [if_pos (show E.ctl.convCrit = 0 from hcrit)] at hz
  rw [hst]
  obtain ⟨m, rfl⟩ : ∃ k, m = k + 1 := ⟨m - 1, by omega⟩
  have hwf := E.sys_wf h.valid
  have := C13_zero_residual hwf E.ctl hcrit hnorm htnorm E.sys.forwardSolve m
    ({ R with st := iterates E.sys E.sys.forwardSolve E.ctl.cyc m R.st }) (by
      rw [solveBody_conv, if_pos (show E.ctl.convCrit = 0 from hcrit), residuals, List.map_map]
      exact hz)
  rw [solveBody_st] at this
  exact this

/-- C14 on any number of processes: with identity transfers, if the iterations performed times
`cf_iter + 1` reach the number of coarse intervals, the result is sequential time stepping. -/
theorem C14_distributed [AddCommGroup V] [Ring K] [Module K V] [Zero N] {E : Cfg V K T N}
    (h : E.Good) (hL : 1 < E.ts.length) (hw : E.w = 1) (hR : ∀ l x, E.R l x = x)
    (hI : ∀ l x, E.I l x = x) (hmax : 0 < E.maxIter)
    {c : Conf E.P (Msg V N) (PState V N)} (h1 : Steps (startConf E) c) (hc : ∀ d, ¬ Step c d)
    (r : Fin E.P) (s : PState V N) (hr : c.prog r = Prog.ret s)
    (hk : (grid E.ts 1).length - 1 ≤ s.solveIter * (E.cf 0 + 1)) : AllSolved E c := by
  refine allSolved_of_serial h h1 hc ?_
  obtain ⟨s', e, hS⟩ := C20_same_as_serial_partial h h1 hc r
  rw [hr] at e
  cases e
  set R := E.sys.setup E.ctl E.sys.forwardSolve (Run.init E.start E.zero E.guess) with hR0
  have hser : serialRun E = E.sys.solve E.ctl E.sys.forwardSolve R := rfl
  obtain ⟨m, hm1, -, hit, hst, -⟩ :=
    C17_stopping_rule (S := E.sys) E.ctl E.sys.forwardSolve R hmax
  rw [hS.iter, hser, hit] at hk
  rw [hser, hst]
  exact C14_finite_termination (E.sys_wf h.valid) hL hw hR hI E.ctl.cyc m hm1 hk R.st

/-- C10 on any number of processes. -/
theorem C10_distributed [AddCommGroup V] [SMul K V] [One K] [Sub K] [Zero N] {E : Cfg V K T N}
    (h : E.Good) (hL : E.ts.length = 1) (hmax : 0 < E.maxIter)
    {c : Conf E.P (Msg V N) (PState V N)} (h1 : Steps (startConf E) c) (hc : ∀ d, ¬ Step c d) :
    AllSolved E c := by
  refine allSolved_of_serial h h1 hc ?_
  set R := E.sys.setup E.ctl E.sys.forwardSolve (Run.init E.start E.zero E.guess) with hR
  have hser : serialRun E = E.sys.solve E.ctl E.sys.forwardSolve R := rfl
  obtain ⟨m, hm1, -, hit, hst, -⟩ :=
    C17_stopping_rule (S := E.sys) E.ctl E.sys.forwardSolve R hmax
  rw [hser, hst]
  obtain ⟨m, rfl⟩ : ∃ k, m = k + 1 := ⟨m - 1, by omega⟩
  show Solved _ _ ((E.sys.fineIteration E.sys.forwardSolve E.ctl.cyc m _).u 0)
  have hfi : ∀ it s, E.sys.fineIteration E.sys.forwardSolve E.ctl.cyc it s =
      E.sys.forwardSolve 0 s := by
    intro it s; unfold fineIteration; rw [show E.sys.L = 1 from hL]; rfl
  rw [hfi]
  exact C09_level0 _

/-- Completed runs exist: every execution can be continued to one, and it ends. -/
theorem exists_completed [Add V] [Sub V] [SMul K V] [One K] [Sub K] [Zero N] {E : Cfg V K T N}
    (h : E.Good) : ∃ c : Conf E.P (Msg V N) (PState V N), Steps (startConf E) c ∧ ∀ d, ¬ Step c d := by
  obtain ⟨s, -, hs⟩ := exists_final h
  exact ⟨_, hs, fun d => Conf.Done.not_step fun r => ⟨_, rfl⟩⟩

/-- The example on four processes solves its problem: hypotheses of C14 are met. -/
example : ∃ c : Conf 4 (Msg Int Int) (PState Int Int),
    Steps (startConf (exCfg 4)) c ∧ ∀ d, ¬ Step c d :=
  exists_completed (E := exCfg 4) (exCfg_good 4 (by decide) (by decide))

end Pymgrit
