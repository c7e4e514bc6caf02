import Verif.RunStuck
import Verif.PropsDist

/-!
# Properties C31-C33: the local convergence criteria, counterexamples

Concrete runs of the modelled code with `conv_crit` 2 and 3 that do not have the properties.
-/

set_option linter.unusedSectionVars false

namespace Pymgrit

section
variable {V K T N : Type} [LinearOrder T] [Inhabited T] [Add V] [Sub V] [SMul K V] [One K] [Sub K]
  [Zero N]

/-- The programs of all processes. -/
def progs (E : Cfg V K T N) : List (Prog (Msg V N) (PState V N)) :=
  (List.range E.P).map fun r => E.mainP r (E.initState (fun r l => off E.ts E.P l r) r)

/-- The scheduler of `Verif.RunNet` on a configuration. -/
def runs (E : Cfg V K T N) (k : Nat) : List (Prog (Msg V N) (PState V N)) × Mail (Msg V N) :=
  exec E.P 100000 k (progs E) []

theorem progs_conf (E : Cfg V K T N) : confOf E.P (progs E) [] = startConf E := by
  refine Conf.ext' (fun r => ?_) rfl
  simp [confOf, startConf, progs]

theorem runs_steps (E : Cfg V K T N) (k : Nat) :
    Steps (startConf E) (confOf E.P (runs E k).1 (runs E k).2) ∧ (runs E k).1.length = E.P := by
  have := exec_steps E.P 100000 k (progs E) [] (by simp [progs])
  rw [progs_conf] at this
  exact this

/-- If the scheduler gets stuck before all processes have returned, no execution completes. -/
theorem runs_stuck {E : Cfg V K T N} {k : Nat} (h : allStuck E.P 0 (runs E k).1 (runs E k).2 = true)
    (hne : (runs E k).1.all isRet = false) {c : Conf E.P (Msg V N) (PState V N)}
    (hc : Steps (startConf E) c) : ¬ c.Done := by
  obtain ⟨hs, hlen⟩ := runs_steps E k
  have hst := stuck_of_allStuck hlen h
  intro hd
  have e := (hs.unique_end hst hc).2 fun d => Conf.Done.not_step hd
  rw [e] at hd
  have : (runs E k).1.all isRet = true := by
    rw [List.all_eq_true]
    intro p hp
    obtain ⟨i, hi, rfl⟩ := List.getElem_of_mem hp
    obtain ⟨a, ha⟩ := hd ⟨i, by omega⟩
    have e2 : (confOf E.P (runs E k).1 (runs E k).2).prog ⟨i, by omega⟩ = (runs E k).1[i] := by
      simp [confOf, hi]
    rw [← e2, ha]; rfl
  rw [this] at hne
  cases hne

/-- If the scheduler gets stuck with messages in transit, every execution ends so. -/
theorem runs_left {E : Cfg V K T N} {k : Nat} (h : allStuck E.P 0 (runs E k).1 (runs E k).2 = true)
    (hne : (runs E k).1.all isRet = false) (hq : (runs E k).2 ≠ [])
    {c : Conf E.P (Msg V N) (PState V N)}
    (hc : Steps (startConf E) c) (hst : ∀ d, ¬ Step c d) :
    ¬ c.Done ∧ ∃ s d t, c.chan s d t ≠ [] := by
  obtain ⟨hs, hlen⟩ := runs_steps E k
  refine ⟨runs_stuck h hne hc, ?_⟩
  rw [(hs.unique_end (stuck_of_allStuck hlen h) hc).2 hst]
  obtain ⟨x, hx⟩ := List.exists_mem_of_ne_nil _ hq
  refine ⟨x.1, x.2.1, x.2.2.1, ?_⟩
  intro e
  simp only [confOf, Mail.chans, List.map_eq_nil_iff, List.filter_eq_nil_iff] at e
  exact e x hx (by simp [Mail.sel])

/-- The scheduler run for `k` rounds, then only process 0 until it blocks. -/
def lead (E : Cfg V K T N) (k : Nat) : Prog (Msg V N) (PState V N) × Mail (Msg V N) :=
  runProc E.P 0 100000 ((runs E k).1.getD 0 (.fail "")) (runs E k).2

theorem lead_steps (E : Cfg V K T N) (k : Nat) (hP : 0 < E.P) :
    ∃ c, Steps (startConf E) c ∧ c.prog ⟨0, hP⟩ = (lead E k).1 ∧ c.chan = (lead E k).2.chans := by
  obtain ⟨hs, hlen⟩ := runs_steps E k
  refine ⟨_, hs.trans (runOnly_steps hlen ⟨0, hP⟩ 100000), ?_, rfl⟩
  have : 0 < (runs E k).1.length := by omega
  simp only [confOf, List.getD_eq_getElem?_getD, List.getElem?_set, this]
  rfl

end

/-- What is in transit from `s` to `d` with tag `t`: flags sent by `convergence_criterion`. -/
def flagsOf (q : Mail (Msg Int Int)) (s d t : Nat) : List Bool :=
  (q.chans s d t).filterMap fun m => match m.data with
    | .flag b => some b
    | _ => none

/-- Two levels, 18 points, two processes, local residual criterion with the 1-norm and `tol = 2`. The
fine step keeps the value, the coarse step is constant. -/
def normCfg : Cfg Int Int Nat Int where
  ts := [List.range 18, [0, 2, 4, 6, 8, 10, 12, 14, 16]]
  step := fun l x _ _ => if l = 0 then x else 0
  R := fun _ x => x
  I := fun _ x => x
  cf := fun _ => 1
  w := 1
  start := fun _ => 0
  zero := fun _ => 0
  guess := fun i => if i = 2 then 1 else if i = 4 then 2 else 0
  cyc := Sys.Cycle.V
  nested := false
  maxIter := 4
  convCrit := 2
  norm := fun x => |x|
  tnorm := fun xs => (xs.map fun x => |x|).sum
  ltTol := fun x => decide (x < 2)
  outLvl := 0
  ord := fun _ _ xs => xs
  P := 2
  instr := false

/-- C31 fails.  With a time norm other than the maximum, a process can announce that it is finished
and go on: the announcement tests every residual against `tol`, the loop tests their norm.  Here
process 0 announces its end (`True` with the tag of the first iteration) and does so again in the
second iteration. -/
theorem C31_counterexample : ∃ c, Steps (startConf normCfg) c ∧
    (c.chan 0 1 350000).map (·.data) = [.flag true] ∧
    (c.chan 0 1 350001).map (·.data) = [.flag true] := by
  obtain ⟨c, hs, -, hc⟩ := lead_steps normCfg 1 (by decide)
  refine ⟨c, hs, ?_, ?_⟩
  · rw [hc]
    have h : flagsOf (lead normCfg 1).2 0 1 350000 = [true] ∧
        ((lead normCfg 1).2.chans 0 1 350000).length = 1 := by decide +kernel
    revert h
    unfold flagsOf
    generalize (lead normCfg 1).2.chans 0 1 350000 = q
    match q with
    | [] => simp
    | [m] => cases hm : m.data <;> simp [hm]
    | _ :: _ :: _ => simp
  · rw [hc]
    have h : flagsOf (lead normCfg 1).2 0 1 350001 = [true] ∧
        ((lead normCfg 1).2.chans 0 1 350001).length = 1 := by decide +kernel
    revert h
    unfold flagsOf
    generalize (lead normCfg 1).2.chans 0 1 350001 = q
    match q with
    | [] => simp
    | [m] => cases hm : m.data <;> simp [hm]
    | _ :: _ :: _ => simp

/-- C32 fails with a time norm other than the maximum, as a consequence: process 1 stops receiving
although process 0 goes on sending.  Every execution ends with messages that nobody receives, process
0 waiting for them. -/
theorem C32_norm_counterexample {c : Conf 2 (Msg Int Int) (PState Int Int)}
    (hc : Steps (startConf normCfg) c) (hst : ∀ d, ¬ Step c d) :
    ¬ c.Done ∧ ∃ s d t, c.chan s d t ≠ [] :=
  runs_left (E := normCfg) (k := 10) (by decide +kernel) (by decide +kernel)
    (by rw [← List.isEmpty_eq_false_iff]; decide +kernel) hc hst

/-- Maximum of the absolute values, `t_norm = inf`. -/
def maxNorm (xs : List Int) : Int := xs.foldl max 0

/-- Eight points on two processes, maximum norm, `tol = 1`; process 0 is finished after one iteration,
process 1 after two. -/
def lateCfg (crit cf : Nat) : Cfg Int Int Nat Int :=
  { normCfg with
    ts := [List.range 8, [0, 2, 4, 6]]
    guess := fun i => i
    maxIter := 6
    convCrit := crit
    cf := fun _ => cf
    tnorm := maxNorm
    ltTol := fun x => decide (x < 1) }

/-- C32 fails with `cf_iter = 0`: the clean-up sends the message of a C-relaxation that the next
process, finishing later, never performs. -/
theorem C32_zero_cf_counterexample {c : Conf 2 (Msg Int Int) (PState Int Int)}
    (hc : Steps (startConf (lateCfg 2 0)) c) (hst : ∀ d, ¬ Step c d) :
    ¬ c.Done ∧ ∃ s d t, c.chan s d t ≠ [] :=
  runs_left (E := lateCfg 2 0) (k := 10) (by decide +kernel) (by decide +kernel)
    (by rw [← List.isEmpty_eq_false_iff]; decide +kernel) hc hst

/-- C32 fails with `conv_crit = 3`: the clean-up sends the message of a residual computation, which
the jump criterion of the next process never performs. -/
theorem C32_jump_counterexample {c : Conf 2 (Msg Int Int) (PState Int Int)}
    (hc : Steps (startConf (lateCfg 3 1)) c) (hst : ∀ d, ¬ Step c d) :
    ¬ c.Done ∧ ∃ s d t, c.chan s d t ≠ [] :=
  runs_left (E := lateCfg 3 1) (k := 10) (by decide +kernel) (by decide +kernel)
    (by rw [← List.isEmpty_eq_false_iff]; decide +kernel) hc hst

/-- The same with a restriction that is not the identity. -/
def restrCfg : Cfg Int Int Nat Int :=
  { lateCfg 2 1 with
    start := fun l => if l = 0 then 5 else 15
    R := fun _ x => 3 * x
    I := fun _ x => x / 3 }

def seen : Prog (Msg Int Int) (PState Int Int) → Option (Nat × Int × Int)
  | .ret s => some (s.solveIter, s.u 0 2, s.v 1 0)
  | _ => none

/-- C33 fails: point 2 is the last coarse point of process 0, with fine value 5 and hence restriction
15.  In its last iteration process 1, finishing later, uses the coarse value 5 for it: the clean-up of
process 0 sends the fine value. -/
theorem C33_counterexample {c : Conf 2 (Msg Int Int) (PState Int Int)}
    (hc : Steps (startConf restrCfg) c) (hst : ∀ d, ¬ Step c d) :
    ∃ s0 s1, c.prog 0 = Prog.ret s0 ∧ c.prog 1 = Prog.ret s1 ∧
      s0.solveIter = 1 ∧ s1.solveIter = 2 ∧ s0.u 0 2 = 5 ∧ restrCfg.R 0 (s0.u 0 2) = 15 ∧
      s1.v 1 0 = 5 := by
  set res := (exec 2 1000 10 ((List.range 2).map fun r => restrCfg.mainP r
    (restrCfg.initState (fun r l => off restrCfg.ts 2 l r) r)) []).1 with hres
  have hall : res.all isRet = true := by decide +kernel
  have e0 : (seen (res.getD 0 (.fail ""))).map (fun x => (x.1, x.2.1)) = some (1, 5) := by
    decide +kernel
  have e1 : (seen (res.getD 1 (.fail ""))).map (fun x => (x.1, x.2.2)) = some (2, 5) := by
    decide +kernel
  have h0' : c.prog 0 = res.getD 0 (.fail "") :=
    exec_final restrCfg 1000 10 res rfl hall hc hst (0 : Fin 2)
  have h1' : c.prog 1 = res.getD 1 (.fail "") :=
    exec_final restrCfg 1000 10 res rfl hall hc hst (1 : Fin 2)
  clear_value res
  rw [h0', h1']
  revert e0 e1
  cases res.getD 0 (.fail "") <;> cases res.getD 1 (.fail "") <;>
    simp +contextual [seen, restrCfg]

end Pymgrit
