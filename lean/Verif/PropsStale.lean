import Verif.Stale

/-!
# Property C20: what a run returns if a process boundary separates neighbouring C-points

`C20_adjacent_c_points` (`Verif.PropsDist`) shows that the result may then be wrong.  Here: for neighbouring C-points of the
finest level every execution ends and returns the run on one process of the problem `frozen E`, whose steps across these
boundaries start from the initial guess; after enough iterations, or when the recorded residual is zero, this is time
stepping with the steps of `frozen E`, which is time stepping with the steps of `E` only if the step from the initial guess
gives the right value at every such boundary.
-/

set_option linter.unusedSectionVars false

namespace Pymgrit

open Cfg

variable {V K T N : Type} [LinearOrder T] [Inhabited T]

/-- Requirements: as `Cfg.Good`, but on the finest level a process boundary may separate neighbouring C-points. -/
structure Cfg.FinestCuts (E : Cfg V K T N) : Prop extends E.Base where
  glob : E.global = true
  coarse : ∀ r l, r < E.P → l ≠ 0 → l + 1 < E.ts.length → 0 < lo E.ts E.P l r → lo E.ts E.P l r < npts E.ts l →
    ¬ (lo E.ts E.P l r - 1 ∈ allC E.ts l ∧ lo E.ts E.P l r ∈ allC E.ts l)

/-- The step across the boundary in front of process `q`, from the initial guess. -/
def Cfg.fromGuess (E : Cfg V K T N) (q : Nat) : V :=
  E.step 0 (E.guess (lo E.ts E.P 0 q - 1)) (tAt (grid E.ts 0) (lo E.ts E.P 0 q - 1)) (tAt (grid E.ts 0) (lo E.ts E.P 0 q))

variable {E : Cfg V K T N}

theorem Cfg.FinestCuts.good (h : E.FinestCuts) : E.frozen.Good := frozen_good h.toBase h.glob h.coarse

theorem timeStepping_succ (E : Cfg V K T N) (i : Nat) : timeStepping E (i + 1) =
    E.step 0 (timeStepping E i) (tAt (grid E.ts 0) i) (tAt (grid E.ts 0) (i + 1)) := rfl

/-- Time stepping with the steps of `frozen E`: at the first point of a process behind such a boundary the step starts from
the initial guess, everywhere else from the previous value. -/
theorem C20_restart (h : E.Base) {q : Nat} (hq : q < E.P) (hc : E.CutC q) :
    timeStepping E.frozen (lo E.ts E.P 0 q) = E.fromGuess q := by
  obtain ⟨i, hi⟩ : ∃ i, lo E.ts E.P 0 q = i + 1 := ⟨lo E.ts E.P 0 q - 1, by have := hc.2.1; omega⟩
  have := frozen_step_cut h hq hc (timeStepping E.frozen i)
  rw [hi] at this
  rw [hi, timeStepping_succ]
  refine this.trans ?_
  unfold fromGuess
  rw [hi]

theorem C20_restart_else (h : E.Base) {i : Nat} (hi : i + 1 < npts E.ts 0)
    (hn : ∀ q, q < E.P → E.CutC q → i + 1 ≠ lo E.ts E.P 0 q) :
    timeStepping E.frozen (i + 1) =
      E.step 0 (timeStepping E.frozen i) (tAt (grid E.ts 0) i) (tAt (grid E.ts 0) (i + 1)) := by
  obtain ⟨r, hr, h1, h2⟩ := h.valid.exists_owner h.Ppos h.PN h.valid.pos hi
  exact frozen_step_own h hr h1 h2 (fun e => hn r hr e.1 e.2) _ _

/-- When the two problems have the same solution. -/
theorem C20_same_solution (h : E.Base) : (∀ i, i < npts E.ts 0 → timeStepping E.frozen i = timeStepping E i) ↔
    ∀ q, q < E.P → E.CutC q → E.fromGuess q = timeStepping E (lo E.ts E.P 0 q) := by
  constructor
  · intro he q hq hc
    rw [← he _ hc.2.2.1, C20_restart h hq hc]
  · intro he i
    induction i with
    | zero => exact fun _ => rfl
    | succ i ih =>
      intro hi
      by_cases hn : ∃ q, q < E.P ∧ E.CutC q ∧ i + 1 = lo E.ts E.P 0 q
      · obtain ⟨q, hq, hc, e⟩ := hn
        rw [e, C20_restart h hq hc, he q hq hc]
      · rw [C20_restart_else h hi (fun q hq hc e => hn ⟨q, hq, hc, e⟩), ih (by omega), timeStepping_succ]

theorem own_index (h : E.Base) {i : Nat} (hi : i < npts E.ts 0) :
    ∃ (r : Fin E.P) (k j : Nat), (E.info r 0).pts[k]? = some i ∧ (E.info r 0).idx[k]? = some j := by
  obtain ⟨r, hr, h1, h2⟩ := h.valid.exists_owner h.Ppos h.PN h.valid.pos hi
  have hs := h.spec hr h.valid.pos
  refine ⟨⟨r, hr⟩, i - lo E.ts E.P 0 r, gh r + (i - lo E.ts E.P 0 r), ?_, ?_⟩
  · rw [hs.pts, List.getElem?_eq_getElem (by rw [List.length_range']; omega), List.getElem_range']
    congr 1
    omega
  · rw [hs.idx, List.getElem?_eq_getElem (by rw [List.length_range']; omega), List.getElem_range']
    congr 1
    omega

section runs
variable [AddCommGroup V] [Zero N]

section plain
variable [SMul K V] [One K] [Sub K]

/-- C20 for neighbouring C-points of the finest level on both sides of process boundaries: every execution that cannot be
continued shows the run on one process of `frozen E`. -/
theorem C20_stale (h : E.FinestCuts) {c : Conf E.P (Msg V N) (PState V N)} (h1 : Steps (startConf E) c)
    (hc : ∀ d, ¬ Step c d) (r : Fin E.P) : ∃ s, c.prog r = Prog.ret s ∧ Shows E (serialRun E.frozen) r s := by
  rw [startConf_frozen h.good] at h1
  obtain ⟨s, e, hs⟩ := C20_same_as_serial_partial h.good h1 hc r
  exact ⟨s, e, ⟨hs.values, hs.conv, hs.iter, hs.outs⟩⟩

/-- C21 and C22 there: all executions end, none fails, all end in the same configuration. -/
theorem C22_stale (h : E.FinestCuts) :
    ∃ n, ∀ k (c : Conf E.P (Msg V N) (PState V N)), StepsN k (startConf E) c → k ≤ n ∧ (∀ r msg, c.prog r ≠ Prog.fail msg) ∧
      ((c.Done ∧ ∀ s d t, c.chan s d t = []) ∨ ∃ c', Step c c') := by
  obtain ⟨n, hn⟩ := C22_terminates (E := E.frozen) h.good
  refine ⟨n, fun k c hk => ?_⟩
  rw [startConf_frozen h.good] at hk
  exact hn k c hk

theorem C21_stale (h : E.FinestCuts) {c c' : Conf E.P (Msg V N) (PState V N)} (h1 : Steps (startConf E) c)
    (h2 : Steps (startConf E) c') (hc : ∀ d, ¬ Step c d) (hc' : ∀ d, ¬ Step c' d) : c = c' := by
  rw [startConf_frozen h.good] at h1 h2
  exact C21_schedule_independent h.good h1 h2 hc hc'

/-- C13 there: if the recorded residual is zero, the processes return time stepping with the steps of `frozen E`. -/
theorem C13_stale (h : E.FinestCuts) (hcrit : E.convCrit = 0) (hmax : 0 < E.maxIter) (hnorm : ∀ x, E.norm x = 0 → x = 0)
    (htnorm : ∀ xs, E.tnorm xs = 0 → ∀ x, x ∈ xs → x = 0) {c : Conf E.P (Msg V N) (PState V N)}
    (h1 : Steps (startConf E) c) (hc : ∀ d, ¬ Step c d) (r : Fin E.P) (s : PState V N) (hr : c.prog r = Prog.ret s)
    (hz : s.conv s.solveIter = 0) : AllSolved E.frozen c := by
  rw [startConf_frozen h.good] at h1
  exact C13_distributed (E := E.frozen) h.good hcrit hmax hnorm htnorm h1 hc r s hr hz

end plain

variable [Ring K] [Module K V]

/-- C14 there: after enough iterations the processes return time stepping with the steps of `frozen E`. -/
theorem C14_stale (h : E.FinestCuts) (hL : 1 < E.ts.length) (hw : E.w = 1) (hR : ∀ l x, E.R l x = x)
    (hI : ∀ l x, E.I l x = x) (hmax : 0 < E.maxIter) {c : Conf E.P (Msg V N) (PState V N)} (h1 : Steps (startConf E) c)
    (hc : ∀ d, ¬ Step c d) (r : Fin E.P) (s : PState V N) (hr : c.prog r = Prog.ret s)
    (hk : (grid E.ts 1).length - 1 ≤ s.solveIter * (E.cf 0 + 1)) : AllSolved E.frozen c := by
  rw [startConf_frozen h.good] at h1
  exact C14_distributed (E := E.frozen) h.good hL hw hR hI hmax h1 hc r s hr hk

/-- The solution is right exactly if the step from the initial guess is right at every boundary between C-points. -/
theorem allSolved_frozen_iff (h : E.Base) {c : Conf E.P (Msg V N) (PState V N)} (hf : AllSolved E.frozen c) :
    AllSolved E c ↔ ∀ q, q < E.P → E.CutC q → E.fromGuess q = timeStepping E (lo E.ts E.P 0 q) := by
  rw [← C20_same_solution h]
  constructor
  · intro hs i hi
    obtain ⟨r, k, j, hk, hj⟩ := own_index h hi
    obtain ⟨s, e, hv⟩ := hs r
    obtain ⟨s', e', hv'⟩ := hf r
    rw [e] at e'
    cases e'
    exact (hv' k i j hk hj).symm.trans (hv k i j hk hj)
  · intro he r
    obtain ⟨s, e, hv⟩ := hf r
    refine ⟨s, e, fun k i j hk hj => (hv k i j hk hj).trans (he i ?_)⟩
    have hi : i ∈ (E.info r 0).pts := List.mem_of_getElem? hk
    rw [(h.spec r.isLt h.valid.pos).pts] at hi
    have := List.mem_range'_1.1 hi
    have := h.lo_le 0 (r + 1)
    omega

/-- C20, exactly when the result is wrong: after enough iterations every execution returns sequential time stepping if and
only if, at every process boundary between two C-points of the finest level, the step from the initial guess gives the value
of sequential time stepping. -/
theorem C20_right_iff (h : E.FinestCuts) (hL : 1 < E.ts.length) (hw : E.w = 1) (hR : ∀ l x, E.R l x = x)
    (hI : ∀ l x, E.I l x = x) (hmax : 0 < E.maxIter) {c : Conf E.P (Msg V N) (PState V N)} (h1 : Steps (startConf E) c)
    (hc : ∀ d, ¬ Step c d) (r : Fin E.P) (s : PState V N) (hr : c.prog r = Prog.ret s)
    (hk : (grid E.ts 1).length - 1 ≤ s.solveIter * (E.cf 0 + 1)) :
    AllSolved E c ↔ ∀ q, q < E.P → E.CutC q → E.fromGuess q = timeStepping E (lo E.ts E.P 0 q) :=
  allSolved_frozen_iff h.toBase (C14_stale h hL hw hR hI hmax h1 hc r s hr hk)

/-- The same for a recorded residual of zero. -/
theorem C20_right_iff_residual (h : E.FinestCuts) (hcrit : E.convCrit = 0) (hmax : 0 < E.maxIter)
    (hnorm : ∀ x, E.norm x = 0 → x = 0) (htnorm : ∀ xs, E.tnorm xs = 0 → ∀ x, x ∈ xs → x = 0)
    {c : Conf E.P (Msg V N) (PState V N)} (h1 : Steps (startConf E) c) (hc : ∀ d, ¬ Step c d) (r : Fin E.P)
    (s : PState V N) (hr : c.prog r = Prog.ret s) (hz : s.conv s.solveIter = 0) :
    AllSolved E c ↔ ∀ q, q < E.P → E.CutC q → E.fromGuess q = timeStepping E (lo E.ts E.P 0 q) :=
  allSolved_frozen_iff h.toBase (C13_stale h hcrit hmax hnorm htnorm h1 hc r s hr hz)

end runs

/-! ## Example -/

/-- The example with C-points 2 and 3 (`ccCfg`), two iterations without a tolerance. -/
def ccRun (P : Nat) : Cfg Int Int Nat Int := { ccCfg P with maxIter := 2, ltTol := fun _ => false }

theorem ccGrid_valid : Valid ([[0, 1, 2, 3, 4, 5], [0, 2, 3, 5]] : List (List Nat)) where
  pos := by decide
  ne0 := by decide
  sorted := by
    intro l
    match l with
    | 0 => decide
    | 1 => decide
    | _ + 2 => exact List.Pairwise.nil
  nested := by
    intro l hl
    match l with
    | 0 => decide
    | _ + 1 => exact absurd hl (by simp)
  start := by
    intro l hl
    match l with
    | 0 => rfl
    | 1 => rfl
    | _ + 2 => exact absurd hl (by simp)

/-- The hypotheses hold for it on any number of processes. -/
theorem ccRun_cuts (P : Nat) (hP : 0 < P) (hP6 : P ≤ 6) : (ccRun P).FinestCuts where
  valid := ccGrid_valid
  Ppos := hP
  PN := hP6
  ord := fun r l hr hl => ordOK_id (ccGrid_valid) hP6 hl hr
  glob := rfl
  coarse := by
    intro r l _ hl0 hl
    have : l + 1 < 2 := hl
    omega

/-- On two processes the boundary is between the C-points 2 and 3, and the step from the initial guess gives another value
than time stepping. -/
theorem ccRun_cut : (ccRun 2).CutC 1 ∧ (ccRun 2).fromGuess 1 = 5 ∧ timeStepping (ccRun 2) (lo (ccRun 2).ts 2 0 1) = 15 := by
  refine ⟨⟨by decide, by decide +kernel, by decide +kernel, by decide +kernel, by decide +kernel⟩, by decide +kernel,
    by decide +kernel⟩

/-- So no execution on two processes returns time stepping, although every number of processes up to six returns the
solution of `frozen`. -/
example {c : Conf 2 (Msg Int Int) (PState Int Int)} (h1 : Steps (startConf (ccRun 2)) c) (hc : ∀ d, ¬ Step c d) :
    ¬ AllSolved (ccRun 2) c := by
  have h := ccRun_cuts 2 (by decide) (by decide)
  obtain ⟨s, hs, hS⟩ := C20_stale h h1 hc (0 : Fin 2)
  obtain ⟨m, -, -, hm, -, -, hmax, -⟩ := C17_stopping_rule (S := (ccRun 2).frozen.sys) (ccRun 2).frozen.ctl
    (ccRun 2).frozen.sys.forwardSolve ((ccRun 2).frozen.sys.setup (ccRun 2).frozen.ctl (ccRun 2).frozen.sys.forwardSolve
      (Run.init (ccRun 2).frozen.start (ccRun 2).frozen.zero (ccRun 2).frozen.guess)) (by decide)
  have hm2 : m = 2 := by
    rcases hmax with hf | e
    · exact absurd hf (by show ¬ (false = true); decide)
    · exact e
  have hit : s.solveIter = 2 := hS.iter.trans (hm.trans hm2)
  rw [C20_right_iff h (by decide) rfl (fun _ _ => rfl) (fun _ _ => rfl) (by decide) h1 hc (0 : Fin 2) s hs
    (by rw [hit]; decide)]
  intro hr
  have := hr 1 (by decide) ccRun_cut.1
  rw [ccRun_cut.2.1] at this
  exact absurd (this.trans ccRun_cut.2.2) (by decide)

end Pymgrit
