import Verif.Dist3
import Verif.PropsGrid
import Verif.PropsDriver
import Verif.RunNet
import Verif.Visit

/-!
# Properties C20-C23: distributed runs with a global criterion

Constructor and `solve()` on `E.P` processes (`Cfg.mainP`), any interleaving.
-/

set_option linter.unusedSectionVars false

namespace Pymgrit
open Cfg

section net
variable {P : Nat} {M α : Type}

/-- A process that raised an exception blocks the end of the run. -/
theorem StepsN.no_fail {n : Nat} {c cf : Conf P M α} (h : StepsN n c cf) (hd : cf.Done) (r : Fin P)
    (msg : String) : c.prog r ≠ Prog.fail msg := by
  induction h with
  | zero c =>
    intro hf
    obtain ⟨a, ha⟩ := hd r
    rw [hf] at ha; cases ha
  | succ h1 _ ih =>
    intro hf
    refine ih hd ?_
    obtain ⟨r', hs, ho⟩ := h1
    by_cases hr : r = r'
    · subst hr; rw [hf] at hs; cases hs
    · rw [ho r hr]; exact hf

/-- Everything that determinacy gives once one complete execution is known. -/
theorem complete_of_steps {c cf : Conf P M α} (h : Steps c cf) (hd : cf.Done) :
    ∃ n, ∀ k c', StepsN k c c' → k ≤ n ∧ Steps c' cf ∧ (c' = cf ∨ ∃ c'', Step c' c'') ∧
      ∀ r msg, c'.prog r ≠ Prog.fail msg := by
  obtain ⟨n, hn⟩ := h.toN
  refine ⟨n, fun k c' hk => ?_⟩
  obtain ⟨m, rfl, hm⟩ := hn.determinacy hd hk
  refine ⟨by omega, hm.toSteps, ?_, fun r msg => hm.no_fail hd r msg⟩
  cases hm with
  | zero => exact Or.inl rfl
  | succ h1 _ => exact Or.inr ⟨_, h1⟩

end net

variable {V K T N : Type} [LinearOrder T] [Inhabited T]
variable [Add V] [Sub V] [SMul K V] [One K] [Sub K] [Zero N]

/-- Start of a run: every process is about to execute constructor and `solve()`, no messages. -/
def startConf (E : Cfg V K T N) : Conf E.P (Msg V N) (PState V N) :=
  ⟨fun r => E.mainP r (E.initState (fun r l => off E.ts E.P l r) r), Chans.empty⟩

/-- Result of constructor and `solve()` on one process (no messages, ascending F-points). -/
def serialRun (E : Cfg V K T N) : Run V N :=
  E.sys.solve E.ctl E.sys.forwardSolve (E.sys.setup E.ctl E.sys.forwardSolve
    (Run.init E.start E.zero E.guess))

/-- What process `r` with state `s` shows of a run: at every time point it owns (entry `k` of its
list of points, local index `k` of `index_local`), on every level, the solution value; the recorded
convergence values; the iteration count; and the arguments of the output function at its points. -/
structure Shows (E : Cfg V K T N) (R : Run V N) (r : Nat) (s : PState V N) : Prop where
  values : ∀ l k i j : Nat, l < E.ts.length → (E.info r l).pts[k]? = some i →
    (E.info r l).idx[k]? = some j → s.u l j = R.st.u l i
  conv : ∀ j, s.conv j = R.conv j
  iter : s.solveIter = R.iter
  outs : s.outs.length = R.outs.length ∧ ∀ (m : Nat) a b, s.outs[m]? = some a → R.outs[m]? = some b →
    a.1 = b.1 ∧ ∀ k i j : Nat, (E.info r 0).pts[k]? = some i → (E.info r 0).idx[k]? = some j →
      a.2 j = b.2 i

theorem own_local {E : Cfg V K T N} (h : E.Good) {r l k i j : Nat} (hr : r < E.P)
    (hl : l < E.ts.length) (hi : (E.info r l).pts[k]? = some i)
    (hj : (E.info r l).idx[k]? = some j) :
    lo E.ts E.P l r ≤ i ∧ i < lo E.ts E.P l (r + 1) ∧ j = i - off E.ts E.P l r := by
  have hS := h.spec hr hl
  rw [hS.pts] at hi
  rw [hS.idx] at hj
  obtain ⟨a, ha⟩ := List.getElem?_eq_some_iff.1 hi
  obtain ⟨b, hb⟩ := List.getElem?_eq_some_iff.1 hj
  simp only [List.getElem_range', List.length_range', Nat.one_mul] at a b ha hb
  have ho := h.off_add hl (Nat.le_of_lt hr)
  omega

theorem Cfg.RunRep.shows {E : Cfg V K T N} (h : E.Good) {R : Run V N} {s : Nat → PState V N}
    (hR : RunRep E R s) {r : Nat} (hr : r < E.P) : Shows E R r (s r) := by
  have hL := hR.loc r hr
  refine ⟨?_, fun j => by rw [hL.conv], hL.iter, hL.outs.length_eq, ?_⟩
  · intro l k i j hl hi hj
    obtain ⟨a, b, rfl⟩ := own_local h hr hl hi hj
    exact (hR.rep.loc r hr).u l i hl a b
  · intro m a b ha hb
    obtain ⟨h1, ha⟩ := List.getElem?_eq_some_iff.1 ha
    obtain ⟨h2, hb⟩ := List.getElem?_eq_some_iff.1 hb
    have := (List.forall₂_iff_get.1 hL.outs).2 m h1 h2
    simp only [List.get_eq_getElem, ha, hb] at this
    refine ⟨this.1, fun k i j hi hj => ?_⟩
    obtain ⟨x, y, rfl⟩ := own_local h hr h.valid.pos hi hj
    exact this.2 i x y

/-- The final configuration of a run. -/
theorem exists_final {E : Cfg V K T N} (h : E.Good) :
    ∃ s : Nat → PState V N, RunRep E (serialRun E) s ∧
      Steps (startConf E) ⟨fun r => Prog.ret (s r), Chans.empty⟩ := by
  obtain ⟨s, hR, hrun⟩ := main_runs h (init_rep h)
  refine ⟨s, hR, ?_⟩
  have := hrun _ (fun _ => Prog.ret)
  simp only [Prog.bind_ret] at this
  exact this

/-- C22, C23.  In every interleaving: the number of steps is bounded; whenever not all processes have
returned, some process can make a step (no deadlock); no process raises an exception; when no step is
possible all processes have returned and every message has been received. -/
theorem C22_terminates {E : Cfg V K T N} (h : E.Good) :
    ∃ n, ∀ k c, StepsN k (startConf E) c →
      k ≤ n ∧ (∀ r msg, c.prog r ≠ Prog.fail msg) ∧
      ((c.Done ∧ ∀ s d t, c.chan s d t = []) ∨ ∃ c', Step c c') := by
  obtain ⟨s, -, hs⟩ := exists_final h
  obtain ⟨n, hn⟩ := complete_of_steps hs (fun r => ⟨_, rfl⟩)
  refine ⟨n, fun k c hk => ?_⟩
  obtain ⟨h1, -, h3, h4⟩ := hn k c hk
  refine ⟨h1, h4, ?_⟩
  rcases h3 with rfl | h3
  · exact Or.inl ⟨fun r => ⟨_, rfl⟩, fun _ _ _ => rfl⟩
  · exact Or.inr h3

/-- C22.  There are no infinite executions. -/
theorem C22_no_infinite_run {E : Cfg V K T N} (h : E.Good)
    (c : Nat → Conf E.P (Msg V N) (PState V N)) (h0 : c 0 = startConf E)
    (hs : ∀ k, Step (c k) (c (k + 1))) : False := by
  obtain ⟨n, hn⟩ := C22_terminates h
  have snoc : ∀ {k} {a b d : Conf E.P (Msg V N) (PState V N)}, StepsN k a b → Step b d →
      StepsN (k + 1) a d := by
    intro k a b d h1 h2
    induction h1 with
    | zero => exact StepsN.succ h2 (StepsN.zero _)
    | succ h _ ih => exact StepsN.succ h (ih h2)
  have : ∀ k, StepsN k (startConf E) (c k) := by
    intro k
    induction k with
    | zero => rw [h0]; exact StepsN.zero _
    | succ k ih => exact snoc ih (hs k)
  have := (hn _ _ (this (n + 1))).1
  omega

/-- C21.  All executions that cannot be continued end in the same configuration. -/
theorem C21_schedule_independent {E : Cfg V K T N} (h : E.Good)
    {c c' : Conf E.P (Msg V N) (PState V N)} (h1 : Steps (startConf E) c)
    (h2 : Steps (startConf E) c') (hc : ∀ d, ¬ Step c d) (hc' : ∀ d, ¬ Step c' d) : c = c' := by
  obtain ⟨s, -, hs⟩ := exists_final h
  obtain ⟨n, hn⟩ := complete_of_steps hs (fun r => ⟨_, rfl⟩)
  have key : ∀ d, Steps (startConf E) d → (∀ e, ¬ Step d e) →
      d = ⟨fun r => Prog.ret (s r), Chans.empty⟩ := by
    intro d hd hne
    obtain ⟨k, hk⟩ := hd.toN
    rcases (hn k d hk).2.2.1 with e | ⟨e, he⟩
    · exact e
    · exact absurd he (hne e)
  rw [key c h1 hc, key c' h2 hc']

/-- C20.  At the end of every execution every process shows the result of the run on one process: the
same values at its points on all levels, the same convergence values, iteration count and calls of
the output function. -/
theorem C20_same_as_serial_partial {E : Cfg V K T N} (h : E.Good) {c : Conf E.P (Msg V N) (PState V N)}
    (h1 : Steps (startConf E) c) (hc : ∀ d, ¬ Step c d) (r : Fin E.P) :
    ∃ s, c.prog r = Prog.ret s ∧ Shows E (serialRun E) r s := by
  obtain ⟨s, hR, hs⟩ := exists_final h
  have e := C21_schedule_independent h h1 hs hc (fun d => Conf.Done.not_step fun r => ⟨_, rfl⟩)
  refine ⟨s r, by rw [e], hR.shows h r.isLt⟩

/-- C20.  Two runs of the same solver on different numbers of processes (and with different set
iteration orders): processes owning the same point end with the same value there, and all processes
record the same convergence values and iteration count. -/
theorem C20_process_count_partial {E : Cfg V K T N} (P' : Nat) (ord' : Nat → Nat → List Nat → List Nat)
    (instr' : Bool) (h : E.Good)
    (h' : ({ E with P := P', ord := ord', instr := instr' } : Cfg V K T N).Good)
    {c : Conf E.P (Msg V N) (PState V N)} (h1 : Steps (startConf E) c) (hc : ∀ d, ¬ Step c d)
    {c' : Conf P' (Msg V N) (PState V N)}
    (h1' : Steps (startConf { E with P := P', ord := ord', instr := instr' }) c')
    (hc' : ∀ d, ¬ Step c' d) (r : Fin E.P) (r' : Fin P') :
    ∃ s s', c.prog r = Prog.ret s ∧ c'.prog r' = Prog.ret s' ∧
      (∀ j, s.conv j = s'.conv j) ∧ s.solveIter = s'.solveIter ∧
      ∀ l k i j k' j' : Nat, l < E.ts.length →
        (E.info r l).pts[k]? = some i → (E.info r l).idx[k]? = some j →
        (setupLevel E.ts P' (ord' r' l) r' l).pts[k']? = some i →
        (setupLevel E.ts P' (ord' r' l) r' l).idx[k']? = some j' → s.u l j = s'.u l j' := by
  obtain ⟨s, e, hs⟩ := C20_same_as_serial_partial h h1 hc r
  obtain ⟨s', e', hs'⟩ := C20_same_as_serial_partial h' h1' hc' r'
  have hser : serialRun ({ E with P := P', ord := ord', instr := instr' } : Cfg V K T N)
      = serialRun E := rfl
  rw [hser] at hs'
  refine ⟨s, s', e, e', fun j => by rw [hs.conv, hs'.conv], hs.iter.trans hs'.iter.symm, ?_⟩
  intro l k i j k' j' hl a b a' b'
  rw [hs.values l k i j hl a b]
  exact (hs'.values l k' i j' hl a' b').symm

/-- C23.  With `instr` every receive checks that the message was sent by the exchange of the same kind
on the same level (and the tag, which counts the messages of that exchange, always agrees, since it
selects the channel).  No execution ever fails this check, so every receive obtains the message of
the matching exchange, although levels share tag ranges. -/
theorem C23_no_mismatch {E : Cfg V K T N} (h : ({ E with instr := true } : Cfg V K T N).Good)
    {c : Conf E.P (Msg V N) (PState V N)} (h1 : Steps (startConf { E with instr := true }) c)
    (r : Fin E.P) (msg : String) : c.prog r ≠ Prog.fail msg := by
  obtain ⟨n, hn⟩ := C22_terminates h
  obtain ⟨k, hk⟩ := h1.toN
  exact (hn k c hk).2.1 r msg

/-- What the check of C23 does: a receive continues only if level and kind agree. -/
theorem C23_check (E : Cfg V K T N) (hi : E.instr = true) (q l op : Nat) (s : PState V N) :
    E.recvP (some q) l op s = Prog.recv q (s.tagR l op) fun m =>
      if m.lvl = l ∧ m.op = op then
        Prog.ret (m.data, { s with
          tagR := upd2 s.tagR l op (s.tagR l op + 1)
          sf := if E.global then s.sf else upd2 s.sf l op m.fin })
      else Prog.fail "message mismatch" := by
  show Prog.recv _ _ _ = Prog.recv _ _ _
  congr 1
  funext m
  by_cases h1 : m.lvl = l <;> by_cases h2 : m.op = op <;> simp [hi, h1, h2]

/-! ### When the hypotheses hold -/

/-- One process. -/
theorem good_one {E : Cfg V K T N} (hv : Valid E.ts) (hP : E.P = 1)
    (ho : ∀ r l, r < E.P → l < E.ts.length → OrdOK E.ts E.P (E.ord r l) r l)
    (hg : E.convCrit = 0 ∨ E.convCrit = 1) : E.Good where
  valid := hv
  Ppos := by omega
  PN := by
    have := hv.npos (l := 0) hv.pos
    omega
  ord := ho
  glob := by simpa [global] using hg
  noCC := by
    intro r l hr hl h0
    have hr0 : r = 0 := by omega
    subst hr0
    rw [hv.lo_zero (by omega) (by have := hv.npos (l := 0) hv.pos; omega) (by omega)] at h0
    omega

/-- Any number of processes, if no two neighbouring points are both C-points (for instance for
uniform coarsening with factor at least two). -/
theorem good_of_gap {E : Cfg V K T N} (hv : Valid E.ts) (hP : 0 < E.P) (hPN : E.P ≤ npts E.ts 0)
    (ho : ∀ r l, r < E.P → l < E.ts.length → OrdOK E.ts E.P (E.ord r l) r l)
    (hg : E.convCrit = 0 ∨ E.convCrit = 1)
    (gap : ∀ l i, l + 1 < E.ts.length → ¬ (i ∈ allC E.ts l ∧ i + 1 ∈ allC E.ts l)) : E.Good where
  valid := hv
  Ppos := hP
  PN := hPN
  ord := ho
  glob := by simpa [global] using hg
  noCC := by
    intro r l _ hl h0 _ hc
    refine absurd ?_ (gap l (lo E.ts E.P l r - 1) hl)
    refine ⟨hc.1, ?_⟩
    rw [Nat.sub_add_cancel h0]; exact hc.2

/-! ### Examples and a counterexample -/

def isRet {M α : Type} : Prog M α → Bool
  | .ret _ => true
  | _ => false

/-- If the scheduler of `Verif.RunNet` ends with all processes returned, what it computes is an execution. -/
theorem exec_done (E : Cfg V K T N) (fuel k : Nat) (res : List (Prog (Msg V N) (PState V N)))
    (hres : (exec E.P fuel k ((List.range E.P).map fun r =>
      E.mainP r (E.initState (fun r l => off E.ts E.P l r) r)) []).1 = res)
    (hd : res.all isRet = true) :
    ∃ c, Steps (startConf E) c ∧ c.Done ∧ ∀ r, c.prog r = res.getD r (.fail "") := by
  obtain ⟨hs, hlen⟩ := exec_steps E.P fuel k ((List.range E.P).map fun r =>
      E.mainP r (E.initState (fun r l => off E.ts E.P l r) r)) [] (by simp)
  rw [hres] at hs hlen
  have e : confOf E.P ((List.range E.P).map fun r =>
      E.mainP r (E.initState (fun r l => off E.ts E.P l r) r)) [] = startConf E := by
    refine Conf.ext' (fun r => ?_) rfl
    simp [confOf, startConf]
  rw [e] at hs
  refine ⟨_, hs, ?_, fun _ => rfl⟩
  intro r
  have hm : res.getD r (.fail "") ∈ res := by
    rw [List.getD_eq_getElem?_getD, List.getElem?_eq_getElem (by rw [hlen]; exact r.isLt)]
    exact List.getElem_mem _
  have := List.all_eq_true.1 hd _ hm
  show ∃ a, res.getD r (.fail "") = Prog.ret a
  revert this
  cases res.getD r (.fail "") <;> simp [isRet]

/-- The outcome computed by the scheduler of `Verif.RunNet`, if all processes return, is the outcome
of every execution. -/
theorem exec_final (E : Cfg V K T N) (fuel k : Nat) (res : List (Prog (Msg V N) (PState V N)))
    (hres : (exec E.P fuel k ((List.range E.P).map fun r =>
      E.mainP r (E.initState (fun r l => off E.ts E.P l r) r)) []).1 = res)
    (hd : res.all isRet = true)
    {c : Conf E.P (Msg V N) (PState V N)} (h1 : Steps (startConf E) c) (hc : ∀ d, ¬ Step c d)
    (r : Fin E.P) : c.prog r = res.getD r (.fail "") := by
  obtain ⟨c', hs, hdone, hp⟩ := exec_done E fuel k res hres hd
  obtain ⟨n, hn⟩ := complete_of_steps hs hdone
  obtain ⟨m, hm⟩ := h1.toN
  rcases (hn m c hm).2.2.1 with rfl | ⟨d, h⟩
  · exact hp r
  · exact absurd h (hc d)

/-- A hierarchy with neighbouring C-points 2 and 3. -/
def ccCfg (P : Nat) : Cfg Int Int Nat Int :=
  { exCfg P with
    ts := [[0, 1, 2, 3, 4, 5], [0, 2, 3, 5]]
    nested := false
    maxIter := 1
    outLvl := 0
    step := fun l x t0 t1 => (2 + l) * x + (t1 : Int) - (t0 : Int) }

def showsAt (l j : Nat) (E : Cfg Int Int Nat Int) : Prog (Msg Int Int) (PState Int Int) → Option (Int × Int)
  | .ret s => some (s.u l j, s.conv 1)
  | _ => none

/-- C20 and C13 fail without the condition on neighbouring C-points.  On two processes the boundary
separates the C-points 2 and 3; the ghost copy of point 2 on process 1 is never refreshed on the fine
level.  Every execution ends with the value 5 at point 3, where one process computes 15, and yet all
processes record a residual of exactly zero. -/
theorem C20_adjacent_c_points {c : Conf 2 (Msg Int Int) (PState Int Int)}
    (h1 : Steps (startConf (ccCfg 2)) c) (hc : ∀ d, ¬ Step c d) :
    (serialRun (ccCfg 2)).st.u 0 3 = 15 ∧
    ((ccCfg 2).info 1 0).pts[0]? = some 3 ∧ ((ccCfg 2).info 1 0).idx[0]? = some 1 ∧
    ∃ s0 s1, c.prog 0 = Prog.ret s0 ∧ c.prog 1 = Prog.ret s1 ∧
      s1.u 0 1 = 5 ∧ s0.conv 1 = 0 ∧ s1.conv 1 = 0 := by
  refine ⟨by decide +kernel, by decide +kernel, by decide +kernel, ?_⟩
  set res := (exec 2 1000 10 ((List.range 2).map fun r => (ccCfg 2).mainP r
    ((ccCfg 2).initState (fun r l => off (ccCfg 2).ts 2 l r) r)) []).1 with hres
  have hall : res.all isRet = true := by decide +kernel
  have e0 : showsAt 0 1 (ccCfg 2) (res.getD 0 (.fail "")) = some (3, 0) := by decide +kernel
  have e1 : showsAt 0 1 (ccCfg 2) (res.getD 1 (.fail "")) = some (5, 0) := by decide +kernel
  have h0' : c.prog 0 = res.getD 0 (.fail "") := exec_final (ccCfg 2) 1000 10 res rfl hall h1 hc (0 : Fin 2)
  have h1' : c.prog 1 = res.getD 1 (.fail "") := exec_final (ccCfg 2) 1000 10 res rfl hall h1 hc (1 : Fin 2)
  clear_value res
  rw [h0', h1']
  revert e0 e1
  cases res.getD 0 (.fail "") <;> cases res.getD 1 (.fail "") <;>
    simp +contextual [showsAt]

theorem exGrid_gap (l i : Nat) (hl : l + 1 < exGrid.length) : ¬ (i ∈ allC exGrid l ∧ i + 1 ∈ allC exGrid l) := by
  have e0 : allC exGrid 0 = [0, 2, 4, 6, 8] := by decide +kernel
  have e1 : allC exGrid 1 = [0, 2, 4] := by decide +kernel
  match l with
  | 0 => rw [e0]; simp; omega
  | 1 => rw [e1]; simp; omega
  | l + 2 => exact absurd hl (by simp [exGrid])

/-- The hypotheses of C20-C23 hold for the example on up to nine processes. -/
theorem exCfg_good (P : Nat) (hP : 0 < P) (hP9 : P ≤ 9) : (exCfg P).Good :=
  good_of_gap exGrid_valid hP hP9
    (fun r l hr hl => ordOK_id exGrid_valid hP9 hl hr) (Or.inl rfl) exGrid_gap

example : (exCfg 3).Good := exCfg_good 3 (by decide) (by decide)

end Pymgrit
