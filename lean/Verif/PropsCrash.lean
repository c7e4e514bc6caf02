import Verif.Crash2
import Verif.PropsLocal2

/-!
# Properties C75-C77: crashes, lost messages and buffering

Executions of `FStep`: besides interleaving, the environment may stop processes at any point, lose
messages of a stopped process that are in transit, and complete `Waitall` early.  C75 and C76 hold for
every configuration of the solver, with global and with local criteria, also for those in which a run
deadlocks or raises an exception.
-/

set_option linter.unusedSectionVars false

namespace Pymgrit
open Cfg

variable {V K T N : Type} [LinearOrder T] [Inhabited T]
variable [Add V] [Sub V] [SMul K V] [One K] [Sub K] [Zero N]

/-- C75.  If a process returns from `solve()` in two executions, whatever the schedules, crashes, lost
messages and buffering in each of them, then it returns the same. -/
theorem C75_same_result (E : Cfg V K T N) {f f' : FConf E.P (Msg V N) (PState V N)}
    (h : FSteps (startConf E).alive f) (h' : FSteps (startConf E).alive f') {r : Fin E.P}
    {s s' : PState V N} (hs : f.conf.prog r = .ret s) (hs' : f'.conf.prog r = .ret s') : s = s' := by
  obtain ⟨q, h1, -⟩ := h.sim
  obtain ⟨q', h1', -⟩ := h'.sim
  obtain ⟨e, he, he'⟩ := h1.confluent h1'
  have e1 := he.ret_stays (r := r) hs
  have e2 := he'.ret_stays (r := r) hs'
  rw [e1] at e2
  cases e2
  rfl

/-- C75.  With a global criterion, what a process returns in an execution with crashes is the result of
the run on one process. -/
theorem C75_serial_result {E : Cfg V K T N} (h : E.Good) {f : FConf E.P (Msg V N) (PState V N)}
    (hf : FSteps (startConf E).alive f) {r : Fin E.P} {s : PState V N} (hs : f.conf.prog r = .ret s) :
    Shows E (serialRun E) r s := by
  obtain ⟨F, hR, hF⟩ := exists_final h
  obtain ⟨q, h1, -⟩ := hf.sim
  have hx : XSteps (startConf E) ⟨fun r => Prog.ret (F r), Chans.empty⟩ :=
    Relation.ReflTransGen.mono (fun _ _ h => Step.x h) _ _ hF
  obtain ⟨e, he, he'⟩ := h1.confluent hx
  have e1 := he.ret_stays (r := r) hs
  have e2 := he'.ret_stays (r := r) rfl
  rw [e1] at e2
  cases e2
  exact hR.shows h r.isLt

/-- The program of a run passes its barriers as counted, whatever is done between the constructor and the
last barrier without using the tags of barriers. -/
theorem main_along_of (E : Cfg V K T N) (r : Nat) (offs : Nat → Nat → Nat)
    {loop : PState V N → Prog (Msg V N) (PState V N)} (hloop : ∀ s, QS 2 s (loop s))
    (last : PState V N → PState V N) :
    ((E.setupP r (E.initState offs r)).bind fun s => (loop s).bind fun s => (E.barrierP r).bind fun _ =>
      .ret (last s)).Along (BarJ E r) (BarPost E r) fun _ _ _ => 0 := by
  have h0 : Tagged (E.initState offs r) := fun l op => ⟨by show 50000 ≤ 50000 * (op + 1); omega,
    by show 50000 ≤ 50000 * (op + 1); omega⟩
  have hz : BarAt E r 0 fun _ _ _ => 0 := by
    unfold BarAt
    split
    · exact fun q _ _ => ⟨rfl, rfl⟩
    · exact ⟨rfl, rfl⟩
  have hb : 2 ≤ barriers E := by unfold barriers; split <;> omega
  -- `solve`
  have hsolve : ∀ (s : PState V N) (y : Cnt) (i : Nat), Tagged s → BarAt E r i y → i + 1 = barriers E →
      ((loop s).bind fun s => (E.barrierP r).bind fun _ => Prog.ret (last s)).Along (BarJ E r) (BarPost E r) y := by
    intro s y i hs hy hi
    refine (hloop _ hs).along (fun z p hz => (hy.same E hz).low E (by omega) p) fun z s' hz _ => ?_
    refine barrier_along E (hy.same E hz) (by omega) (fun _ => ⟨_, rfl⟩) fun w hw => ⟨?_, ?_⟩
    · unfold BarAt at hw
      unfold BarJ
      split
      · rename_i hr
        rw [if_pos hr] at hw
        exact fun q _ _ _ => ⟨⟨_, rfl⟩, fun q' h1 h2 => by rw [(hw q' h1 h2).1, hi]⟩
      · exact fun _ => ⟨_, rfl⟩
    · unfold BarAt at hw
      unfold BarPost
      split
      · rename_i hr
        rw [if_pos hr] at hw
        exact fun q' h1 h2 => by rw [(hw q' h1 h2).1, hi]
      · rename_i hr
        rw [if_neg hr] at hw
        rw [hw.2, hi]
  unfold setupP
  rw [Prog.bind_assoc]
  refine barrier_along E hz (by omega) (fun h => by omega) fun y hy => ?_
  rw [Prog.bind_assoc]
  have hq : QS 2 (E.initState offs r)
      (if E.nested = true then E.nestedIterationP r (E.initState offs r) else Prog.ret (E.initState offs r)) :=
    QS.ite (QS.nestedIterationP E _) (QS.ret id)
  refine (hq h0).along (fun z p hz => (hy.same E hz).low E (by omega) p) fun z s hz hs => ?_
  rw [Prog.bind_assoc]
  have hs' : Tagged (if E.convCrit = 1 ∨ E.convCrit = 3 then { s with saved := s.u 0 } else s) := by
    split
    · exact hs.of_eq rfl rfl
    · exact hs
  simp only [Prog.ret_bind]
  have ho : ∀ s : PState V N, Tagged s → Tagged (if E.outLvl = 2 then outputP s else s) := by
    intro s hs
    split
    · exact hs.outputP
    · exact hs
  by_cases hm : E.maxIter = 0
  · rw [if_pos hm]
    have hb3 : barriers E = 3 := by unfold barriers; rw [if_pos hm]
    refine barrier_along E (hy.same E hz) (by omega) (fun h => by omega) fun w hw => ?_
    exact hsolve _ w 2 (ho _ hs') hw (by omega)
  · rw [if_neg hm]
    have hb2 : barriers E = 2 := by unfold barriers; rw [if_neg hm]
    exact hsolve _ z 1 (ho _ hs') (hy.same E hz) (by omega)

/-- The program of a run passes its barriers as counted. -/
theorem main_along (E : Cfg V K T N) (r : Nat) (offs : Nat → Nat → Nat) :
    (E.mainP r (E.initState offs r)).Along (BarJ E r) (BarPost E r) fun _ _ _ => 0 :=
  main_along_of E r offs (QS.solveLoopP E _ _) fun s => if E.outLvl = 1 then outputP s else s

/-- Once some process has returned, the results of all are determined. -/
theorem all_or_none (E : Cfg V K T N) {c c' : Conf E.P (Msg V N) (PState V N)} (h1 : XSteps c c')
    (h0 : c.chan = Chans.empty)
    (hal : ∀ r : Fin E.P, (c.prog r).Along (BarJ E r) (BarPost E r) fun _ _ _ => 0) {r : Fin E.P}
    {s : PState V N} (hs : c'.prog r = .ret s) (q : Fin E.P) : ∃ a, (c'.prog q).Returns a := by
  obtain ⟨x, hx, hc⟩ := h1.along h0 hal
  by_cases hqr : q = r
  · subst hqr
    exact ⟨s, by rw [hs]; rfl⟩
  have hpost := hx r
  rw [hs] at hpost
  replace hpost := hpost.2
  have hPq := q.isLt
  have hPr := r.isLt
  unfold BarPost at hpost
  have hJq := (hx q).here
  unfold BarJ at hJq
  by_cases hr0 : r.val = 0
  · have hq0 : q.val ≠ 0 := fun e => hqr (Fin.ext (by omega))
    rw [if_pos hr0] at hpost
    rw [if_neg hq0] at hJq
    have h2 := hpost q.val (by omega) hPq
    have h3 := hc q.val r.val 2
    rw [hr0] at h3 h2
    exact hJq (by omega)
  · rw [if_neg hr0] at hpost
    have h3 := hc 0 r.val 3
    have hP : 0 < E.P := by omega
    have hJ0 := (hx ⟨0, hP⟩).here
    unfold BarJ at hJ0
    rw [if_pos rfl] at hJ0
    obtain ⟨ha, hb⟩ := hJ0 r.val (by omega) hPr (by simp only; omega)
    by_cases hq0 : q.val = 0
    · rwa [show q = ⟨0, hP⟩ from Fin.ext hq0]
    · rw [if_neg hq0] at hJq
      have h4 := hc q.val 0 2
      have h5 := hb q.val (by omega) hPq
      simp only at h5
      exact hJq (by omega)

/-- C76.  Once some process has returned from `solve()`, every process, crashed or not, has computed
its result: whatever messages still arrive, it would return one and the same state, without an
exception.  In other words, if a process stops or raises an exception before that, no process
returns. -/
theorem C76_all_or_none (E : Cfg V K T N) {f : FConf E.P (Msg V N) (PState V N)}
    (h : FSteps (startConf E).alive f) {r : Fin E.P} {s : PState V N} (hs : f.conf.prog r = .ret s)
    (q : Fin E.P) : ∃ a, (f.conf.prog q).Returns a := by
  obtain ⟨ch, h1, -⟩ := h.sim
  exact all_or_none E h1 rfl (fun r => main_along E r _) hs q

/-- C76.  No process returns if one of them has raised an exception. -/
theorem C76_exception (E : Cfg V K T N) {f : FConf E.P (Msg V N) (PState V N)}
    (h : FSteps (startConf E).alive f) {q : Fin E.P} {msg : String} (hq : f.conf.prog q = .fail msg)
    (r : Fin E.P) (s : PState V N) : f.conf.prog r ≠ .ret s := by
  intro hs
  obtain ⟨a, ha⟩ := C76_all_or_none E h hs q
  rw [hq] at ha
  exact ha

/-! ### Early completion of `Waitall` -/

section early
variable {P : Nat} {M α : Type}

theorem FStep.dead_mono {f f' : FConf P M α} (h : FStep f f') (r : Fin P) (hr : f.dead r) : f'.dead r := by
  cases h with
  | crash r' => exact .inr hr
  | _ => exact hr

theorem FStepsN.dead_mono {n : Nat} {f f' : FConf P M α} (h : FStepsN n f f') (r : Fin P)
    (hr : f.dead r) : f'.dead r := by
  induction h with
  | zero => exact hr
  | succ h _ ih => exact ih (h.dead_mono r hr)

/-- A step without a crash. -/
theorem FStep.x {f f' : FConf P M α} (h : FStep f f') (hn : ∀ r, ¬ f'.dead r) : XStep f.conf f'.conf := by
  cases h with
  | @send r d t m k p q dead hr hp hd =>
    refine ⟨r, .inl ?_, update_same⟩
    show LStep P r.val (p r, q) (Function.update p r k r, q.push r d t m)
    rw [hp, Function.update_self]
    exact .send hd
  | @recv r s t m ms k p q dead hr hp hq =>
    refine ⟨r, .inl ?_, update_same⟩
    show LStep P r.val (p r, q) (Function.update p r (k m) r, q.pop s r t)
    rw [hp, Function.update_self]
    exact .recv hq
  | @wait r k p q dead hr hp =>
    refine ⟨r, .inr ⟨k, hp, ?_⟩, update_same⟩
    show (Function.update p r k r, q) = (k, q)
    rw [Function.update_self]
  | crash r => exact absurd (.inl rfl) (hn r)

theorem FStepsN.x {n : Nat} {f f' : FConf P M α} (h : FStepsN n f f') (hn : ∀ r, ¬ f'.dead r) :
    XStepsN n f.conf f'.conf := by
  induction h with
  | zero => exact .zero _
  | succ h h' ih => exact .succ (h.x fun r hr => hn r (h'.dead_mono r hr)) (ih hn)

theorem XStep.f {c c' : Conf P M α} (h : XStep c c') {dead : Fin P → Prop} (hn : ∀ r, ¬ dead r) :
    FStep ⟨c, dead⟩ ⟨c', dead⟩ := by
  obtain ⟨r, h1, h2⟩ := h
  obtain ⟨p, q⟩ := c
  obtain ⟨p', q'⟩ := c'
  have e : p' = Function.update p r (p' r) := by
    funext r'
    by_cases hr : r' = r
    · subst hr; rw [Function.update_self]
    · rw [Function.update_of_ne hr]; exact h2 r' hr
  rcases h1 with h1 | ⟨k, hk, he⟩
  · generalize ha : (p r, q) = a at h1
    generalize hb : (p' r, q') = b at h1
    have ha : (p r, q) = a := ha
    have hb : (p' r, q') = b := hb
    cases h1 with
    | send hd =>
      obtain ⟨ha1, rfl⟩ := Prod.mk.inj ha
      obtain ⟨hb1, rfl⟩ := Prod.mk.inj hb
      rw [e, show p' r = _ from hb1]
      exact .send (hn r) ha1 hd
    | recv hq =>
      obtain ⟨ha1, rfl⟩ := Prod.mk.inj ha
      obtain ⟨hb1, rfl⟩ := Prod.mk.inj hb
      rw [e, show p' r = _ from hb1]
      exact .recv (hn r) ha1 hq
    | wait hq =>
      obtain ⟨ha1, rfl⟩ := Prod.mk.inj ha
      obtain ⟨hb1, rfl⟩ := Prod.mk.inj hb
      rw [e, show p' r = _ from hb1]
      exact .wait (hn r) ha1
  · have he : (p' r, q') = (k, q) := he
    rw [Prod.mk.injEq] at he
    obtain ⟨hb, rfl⟩ := he
    rw [e, hb]
    exact .wait (hn r) hk

/-- From one complete execution with the strict `Waitall` everything follows for early completion. -/
theorem early_of_steps {c : Conf P M α} {F : Fin P → α}
    (h : Steps c ⟨fun r => Prog.ret (F r), Chans.empty⟩) :
    ∃ n, ∀ k f, FStepsN k c.alive f → (∀ r, ¬ f.dead r) →
      k ≤ n ∧ (∀ r msg, f.conf.prog r ≠ Prog.fail msg) ∧
      ((∀ r, f.conf.prog r = Prog.ret (F r)) ∧ (∀ s d t, f.conf.chan s d t = []) ∨
        ∃ f', FStep f f' ∧ ∀ r, ¬ f'.dead r) := by
  obtain ⟨n, hn⟩ := h.toN
  refine ⟨n, fun k f hk hd => ?_⟩
  obtain ⟨m, rfl, hm⟩ := hn.x.determinacy (fun r => ⟨_, rfl⟩) (hk.x hd)
  refine ⟨by omega, fun r msg hf => ?_, ?_⟩
  · have := hm.toSteps.fail_stays (r := r) hf
    cases this
  · obtain ⟨cc, dead⟩ := f
    cases hm with
    | zero => exact .inl ⟨fun r => rfl, fun _ _ _ => rfl⟩
    | succ h1 _ => exact .inr ⟨_, h1.f hd, hd⟩

end early

/-- C77.  Global criterion: however early `Waitall` completes, an execution without crashes has a
bounded number of steps, never deadlocks, raises no exception, receives all messages, and ends on every
process with the result of the run on one process. -/
theorem C77_early_wait {E : Cfg V K T N} (h : E.Good) :
    ∃ n, ∀ k f, FStepsN k (startConf E).alive f → (∀ r, ¬ f.dead r) →
      k ≤ n ∧ (∀ r msg, f.conf.prog r ≠ Prog.fail msg) ∧
      ((∀ r, ∃ s, f.conf.prog r = Prog.ret s ∧ Shows E (serialRun E) r s) ∧
        (∀ s d t, f.conf.chan s d t = []) ∨ ∃ f', FStep f f' ∧ ∀ r, ¬ f'.dead r) := by
  obtain ⟨F, hR, hF⟩ := exists_final h
  obtain ⟨n, hn⟩ := early_of_steps hF
  refine ⟨n, fun k f hk hd => ?_⟩
  obtain ⟨h1, h2, h3⟩ := hn k f hk hd
  refine ⟨h1, h2, ?_⟩
  rcases h3 with ⟨h3, h4⟩ | h3
  · exact .inl ⟨fun r => ⟨F r, h3 r, hR.shows h r.isLt⟩, h4⟩
  · exact .inr h3

/-- C77.  The same for the local residual criterion in the cases of `C32_partial`; the result is that of
any execution with the strict `Waitall`. -/
theorem C77_early_wait_local {E : Cfg V K T N} (h : E.Loc)
    {c : Conf E.P (Msg V N) (PState V N)} (hc : Steps (startConf E) c) (hst : ∀ d, ¬ Step c d) :
    ∃ n, ∀ k f, FStepsN k (startConf E).alive f → (∀ r, ¬ f.dead r) →
      k ≤ n ∧ (∀ r msg, f.conf.prog r ≠ Prog.fail msg) ∧
      (f.conf = c ∨ ∃ f', FStep f f' ∧ ∀ r, ¬ f'.dead r) := by
  obtain ⟨F, hF, -⟩ := Cfg.local_final h
  obtain ⟨n, hn⟩ := early_of_steps hF
  refine ⟨n, fun k f hk hd => ?_⟩
  obtain ⟨h1, h2, h3⟩ := hn k f hk hd
  refine ⟨h1, h2, ?_⟩
  rcases h3 with ⟨h3, h4⟩ | h3
  · left
    rw [local_end hF hc hst]
    exact Conf.ext' h3 (by funext s d t; exact h4 s d t)
  · exact .inr h3

/-! ### Crash points -/

/-- A process that has stopped stays where it is. -/
theorem FSteps.dead_stays {P : Nat} {M α : Type} {f f' : FConf P M α} (h : FSteps f f') {q : Fin P}
    (hq : f.dead q) : f'.dead q ∧ f'.conf.prog q = f.conf.prog q := by
  induction h with
  | refl => exact ⟨hq, rfl⟩
  | tail _ h2 ih =>
    obtain ⟨hd, hp⟩ := ih
    refine ⟨h2.dead_mono q hd, ?_⟩
    rw [← hp]
    cases h2 with
    | @send r _ _ _ _ p _ _ hr _ _ =>
      exact Function.update_of_ne (show q ≠ r from fun e => hr (e ▸ hd)) _ p
    | @recv r _ _ _ _ _ p _ _ hr _ _ =>
      exact Function.update_of_ne (show q ≠ r from fun e => hr (e ▸ hd)) _ p
    | @wait r _ p _ _ hr _ =>
      exact Function.update_of_ne (show q ≠ r from fun e => hr (e ▸ hd)) _ p
    | crash _ _ _ => rfl

/-- C76.  If a process stops at a point where its result is not yet determined, no process ever returns
from `solve()`. -/
theorem C76_crash_blocks (E : Cfg V K T N) {f f' : FConf E.P (Msg V N) (PState V N)}
    (h : FSteps (startConf E).alive f) {q : Fin E.P} (hd : f.dead q)
    (hq : ∀ a, ¬ (f.conf.prog q).Returns a) (h' : FSteps f f') (r : Fin E.P) (s : PState V N) :
    f'.conf.prog r ≠ .ret s := by
  intro hs
  obtain ⟨a, ha⟩ := C76_all_or_none E (h.trans h') hs q
  rw [(h'.dead_stays hd).2] at ha
  exact hq a ha

/-! ### Examples -/

/-- The program run on its own for `n` operations, every message received being `m`. -/
def Prog.feed {M α : Type} (m : M) : Nat → Prog M α → Prog M α
  | n + 1, .send _ _ _ k => k.feed m n
  | n + 1, .recv _ _ k => (k m).feed m n
  | n + 1, .wait k => k.feed m n
  | _, p => p

theorem Prog.Returns.feed {M α : Type} (m : M) {a : α} :
    ∀ (n : Nat) (p : Prog M α), p.Returns a → (p.feed m n).Returns a
  | 0, _, h => h
  | n + 1, .send _ _ _ k, h => Prog.Returns.feed m n k h
  | n + 1, .recv _ _ k, h => Prog.Returns.feed m n (k m) (h m)
  | n + 1, .wait k, h => Prog.Returns.feed m n k h
  | _ + 1, .ret _, h => h
  | _ + 1, .fail _, h => h

def isFail {M α : Type} : Prog M α → Bool
  | .fail _ => true
  | _ => false

/-- C75, C76: executions with a crash in which processes return exist. -/
example : ∃ f : FConf 4 (Msg Int Int) (PState Int Int), FSteps (startConf (exCfg 4)).alive f ∧
    f.dead 2 ∧ ∃ s, f.conf.prog 0 = .ret s := by
  obtain ⟨F, -, hF⟩ := exists_final (exCfg_good 4 (by decide) (by decide))
  obtain ⟨n, hn⟩ := hF.toN
  have h : ∀ {n : Nat} {c c' : Conf 4 (Msg Int Int) (PState Int Int)}, XStepsN n c c' →
      FSteps c.alive c'.alive := by
    intro n c c' h
    induction h with
    | zero => exact .refl
    | succ h _ ih => exact .head (h.f fun _ h => h) ih
  exact ⟨_, (h hn.x).tail (.crash 2 (fun _ _ _ _ => rfl) fun _ _ => List.prefix_rfl), .inl rfl, _, rfl⟩

/-- C76: process 1 stops before its first operation. -/
example : ∃ f : FConf 4 (Msg Int Int) (PState Int Int), FSteps (startConf (exCfg 4)).alive f ∧
    f.dead 1 ∧ ∀ a, ¬ (f.conf.prog 1).Returns a := by
  refine ⟨_, (.single (.crash (P := 4) 1 (fun _ _ _ _ => rfl) fun _ _ => List.prefix_rfl)), .inl rfl, fun a ha => ?_⟩
  have h := Prog.Returns.feed ⟨.unit, false, 0, 8⟩ 100 _ ha
  have hf : isFail (((startConf (exCfg 4)).prog (1 : Fin 4)).feed ⟨.unit, false, 0, 8⟩ 100) = true := by
    decide +kernel
  generalize ((startConf (exCfg 4)).prog (1 : Fin 4)).feed ⟨.unit, false, 0, 8⟩ 100 = p at h hf
  cases p <;> simp [isFail] at hf
  exact h

end Pymgrit
