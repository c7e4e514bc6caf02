import Verif.Session
import Verif.PropsRaise

/-!
# Several solvers in one program (C132)
-/

set_option linter.unusedSectionVars false

namespace Pymgrit.Script
open Pymgrit Pymgrit.Cfg

variable {V K T N : Type} [LinearOrder T] [Inhabited T] [Add V] [Sub V] [SMul K V] [One K] [Sub K] [Zero N]

/-- The solvers of all processes represent those of the run on one process. -/
def Rep (P : Nat) (S : List (Cfg V K T N × Run V N)) (st : Nat → List (Cfg V K T N × PState V N)) : Prop :=
  (∀ r, (st r).length = S.length) ∧
  ∀ (i : Nat) (E : Cfg V K T N) (R : Run V N), S[i]? = some (E, R) → E.P = P ∧ E.Good ∧
    ∃ s : Nat → PState V N, E.RunRep R s ∧ ∀ r, (st r)[i]? = some (E, s r)

theorem script_runs {P : Nat} (p : Script V K T N) : ∀ (S : List (Cfg V K T N × Run V N))
    (st : Nat → List (Cfg V K T N × PState V N)), Rep P S st → p.Fits P S →
    ∃ st', Rep P (p.serial S) st' ∧ Runs P (fun r => p.prog r (st r)) st' := by
  induction p with
  | done =>
    intro S st h _
    exact ⟨st, h, Runs.ret st⟩
  | new E k ih =>
    intro S st h hf
    obtain ⟨⟨hP, hG⟩, hf⟩ := hf
    subst hP
    obtain ⟨s1, hR1, hrun1⟩ := setup_runs hG (init_rep hG)
    obtain ⟨st', hr', hrun⟩ := ih _ (fun r => st r ++ [(E, s1 r)]) ⟨fun r => by simp [h.1 r], by
      intro i E' R' hi
      by_cases hlt : i < S.length
      · rw [List.getElem?_append_left hlt] at hi
        obtain ⟨a, b, s, c, d⟩ := h.2 i E' R' hi
        exact ⟨a, b, s, c, fun r => by rw [List.getElem?_append_left (by rw [h.1 r]; exact hlt), d r]⟩
      · rw [List.getElem?_append_right (by omega)] at hi
        have hi0 : i - S.length = 0 := by
          by_contra hne
          rw [List.getElem?_eq_none (by simp; omega)] at hi
          cases hi
        rw [hi0] at hi
        obtain ⟨rfl, rfl⟩ : E = E' ∧ _ = R' := by simpa using hi
        refine ⟨rfl, hG, s1, hR1, fun r => ?_⟩
        rw [List.getElem?_append_right (by rw [h.1 r]; omega), h.1 r, hi0]
        rfl⟩ hf
    exact ⟨st', hr', hrun1.bind (g := fun r s => k.prog r (st r ++ [(E, s)])) hrun⟩
  | solve i k ih =>
    intro S st h hf
    unfold Fits at hf
    unfold serial
    cases hS : S[i]? with
    | none => rw [hS] at hf; exact hf.elim
    | some ER =>
      obtain ⟨E, R⟩ := ER
      rw [hS] at hf
      dsimp only at hf ⊢
      obtain ⟨hP, hG, s, hR, hs⟩ := h.2 i E R hS
      obtain ⟨s2, hR2, hrun2⟩ := solve_runs hG hR
      rw [hP] at hrun2
      have hil : i < S.length := (List.getElem?_eq_some_iff.1 hS).1
      obtain ⟨st', hr', hrun⟩ := ih (E.sys.solve E.ctl E.sys.forwardSolve R).iter (E.sys.solve E.ctl E.sys.forwardSolve R).conv
        (S.set i (E, E.sys.solve E.ctl E.sys.forwardSolve R)) (fun r => (st r).set i (E, s2 r))
        ⟨fun r => by simp [h.1 r], by
          intro i' E' R' hi
          by_cases he : i = i'
          · subst he
            rw [List.getElem?_set_self hil] at hi
            obtain ⟨rfl, rfl⟩ : E = E' ∧ _ = R' := by simpa using hi
            exact ⟨hP, hG, s2, hR2, fun r => List.getElem?_set_self (by rw [h.1 r]; exact hil)⟩
          · rw [List.getElem?_set_ne he] at hi
            obtain ⟨a, b, s, c, d⟩ := h.2 i' E' R' hi
            exact ⟨a, b, s, c, fun r => by rw [List.getElem?_set_ne he, d r]⟩⟩ hf
      refine ⟨st', hr', ?_⟩
      have key := hrun2.bind (g := fun r s' => (k s'.solveIter s'.conv).prog r ((st r).set i (E, s'))) (b := st')
        (hrun.congr (fun r hr => by
          have hsh := hR2.shows hG (r := r) (by rw [hP]; exact hr)
          rw [hsh.iter, show (s2 r).conv = _ from funext hsh.conv]) fun _ _ => rfl)
      refine key.congr (fun r hr => ?_) fun _ _ => rfl
      rw [prog, hs r]

/-- The end of the program on several processes. -/
theorem exists_end {P : Nat} (p : Script V K T N) (hf : p.Fits P []) :
    ∃ st : Nat → List (Cfg V K T N × PState V N), Rep P (p.serial []) st ∧
      Steps (p.start P) ⟨fun r => Prog.ret (st r), Chans.empty⟩ := by
  obtain ⟨st, hr, hrun⟩ := script_runs (P := P) p [] (fun _ => []) ⟨fun _ => rfl, by simp⟩ hf
  refine ⟨st, hr, ?_⟩
  have := hrun _ fun _ => Prog.ret
  simp only [Prog.bind_ret] at this
  exact this

/-- C132.  A program creates solvers and calls their `solve()` in any order, deciding by what `solve()` returned.  In every
interleaving - processes may already work on the next solver while others are in the one before, with the same tags - the
number of steps is bounded, no process raises an exception, there is no deadlock, and at the end all messages are received. -/
theorem C132_terminates_partial {P : Nat} (p : Script V K T N) (hf : p.Fits P []) :
    ∃ n, ∀ k c, StepsN k (p.start P) c →
      k ≤ n ∧ (∀ r msg, c.prog r ≠ Prog.fail msg) ∧
      ((c.Done ∧ ∀ s d t, c.chan s d t = []) ∨ ∃ c', Step c c') := by
  obtain ⟨s, -, hs⟩ := exists_end p hf
  obtain ⟨n, hn⟩ := complete_of_steps hs (fun r => ⟨_, rfl⟩)
  refine ⟨n, fun k c hk => ?_⟩
  obtain ⟨h1, -, h3, h4⟩ := hn k c hk
  refine ⟨h1, h4, ?_⟩
  rcases h3 with rfl | h3
  · exact Or.inl ⟨fun r => ⟨_, rfl⟩, fun _ _ _ => rfl⟩
  · exact Or.inr h3

/-- C132.  At the end every process holds the same solvers as the program on one process, in particular it took the same
decisions, and each of them shows the result it has on one process. -/
theorem C132_same_as_serial_partial {P : Nat} (p : Script V K T N) (hf : p.Fits P [])
    {c : Conf P (Msg V N) (List (Cfg V K T N × PState V N))} (h1 : Steps (p.start P) c) (hc : ∀ d, ¬ Step c d) (r : Fin P) :
    ∃ st, c.prog r = Prog.ret st ∧ st.length = (p.serial []).length ∧
      ∀ (i : Nat) (E : Cfg V K T N) (R : Run V N), (p.serial [])[i]? = some (E, R) →
        ∃ s, st[i]? = some (E, s) ∧ Shows E R r s := by
  obtain ⟨st, hr, hs⟩ := exists_end p hf
  obtain ⟨n, hn⟩ := complete_of_steps hs (fun r => ⟨_, rfl⟩)
  obtain ⟨k, hk⟩ := h1.toN
  have e : c = ⟨fun r => Prog.ret (st r), Chans.empty⟩ := by
    rcases (hn k c hk).2.2.1 with e | ⟨e, he⟩
    · exact e
    · exact absurd he (hc e)
  subst e
  refine ⟨st r, rfl, hr.1 r, fun i E R hi => ?_⟩
  obtain ⟨hP, hG, s, hR, hs⟩ := hr.2 i E R hi
  exact ⟨s r, hs r, hR.shows hG (by rw [hP]; exact r.isLt)⟩

/-! ### Local criteria -/

theorem lstep_bind {M α β : Type} {P r : Nat} {k : α → Prog M β} {a b : Prog M α × Chans M} (h : LStep P r a b) :
    LStep P r (a.1.bind k, a.2) (b.1.bind k, b.2) := by
  cases h with
  | send hd => exact .send hd
  | recv hq => exact .recv hq
  | wait hq => exact .wait hq

/-- A run to the end can be followed by anything. -/
theorem runs_of_steps {M α : Type} {P : Nat} {f : Nat → Prog M α} {a : Nat → α}
    (h : Steps (⟨fun r : Fin P => f r.val, Chans.empty⟩ : Conf P M α) ⟨fun r => Prog.ret (a r.val), Chans.empty⟩) :
    Runs P f a := by
  intro β k
  have key : ∀ {c c' : Conf P M α}, Steps c c' →
      Steps (⟨fun r => (c.prog r).bind (k r.val), c.chan⟩ : Conf P M β) ⟨fun r => (c'.prog r).bind (k r.val), c'.chan⟩ := by
    intro c c' h
    induction h with
    | refl => exact .refl
    | tail _ hs ih =>
      refine ih.tail ?_
      obtain ⟨r, h1, h2⟩ := hs
      exact ⟨r, lstep_bind h1, fun r' hr' => by dsimp only; rw [h2 r' hr']⟩
  exact key h

/-- What solver `E` ends with on process `r` if it is alone in the program. -/
def Alone (E : Cfg V K T N) (r : Nat) (s : PState V N) : Prop :=
  ∃ (hr : r < E.P) (c : Conf E.P (Msg V N) (PState V N)), Steps (startConf E) c ∧ (∀ d, ¬ Step c d) ∧
    c.prog ⟨r, hr⟩ = Prog.ret s

theorem chain_runs {P : Nat} (Es : List (Cfg V K T N)) : ∀ (st : Nat → List (Cfg V K T N × PState V N)) (i : Nat),
    (∀ r, (st r).length = i) → (∀ E ∈ Es, E.P = P ∧ (E.Good ∨ E.Loc)) →
    ∃ s : Nat → List (Cfg V K T N × PState V N), Runs P (fun r => (chain i Es).prog r (st r)) (fun r => st r ++ s r) ∧
      ∀ r, r < P → List.Forall₂ (fun E x => x.1 = E ∧ Alone E r x.2) Es (s r) := by
  induction Es with
  | nil =>
    intro st i _ _
    exact ⟨fun _ => [], by simpa [chain, prog] using Runs.ret st, fun _ _ => .nil⟩
  | cons E Es ih =>
    intro st i hi hE
    obtain ⟨hP, hg⟩ := hE E List.mem_cons_self
    subst hP
    obtain ⟨F, hF⟩ : ∃ F : Nat → PState V N, Steps (startConf E) ⟨fun r => Prog.ret (F r.val), Chans.empty⟩ := by
      rcases hg with h | h
      · obtain ⟨F, -, hF⟩ := exists_final h
        exact ⟨F, hF⟩
      · obtain ⟨F, hF, -⟩ := Cfg.local_final h
        exact ⟨F, hF⟩
    have hrun : Runs E.P (fun r => E.mainP r (E.initState (fun r l => off E.ts E.P l r) r)) F := runs_of_steps hF
    obtain ⟨s, hs, hA⟩ := ih (fun r => st r ++ [(E, F r)]) (i + 1) (fun r => by simp [hi r]) fun E' h' =>
      hE E' (List.mem_cons_of_mem _ h')
    refine ⟨fun r => (E, F r) :: s r, ?_, fun r hr => .cons ⟨rfl, hr, _, hF, fun d => ?_, rfl⟩ (hA r hr)⟩
    · have := hrun.bind (g := fun r s' => (chain (i + 1) Es).prog r (st r ++ [(E, s')])) hs
      refine this.congr (fun r hr => ?_) fun r hr => by simp
      simp only [chain, prog]
      have e : ∀ s1 : PState V N, (st r ++ [(E, s1)])[i]? = some (E, s1) := fun s1 => by
        rw [List.getElem?_append_right (by rw [hi r]), hi r]; simp
      have e2 : ∀ s1 s2 : PState V N, (st r ++ [(E, s1)]).set i (E, s2) = st r ++ [(E, s2)] := fun s1 s2 => by
        rw [List.set_append_right _ _ (by rw [hi r]), hi r]; simp
      simp only [e, e2]
      rw [mainP, Prog.bind_assoc]
    · exact Conf.Done.not_step (fun r => ⟨_, rfl⟩)

/-- C132.  Solvers with global or local criterion that are created and solved one after another, each once: in every
interleaving the program ends, without exception, deadlock or messages that are not received. -/
theorem C132_one_after_another_partial {P : Nat} (Es : List (Cfg V K T N)) (hE : ∀ E ∈ Es, E.P = P ∧ (E.Good ∨ E.Loc)) :
    ∃ n, ∀ k c, StepsN k ((chain 0 Es).start P) c →
      k ≤ n ∧ (∀ r msg, c.prog r ≠ Prog.fail msg) ∧
      ((c.Done ∧ ∀ s d t, c.chan s d t = []) ∨ ∃ c', Step c c') := by
  obtain ⟨s, hs, -⟩ := chain_runs (P := P) Es (fun _ => []) 0 (fun _ => rfl) hE
  have := hs _ fun _ => Prog.ret
  simp only [Prog.bind_ret] at this
  obtain ⟨n, hn⟩ := complete_of_steps this (fun r => ⟨_, rfl⟩)
  refine ⟨n, fun k c hk => ?_⟩
  obtain ⟨h1, -, h3, h4⟩ := hn k c hk
  refine ⟨h1, h4, ?_⟩
  rcases h3 with rfl | h3
  · exact Or.inl ⟨fun r => ⟨_, rfl⟩, fun _ _ _ => rfl⟩
  · exact Or.inr h3

/-- C132.  Each of them ends with exactly what it ends with if it is alone in the program. -/
theorem C132_as_alone_partial {P : Nat} (Es : List (Cfg V K T N)) (hE : ∀ E ∈ Es, E.P = P ∧ (E.Good ∨ E.Loc))
    {c : Conf P (Msg V N) (List (Cfg V K T N × PState V N))} (h1 : Steps ((chain 0 Es).start P) c)
    (hc : ∀ d, ¬ Step c d) (r : Fin P) :
    ∃ st, c.prog r = Prog.ret st ∧ List.Forall₂ (fun E x => x.1 = E ∧ Alone E r x.2) Es st := by
  obtain ⟨s, hs, hA⟩ := chain_runs (P := P) Es (fun _ => []) 0 (fun _ => rfl) hE
  have := hs _ fun _ => Prog.ret
  simp only [Prog.bind_ret] at this
  obtain ⟨n, hn⟩ := complete_of_steps this (fun r => ⟨_, rfl⟩)
  obtain ⟨k, hk⟩ := h1.toN
  have e : c = ⟨fun r => Prog.ret ([] ++ s r.val), Chans.empty⟩ := by
    rcases (hn k c hk).2.2.1 with e | ⟨e, he⟩
    · exact e
    · exact absurd he (hc e)
  subst e
  exact ⟨_, rfl, by simpa using hA r.val r.isLt⟩

/-! ### Counterexamples -/

/-- The scheduler of `Verif.RunNet` on a program. -/
def execs (p : Script V K T N) (P k : Nat) : List (Prog (Msg V N) (List (Cfg V K T N × PState V N))) × Mail (Msg V N) :=
  exec P 100000 k ((List.range P).map fun r => p.prog r []) []

theorem execs_stuck {p : Script V K T N} {P k : Nat} (h : allStuck P 0 (execs p P k).1 (execs p P k).2 = true)
    (hne : (execs p P k).1.all isRet = false)
    {c : Conf P (Msg V N) (List (Cfg V K T N × PState V N))} (hc : Steps (p.start P) c) : ¬ c.Done := by
  obtain ⟨hs, hlen⟩ := exec_steps P 100000 k ((List.range P).map fun r => p.prog r []) [] (by simp)
  have e0 : confOf P ((List.range P).map fun r => p.prog r []) [] = p.start P := by
    refine Conf.ext' (fun r => ?_) rfl
    simp [confOf, start]
  rw [e0] at hs
  intro hd
  have e := (hs.unique_end (stuck_of_allStuck hlen h) hc).2 fun d => Conf.Done.not_step hd
  rw [e] at hd
  have : (execs p P k).1.all isRet = true := by
    rw [List.all_eq_true]
    intro x hx
    obtain ⟨i, hi, rfl⟩ := List.getElem_of_mem hx
    have hiP : i < P := by rw [← hlen]; exact hi
    obtain ⟨a, ha⟩ := hd ⟨i, hiP⟩
    have e2 : (confOf P (execs p P k).1 (execs p P k).2).prog ⟨i, hiP⟩ = (execs p P k).1[i] := by
      simp [confOf, hi]
    rw [← e2]
    exact (congrArg isRet ha).trans rfl
  rw [this] at hne
  cases hne

/-- With the local criterion a second `solve()` of the same solver does not end: the marks that the neighbour has finished
are still set, so nobody receives, and process 0 waits for ever in its clean-up. -/
theorem C132_second_solve_counterexample {c : Conf 2 (Msg Int Int) (List (Cfg Int Int Nat Int × PState Int Int))}
    (hc : Steps ((new (lateCfg 2 1) (solve 0 fun _ _ => solve 0 fun _ _ => done)).start 2) c) : ¬ c.Done :=
  execs_stuck (k := 10) (by decide +kernel) (by decide +kernel) hc

/-- With the local criterion the processes make different numbers of iterations and have different histories.  A program that
decides by them - here: the solver is created again if the first iteration was enough - does not end. -/
theorem C132_decision_counterexample {c : Conf 2 (Msg Int Int) (List (Cfg Int Int Nat Int × PState Int Int))}
    (hc : Steps ((new (lateCfg 2 1) (solve 0 fun it _ => if it = 1 then new (lateCfg 2 1) done else done)).start 2) c) :
    ¬ c.Done :=
  execs_stuck (k := 10) (by decide +kernel) (by decide +kernel) hc

/-! ### Examples -/

/-- Two solvers, the second with a smaller limit; the second is solved first, then the first, and the second again if the first
made more than one iteration. -/
def exScript (P : Nat) : Script Int Int Nat Int :=
  new (exCfg P) <| new { exCfg P with maxIter := 1 } <| solve 1 fun _ _ => solve 0 fun it _ =>
    if 1 < it then solve 1 fun _ _ => done else done

theorem exCfg_good1 (P : Nat) (hP : 0 < P) (hP9 : P ≤ 9) : ({ exCfg P with maxIter := 1 } : Cfg Int Int Nat Int).Good :=
  good_of_gap exGrid_valid hP hP9
    (fun r l hr hl => ordOK_id exGrid_valid hP9 hl hr) (Or.inl rfl) exGrid_gap

theorem exScript_last (P it : Nat) (x y : Cfg Int Int Nat Int × Run Int Int) :
    (if 1 < it then solve 1 fun _ _ => done else done : Script Int Int Nat Int).Fits P [x, y] := by
  by_cases h : 1 < it
  · rw [if_pos h]; exact True.intro
  · rw [if_neg h]; exact True.intro

theorem exScript_solves (P : Nat) (x y : Cfg Int Int Nat Int × Run Int Int) :
    (solve 1 fun _ _ => solve 0 fun it _ => if 1 < it then solve 1 fun _ _ => done else done : Script Int Int Nat Int).Fits P
      [x, y] := exScript_last P _ _ _

theorem fits_new_new {P : Nat} {E0 E1 : Cfg Int Int Nat Int} {k : Script Int Int Nat Int} (h0 : E0.P = P ∧ E0.Good)
    (h1 : E1.P = P ∧ E1.Good) (hk : ∀ x y, k.Fits P [x, y]) : (new E0 (new E1 k)).Fits P [] :=
  ⟨h0, h1, hk _ _⟩

theorem exScript_fits (P : Nat) (hP : 0 < P) (hP9 : P ≤ 9) {p : Script Int Int Nat Int} (hp : p = exScript P) :
    p.Fits P [] := by
  rw [hp]
  exact fits_new_new ⟨rfl, exCfg_good P hP hP9⟩ ⟨rfl, exCfg_good1 P hP hP9⟩ (exScript_solves P)

/-- The last branch of the example is taken. -/
example : ((exScript 3).serial []).map (fun x => x.2.iter) = [2, 1] := by decide +kernel

example : ∀ E ∈ [exCfg 3, exLocal 3, exCfg 3], E.P = 3 ∧ (E.Good ∨ E.Loc) := by
  have h1 := exCfg_good 3 (by decide) (by decide)
  have h2 := exLocal_loc 3 (by decide) (by decide)
  simp only [List.mem_cons, List.not_mem_nil, or_false]
  rintro E (rfl | rfl | rfl)
  · exact ⟨rfl, .inl h1⟩
  · exact ⟨rfl, .inr h2⟩
  · exact ⟨rfl, .inl h1⟩

end Pymgrit.Script
