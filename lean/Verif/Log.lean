import Verif.Proc
import Verif.NetLemmas

/-!
# Executions with an event log, and safety of programs

`Exec c log c'` is an execution from `c` to `c'` together with the list of all sends and receives in
the order they happen.  A monitor watches the events of one process; `Prog.Safe` says that a program
never violates it, whatever messages arrive.
-/

namespace Pymgrit

variable {M α β : Type}

/-- An event of a process. -/
inductive Ev (M : Type) where
  | snd (dst tag : Nat) (m : M)
  | rcv (src tag : Nat) (m : M)

/-- The event of one step of process `r` (none for `wait`). -/
inductive LStepE (P : Nat) (r : Nat) : Prog M α × Chans M → List (Ev M) → Prog M α × Chans M → Prop
  | send {d t : Nat} {m : M} {k : Prog M α} {q : Chans M} (hd : d < P) :
      LStepE P r (Prog.send d t m k, q) [.snd d t m] (k, q.push r d t m)
  | recv {s t : Nat} {m : M} {ms : List M} {k : M → Prog M α} {q : Chans M}
      (hq : q s r t = m :: ms) : LStepE P r (Prog.recv s t k, q) [.rcv s t m] (k m, q.pop s r t)
  | wait {k : Prog M α} {q : Chans M} (hq : ∀ d t, q r d t = []) :
      LStepE P r (Prog.wait k, q) [] (k, q)

theorem LStep.log {P r : Nat} {a b : Prog M α × Chans M} (h : LStep P r a b) : ∃ es, LStepE P r a es b := by
  cases h with
  | send hd => exact ⟨_, .send hd⟩
  | recv hq => exact ⟨_, .recv hq⟩
  | wait hq => exact ⟨_, .wait hq⟩

theorem LStepE.step {P r : Nat} {a b : Prog M α × Chans M} {es : List (Ev M)} (h : LStepE P r a es b) :
    LStep P r a b := by
  cases h with
  | send hd => exact .send hd
  | recv hq => exact .recv hq
  | wait hq => exact .wait hq

/-- Executions with the list of all events, each with the process it belongs to. -/
inductive Exec {P : Nat} (c : Conf P M α) : List (Nat × Ev M) → Conf P M α → Prop
  | start : Exec c [] c
  | step {log : List (Nat × Ev M)} {c1 c2 : Conf P M α} {r : Fin P} {es : List (Ev M)} :
      Exec c log c1 → LStepE P r.val (c1.prog r, c1.chan) es (c2.prog r, c2.chan) →
      (∀ r', r' ≠ r → c2.prog r' = c1.prog r') → Exec c (log ++ es.map fun e => (r.val, e)) c2

/-- Every execution has a log. -/
theorem Steps.exec {P : Nat} {c c' : Conf P M α} (h : Steps c c') : ∃ log, Exec c log c' := by
  induction h with
  | refl => exact ⟨[], .start⟩
  | tail _ h2 ih =>
    obtain ⟨log, hl⟩ := ih
    obtain ⟨r, h3, h4⟩ := h2
    obtain ⟨es, he⟩ := h3.log
    exact ⟨_, .step hl he h4⟩

theorem Exec.steps {P : Nat} {c c' : Conf P M α} {log : List (Nat × Ev M)} (h : Exec c log c') :
    Steps c c' := by
  induction h with
  | start => exact Relation.ReflTransGen.refl
  | step _ h2 h3 ih => exact ih.tail ⟨_, h2.step, h3⟩

/-- With empty channels at the start, whatever is in transit or has been received was sent before. -/
theorem Exec.sent {P : Nat} {c c' : Conf P M α} {log : List (Nat × Ev M)} (h : Exec c log c')
    (h0 : c.chan = Chans.empty) :
    (∀ s d t m, m ∈ c'.chan s d t → (s, Ev.snd d t m) ∈ log) ∧
    (∀ L1 L2 r s t m, log = L1 ++ (r, Ev.rcv s t m) :: L2 → (s, Ev.snd r t m) ∈ L1) := by
  induction h with
  | start =>
    refine ⟨fun s d t m hm => ?_, fun L1 L2 r s t m e => ?_⟩
    · rw [h0] at hm; cases hm
    · simp at e
  | @step log c1 c2 r es _ h2 h3 ih =>
    obtain ⟨ih1, ih2⟩ := ih
    have last : ∀ {e : Ev M} {L1 L2 : List (Nat × Ev M)} {r' s t : Nat} {m : M},
        log ++ [(r.val, e)] = L1 ++ (r', Ev.rcv s t m) :: L2 →
        (∃ L, log = L1 ++ (r', Ev.rcv s t m) :: L) ∨ (L1 = log ∧ (r.val, e) = (r', Ev.rcv s t m)) := by
      intro e L1 L2 r' s t m he
      rcases L2.eq_nil_or_concat with rfl | ⟨L, x, rfl⟩
      · right
        have := List.append_inj' he rfl
        exact ⟨this.1.symm, by simpa using this.2⟩
      · left
        have e2 : log ++ [(r.val, e)] = (L1 ++ (r', Ev.rcv s t m) :: L) ++ [x] := by simpa using he
        exact ⟨L, (List.append_inj' e2 rfl).1⟩
    generalize hx : (c1.prog r, c1.chan) = x at h2
    generalize hy : (c2.prog r, c2.chan) = y at h2
    cases h2 with
    | @send d t m k q hd =>
      rw [Prod.mk.injEq] at hx hy
      obtain ⟨-, rfl⟩ := hx
      refine ⟨fun s d' t' m' hm => ?_, fun L1 L2 r' s t' m' he => ?_⟩
      · rw [hy.2] at hm
        simp only [Chans.push] at hm
        simp only [List.map_cons, List.map_nil, List.mem_append, List.mem_singleton]
        split at hm
        · rename_i hc
          obtain ⟨rfl, rfl, rfl⟩ := hc
          rcases List.mem_append.1 hm with h' | h'
          · exact .inl (ih1 _ _ _ _ h')
          · rw [List.mem_singleton] at h'; rw [h']; exact .inr rfl
        · exact .inl (ih1 _ _ _ _ hm)
      · rcases last he with ⟨L, hL⟩ | ⟨-, h'⟩
        · exact ih2 _ _ _ _ _ _ hL
        · simp at h'
    | @recv s t m ms k q hq =>
      rw [Prod.mk.injEq] at hx hy
      obtain ⟨-, rfl⟩ := hx
      refine ⟨fun s' d' t' m' hm => ?_, fun L1 L2 r' s' t' m' he => ?_⟩
      · rw [hy.2] at hm
        simp only [Chans.pop] at hm
        refine List.mem_append_left _ (ih1 _ _ _ _ ?_)
        split at hm
        · exact List.mem_of_mem_tail hm
        · exact hm
      · rcases last he with ⟨L, hL⟩ | ⟨rfl, h'⟩
        · exact ih2 _ _ _ _ _ _ hL
        · simp only [Prod.mk.injEq, Ev.rcv.injEq] at h'
          obtain ⟨rfl, rfl, rfl, rfl⟩ := h'
          exact ih1 _ _ _ _ (by rw [hq]; exact List.mem_cons_self)
    | wait hq =>
      rw [Prod.mk.injEq] at hx hy
      obtain ⟨-, rfl⟩ := hx
      refine ⟨fun s' d' t' m' hm => ?_, fun L1 L2 r' s' t' m' he => ?_⟩
      · rw [hy.2] at hm
        exact List.mem_append_left _ (ih1 _ _ _ _ hm)
      · exact ih2 L1 L2 _ _ _ _ (by simpa using he)

/-! ### Monitors -/

/-- A monitor: what it remembers (`σ`), and which sends it allows. -/
structure Mon (M σ : Type) where
  ok : σ → Nat → Nat → M → Prop
  onSend : σ → Nat → Nat → M → σ
  onRecv : σ → Nat → Nat → M → σ

variable {σ : Type} (mon : Mon M σ)

def Mon.next (x : σ) : Ev M → σ
  | .snd d t m => mon.onSend x d t m
  | .rcv s t m => mon.onRecv x s t m

/-- The program never violates the monitor started in state `x`; if it returns `a` with the monitor in
state `y` then `post y a`. -/
def Prog.Safe : Prog M α → σ → (σ → α → Prop) → Prop
  | .ret a, x, post => post x a
  | .fail _, _, _ => True
  | .send d t m k, x, post => mon.ok x d t m ∧ k.Safe (mon.onSend x d t m) post
  | .recv s t k, x, post => ∀ m, (k m).Safe (mon.onRecv x s t m) post
  | .wait k, x, post => k.Safe x post

theorem Prog.Safe.bind {p : Prog M α} {f : α → Prog M β} {x : σ} {post : σ → β → Prop}
    (h : p.Safe mon x fun y a => (f a).Safe mon y post) : (p.bind f).Safe mon x post := by
  induction p generalizing x with
  | ret a => exact h
  | fail e => trivial
  | send d t m k ih => exact ⟨h.1, ih h.2⟩
  | recv s t k ih => exact fun m => ih m (h m)
  | wait k ih => exact ih (x := x) h

theorem Prog.Safe.mono {p : Prog M α} {x : σ} {post post' : σ → α → Prop} (h : p.Safe mon x post)
    (hp : ∀ y a, post y a → post' y a) : p.Safe mon x post' := by
  induction p generalizing x with
  | ret a => exact hp _ _ h
  | fail e => trivial
  | send d t m k ih => exact ⟨h.1, ih h.2⟩
  | recv s t k ih => exact fun m => ih m (h m)
  | wait k ih => exact ih (x := x) h

/-- The monitor's state for process `r` after the events of a log. -/
def Mon.after (r : Nat) (x : σ) (log : List (Nat × Ev M)) : σ :=
  (log.filterMap fun e => if e.1 = r then some e.2 else none).foldl mon.next x

theorem Mon.after_append (r : Nat) (x : σ) (log log' : List (Nat × Ev M)) :
    mon.after r x (log ++ log') = mon.after r (mon.after r x log) log' := by
  simp [Mon.after, List.filterMap_append]

theorem Mon.after_other {r r' : Nat} (h : r' ≠ r) (x : σ) (es : List (Ev M)) :
    mon.after r x (es.map fun e => (r', e)) = x := by
  have : (es.map fun e => (r', e)).filterMap (fun e => if e.1 = r then some e.2 else none) = [] := by
    rw [List.filterMap_eq_nil_iff]
    intro e he
    obtain ⟨e', -, rfl⟩ := List.mem_map.1 he
    simp [h]
  rw [Mon.after, this]
  rfl

/-- A safe program is safe in every execution: every send is allowed at the time it happens. -/
theorem Exec.safe {P : Nat} {c c' : Conf P M α} {log : List (Nat × Ev M)} (h : Exec c log c') (r : Fin P)
    (x : σ) (post : σ → α → Prop) (h0 : (c.prog r).Safe mon x post) :
    (c'.prog r).Safe mon (mon.after r x log) post ∧
    ∀ L1 L2 d t m, log = L1 ++ (r.val, Ev.snd d t m) :: L2 → mon.ok (mon.after r x L1) d t m := by
  induction h with
  | start =>
    refine ⟨h0, fun L1 L2 d t m e => ?_⟩
    simp at e
  | @step log c1 c2 r' es _ h2 h3 ih =>
    obtain ⟨ih1, ih2⟩ := ih
    by_cases hr : r = r'
    · subst hr
      generalize hx : (c1.prog r, c1.chan) = a at h2
      generalize hy : (c2.prog r, c2.chan) = b at h2
      have last : ∀ {e : Ev M} {L1 L2 : List (Nat × Ev M)} {d t : Nat} {m : M},
          log ++ [(r.val, e)] = L1 ++ (r.val, Ev.snd d t m) :: L2 →
          (∃ L, log = L1 ++ (r.val, Ev.snd d t m) :: L) ∨ (L1 = log ∧ e = Ev.snd d t m) := by
        intro e L1 L2 d t m he
        rcases L2.eq_nil_or_concat with rfl | ⟨L, x, rfl⟩
        · right
          have := List.append_inj' he rfl
          exact ⟨this.1.symm, by simpa using this.2⟩
        · left
          have e2 : log ++ [(r.val, e)] = (L1 ++ (r.val, Ev.snd d t m) :: L) ++ [x] := by simpa using he
          exact ⟨L, (List.append_inj' e2 rfl).1⟩
      cases h2 with
      | @send d t m k q hd =>
        rw [Prod.mk.injEq] at hx hy
        rw [hx.1] at ih1
        obtain ⟨i1, i2⟩ := ih1
        refine ⟨?_, fun L1 L2 d' t' m' he => ?_⟩
        · rw [hy.1, Mon.after_append]
          simpa [Mon.after, Mon.next] using i2
        · rcases last he with ⟨L, hL⟩ | ⟨rfl, h'⟩
          · exact ih2 _ _ _ _ _ hL
          · simp only [Ev.snd.injEq] at h'
            obtain ⟨rfl, rfl, rfl⟩ := h'
            exact i1
      | @recv s t m ms k q hq =>
        rw [Prod.mk.injEq] at hx hy
        rw [hx.1] at ih1
        refine ⟨?_, fun L1 L2 d' t' m' he => ?_⟩
        · rw [hy.1, Mon.after_append]
          simpa [Mon.after, Mon.next] using ih1 m
        · rcases last he with ⟨L, hL⟩ | ⟨-, h'⟩
          · exact ih2 _ _ _ _ _ hL
          · cases h'
      | wait hq =>
        rw [Prod.mk.injEq] at hx hy
        rw [hx.1] at ih1
        refine ⟨?_, fun L1 L2 d' t' m' he => ?_⟩
        · rw [hy.1, Mon.after_append]
          exact ih1
        · exact ih2 L1 L2 _ _ _ (by simpa using he)
    · have hne : r'.val ≠ r.val := fun e => hr (Fin.ext e.symm)
      refine ⟨?_, fun L1 L2 d t m he => ?_⟩
      · rw [h3 r hr, Mon.after_append, Mon.after_other mon hne]
        exact ih1
      · rcases List.append_eq_append_iff.1 he with ⟨a, ha, hb⟩ | ⟨a, ha, hb⟩
        · exfalso
          have : (r.val, Ev.snd d t m) ∈ es.map fun e => (r'.val, e) := by
            rw [hb]; simp
          obtain ⟨e, -, h'⟩ := List.mem_map.1 this
          exact hne (Prod.mk.inj h').1
        · cases a with
          | nil =>
            exfalso
            rw [List.nil_append] at hb
            have : (r.val, Ev.snd d t m) ∈ es.map fun e => (r'.val, e) := by
              rw [← hb]; exact List.mem_cons_self
            obtain ⟨e, -, h'⟩ := List.mem_map.1 this
            exact hne (Prod.mk.inj h').1
          | cons y a =>
            rw [List.cons_append, List.cons.injEq] at hb
            rw [← hb.1] at ha
            exact ih2 L1 a d t m ha

end Pymgrit
