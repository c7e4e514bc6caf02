import Mathlib.Logic.Function.Basic
import Mathlib.Logic.Relation
import Mathlib.Tactic.Common

/-!
# Message-passing programs and their interleaving semantics

Model of the part of MPI that `/repo/src/pymgrit/core/mgrit.py` uses:

* `comm_time.isend(data, dest, tag)` (mgrit.py:709-712): never blocks, appends to the channel
  `(self, dest, tag)`;
* `comm_time.recv(source, tag)` (mgrit.py:697): blocks until the channel `(source, self, tag)` is
  non-empty and takes its first message (MPI's non-overtaking rule: messages with equal source,
  destination, communicator and tag are received in the order they were sent);
* `MPI.Request.Waitall(self.requests)` (mgrit.py:649, 691): modelled in the strictest way MPI allows,
  i.e. it completes only when every message sent so far by this process has been received;
* `gather`, `bcast`, `barrier` are expressed by messages to and from the root (`Verif.Proc`);
* a Python exception (`IndexError`, `TypeError`, invalid rank) is the node `fail`, which never steps.

A process is a deterministic program; the network interleaves steps of processes arbitrarily.
-/

namespace Pymgrit

/-- Program of one process with messages `M` and result `α`. -/
inductive Prog (M α : Type) where
  | ret (a : α)
  | fail (msg : String)
  | send (dst tag : Nat) (m : M) (k : Prog M α)
  | recv (src tag : Nat) (k : M → Prog M α)
  | wait (k : Prog M α)

namespace Prog
variable {M α β γ : Type}

/-- Sequential composition. -/
def bind : Prog M α → (α → Prog M β) → Prog M β
  | ret a, f => f a
  | fail e, _ => fail e
  | send d t m k, f => send d t m (bind k f)
  | recv s t k, f => recv s t (fun m => bind (k m) f)
  | wait k, f => wait (bind k f)

instance : Monad (Prog M) where
  pure := ret
  bind := bind

@[simp] theorem pure_eq (a : α) : (pure a : Prog M α) = ret a := rfl
@[simp] theorem bind_eq (p : Prog M α) (f : α → Prog M β) : (p >>= f) = bind p f := rfl
@[simp] theorem ret_bind (a : α) (f : α → Prog M β) : bind (ret a) f = f a := rfl
@[simp] theorem fail_bind (e) (f : α → Prog M β) : bind (fail e) f = fail e := rfl
@[simp] theorem send_bind (d t) (m : M) (k) (f : α → Prog M β) :
    bind (send d t m k) f = send d t m (bind k f) := rfl
@[simp] theorem recv_bind (s t) (k : M → Prog M α) (f : α → Prog M β) :
    bind (recv s t k) f = recv s t (fun m => bind (k m) f) := rfl
@[simp] theorem wait_bind (k) (f : α → Prog M β) : bind (wait k) f = wait (bind k f) := rfl

theorem bind_assoc (p : Prog M α) (f : α → Prog M β) (g : β → Prog M γ) :
    bind (bind p f) g = bind p (fun a => bind (f a) g) := by
  induction p with
  | ret a => rfl
  | fail e => rfl
  | send d t m k ih => simp [ih]
  | recv s t k ih => simp [ih]
  | wait k ih => simp [ih]

theorem bind_ret (p : Prog M α) : bind p ret = p := by
  induction p with
  | ret a => rfl
  | fail e => rfl
  | send d t m k ih => simp [ih]
  | recv s t k ih => simp [ih]
  | wait k ih => simp [ih]

/-- A Python loop `for x in xs: s = body(s, x)` whose body may communicate. -/
def forIn' {σ ι : Type} (xs : List ι) (body : σ → ι → Prog M σ) (s : σ) : Prog M σ :=
  match xs with
  | [] => ret s
  | x :: xs => bind (body s x) (forIn' xs body)

@[simp] theorem forIn'_nil {σ ι : Type} (body : σ → ι → Prog M σ) (s : σ) :
    forIn' [] body s = ret s := rfl
@[simp] theorem forIn'_cons {σ ι : Type} (x : ι) (xs) (body : σ → ι → Prog M σ) (s : σ) :
    forIn' (x :: xs) body s = bind (body s x) (forIn' xs body) := rfl

end Prog

/-- Contents of all channels: source, destination, tag. -/
abbrev Chans (M : Type) := Nat → Nat → Nat → List M

namespace Chans
variable {M : Type}

def empty : Chans M := fun _ _ _ => []

/-- Append a message to a channel. -/
def push (q : Chans M) (s d t : Nat) (m : M) : Chans M :=
  fun s' d' t' => if s' = s ∧ d' = d ∧ t' = t then q s' d' t' ++ [m] else q s' d' t'

/-- Drop the first message of a channel. -/
def pop (q : Chans M) (s d t : Nat) : Chans M :=
  fun s' d' t' => if s' = s ∧ d' = d ∧ t' = t then (q s' d' t').tail else q s' d' t'

end Chans

/-- Global configuration: the remaining program of every process and the channel contents. -/
structure Conf (P : Nat) (M α : Type) where
  prog : Fin P → Prog M α
  chan : Chans M

section semantics
variable {P : Nat} {M α : Type}

/-- One step of process `r` on its own program and the shared channels. -/
inductive LStep (P : Nat) (r : Nat) : Prog M α × Chans M → Prog M α × Chans M → Prop
  | send {d t : Nat} {m : M} {k : Prog M α} {q : Chans M} (hd : d < P) :
      LStep P r (Prog.send d t m k, q) (k, q.push r d t m)
  | recv {s t : Nat} {m : M} {ms : List M} {k : M → Prog M α} {q : Chans M}
      (hq : q s r t = m :: ms) : LStep P r (Prog.recv s t k, q) (k m, q.pop s r t)
  | wait {k : Prog M α} {q : Chans M} (hq : ∀ d t, q r d t = []) :
      LStep P r (Prog.wait k, q) (k, q)

/-- One step of process `r` in the network. -/
def StepBy (r : Fin P) (c c' : Conf P M α) : Prop :=
  LStep P r.val (c.prog r, c.chan) (c'.prog r, c'.chan) ∧ ∀ r', r' ≠ r → c'.prog r' = c.prog r'

/-- One step of the network: some process makes a step. -/
def Step (c c' : Conf P M α) : Prop := ∃ r, StepBy r c c'

/-- Executions: finitely many steps in any interleaving. -/
abbrev Steps : Conf P M α → Conf P M α → Prop := Relation.ReflTransGen Step

/-- Executions with exactly `n` steps. -/
inductive StepsN : Nat → Conf P M α → Conf P M α → Prop
  | zero (c) : StepsN 0 c c
  | succ {n a b c} : Step a b → StepsN n b c → StepsN (n + 1) a c

/-- All processes have returned. -/
def Conf.Done (c : Conf P M α) : Prop := ∀ r, ∃ a, c.prog r = Prog.ret a

theorem LStep.det {r : Nat} {a b c : Prog M α × Chans M} (h1 : LStep P r a b) (h2 : LStep P r a c) :
    b = c := by
  cases h1 with
  | send => cases h2; rfl
  | recv hq =>
    cases h2 with
    | recv hq' => rw [hq] at hq'; cases hq'; rfl
  | wait => cases h2; rfl

theorem Conf.ext' {c c' : Conf P M α} (h1 : ∀ r, c.prog r = c'.prog r) (h2 : c.chan = c'.chan) :
    c = c' := by
  cases c; cases c'
  simp only [Conf.mk.injEq]
  exact ⟨funext h1, h2⟩

theorem StepBy.det {r : Fin P} {a b c : Conf P M α} (h1 : StepBy r a b) (h2 : StepBy r a c) :
    b = c := by
  have := LStep.det h1.1 h2.1
  rw [Prod.mk.injEq] at this
  refine Conf.ext' (fun r' => ?_) this.2
  by_cases hr : r' = r
  · rw [hr]; exact this.1
  · rw [h1.2 r' hr, h2.2 r' hr]

namespace Chans

theorem push_push_comm (q : Chans M) {s s' : Nat} (h : s ≠ s') (d t m d' t' m') :
    (q.push s d t m).push s' d' t' m' = (q.push s' d' t' m').push s d t m := by
  funext a b c
  simp only [push]
  split <;> split <;> simp_all

theorem pop_pop_comm (q : Chans M) {d d' : Nat} (h : d ≠ d') (s t s' t') :
    (q.pop s d t).pop s' d' t' = (q.pop s' d' t').pop s d t := by
  funext a b c
  simp only [pop]
  split <;> split <;> simp_all

theorem push_pop_comm (q : Chans M) (s d t m s' d' t') (m' ms) (h : q s' d' t' = m' :: ms) :
    (q.push s d t m).pop s' d' t' = (q.pop s' d' t').push s d t m := by
  funext a b c
  simp only [push, pop]
  by_cases h1 : a = s' ∧ b = d' ∧ c = t'
  · obtain ⟨rfl, rfl, rfl⟩ := h1
    simp only [and_self, if_true, h]
    split <;> simp
  · simp only [h1, if_false]

end Chans

/-- Steps of different processes commute. -/
theorem LStep.diamond {r r' : Nat} (hr : r ≠ r') {p p1 p' p2 : Prog M α} {q q1 q2 : Chans M}
    (h1 : LStep P r (p, q) (p1, q1)) (h2 : LStep P r' (p', q) (p2, q2)) :
    ∃ q3, LStep P r (p, q2) (p1, q3) ∧ LStep P r' (p', q1) (p2, q3) := by
  cases h1 with
  | send hd =>
    rename_i d t m
    cases h2 with
    | send hd' =>
      rename_i d' t' m'
      refine ⟨_, LStep.send hd, ?_⟩
      rw [Chans.push_push_comm q (Ne.symm hr)]
      exact LStep.send hd'
    | recv hq =>
      rename_i s' t' m' ms k'
      refine ⟨_, LStep.send hd, ?_⟩
      rw [← Chans.push_pop_comm q r d t m s' r' t' m' ms hq]
      by_cases hc : s' = r ∧ r' = d ∧ t' = t
      · refine LStep.recv (ms := ms ++ [m]) ?_
        obtain ⟨rfl, rfl, rfl⟩ := hc
        simp [Chans.push, hq]
      · exact LStep.recv (ms := ms) (by simp [Chans.push, hc, hq])
    | wait hq =>
      refine ⟨_, LStep.send hd, LStep.wait ?_⟩
      intro d' t'
      have : ¬ (r' = r) := fun h => hr h.symm
      simp [Chans.push, this, hq]
  | recv hq =>
    rename_i s t m ms k
    cases h2 with
    | send hd' =>
      rename_i d' t' m'
      refine ⟨_, LStep.recv (m := m) (ms := if s = r' ∧ r = d' ∧ t = t' then ms ++ [m'] else ms) ?_, ?_⟩
      · by_cases hc : s = r' ∧ r = d' ∧ t = t'
        · obtain ⟨rfl, rfl, rfl⟩ := hc
          simp [Chans.push, hq]
        · simp [Chans.push, hc, hq]
      · rw [Chans.push_pop_comm q r' d' t' m' s r t m ms hq]
        exact LStep.send hd'
    | recv hq' =>
      rename_i s' t' m' ms' k'
      refine ⟨_, LStep.recv (m := m) (ms := ms) ?_, ?_⟩
      · simp [Chans.pop, hr, hq]
      · rw [Chans.pop_pop_comm q (Ne.symm hr)]
        exact LStep.recv (ms := ms') (by simp [Chans.pop, Ne.symm hr, hq'])
    | wait hq' =>
      refine ⟨_, LStep.recv hq, LStep.wait ?_⟩
      intro d' t'
      simp only [Chans.pop]
      split
      · rw [hq']; rfl
      · exact hq' d' t'
  | wait hq =>
    cases h2 with
    | send hd' =>
      rename_i d' t' m'
      refine ⟨_, LStep.wait ?_, LStep.send hd'⟩
      intro d t
      simp [Chans.push, hr, hq]
    | recv hq' =>
      refine ⟨_, LStep.wait ?_, LStep.recv hq'⟩
      intro d t
      simp only [Chans.pop]
      split
      · rw [hq]; rfl
      · exact hq d t
    | wait hq' => exact ⟨_, LStep.wait hq, LStep.wait hq'⟩

theorem StepBy.diamond {r r' : Fin P} (hr : r ≠ r') {a b c : Conf P M α} (h1 : StepBy r a b)
    (h2 : StepBy r' a c) : ∃ e, StepBy r' b e ∧ StepBy r c e := by
  obtain ⟨q3, h3, h4⟩ := LStep.diamond (fun h => hr (Fin.ext h)) h1.1 h2.1
  refine ⟨⟨Function.update (Function.update a.prog r (b.prog r)) r' (c.prog r'), q3⟩, ?_, ?_⟩
  · refine ⟨?_, fun x hx => ?_⟩
    · simp only [Function.update_self]
      rw [h1.2 r' (Ne.symm hr)]
      exact h4
    · simp only [Function.update_of_ne hx]
      by_cases hxr : x = r
      · rw [hxr, Function.update_self]
      · rw [Function.update_of_ne hxr, h1.2 x hxr]
  · refine ⟨?_, fun x hx => ?_⟩
    · simp only [Function.update_of_ne hr, Function.update_self]
      rw [h2.2 r hr]
      exact h3
    · by_cases hxr : x = r'
      · rw [hxr]; simp
      · simp only [Function.update_of_ne hxr, Function.update_of_ne hx]
        rw [h2.2 x hxr]

theorem Conf.Done.not_step {c c' : Conf P M α} (hd : c.Done) : ¬ Step c c' := by
  rintro ⟨r, h, _⟩
  obtain ⟨a, ha⟩ := hd r
  rw [ha] at h
  cases h

/-- If some execution of `n` steps ends with all processes returned, then after any first step the
same end is reached in the remaining `n - 1` steps. -/
theorem StepsN.strip {n : Nat} {c cf c1 : Conf P M α} (h : StepsN n c cf) (hd : cf.Done)
    (h1 : Step c c1) : ∃ m, n = m + 1 ∧ StepsN m c1 cf := by
  induction n generalizing c c1 with
  | zero =>
    cases h
    exact absurd h1 hd.not_step
  | succ n ih =>
    cases h with
    | succ h2 hrest =>
      rename_i c2
      obtain ⟨r, hr⟩ := h1
      obtain ⟨r', hr'⟩ := h2
      by_cases heq : r = r'
      · subst heq
        rw [hr.det hr']
        exact ⟨n, rfl, hrest⟩
      · obtain ⟨c3, h13, h23⟩ := StepBy.diamond heq hr hr'
        obtain ⟨m, rfl, hm⟩ := ih hrest ⟨r, h23⟩
        exact ⟨m + 1, rfl, StepsN.succ ⟨r', h13⟩ hm⟩

theorem Steps.toN {c c' : Conf P M α} (h : Steps c c') : ∃ n, StepsN n c c' := by
  induction h using Relation.ReflTransGen.head_induction_on with
  | refl => exact ⟨0, StepsN.zero _⟩
  | head h _ ih =>
    obtain ⟨n, hn⟩ := ih
    exact ⟨n + 1, StepsN.succ h hn⟩

theorem StepsN.toSteps {n : Nat} {c c' : Conf P M α} (h : StepsN n c c') : Steps c c' := by
  induction h with
  | zero => exact Relation.ReflTransGen.refl
  | succ h _ ih => exact Relation.ReflTransGen.head h ih

/-- **Determinacy of the network** (Kahn's principle for this model).  If one execution ends with
every process returned, then every execution from the same configuration has at most that many
steps and can be completed to the same end. -/
theorem StepsN.determinacy {n k : Nat} {c cf c' : Conf P M α} (h : StepsN n c cf) (hd : cf.Done)
    (h' : StepsN k c c') : ∃ m, n = k + m ∧ StepsN m c' cf := by
  induction k generalizing c n with
  | zero => cases h'; exact ⟨n, by omega, h⟩
  | succ k ih =>
    cases h' with
    | succ h1 hrest =>
      obtain ⟨m, rfl, hm⟩ := h.strip hd h1
      obtain ⟨m', rfl, hm'⟩ := ih hm hrest
      exact ⟨m', by omega, hm'⟩

/-! ### Running one process, and processes in rank order -/

/-- Steps of process `r` alone. -/
abbrev LRun (P r : Nat) : Prog M α × Chans M → Prog M α × Chans M → Prop :=
  Relation.ReflTransGen (LStep P r)

theorem LRun.lift {r : Fin P} {p p' : Prog M α} {q q' : Chans M}
    (h : LRun P r.val (p, q) (p', q')) (f : Fin P → Prog M α) :
    Steps ⟨Function.update f r p, q⟩ ⟨Function.update f r p', q'⟩ := by
  generalize hx : (p, q) = x at h
  generalize hy : (p', q') = y at h
  induction h using Relation.ReflTransGen.head_induction_on generalizing p q with
  | refl =>
    subst hy
    cases hx
    exact Relation.ReflTransGen.refl
  | head h1 _ ih =>
    subst hx
    rename_i z _
    obtain ⟨p1, q1⟩ := z
    refine Relation.ReflTransGen.head ⟨r, ?_, ?_⟩ (ih rfl)
    · simpa using h1
    · intro r' hr'
      simp [Function.update_of_ne hr']

/-- Rank-ordered schedule: if each process `r`, started with channels `Q r`, runs from `f r` to
`f' r` leaving channels `Q (r+1)`, then the network runs from `f` to `f'`. -/
theorem Steps.rankOrder (f f' : Fin P → Prog M α) (Q : Nat → Chans M)
    (h : ∀ r : Fin P, LRun P r.val (f r, Q r.val) (f' r, Q (r.val + 1))) :
    Steps ⟨f, Q 0⟩ ⟨f', Q P⟩ := by
  have key : ∀ k, k ≤ P → Steps ⟨f, Q 0⟩
      (⟨fun r => if r.val < k then f' r else f r, Q k⟩ : Conf P M α) := by
    intro k
    induction k with
    | zero => intro _; simp; exact Relation.ReflTransGen.refl
    | succ k ih =>
      intro hk
      refine (ih (by omega)).trans ?_
      have hr := h ⟨k, hk⟩
      have := LRun.lift (r := ⟨k, hk⟩) hr (fun r => if r.val < k then f' r else f r)
      have e1 : Function.update (fun r : Fin P => if r.val < k then f' r else f r) ⟨k, hk⟩ (f ⟨k, hk⟩)
          = fun r : Fin P => if r.val < k then f' r else f r := by
        funext r
        by_cases hrk : r = ⟨k, hk⟩
        · subst hrk; simp
        · simp [Function.update_of_ne hrk]
      have e2 : Function.update (fun r : Fin P => if r.val < k then f' r else f r) ⟨k, hk⟩ (f' ⟨k, hk⟩)
          = fun r : Fin P => if r.val < k + 1 then f' r else f r := by
        funext r
        by_cases hrk : r = ⟨k, hk⟩
        · subst hrk; simp
        · rw [Function.update_of_ne hrk]
          have : r.val ≠ k := fun h => hrk (Fin.ext h)
          by_cases h1 : r.val < k
          · rw [if_pos h1, if_pos (by omega)]
          · rw [if_neg h1, if_neg (by omega)]
      rw [e1, e2] at this
      exact this
  have := key P (Nat.le_refl P)
  simpa using this

end semantics
end Pymgrit
