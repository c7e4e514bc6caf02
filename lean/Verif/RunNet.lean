import Verif.NetLemmas

/-!
# An executable scheduler

Runs a network of processes in round-robin order on finite data, to evaluate concrete cases in the
kernel.  `exec_steps` shows that what it computes is an execution in the sense of `Verif.Net`; by
determinacy it is then, if complete, the outcome of all executions.
-/

namespace Pymgrit

variable {M α : Type}

/-- Messages in transit, oldest first: source, destination, tag, contents. -/
abbrev Mail (M : Type) := List (Nat × Nat × Nat × M)

namespace Mail

def sel (s d t : Nat) (x : Nat × Nat × Nat × M) : Bool :=
  decide (x.1 = s) && (decide (x.2.1 = d) && decide (x.2.2.1 = t))

/-- The channels given by a list of messages. -/
def chans (q : Mail M) : Chans M := fun s d t => (q.filter (sel s d t)).map (·.2.2.2)

/-- Take the first message of a channel. -/
def take (s d t : Nat) : Mail M → Option (M × Mail M)
  | [] => none
  | x :: q => if sel s d t x then some (x.2.2.2, q) else (take s d t q).map fun p => (p.1, x :: p.2)

theorem chans_nil : chans ([] : Mail M) = Chans.empty := rfl

theorem chans_push (q : Mail M) (s d t : Nat) (m : M) :
    chans (q ++ [(s, d, t, m)]) = (chans q).push s d t m := by
  funext a b c
  simp only [chans, Chans.push, List.filter_append, List.map_append]
  by_cases h : a = s ∧ b = d ∧ c = t
  · obtain ⟨rfl, rfl, rfl⟩ := h
    simp [sel]
  · have : sel a b c (s, d, t, m) = false := by
      simp only [sel, Bool.and_eq_false_iff, decide_eq_false_iff_not]
      by_contra hc
      push Not at hc
      exact h ⟨hc.1.symm, hc.2.1.symm, hc.2.2.symm⟩
    simp [this, h]

theorem take_spec {s d t : Nat} {q q' : Mail M} {m : M} (h : take s d t q = some (m, q')) :
    (∃ ms, chans q s d t = m :: ms) ∧ chans q' = (chans q).pop s d t := by
  induction q generalizing q' with
  | nil => simp [take] at h
  | cons x q ih =>
    unfold take at h
    split at h
    · rename_i hx
      simp only [Option.some.injEq, Prod.mk.injEq] at h
      obtain ⟨rfl, rfl⟩ := h
      refine ⟨⟨chans q s d t, by simp only [chans, List.filter_cons_of_pos hx, List.map_cons]⟩, ?_⟩
      funext a b c
      unfold Chans.pop
      split
      · rename_i hc
        obtain ⟨rfl, rfl, rfl⟩ := hc
        simp only [chans, List.filter_cons_of_pos hx, List.map_cons, List.tail_cons]
      · rename_i hc
        have : sel a b c x = false := by
          simp only [sel, Bool.and_eq_true, decide_eq_true_eq] at hx
          simp only [sel, Bool.and_eq_false_iff, decide_eq_false_iff_not]
          by_contra hc'
          push Not at hc'
          exact hc ⟨hc'.1.symm.trans hx.1, hc'.2.1.symm.trans hx.2.1, hc'.2.2.symm.trans hx.2.2⟩
        simp [chans, this]
    · rename_i hx
      obtain ⟨⟨m1, q1⟩, h1, h2⟩ := Option.map_eq_some_iff.1 h
      simp only [Prod.mk.injEq] at h2
      obtain ⟨rfl, rfl⟩ := h2
      obtain ⟨⟨ms, hms⟩, h4⟩ := ih h1
      refine ⟨⟨ms, by simp only [chans, List.filter_cons_of_neg hx]; exact hms⟩, ?_⟩
      funext a b c
      have h5 := congrFun (congrFun (congrFun h4 a) b) c
      simp only [chans, Chans.pop] at h5 ⊢
      by_cases hy : sel a b c x = true
      · rw [List.filter_cons_of_pos hy, List.filter_cons_of_pos hy, List.map_cons, List.map_cons, h5]
        have hc : ¬ (a = s ∧ b = d ∧ c = t) := by
          rintro ⟨rfl, rfl, rfl⟩; exact hx hy
        simp [hc]
      · rw [List.filter_cons_of_neg hy, List.filter_cons_of_neg hy, h5]

end Mail

/-- One step of process `r`, if it can make one. -/
def stepFn (P r : Nat) (p : Prog M α) (q : Mail M) : Option (Prog M α × Mail M) :=
  match p with
  | .ret _ => none
  | .fail _ => none
  | .send d t m k => if d < P then some (k, q ++ [(r, d, t, m)]) else none
  | .recv s t k => (Mail.take s r t q).map fun x => (k x.1, x.2)
  | .wait k => if q.all fun x => decide (x.1 ≠ r) then some (k, q) else none

theorem stepFn_sound {P r : Nat} {p p' : Prog M α} {q q' : Mail M}
    (h : stepFn P r p q = some (p', q')) : LStep P r (p, q.chans) (p', q'.chans) := by
  cases p with
  | ret => simp [stepFn] at h
  | fail => simp [stepFn] at h
  | send d t m k =>
    simp only [stepFn] at h
    split at h
    · simp only [Option.some.injEq, Prod.mk.injEq] at h
      obtain ⟨rfl, rfl⟩ := h
      rw [Mail.chans_push]
      exact LStep.send (by assumption)
    · cases h
  | recv s t k =>
    simp only [stepFn] at h
    obtain ⟨⟨m, q1⟩, h1, h2⟩ := Option.map_eq_some_iff.1 h
    simp only [Prod.mk.injEq] at h2
    obtain ⟨rfl, rfl⟩ := h2
    obtain ⟨⟨ms, hms⟩, h4⟩ := Mail.take_spec h1
    rw [h4]
    exact LStep.recv hms
  | wait k =>
    simp only [stepFn] at h
    split at h
    · rename_i hall
      simp only [Option.some.injEq, Prod.mk.injEq] at h
      obtain ⟨rfl, rfl⟩ := h
      refine LStep.wait fun d t => ?_
      simp only [Mail.chans, List.map_eq_nil_iff, List.filter_eq_nil_iff]
      intro x hx
      have := List.all_eq_true.1 hall x hx
      simp only [decide_eq_true_eq] at this
      simp [Mail.sel, this]
    · cases h

/-- Run process `r` until it blocks, at most `fuel` steps. -/
def runProc (P r : Nat) : Nat → Prog M α → Mail M → Prog M α × Mail M
  | 0, p, q => (p, q)
  | n + 1, p, q =>
    match stepFn P r p q with
    | none => (p, q)
    | some x => runProc P r n x.1 x.2

theorem runProc_sound (P r n : Nat) (p : Prog M α) (q : Mail M) :
    LRun P r (p, q.chans) ((runProc P r n p q).1, (runProc P r n p q).2.chans) := by
  induction n generalizing p q with
  | zero => exact Relation.ReflTransGen.refl
  | succ n ih =>
    simp only [runProc]
    split
    · exact Relation.ReflTransGen.refl
    · rename_i x hx
      exact Relation.ReflTransGen.head (stepFn_sound (p' := x.1) (q' := x.2) hx) (ih _ _)

/-- Let every process from `r` on run once until it blocks. -/
def onePass (P fuel : Nat) : Nat → List (Prog M α) → Mail M → List (Prog M α) × Mail M
  | _, [], q => ([], q)
  | r, p :: ps, q =>
    let x := runProc P r fuel p q
    let y := onePass P fuel (r + 1) ps x.2
    (x.1 :: y.1, y.2)

/-- Repeat `onePass`. -/
def exec (P fuel : Nat) : Nat → List (Prog M α) → Mail M → List (Prog M α) × Mail M
  | 0, ps, q => (ps, q)
  | k + 1, ps, q => let x := onePass P fuel 0 ps q; exec P fuel k x.1 x.2

/-- The configuration given by a list of programs. -/
def confOf (P : Nat) (ps : List (Prog M α)) (q : Mail M) : Conf P M α :=
  ⟨fun r => ps.getD r (.fail ""), q.chans⟩

theorem onePass_steps (P fuel : Nat) (pre ps : List (Prog M α)) (q : Mail M)
    (hP : pre.length + ps.length = P) :
    Steps (confOf P (pre ++ ps) q)
      (confOf P (pre ++ (onePass P fuel pre.length ps q).1) (onePass P fuel pre.length ps q).2) ∧
    (onePass P fuel pre.length ps q).1.length = ps.length := by
  induction ps generalizing pre q with
  | nil => exact ⟨Relation.ReflTransGen.refl, rfl⟩
  | cons p ps ih =>
    simp only [List.length_cons] at hP
    simp only [onePass]
    set x := runProc P pre.length fuel p q with hx
    have hr : pre.length < P := by omega
    have h1 := LRun.lift (r := ⟨pre.length, hr⟩) (runProc_sound P pre.length fuel p q)
      (fun r => (pre ++ p :: ps).getD r (.fail ""))
    have e1 : Function.update (fun r : Fin P => (pre ++ p :: ps).getD r (.fail "")) ⟨pre.length, hr⟩ p
        = fun r : Fin P => (pre ++ p :: ps).getD r (.fail "") := by
      funext r
      by_cases hr' : r = ⟨pre.length, hr⟩
      · subst hr'; simp
      · rw [Function.update_of_ne hr']
    have e2 : Function.update (fun r : Fin P => (pre ++ p :: ps).getD r (.fail "")) ⟨pre.length, hr⟩ x.1
        = fun r : Fin P => (pre ++ x.1 :: ps).getD r (.fail "") := by
      funext r
      by_cases hr' : r = ⟨pre.length, hr⟩
      · subst hr'; simp
      · rw [Function.update_of_ne hr']
        have hne : r.val ≠ pre.length := fun h => hr' (Fin.ext h)
        simp only [List.getD_eq_getElem?_getD, List.getElem?_append]
        split
        · rfl
        · obtain ⟨k, hk⟩ : ∃ k, r.val - pre.length = k + 1 := ⟨r.val - pre.length - 1, by omega⟩
          rw [hk]; simp
    rw [e1, e2] at h1
    have h2 := ih (pre ++ [x.1]) x.2 (by simp; omega)
    simp only [List.append_assoc, List.singleton_append, List.length_append, List.length_cons,
      List.length_nil, Nat.zero_add] at h2
    refine ⟨?_, by simp [h2.2]⟩
    have h3 : Steps (confOf P (pre ++ p :: ps) q) (confOf P (pre ++ x.1 :: ps) x.2) := h1
    exact h3.trans h2.1

/-- What the scheduler computes is an execution. -/
theorem exec_steps (P fuel k : Nat) (ps : List (Prog M α)) (q : Mail M) (hP : ps.length = P) :
    Steps (confOf P ps q) (confOf P (exec P fuel k ps q).1 (exec P fuel k ps q).2) ∧
      (exec P fuel k ps q).1.length = P := by
  induction k generalizing ps q with
  | zero => exact ⟨Relation.ReflTransGen.refl, hP⟩
  | succ k ih =>
    have h1 := onePass_steps P fuel [] ps q (by simpa using hP)
    simp only [List.nil_append, List.length_nil] at h1
    have h2 := ih (onePass P fuel 0 ps q).1 (onePass P fuel 0 ps q).2 (h1.2.trans hP)
    exact ⟨h1.1.trans h2.1, h2.2⟩

end Pymgrit
