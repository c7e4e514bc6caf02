import Verif.RunNet

/-!
# Executions that get stuck

The determinacy of `Verif.Net` for any end configuration in which no step is possible, whether all
processes have returned or not.
-/

namespace Pymgrit

variable {M α : Type} {P : Nat}

theorem StepsN.strip' {n : Nat} {c cf c1 : Conf P M α} (h : StepsN n c cf) (hd : ∀ d, ¬ Step cf d)
    (h1 : Step c c1) : ∃ m, n = m + 1 ∧ StepsN m c1 cf := by
  induction n generalizing c c1 with
  | zero =>
    cases h
    exact absurd h1 (hd _)
  | succ n ih =>
    cases h with
    | succ h2 hrest =>
      rename_i c2
      obtain ⟨r, hr⟩ := h1
      obtain ⟨r', hr'⟩ := h2
      by_cases heq : r = r'
      · subst heq
        rw [hr.det hr']
        exact ⟨n, rfl, hrest⟩
      · obtain ⟨c3, h13, h23⟩ := StepBy.diamond heq hr hr'
        obtain ⟨m, rfl, hm⟩ := ih hrest ⟨r, h23⟩
        exact ⟨m + 1, rfl, StepsN.succ ⟨r', h13⟩ hm⟩

theorem StepsN.determinacy' {n k : Nat} {c cf c' : Conf P M α} (h : StepsN n c cf)
    (hd : ∀ d, ¬ Step cf d) (h' : StepsN k c c') : ∃ m, n = k + m ∧ StepsN m c' cf := by
  induction k generalizing c n with
  | zero => cases h'; exact ⟨n, by omega, h⟩
  | succ k ih =>
    cases h' with
    | succ h1 hrest =>
      obtain ⟨m, rfl, hm⟩ := h.strip' hd h1
      obtain ⟨m', rfl, hm'⟩ := ih hm hrest
      exact ⟨m', by omega, hm'⟩

/-- If one execution ends in `cf`, where no step is possible, then so does every execution. -/
theorem Steps.unique_end {c cf c' : Conf P M α} (h : Steps c cf) (hd : ∀ d, ¬ Step cf d)
    (h' : Steps c c') : Steps c' cf ∧ ((∀ d, ¬ Step c' d) → c' = cf) := by
  obtain ⟨n, hn⟩ := h.toN
  obtain ⟨k, hk⟩ := h'.toN
  obtain ⟨m, -, hm⟩ := hn.determinacy' hd hk
  refine ⟨hm.toSteps, fun hne => ?_⟩
  cases hm with
  | zero => rfl
  | succ h1 _ => exact absurd h1 (hne _)

theorem Mail.take_none {s d t : Nat} {q : Mail M} (h : Mail.take s d t q = none) :
    q.chans s d t = [] := by
  induction q with
  | nil => rfl
  | cons x q ih =>
    unfold Mail.take at h
    split at h
    · cases h
    · rename_i hx
      rw [Option.map_eq_none_iff] at h
      simp only [Mail.chans, List.filter_cons_of_neg hx]
      exact ih h

theorem stepFn_complete {r : Nat} {p : Prog M α} {q : Mail M} (h : stepFn P r p q = none)
    (x : Prog M α × Chans M) : ¬ LStep P r (p, q.chans) x := by
  intro hs
  cases hs with
  | send hd => simp [stepFn, hd] at h
  | recv hq =>
    simp only [stepFn, Option.map_eq_none_iff] at h
    rw [Mail.take_none h] at hq
    cases hq
  | wait hq =>
    simp only [stepFn] at h
    split at h
    · cases h
    · rename_i hall
      apply hall
      rw [List.all_eq_true]
      intro y hy
      simp only [decide_eq_true_eq]
      rintro rfl
      have h0 := hq y.2.1 y.2.2.1
      simp only [Mail.chans, List.map_eq_nil_iff, List.filter_eq_nil_iff] at h0
      exact h0 y hy (by simp [Mail.sel])

/-- No process of the list can make a step. -/
def allStuck (P : Nat) : Nat → List (Prog M α) → Mail M → Bool
  | _, [], _ => true
  | r, p :: ps, q => (stepFn P r p q).isNone && allStuck P (r + 1) ps q

theorem allStuck_get {r : Nat} {ps : List (Prog M α)} {q : Mail M} (h : allStuck P r ps q = true)
    (i : Nat) (hi : i < ps.length) : stepFn P (r + i) ps[i] q = none := by
  induction ps generalizing r i with
  | nil => simp at hi
  | cons p ps ih =>
    simp only [allStuck, Bool.and_eq_true, Option.isNone_iff_eq_none] at h
    cases i with
    | zero => exact h.1
    | succ i =>
      have := ih h.2 i (by simpa using hi)
      rw [show r + (i + 1) = r + 1 + i by omega]
      simpa using this

theorem stuck_of_allStuck {ps : List (Prog M α)} {q : Mail M} (hP : ps.length = P)
    (h : allStuck P 0 ps q = true) (d : Conf P M α) : ¬ Step (confOf P ps q) d := by
  rintro ⟨r, hr, -⟩
  have h1 := allStuck_get h r.val (by rw [hP]; exact r.isLt)
  rw [Nat.zero_add] at h1
  refine stepFn_complete h1 (d.prog r, d.chan) ?_
  have e : (confOf P ps q).prog r = ps[r.val]'(by rw [hP]; exact r.isLt) := by
    simp only [confOf, List.getD_eq_getElem?_getD]
    rw [List.getElem?_eq_getElem (by rw [hP]; exact r.isLt)]
    rfl
  rw [e] at hr
  exact hr

/-- Running only process `r` until it blocks. -/
theorem runOnly_steps {ps : List (Prog M α)} {q : Mail M} (hP : ps.length = P) (r : Fin P) (fuel : Nat) :
    Steps (confOf P ps q)
      (confOf P (ps.set r (runProc P r fuel (ps.getD r (.fail "")) q).1)
        (runProc P r fuel (ps.getD r (.fail "")) q).2) := by
  have h1 := LRun.lift (r := r) (runProc_sound P r fuel (ps.getD r (.fail "")) q)
    (fun r => ps.getD r (.fail ""))
  set x := runProc P r fuel (ps.getD r (.fail "")) q with hx
  have e1 : Function.update (fun r : Fin P => ps.getD r (.fail "")) r (ps.getD r (.fail "")) =
      fun r : Fin P => ps.getD r (.fail "") := by
    funext r'
    by_cases h : r' = r
    · subst h; simp
    · rw [Function.update_of_ne h]
  have e2 : Function.update (fun r : Fin P => ps.getD r (.fail "")) r x.1 =
      fun r' : Fin P => (ps.set r x.1).getD r' (.fail "") := by
    funext r'
    by_cases h : r' = r
    · subst h
      simp only [Function.update_self, List.getD_eq_getElem?_getD, List.getElem?_set]
      rw [if_pos trivial, if_pos (by rw [hP]; exact r'.isLt)]
      rfl
    · rw [Function.update_of_ne h]
      have : r.val ≠ r'.val := fun e => h (Fin.ext e.symm)
      simp only [List.getD_eq_getElem?_getD, List.getElem?_set, this, if_false]
  rw [e1, e2] at h1
  exact h1

end Pymgrit
