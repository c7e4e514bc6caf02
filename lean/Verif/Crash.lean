import Verif.PropsDist

/-!
# Crashes, lost messages and early completion of `Waitall`

The network of `Verif.Net` with a hostile environment: processes may stop at any point, messages of a
stopped process that are still in transit may be lost, and `MPI.Request.Waitall` may complete at any
time (MPI may buffer a message instead of waiting for its receiver).
-/

set_option linter.unusedSectionVars false

namespace Pymgrit

variable {P : Nat} {M α : Type}

/-- A configuration with the set of processes that have stopped. -/
structure FConf (P : Nat) (M α : Type) where
  conf : Conf P M α
  dead : Fin P → Prop

/-- The environment of a run: `isend`, `recv` and `Waitall` of a process that has not stopped
(mgrit.py:649, 691, 697, 709-712), and the crash of a process. -/
inductive FStep : FConf P M α → FConf P M α → Prop
  | send {r : Fin P} {d t : Nat} {m : M} {k : Prog M α} {p : Fin P → Prog M α} {q : Chans M}
      {dead : Fin P → Prop} (hr : ¬ dead r) (hp : p r = .send d t m k) (hd : d < P) :
      FStep ⟨⟨p, q⟩, dead⟩ ⟨⟨Function.update p r k, q.push r d t m⟩, dead⟩
  | recv {r : Fin P} {s t : Nat} {m : M} {ms : List M} {k : M → Prog M α} {p : Fin P → Prog M α}
      {q : Chans M} {dead : Fin P → Prop} (hr : ¬ dead r) (hp : p r = .recv s t k)
      (hq : q s r t = m :: ms) :
      FStep ⟨⟨p, q⟩, dead⟩ ⟨⟨Function.update p r (k m), q.pop s r t⟩, dead⟩
  /-- `Waitall` completes, whether or not the messages have been received. -/
  | wait {r : Fin P} {k : Prog M α} {p : Fin P → Prog M α} {q : Chans M}
      {dead : Fin P → Prop} (hr : ¬ dead r) (hp : p r = .wait k) :
      FStep ⟨⟨p, q⟩, dead⟩ ⟨⟨Function.update p r k, q⟩, dead⟩
  /-- Process `r` stops; of each of its channels the messages sent last may be lost. -/
  | crash (r : Fin P) {p : Fin P → Prog M α} {q q' : Chans M} {dead : Fin P → Prop}
      (hq : ∀ s d t, s ≠ r.val → q' s d t = q s d t) (hq' : ∀ d t, q' r.val d t <+: q r.val d t) :
      FStep ⟨⟨p, q⟩, dead⟩ ⟨⟨p, q'⟩, fun x => x = r ∨ dead x⟩

/-- Executions with crashes. -/
abbrev FSteps : FConf P M α → FConf P M α → Prop := Relation.ReflTransGen FStep

/-- Executions with exactly `n` steps. -/
inductive FStepsN : Nat → FConf P M α → FConf P M α → Prop
  | zero (c) : FStepsN 0 c c
  | succ {n a b c} : FStep a b → FStepsN n b c → FStepsN (n + 1) a c

/-- No process has stopped. -/
def Conf.alive (c : Conf P M α) : FConf P M α := ⟨c, fun _ => False⟩

/-! ### Executions with early completion of `Waitall` -/

/-- A step of process `r`, `wait` completing at any time. -/
def XLStep (P r : Nat) (a b : Prog M α × Chans M) : Prop :=
  LStep P r a b ∨ ∃ k, a.1 = .wait k ∧ b = (k, a.2)

theorem XLStep.det {r : Nat} {a b c : Prog M α × Chans M} (h1 : XLStep P r a b) (h2 : XLStep P r a c) :
    b = c := by
  rcases h1 with h1 | ⟨k, hk, rfl⟩
  · rcases h2 with h2 | ⟨k', hk', rfl⟩
    · exact h1.det h2
    · obtain ⟨p, q⟩ := a
      cases hk'
      cases h1
      rfl
  · rcases h2 with h2 | ⟨k', hk', rfl⟩
    · obtain ⟨p, q⟩ := a
      cases hk
      cases h2
      rfl
    · rw [hk] at hk'
      cases hk'
      rfl

theorem XLStep.diamond {r r' : Nat} (hr : r ≠ r') {p p1 p' p2 : Prog M α} {q q1 q2 : Chans M}
    (h1 : XLStep P r (p, q) (p1, q1)) (h2 : XLStep P r' (p', q) (p2, q2)) :
    ∃ q3, XLStep P r (p, q2) (p1, q3) ∧ XLStep P r' (p', q1) (p2, q3) := by
  rcases h1 with h1 | ⟨k, hk, e1⟩
  · rcases h2 with h2 | ⟨k', hk', e2⟩
    · obtain ⟨q3, h3, h4⟩ := LStep.diamond hr h1 h2
      exact ⟨q3, .inl h3, .inl h4⟩
    · cases hk'; cases e2
      exact ⟨q1, .inl h1, .inr ⟨_, rfl, rfl⟩⟩
  · cases hk; cases e1
    exact ⟨q2, .inr ⟨_, rfl, rfl⟩, h2⟩

def XStepBy (r : Fin P) (c c' : Conf P M α) : Prop :=
  XLStep P r.val (c.prog r, c.chan) (c'.prog r, c'.chan) ∧ ∀ r', r' ≠ r → c'.prog r' = c.prog r'

def XStep (c c' : Conf P M α) : Prop := ∃ r, XStepBy r c c'

abbrev XSteps : Conf P M α → Conf P M α → Prop := Relation.ReflTransGen XStep

theorem Step.x {c c' : Conf P M α} (h : Step c c') : XStep c c' := by
  obtain ⟨r, h1, h2⟩ := h
  exact ⟨r, .inl h1, h2⟩

theorem XStepBy.det {r : Fin P} {a b c : Conf P M α} (h1 : XStepBy r a b) (h2 : XStepBy r a c) :
    b = c := by
  have := XLStep.det h1.1 h2.1
  rw [Prod.mk.injEq] at this
  refine Conf.ext' (fun r' => ?_) this.2
  by_cases hr : r' = r
  · rw [hr]; exact this.1
  · rw [h1.2 r' hr, h2.2 r' hr]

theorem XStepBy.diamond {r r' : Fin P} (hr : r ≠ r') {a b c : Conf P M α} (h1 : XStepBy r a b)
    (h2 : XStepBy r' a c) : ∃ e, XStepBy r' b e ∧ XStepBy r c e := by
  obtain ⟨q3, h3, h4⟩ := XLStep.diamond (fun h => hr (Fin.ext h)) h1.1 h2.1
  refine ⟨⟨Function.update (Function.update a.prog r (b.prog r)) r' (c.prog r'), q3⟩, ?_, ?_⟩
  · refine ⟨?_, fun x hx => ?_⟩
    · simp only [Function.update_self]
      rw [h1.2 r' (Ne.symm hr)]
      exact h4
    · simp only [Function.update_of_ne hx]
      by_cases hxr : x = r
      · rw [hxr, Function.update_self]
      · rw [Function.update_of_ne hxr, h1.2 x hxr]
  · refine ⟨?_, fun x hx => ?_⟩
    · simp only [Function.update_of_ne hr, Function.update_self]
      rw [h2.2 r hr]
      exact h3
    · by_cases hxr : x = r'
      · rw [hxr]; simp
      · simp only [Function.update_of_ne hxr, Function.update_of_ne hx]
        rw [h2.2 x hxr]

/-- Any two executions from the same configuration can be continued to a common one. -/
theorem XSteps.confluent {c c1 c2 : Conf P M α} (h1 : XSteps c c1) (h2 : XSteps c c2) :
    ∃ e, XSteps c1 e ∧ XSteps c2 e := by
  refine Relation.church_rosser (fun a b d hb hd => ?_) h1 h2
  obtain ⟨r, hr⟩ := hb
  obtain ⟨r', hr'⟩ := hd
  by_cases h : r = r'
  · subst h
    rw [hr.det hr']
    exact ⟨d, .refl, .refl⟩
  · obtain ⟨e, he1, he2⟩ := hr.diamond h hr'
    exact ⟨e, .single ⟨_, he1⟩, .single ⟨_, he2⟩⟩

theorem XSteps.ret_stays {c c' : Conf P M α} (h : XSteps c c') {r : Fin P} {a : α}
    (ha : c.prog r = .ret a) : c'.prog r = .ret a := by
  induction h with
  | refl => exact ha
  | tail _ h ih =>
    obtain ⟨r', h1, h2⟩ := h
    by_cases hr : r = r'
    · subst hr
      rw [ih] at h1
      rcases h1 with h1 | ⟨k, hk, -⟩
      · cases h1
      · cases hk
    · rw [h2 r hr]; exact ih

theorem XSteps.fail_stays {c c' : Conf P M α} (h : XSteps c c') {r : Fin P} {e : String}
    (ha : c.prog r = .fail e) : c'.prog r = .fail e := by
  induction h with
  | refl => exact ha
  | tail _ h ih =>
    obtain ⟨r', h1, h2⟩ := h
    by_cases hr : r = r'
    · subst hr
      rw [ih] at h1
      rcases h1 with h1 | ⟨k, hk, -⟩
      · cases h1
      · cases hk
    · rw [h2 r hr]; exact ih

inductive XStepsN : Nat → Conf P M α → Conf P M α → Prop
  | zero (c) : XStepsN 0 c c
  | succ {n a b c} : XStep a b → XStepsN n b c → XStepsN (n + 1) a c

theorem StepsN.x {n : Nat} {c c' : Conf P M α} (h : StepsN n c c') : XStepsN n c c' := by
  induction h with
  | zero => exact .zero _
  | succ h _ ih => exact .succ h.x ih

theorem XStepsN.toSteps {n : Nat} {c c' : Conf P M α} (h : XStepsN n c c') : XSteps c c' := by
  induction h with
  | zero => exact Relation.ReflTransGen.refl
  | succ h _ ih => exact Relation.ReflTransGen.head h ih

theorem Conf.Done.not_xstep {c c' : Conf P M α} (hd : c.Done) : ¬ XStep c c' := by
  rintro ⟨r, h, _⟩
  obtain ⟨a, ha⟩ := hd r
  rw [ha] at h
  rcases h with h | ⟨k, hk, -⟩
  · cases h
  · cases hk

theorem XStepsN.strip {n : Nat} {c cf c1 : Conf P M α} (h : XStepsN n c cf) (hd : cf.Done)
    (h1 : XStep c c1) : ∃ m, n = m + 1 ∧ XStepsN m c1 cf := by
  induction n generalizing c c1 with
  | zero =>
    cases h
    exact absurd h1 hd.not_xstep
  | succ n ih =>
    cases h with
    | succ h2 hrest =>
      rename_i c2
      obtain ⟨r, hr⟩ := h1
      obtain ⟨r', hr'⟩ := h2
      by_cases heq : r = r'
      · subst heq
        rw [hr.det hr']
        exact ⟨n, rfl, hrest⟩
      · obtain ⟨c3, h13, h23⟩ := XStepBy.diamond heq hr hr'
        obtain ⟨m, rfl, hm⟩ := ih hrest ⟨r, h23⟩
        exact ⟨m + 1, rfl, XStepsN.succ ⟨r', h13⟩ hm⟩

theorem XStepsN.determinacy {n k : Nat} {c cf c' : Conf P M α} (h : XStepsN n c cf) (hd : cf.Done)
    (h' : XStepsN k c c') : ∃ m, n = k + m ∧ XStepsN m c' cf := by
  induction k generalizing c n with
  | zero => cases h'; exact ⟨n, by omega, h⟩
  | succ k ih =>
    cases h' with
    | succ h1 hrest =>
      obtain ⟨m, rfl, hm⟩ := h.strip hd h1
      obtain ⟨m', rfl, hm'⟩ := ih hm hrest
      exact ⟨m', by omega, hm'⟩

/-! ### Executions with crashes are parts of executions without -/

theorem update_same {p : Fin P → Prog M α} {r : Fin P} {k : Prog M α} :
    ∀ r', r' ≠ r → Function.update p r k r' = p r' := fun r' h => Function.update_of_ne h _ _

/-- Every execution with crashes reaches, as far as the programs are concerned, a configuration of an
execution without crashes in which no message is lost. -/
theorem FSteps.sim {c : Conf P M α} {f : FConf P M α} (h : FSteps c.alive f) :
    ∃ q, XSteps c ⟨f.conf.prog, q⟩ ∧ (∀ s d t, f.conf.chan s d t <+: q s d t) ∧
      ∀ (s : Fin P) d t, ¬ f.dead s → f.conf.chan s d t = q s d t := by
  induction h with
  | refl => exact ⟨c.chan, .refl, fun _ _ _ => List.prefix_refl _, fun _ _ _ _ => rfl⟩
  | tail _ h ih =>
    obtain ⟨q, h1, h2, h3⟩ := ih
    cases h with
    | @send r d t m k p q0 dead hr hp hd =>
      refine ⟨q.push r d t m, h1.tail ⟨r, .inl ?_, update_same⟩, ?_, ?_⟩
      · show LStep P r.val (p r, q) (Function.update p r k r, q.push r d t m)
        rw [hp, Function.update_self]
        exact .send hd
      · intro s d' t'
        simp only [Chans.push]
        split
        · rename_i hc
          obtain ⟨rfl, rfl, rfl⟩ := hc
          have := h3 r d' t' hr
          dsimp only at this
          rw [this]
        · exact h2 s d' t'
      · intro s d' t' hs
        have := h3 s d' t' hs
        dsimp only at this
        simp only [Chans.push, this]
    | @recv r s t m ms k p q0 dead hr hp hq =>
      have h2' := h2 s r t
      dsimp only at h2'
      rw [hq] at h2'
      obtain ⟨ms', hms⟩ := h2'
      refine ⟨q.pop s r t, h1.tail ⟨r, .inl ?_, update_same⟩, ?_, ?_⟩
      · show LStep P r.val (p r, q) (Function.update p r (k m) r, q.pop s r t)
        rw [hp, Function.update_self]
        exact .recv (ms := ms ++ ms') hms.symm
      · intro s' d' t'
        simp only [Chans.pop]
        split
        · rename_i hc
          obtain ⟨rfl, rfl, rfl⟩ := hc
          rw [hq, ← hms]
          exact ⟨ms', rfl⟩
        · exact h2 s' d' t'
      · intro s' d' t' hs
        have := h3 s' d' t' hs
        dsimp only at this
        simp only [Chans.pop, this]
    | @wait r k p q0 dead hr hp =>
      refine ⟨q, h1.tail ⟨r, .inr ⟨k, hp, ?_⟩, update_same⟩, h2, h3⟩
      show (Function.update p r k r, q) = (k, q)
      rw [Function.update_self]
    | @crash r p q0 q' dead hq hq' =>
      refine ⟨q, h1, ?_, ?_⟩
      · intro s d t
        dsimp only
        by_cases hs : s = r.val
        · subst hs
          exact (hq' d t).trans (h2 r.val d t)
        · rw [hq s d t hs]
          exact h2 s d t
      · intro s d t hs
        dsimp only at hs ⊢
        rw [hq s d t (fun e => hs (.inl (Fin.ext e)))]
        exact h3 s d t fun hd => hs (.inr hd)

/-! ### What a process will return -/

/-- Whatever messages arrive, the process returns `a` (and raises no exception). -/
def Prog.Returns (a : α) : Prog M α → Prop
  | .ret b => b = a
  | .fail _ => False
  | .send _ _ _ k => k.Returns a
  | .recv _ _ k => ∀ m, (k m).Returns a
  | .wait k => k.Returns a

/-- Number of sends (`true`) and receives (`false`) of a process by partner and tag. -/
abbrev Cnt : Type := Bool → Nat → Nat → Nat

def Cnt.bump (x : Cnt) (b : Bool) (p t : Nat) : Cnt :=
  fun b' p' t' => if b' = b ∧ p' = p ∧ t' = t then x b' p' t' + 1 else x b' p' t'

/-- `J` holds, of the events so far and the remaining program, at every point of the program, and
`post` when it returns. -/
def Prog.Along (J : Cnt → Prog M α → Prop) (post : Cnt → α → Prop) : Prog M α → Cnt → Prop
  | .ret a, x => J x (.ret a) ∧ post x a
  | .fail e, x => J x (.fail e)
  | .send d t m k, x => J x (.send d t m k) ∧ k.Along J post (x.bump true d t)
  | .recv s t k, x => J x (.recv s t k) ∧ ∀ m, (k m).Along J post (x.bump false s t)
  | .wait k, x => J x (.wait k) ∧ k.Along J post x

theorem Prog.Along.here {J : Cnt → Prog M α → Prop} {post : Cnt → α → Prop} {p : Prog M α} {x : Cnt}
    (h : p.Along J post x) : J x p := by
  cases p with
  | fail e => exact h
  | ret a => exact h.1
  | send d t m k => exact h.1
  | recv s t k => exact h.1
  | wait k => exact h.1

/-- The counters of all processes after an execution. -/
theorem XSteps.along {c c' : Conf P M α} (h : XSteps c c') (h0 : c.chan = Chans.empty)
    {J : Nat → Cnt → Prog M α → Prop} {post : Nat → Cnt → α → Prop}
    (hA : ∀ r : Fin P, (c.prog r).Along (J r) (post r) fun _ _ _ => 0) :
    ∃ x : Nat → Cnt, (∀ r : Fin P, (c'.prog r).Along (J r) (post r) (x r)) ∧
      ∀ s d t, x s true d t = x d false s t + (c'.chan s d t).length := by
  induction h with
  | refl => exact ⟨fun _ _ _ _ => 0, hA, fun s d t => by rw [h0]; rfl⟩
  | @tail c1 c2 _ h ih =>
    obtain ⟨x, h1, h2⟩ := ih
    obtain ⟨r, h3, h4⟩ := h
    have hr := h1 r
    rcases h3 with h3 | ⟨k, hk, he⟩
    · generalize ha : (c1.prog r, c1.chan) = a at h3
      generalize hb : (c2.prog r, c2.chan) = b at h3
      cases h3 with
      | @send d t m k q hd =>
        rw [Prod.mk.injEq] at ha hb
        rw [ha.1] at hr
        refine ⟨Function.update x r ((x r).bump true d t), fun r' => ?_, fun s d' t' => ?_⟩
        · by_cases hrr : r' = r
          · subst hrr
            rw [Function.update_self, hb.1]
            exact hr.2
          · rw [Function.update_of_ne (fun e => hrr (Fin.ext e)), h4 r' hrr]
            exact h1 r'
        · have := h2 s d' t'
          have hf : Function.update x r.val ((x r).bump true d t) d' false s t' = x d' false s t' := by
            by_cases hd' : d' = r.val
            · subst hd'
              rw [Function.update_self]
              simp [Cnt.bump]
            · rw [Function.update_of_ne hd']
          rw [hf, hb.2]
          simp only [Chans.push]
          by_cases hs : s = r.val
          · subst hs
            rw [Function.update_self]
            simp only [Cnt.bump, true_and]
            rw [ha.2] at this
            split
            · rename_i hc
              obtain ⟨rfl, rfl⟩ := hc
              rw [List.length_append, this]
              simp [Nat.add_assoc]
            · exact this
          · rw [Function.update_of_ne hs, if_neg (fun hc => hs hc.1), ← ha.2]
            exact this
      | @recv s0 t m ms k q hq =>
        rw [Prod.mk.injEq] at ha hb
        rw [ha.1] at hr
        refine ⟨Function.update x r ((x r).bump false s0 t), fun r' => ?_, fun s d' t' => ?_⟩
        · by_cases hrr : r' = r
          · subst hrr
            rw [Function.update_self, hb.1]
            exact hr.2 m
          · rw [Function.update_of_ne (fun e => hrr (Fin.ext e)), h4 r' hrr]
            exact h1 r'
        · have := h2 s d' t'
          have hf : Function.update x r.val ((x r).bump false s0 t) s true d' t' = x s true d' t' := by
            by_cases hd' : s = r.val
            · subst hd'
              rw [Function.update_self]
              simp [Cnt.bump]
            · rw [Function.update_of_ne hd']
          rw [hf, hb.2]
          simp only [Chans.pop]
          by_cases hs : d' = r.val
          · subst hs
            rw [Function.update_self]
            simp only [Cnt.bump, true_and]
            rw [ha.2] at this
            split
            · rename_i hc
              obtain ⟨rfl, rfl⟩ := hc
              rw [hq] at this ⊢
              rw [this]
              simp; omega
            · exact this
          · rw [Function.update_of_ne hs, if_neg (fun hc => hs hc.2.1), ← ha.2]
            exact this
      | wait hq =>
        rw [Prod.mk.injEq] at ha hb
        rw [ha.1] at hr
        refine ⟨x, fun r' => ?_, fun s d' t' => ?_⟩
        · by_cases hrr : r' = r
          · subst hrr
            rw [hb.1]
            exact hr.2
          · rw [h4 r' hrr]
            exact h1 r'
        · rw [hb.2, ← ha.2]
          exact h2 s d' t'
    · rw [Prod.mk.injEq] at he
      rw [show c1.prog r = .wait k from hk] at hr
      refine ⟨x, fun r' => ?_, fun s d' t' => ?_⟩
      · by_cases hrr : r' = r
        · subst hrr
          rw [he.1]
          exact hr.2
        · rw [h4 r' hrr]
          exact h1 r'
      · rw [he.2]
        exact h2 s d' t'

/-! ### Programs without the messages of a barrier -/

/-- Of the tags 0, 1, 2, 3 only those below `b` occur in sends and receives, and `Q` holds of what is
returned. -/
def Prog.Quiet (b : Nat) (Q : α → Prop) : Prog M α → Prop
  | .ret a => Q a
  | .fail _ => True
  | .send _ t _ k => (t < b ∨ 4 ≤ t) ∧ k.Quiet b Q
  | .recv _ t k => (t < b ∨ 4 ≤ t) ∧ ∀ m, (k m).Quiet b Q
  | .wait k => k.Quiet b Q

theorem Prog.Quiet.bind {b : Nat} {β : Type} {Q : α → Prop} {Q' : β → Prop} {p : Prog M α} {f : α → Prog M β}
    (h : p.Quiet b Q) (hf : ∀ a, Q a → (f a).Quiet b Q') : (p.bind f).Quiet b Q' := by
  induction p with
  | ret a => exact hf a h
  | send d t m k ih => exact ⟨h.1, ih h.2⟩
  | recv s t k ih => exact ⟨h.1, fun m => ih m (h.2 m)⟩
  | wait k ih => exact ih h
  | fail => trivial

/-- The counters of barrier messages. -/
def Cnt.Same (x y : Cnt) : Prop := ∀ b p, x b p 2 = y b p 2 ∧ x b p 3 = y b p 3

theorem Cnt.Same.bump {x y : Cnt} (h : x.Same y) (b : Bool) (p : Nat) {t : Nat} (h2 : t ≠ 2) (h3 : t ≠ 3) :
    x.Same (y.bump b p t) := by
  intro b' p'
  simp only [Cnt.bump]
  rw [if_neg (fun e => h2 e.2.2.symm), if_neg (fun e => h3 e.2.2.symm)]
  exact h b' p'

/-- A part without barrier messages in front. -/
theorem Prog.Quiet.along {β : Type} {J : Cnt → Prog M β → Prop} {post : Cnt → β → Prop} {Q : α → Prop}
    {p : Prog M α} {f : α → Prog M β} {x : Cnt} (h : p.Quiet 2 Q) (hJ : ∀ y q, x.Same y → J y q)
    (hf : ∀ y a, x.Same y → Q a → (f a).Along J post y) : (p.bind f).Along J post x := by
  have : ∀ y, x.Same y → (p.bind f).Along J post y := by
    induction p with
    | ret a => exact fun y hy => hf y a hy h
    | fail e => exact fun y hy => hJ y _ hy
    | send d t m k ih => exact fun y hy => ⟨hJ y _ hy, ih h.2 _ (hy.bump _ _ (by have := h.1; omega)
      (by have := h.1; omega))⟩
    | recv s t k ih => exact fun y hy => ⟨hJ y _ hy, fun m => ih m (h.2 m) _
      (hy.bump _ _ (by have := h.1; omega) (by have := h.1; omega))⟩
    | wait k ih => exact fun y hy => ⟨hJ y _ hy, ih h y hy⟩
  exact this x fun _ _ => ⟨rfl, rfl⟩

end Pymgrit
