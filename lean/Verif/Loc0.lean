import Verif.Log

/-!
# Running processes by their event lists

`LTr p es p'`: program `p` performs the events `es` and becomes `p'`, for suitable received messages.
`phase_steps`: event lists of all processes whose sends and receives match (per pair of processes, in
order) can be executed, the processes running in rank order.
-/

namespace Pymgrit

variable {M α β : Type}

inductive LTr : Prog M α → List (Ev M) → Prog M α → Prop
  | nil (p : Prog M α) : LTr p [] p
  | send {d t : Nat} {m : M} {k p' : Prog M α} {es : List (Ev M)} (h : LTr k es p') :
      LTr (.send d t m k) (.snd d t m :: es) p'
  | recv {s t : Nat} {m : M} {k : M → Prog M α} {p' : Prog M α} {es : List (Ev M)} (h : LTr (k m) es p') :
      LTr (.recv s t k) (.rcv s t m :: es) p'

theorem LTr.trans {p p' p'' : Prog M α} {es es' : List (Ev M)} (h : LTr p es p') (h' : LTr p' es' p'') :
    LTr p (es ++ es') p'' := by
  induction h with
  | nil => exact h'
  | send _ ih => exact .send (ih h')
  | recv _ ih => exact .recv (ih h')

/-- Program `p` performs `es` and returns `a`. -/
def Tr (p : Prog M α) (es : List (Ev M)) (a : α) : Prop :=
  ∀ (β : Type) (k : α → Prog M β), LTr (p.bind k) es (k a)

theorem Tr.ret (a : α) : Tr (.ret a : Prog M α) [] a := fun _ _ => .nil _

theorem Tr.bind {p : Prog M α} {f : α → Prog M β} {es es' : List (Ev M)} {a : α} {b : β} (h : Tr p es a)
    (h' : Tr (f a) es' b) : Tr (p.bind f) (es ++ es') b := by
  intro γ k
  rw [Prog.bind_assoc]
  exact (h γ _).trans (h' γ k)

/-- Messages sent to `d`, with tags, in order. -/
def snds (d : Nat) (es : List (Ev M)) : List (Nat × M) :=
  es.filterMap fun
    | .snd d' t m => if d' = d then some (t, m) else none
    | .rcv _ _ _ => none

/-- Messages received from `s`, with tags, in order. -/
def rcvs (s : Nat) (es : List (Ev M)) : List (Nat × M) :=
  es.filterMap fun
    | .snd _ _ _ => none
    | .rcv s' t m => if s' = s then some (t, m) else none

@[simp] theorem snds_nil (d : Nat) : snds d ([] : List (Ev M)) = [] := rfl
@[simp] theorem rcvs_nil (d : Nat) : rcvs d ([] : List (Ev M)) = [] := rfl
@[simp] theorem snds_append (d : Nat) (es es' : List (Ev M)) : snds d (es ++ es') = snds d es ++ snds d es' := by
  simp [snds]
@[simp] theorem rcvs_append (d : Nat) (es es' : List (Ev M)) : rcvs d (es ++ es') = rcvs d es ++ rcvs d es' := by
  simp [rcvs]
theorem snds_snd (d d' t : Nat) (m : M) (es : List (Ev M)) :
    snds d (.snd d' t m :: es) = if d' = d then (t, m) :: snds d es else snds d es := by
  simp only [snds, List.filterMap_cons]; split <;> simp_all
@[simp] theorem snds_rcv (d s t : Nat) (m : M) (es : List (Ev M)) :
    snds d (.rcv s t m :: es) = snds d es := by
  simp [snds]
theorem rcvs_rcv (d d' t : Nat) (m : M) (es : List (Ev M)) :
    rcvs d (.rcv d' t m :: es) = if d' = d then (t, m) :: rcvs d es else rcvs d es := by
  simp only [rcvs, List.filterMap_cons]; split <;> simp_all
@[simp] theorem rcvs_snd (d s t : Nat) (m : M) (es : List (Ev M)) :
    rcvs d (.snd s t m :: es) = rcvs d es := by
  simp [rcvs]

theorem mem_snds {d t : Nat} {m : M} {es : List (Ev M)} (h : (t, m) ∈ snds d es) : Ev.snd d t m ∈ es := by
  obtain ⟨e, he, h⟩ := List.mem_filterMap.1 h
  rcases e with ⟨d', t', m'⟩ | ⟨s, t', m'⟩
  · simp only [Option.ite_none_right_eq_some, Option.some.injEq, Prod.mk.injEq] at h
    obtain ⟨rfl, rfl, rfl⟩ := h
    exact he
  · cases h

theorem mem_rcvs {d t : Nat} {m : M} {es : List (Ev M)} (h : (t, m) ∈ rcvs d es) : Ev.rcv d t m ∈ es := by
  obtain ⟨e, he, h⟩ := List.mem_filterMap.1 h
  rcases e with ⟨d', t', m'⟩ | ⟨s, t', m'⟩
  · cases h
  · simp only [Option.ite_none_right_eq_some, Option.some.injEq, Prod.mk.injEq] at h
    obtain ⟨rfl, rfl, rfl⟩ := h
    exact he

theorem snds_eq_nil {d : Nat} {es : List (Ev M)} (h : ∀ t m, Ev.snd d t m ∉ es) : snds d es = [] := by
  rw [List.eq_nil_iff_forall_not_mem]
  rintro ⟨t, m⟩ hx
  exact h t m (mem_snds hx)

theorem rcvs_eq_nil {d : Nat} {es : List (Ev M)} (h : ∀ t m, Ev.rcv d t m ∉ es) : rcvs d es = [] := by
  rw [List.eq_nil_iff_forall_not_mem]
  rintro ⟨t, m⟩ hx
  exact h t m (mem_rcvs hx)

/-- What is in transit, per pair of processes in the order of sending; the channels of `Verif.Net` are
the sub-sequences with equal tag. -/
abbrev Queues (M : Type) := Nat → Nat → List (Nat × M)

def Queues.chans (Q : Queues M) : Chans M :=
  fun s d t => (Q s d).filterMap fun x => if x.1 = t then some x.2 else none

theorem Queues.chans_empty : Queues.chans (fun _ _ => ([] : List (Nat × M))) = Chans.empty := rfl

theorem Queues.chans_push (Q : Queues M) (s d t : Nat) (m : M) :
    (Queues.chans fun s' d' => if s' = s ∧ d' = d then Q s' d' ++ [(t, m)] else Q s' d') =
      Q.chans.push s d t m := by
  funext s' d' t'
  simp only [Queues.chans, Chans.push]
  by_cases h : s' = s ∧ d' = d
  · obtain ⟨rfl, rfl⟩ := h
    by_cases ht : t' = t
    · subst ht; simp
    · have : t ≠ t' := fun e => ht e.symm
      simp [this, ht]
  · have : ¬ (s' = s ∧ d' = d ∧ t' = t) := fun h' => h ⟨h'.1, h'.2.1⟩
    rw [if_neg h, if_neg this]

theorem Queues.chans_pop (Q : Queues M) {s d t : Nat} {m : M} {rest : List (Nat × M)}
    (h : Q s d = (t, m) :: rest) :
    (Queues.chans fun s' d' => if s' = s ∧ d' = d then rest else Q s' d') = Q.chans.pop s d t := by
  funext s' d' t'
  simp only [Queues.chans, Chans.pop]
  by_cases hc : s' = s ∧ d' = d
  · obtain ⟨rfl, rfl⟩ := hc
    rw [if_pos ⟨rfl, rfl⟩, h]
    by_cases ht : t' = t
    · subst ht; simp
    · have : t ≠ t' := fun e => ht e.symm
      simp [this, ht]
  · have : ¬ (s' = s ∧ d' = d ∧ t' = t) := fun h' => hc ⟨h'.1, h'.2.1⟩
    rw [if_neg hc, if_neg this]

theorem LTr.run {P r : Nat} {p p' : Prog M α} {es : List (Ev M)} (h : LTr p es p') (Q : Queues M)
    (rest : Nat → List (Nat × M)) (hQ : ∀ s, Q s r = rcvs s es ++ rest s)
    (hd : ∀ d t m, Ev.snd d t m ∈ es → d ≠ r ∧ d < P) :
    LRun P r (p, Q.chans) (p', Queues.chans fun s d => if d = r then rest s else if s = r then
      Q r d ++ snds d es else Q s d) := by
  induction h generalizing Q with
  | nil p =>
    have : (fun s d => if d = r then rest s else if s = r then Q r d ++ snds d [] else Q s d) = Q := by
      funext s d
      by_cases h1 : d = r
      · subst h1; simp [hQ]
      · by_cases h2 : s = r
        · subst h2; simp [h1]
        · simp [h1, h2]
    rw [this]
  | @send d t m k p' es h ih =>
    obtain ⟨hdr, hdP⟩ := hd d t m List.mem_cons_self
    refine Relation.ReflTransGen.head (LStep.send hdP) ?_
    rw [← Queues.chans_push]
    have := ih (fun s' d' => if s' = r ∧ d' = d then Q s' d' ++ [(t, m)] else Q s' d')
      (fun s => by
        have : ¬ (s = r ∧ r = d) := fun h => hdr h.2.symm
        simp only [this, if_false]
        simpa using hQ s)
      (fun d' t' m' h' => hd d' t' m' (List.mem_cons_of_mem _ h'))
    convert this using 3
    funext s d'
    by_cases h1 : d' = r
    · simp [h1]
    · by_cases h2 : s = r
      · subst h2
        rw [snds_snd]
        by_cases h3 : d' = d
        · subst h3; simp [h1]
        · have : d ≠ d' := fun e => h3 e.symm
          simp [h1, h3, this]
      · simp [h1, h2]
  | @recv s t m k p' es h ih =>
    have hs := hQ s
    rw [rcvs_rcv, if_pos rfl, List.cons_append] at hs
    have hq : Q.chans s r t = m :: (rcvs s es ++ rest s).filterMap fun x =>
        if x.1 = t then some x.2 else none := by
      simp [Queues.chans, hs]
    refine Relation.ReflTransGen.head (LStep.recv hq) ?_
    rw [← Queues.chans_pop Q hs]
    have := ih (fun s' d' => if s' = s ∧ d' = r then rcvs s es ++ rest s else Q s' d')
      (fun s' => by
        by_cases h' : s' = s
        · subst h'; simp
        · have h2 := hQ s'
          rw [rcvs_rcv, if_neg (fun e => h' e.symm)] at h2
          simp [h', h2])
      (fun d' t' m' h' => hd d' t' m' (List.mem_cons_of_mem _ h'))
    convert this using 3
    funext s' d'
    by_cases h1 : d' = r
    · simp [h1]
    · simp [h1]

/-- Event lists that match pairwise can be executed, all processes running in rank order. -/
theorem phase_steps {P : Nat} (f f' : Fin P → Prog M α) (es : Nat → List (Ev M)) (Q0 Q1 : Queues M)
    (hT : ∀ r : Fin P, LTr (f r) (es r) (f' r))
    (hup : ∀ r, r < P → ∀ d t m, Ev.snd d t m ∈ es r → r < d ∧ d < P)
    (hdn : ∀ r, r < P → ∀ s t m, Ev.rcv s t m ∈ es r → s < r)
    (hq : ∀ s d, s < d → d < P → Q0 s d ++ snds d (es s) = rcvs s (es d) ++ Q1 s d)
    (hz : ∀ s d, ¬ (s < d ∧ d < P) → Q0 s d = Q1 s d) :
    Steps ⟨f, Q0.chans⟩ ⟨f', Q1.chans⟩ := by
  let Qm : Nat → Queues M := fun r s d => if s < d ∧ d < P then
    (if d < r then Q1 s d else if s < r then Q0 s d ++ snds d (es s) else Q0 s d) else Q0 s d
  have e0 : Qm 0 = Q0 := by
    funext s d
    simp [Qm]
  have e1 : Qm P = Q1 := by
    funext s d
    by_cases h : s < d ∧ d < P
    · simp [Qm, h]
    · simp only [Qm, h, if_false]; exact hz s d h
  have := Steps.rankOrder f f' (fun r => (Qm r).chans) fun r => by
    have hrun := (hT r).run (P := P) (r := r.val) (Qm r.val) (fun s => Qm (r.val + 1) s r.val)
      (fun s => by
        by_cases h : s < r.val
        · have hh : s < r.val ∧ r.val < P := ⟨h, r.isLt⟩
          simp only [Qm, hh, and_self, if_true, Nat.lt_irrefl, if_false, Nat.lt_succ_self]
          exact hq s r.val h r.isLt
        · have hh : ¬ (s < r.val ∧ r.val < P) := fun h' => h h'.1
          simp only [Qm, hh, if_false]
          rw [rcvs_eq_nil fun t m hm => h (hdn _ r.isLt _ _ _ hm)]
          rfl)
      (fun d t m hm => by
        have := hup _ r.isLt _ _ _ hm
        exact ⟨by omega, this.2⟩)
    convert hrun using 3
    funext s d
    by_cases h1 : d = r.val
    · simp [h1]
    · rw [if_neg h1]
      by_cases h2 : s = r.val
      · subst h2
        rw [if_pos rfl]
        by_cases h3 : r.val < d ∧ d < P
        · have a1 : ¬ d < r.val := by omega
          have a2 : ¬ d < r.val + 1 := by omega
          simp [Qm, h3, a1, a2]
        · simp only [Qm, h3, if_false]
          rw [snds_eq_nil fun t m hm => h3 (hup _ r.isLt _ _ _ hm)]
          simp
      · rw [if_neg h2]
        have a1 : (d < r.val + 1) = (d < r.val) := by
          apply propext; omega
        have a2 : (s < r.val + 1) = (s < r.val) := by
          apply propext; omega
        simp only [Qm, a1, a2]
  rw [e0, e1] at this
  exact this

end Pymgrit
