import Verif.Loc4

/-!
# Counting the messages of a solver run

Along every path through the program of a process, whatever it receives, the messages with a given
label (level and operation) are counted.
-/

set_option linter.unusedSectionVars false

namespace Pymgrit
open Cfg

variable {V K T N : Type} {α β : Type}

/-- Along every path through the program, whatever is received: the message number `n` (from 0) of level `l`
and operation `op`, sent to `d` with tag `t`, satisfies `G d t n`; if the path ends regularly with result `a`
and `n` messages in total, `Q a n` holds. -/
def Prog.Sent (l op : Nat) (G : Nat → Nat → Nat → Prop) (Q : α → Nat → Prop) :
    Nat → Prog (Msg V N) α → Prop
  | n, .ret a => Q a n
  | _, .fail _ => True
  | n, .send d t m p =>
    if m.lvl = l ∧ m.op = op then G d t n ∧ Prog.Sent l op G Q (n + 1) p else Prog.Sent l op G Q n p
  | n, .recv _ _ k => ∀ m, Prog.Sent l op G Q n (k m)
  | n, .wait p => Prog.Sent l op G Q n p

theorem Prog.Sent.bind {l op : Nat} {G : Nat → Nat → Nat → Prop} {Q : α → Nat → Prop}
    {R : β → Nat → Prop} {p : Prog (Msg V N) α} {f : α → Prog (Msg V N) β} {n : Nat}
    (hp : p.Sent l op G Q n) (hf : ∀ a n, Q a n → (f a).Sent l op G R n) : (p.bind f).Sent l op G R n := by
  induction p generalizing n with
  | ret a => exact hf a n hp
  | fail e => trivial
  | send d t m p ih =>
    unfold Prog.Sent at hp
    show Prog.Sent l op G R n (.send d t m (p.bind f))
    unfold Prog.Sent
    split
    · rename_i h
      rw [if_pos h] at hp
      exact ⟨hp.1, ih hp.2⟩
    · rename_i h
      rw [if_neg h] at hp
      exact ih hp
  | recv s t k ih => exact fun m => ih m (hp m)
  | wait p ih => exact ih (n := n) hp

theorem Prog.Sent.mono {l op : Nat} {G : Nat → Nat → Nat → Prop} {Q R : α → Nat → Prop}
    {p : Prog (Msg V N) α} {n : Nat} (hp : p.Sent l op G Q n) (h : ∀ a n, Q a n → R a n) :
    p.Sent l op G R n := by
  induction p generalizing n with
  | ret a => exact h a n hp
  | fail e => trivial
  | send d t m p ih =>
    unfold Prog.Sent at hp ⊢
    split
    · rename_i h
      rw [if_pos h] at hp
      exact ⟨hp.1, ih hp.2⟩
    · rename_i h
      rw [if_neg h] at hp
      exact ih hp
  | recv s t k ih => exact fun m => ih m (hp m)
  | wait p ih => exact ih (n := n) hp

/-- What is shown of message number `n`: its receiver, its tag, and that there are fewer than `B`. -/
def MG (D : Nat → Prop) (b B : Nat) (d t n : Nat) : Prop := D d ∧ t = b + n ∧ n < B

/-- Same tags for sending and same number of iterations. -/
def Same (s s' : PState V N) : Prop := s'.tagS = s.tagS ∧ s'.solveIter = s.solveIter

theorem Same.rfl' {s : PState V N} : Same s s := ⟨rfl, rfl⟩

/-- A part of the solver that sends exactly `k` messages of level `l` and operation `op`. -/
def MS (l op b B : Nat) (D : Nat → Prop) (k : Nat) (s : PState V N) (p : Prog (Msg V N) (PState V N)) : Prop :=
  ∀ n, s.tagS l op = b + n → n + k ≤ B →
    p.Sent l op (MG D b B) 
      (fun s' n' => (n' = n + k ∧ s'.tagS l op = b + n') ∧ s'.solveIter = s.solveIter) n

section
variable {l op b B : Nat} {D : Nat → Prop}

theorem MS.ret {s s' : PState V N} (h : Same s s') : MS l op b B D 0 s (.ret s') := by
  intro n hn _
  exact ⟨⟨rfl, by rw [h.1, hn]⟩, h.2⟩

theorem MS.bind {k k' : Nat} {s : PState V N} {p : Prog (Msg V N) (PState V N)}
    {f : PState V N → Prog (Msg V N) (PState V N)} (h : MS l op b B D k s p)
    (hf : ∀ s', MS l op b B D k' s' (f s')) : MS l op b B D (k + k') s (p.bind f) := by
  intro n hn hB
  refine (h n hn (by omega)).bind fun s' n' hq => ?_
  obtain ⟨⟨rfl, hs⟩, hi⟩ := hq
  exact (hf s' (n + k) hs (by omega)).mono fun a m hm => ⟨⟨by omega, hm.1.2⟩, hm.2.trans hi⟩

theorem MS.cast {k k' : Nat} {s : PState V N} {p : Prog (Msg V N) (PState V N)}
    (h : MS l op b B D k s p) (e : k = k') : MS l op b B D k' s p := e ▸ h

theorem MS.from {k : Nat} {s s' : PState V N} {p : Prog (Msg V N) (PState V N)} (e : Same s s')
    (h : MS l op b B D k s' p) : MS l op b B D k s p := fun n hn hB =>
  (h n (by rw [e.1, hn]) hB).mono fun a m hm => ⟨hm.1, hm.2.trans e.2⟩

theorem MS.opt {c : Prop} [Decidable c] {k : Nat} {s : PState V N} {p : Prog (Msg V N) (PState V N)}
    (hp : MS l op b B D k s p) : MS l op b B D (if c then k else 0) s (if c then p else .ret s) := by
  split
  · exact hp
  · exact .ret .rfl'

theorem MS.opt0 {c : Prop} [Decidable c] {s : PState V N} {p : Prog (Msg V N) (PState V N)}
    (hp : MS l op b B D 0 s p) : MS l op b B D 0 s (if c then p else .ret s) := by
  split
  · exact hp
  · exact .ret .rfl'

theorem MS.forIn' {ι : Type} {w : ι → Nat} {f : PState V N → ι → Prog (Msg V N) (PState V N)}
    (xs : List ι) (hf : ∀ i ∈ xs, ∀ s, MS l op b B D (w i) s (f s i)) (s : PState V N) :
    MS l op b B D (xs.map w).sum s (Prog.forIn' xs f s) := by
  induction xs generalizing s with
  | nil => exact .ret .rfl'
  | cons i xs ih =>
    rw [List.map_cons, List.sum_cons]
    exact .bind (hf i List.mem_cons_self s) fun s' => ih (fun j hj => hf j (List.mem_cons_of_mem _ hj)) s'

theorem MS.timesP {k : Nat} {f : PState V N → Prog (Msg V N) (PState V N)}
    (hf : ∀ s, MS l op b B D k s (f s)) (m : Nat) (s : PState V N) :
    MS l op b B D (m * k) s (Cfg.timesP f m s) := by
  induction m generalizing s with
  | zero => rw [Nat.zero_mul]; exact .ret .rfl'
  | succ m ih => exact (MS.bind (hf _) fun s' => ih s').cast (by rw [Nat.succ_mul, Nat.add_comm])

variable [LinearOrder T] [Inhabited T] (E : Cfg V K T N) {r : Nat}

theorem MS.sendP {dst : Option Nat} {l' op' : Nat} {v : Payload V N} {s : PState V N}
    (hD : l' = l → op' = op → ∀ d, dst = some d → D d) :
    MS l op b B D (if l' = l ∧ op' = op then 1 else 0) s (E.sendP dst l' op' v s) := by
  intro n hn hB
  unfold Cfg.sendP
  cases dst with
  | none => trivial
  | some d =>
    dsimp only
    by_cases h : l' = l ∧ op' = op
    · rw [if_pos h] at hB ⊢
      obtain ⟨rfl, rfl⟩ := h
      unfold Prog.Sent
      rw [if_pos ⟨rfl, rfl⟩]
      refine ⟨⟨hD rfl rfl d rfl, hn, by omega⟩, ?_⟩
      unfold Prog.Sent
      refine ⟨⟨rfl, ?_⟩, rfl⟩
      show upd2 s.tagS l' op' _ l' op' = _
      unfold upd2
      rw [Function.update_self, Function.update_self, hn]
      omega
    · rw [if_neg h] at hB ⊢
      unfold Prog.Sent
      rw [if_neg h]
      refine ⟨⟨rfl, ?_⟩, rfl⟩
      show upd2 s.tagS l' op' _ l op = _
      unfold upd2
      by_cases h1 : l = l'
      · subst h1
        rw [Function.update_self, Function.update_of_ne (fun h2 => h ⟨rfl, h2.symm⟩)]
        exact hn
      · rw [Function.update_of_ne h1]
        exact hn

theorem Sent.recvP {src : Option Nat} {l' op' : Nat} {s : PState V N} {n : Nat} {G : Nat → Nat → Nat → Prop} :
    (E.recvP src l' op' s).Sent l op G (fun p n' => n' = n ∧ Same s p.2) n := by
  unfold Cfg.recvP
  split
  · trivial
  · intro m
    show Prog.Sent l op _ _ n (if _ then _ else _)
    by_cases hi : (E.instr && !(decide (m.lvl = l') && decide (m.op = op'))) = true
    · rw [if_pos hi]
      trivial
    · rw [if_neg hi]
      exact ⟨rfl, rfl, rfl⟩

theorem MS.recvU {src : Option Nat} {l' op' lu : Nat} {s : PState V N} :
    MS l op b B D 0 s (E.recvU src l' op' lu s) := by
  intro n hn _
  refine (Sent.recvP E).bind fun p n' hp => ?_
  obtain ⟨rfl, ht⟩ := hp
  split
  · refine ⟨⟨rfl, ?_⟩, ht.2⟩
    show p.2.tagS l op = _
    rw [ht.1, hn]
  · trivial

theorem tagS_foldl {ι : Type} (f : PState V N → ι → PState V N) (hf : ∀ s i, Same s (f s i))
    (xs : List ι) (s : PState V N) : Same s (xs.foldl f s) := by
  induction xs generalizing s with
  | nil => exact .rfl'
  | cons x xs ih => exact ⟨(ih _).1.trans (hf _ _).1, (ih _).2.trans (hf _ _).2⟩

end

section ops
variable [LinearOrder T] [Inhabited T] [Add V] [Sub V] [SMul K V] [One K] [Sub K]
variable {E : Cfg V K T N} {r l op b B : Nat}

/-- The process to which the messages of an operation go: the next process with points on the level the
message is about. -/
def destOK (E : Cfg V K T N) (r l op : Nat) (d : Nat) : Prop :=
  if op = 6 then d = r + 1 else Adj E.ts E.P (lvlOf l op) r d

/-- 1 if process `r` sends a message in operation `op` on level `l`. -/
def bit (E : Cfg V K T N) (r l op : Nat) : Nat :=
  if op = 6 then (if E.global = false ∧ r + 1 < E.P then 1 else 0) else if E.sendFlag l r op then 1 else 0

theorem dest_of (h : E.Base) (hr : r < E.P) {l' op' : Nat} (hl : lvlOf l' op' < E.ts.length) (h6 : op' ≠ 6)
    {d : Nat} (hd : (E.info r (lvlOf l' op')).sendTo = some d) : destOK E r l' op' d := by
  unfold destOK
  rw [if_neg h6]
  exact ((h.spec hr hl).sendTo d).1 hd

theorem MS.send' (h : E.Base) (hr : r < E.P) {l' op' : Nat} (hl : lvlOf l' op' < E.ts.length) (h6 : op' ≠ 6)
    {v : Payload V N} {s : PState V N} :
    MS l op b B (destOK E r l op) (if l' = l ∧ op' = op then 1 else 0) s
      (E.sendP (E.info r (lvlOf l' op')).sendTo l' op' v s) :=
  .sendP E fun e1 e2 d hd => by subst e1 e2; exact dest_of h hr hl h6 hd

/-- Number of messages with label `(l, op)` of an operation `op'` on level `l'`. -/
def one (E : Cfg V K T N) (r l op l' op' : Nat) : Nat := if l' = l ∧ op' = op then bit E r l op else 0

theorem max_count {xs : List Nat} (hn : xs.Nodup) (hne : xs ≠ []) :
    (xs.map fun j => if xs.max? = some j then 1 else 0).sum = 1 := by
  obtain ⟨m, hm⟩ : ∃ m, xs.max? = some m := by
    rcases hm : xs.max? with _ | m
    · exact absurd (List.max?_eq_none_iff.1 hm) hne
    · exact ⟨m, rfl⟩
  have hmem : m ∈ xs := List.max?_mem hm
  rw [hm]
  clear hm hne
  induction xs with
  | nil => simp at hmem
  | cons x xs ih =>
    rw [List.nodup_cons] at hn
    rw [List.map_cons, List.sum_cons]
    by_cases hx : m = x
    · subst hx
      rw [if_pos rfl]
      have : (xs.map fun j => if some m = some j then 1 else 0).sum = 0 := by
        clear ih hmem
        induction xs with
        | nil => rfl
        | cons y ys ih =>
          rw [List.map_cons, List.sum_cons, if_neg, ih ⟨fun h => hn.1 (List.mem_cons_of_mem _ h), hn.2.tail⟩]
          intro e
          exact hn.1 (Option.some.inj e ▸ List.mem_cons_self)
      omega
    · rw [if_neg (by simpa using hx)]
      rcases List.mem_cons.1 hmem with h | h
      · exact absurd h hx
      · rw [ih hn.2 h]

theorem MS.fRelaxP (h : E.Base) (hr : r < E.P) {l' : Nat} (hl : l' < E.ts.length) (s : PState V N) :
    MS l op b B (destOK E r l op) (one E r l op l' 0 + one E r l op l' 1) s (E.fRelaxP r l' s) := by
  have hs := h.spec hr hl
  unfold Cfg.fRelaxP
  refine MS.cast (k := (if (E.info r l').lastC then (if l' = l ∧ 0 = op then 1 else 0) else 0) + (0 +
    ((E.info r l').idxF.map fun j => if ((E.info r l').commBack && decide ((E.info r l').idxF.max? = some j)) = true
      then (if l' = l ∧ 1 = op then 1 else 0) else 0).sum)) ?_ ?_
  · refine .bind (.opt (.send' h hr (l' := l') (op' := 0) hl (by decide))) fun s' => ?_
    refine .bind (.opt0 (.recvU E)) fun s' => ?_
    refine .forIn' _ (fun j hj s => ?_) _
    unfold Cfg.fBody
    refine MS.cast (k := 0 + _) (.bind (.opt0 (.recvU E)) fun s' => ?_) (Nat.zero_add _)
    refine .from (s' := s'.setU l' j (E.propAt r l' j s')) ⟨rfl, rfl⟩ ?_
    exact .opt (.send' h hr (l' := l') (op' := 1) hl (by decide))
  · have e1 : (if (E.info r l').lastC = true then (if l' = l ∧ 0 = op then 1 else 0) else 0) = one E r l op l' 0 := by
      unfold one bit
      by_cases h1 : l' = l ∧ 0 = op
      · obtain ⟨rfl, rfl⟩ := h1
        simp [sendFlag]
      · simp only [if_neg h1, ite_self]
    rw [e1, Nat.zero_add]
    congr 1
    unfold one bit
    by_cases h1 : l' = l ∧ 1 = op
    · simp only [if_pos h1]
      obtain ⟨rfl, rfl⟩ := h1
      show _ = if (E.info r l').commBack = true then 1 else 0
      by_cases hc : (E.info r l').commBack = true
      · rw [if_pos hc]
        simp only [hc, Bool.true_and, decide_eq_true_eq]
        refine max_count (hs.idxF_compat.imp fun hab => hab.1) ?_
        obtain ⟨c1, c2, c3, c4⟩ := hs.commBack.1 hc
        have : lo E.ts E.P l' (r + 1) - 1 - off E.ts E.P l' r ∈ (E.info r l').idxF :=
          (hs.idxF_mem _).2 ⟨lo E.ts E.P l' (r + 1) - 1, by omega, by omega, c3, rfl⟩
        exact List.ne_nil_of_mem this
      · rw [if_neg hc]
        simp [hc]
    · simp [if_neg h1]

theorem one_eq {l' op' : Nat} {c : Bool} (h6 : op' ≠ 6) (hc : c = E.sendFlag l' r op') :
    (if c = true then (if l' = l ∧ op' = op then 1 else 0) else 0) = one E r l op l' op' := by
  subst hc
  unfold one bit
  by_cases h1 : l' = l ∧ op' = op
  · obtain ⟨rfl, rfl⟩ := h1
    simp [h6]
  · simp only [if_neg h1, ite_self]

theorem MS.cRelaxP (h : E.Base) (hr : r < E.P) {l' : Nat} (hl : l' < E.ts.length) (s : PState V N) :
    MS l op b B (destOK E r l op) (one E r l op l' 2) s (E.cRelaxP r l' s) := by
  unfold Cfg.cRelaxP
  rw [← one_eq (c := (E.info r l').lastF) (by decide) rfl]
  refine MS.cast (k := _ + (0 + 0)) (.bind (.opt (.send' h hr (l' := l') (op' := 2) hl (by decide))) fun s' =>
    .bind (.opt0 (.recvU E)) fun s' => .ret ?_) rfl
  refine tagS_foldl _ (fun s j => ?_) _ _
  split <;> exact ⟨rfl, rfl⟩

theorem MS.forwardSolveP (h : E.Base) (hr : r < E.P) {l' : Nat} (hl : l' < E.ts.length) (s : PState V N) :
    MS l op b B (destOK E r l op) (one E r l op l' 5) s (E.forwardSolveP r l' s) := by
  unfold Cfg.forwardSolveP
  rw [← one_eq (c := (E.info r l').sendTo.isSome) (by decide) rfl]
  refine MS.cast (k := 0 + _) (.bind (.opt0 (.recvU E)) fun s' => ?_) (Nat.zero_add _)
  exact .from (tagS_foldl (fun s j => s.setU l' j (E.propAt r l' j s)) (fun s j => ⟨rfl, rfl⟩) _ s') (.opt (.send' h hr (l' := l') (op' := 5) hl (by decide)))

theorem MS.fasResidualP (h : E.Base) (hr : r < E.P) {l' : Nat} (hl : l' + 1 < E.ts.length) (s : PState V N) :
    MS l op b B (destOK E r l op) (one E r l op l' 3 + one E r l op l' 4) s (E.fasResidualP r l' s) := by
  unfold Cfg.fasResidualP
  rw [← one_eq (c := (E.info r l').lastF) (by decide) rfl, ← one_eq (c := (E.info r (l' + 1)).sendTo.isSome) (by decide) rfl]
  refine .from (s' := E.restrictLoop r l' s) (by
    unfold Cfg.restrictLoop
    exact tagS_foldl _ (fun s j => by exact ⟨rfl, rfl⟩) _ s) ?_
  refine MS.cast (k := _ + (0 + (_ + (0 + 0))))
    (.bind (.opt (.send' h hr (l' := l') (op' := 3) (by unfold lvlOf; simp; omega) (by decide))) fun s' =>
    .bind (.opt0 (.recvU E)) fun s' => .bind (.opt (.send' h hr (l' := l') (op' := 4) hl (by decide))) fun s' =>
    .bind (.opt0 (.recvU E)) fun s' => .ret ?_) (by omega)
  refine tagS_foldl _ (fun s j => ?_) _ _
  split
  · split <;> exact ⟨rfl, rfl⟩
  · exact .rfl'

theorem tagS_errorCorrectionP (l' : Nat) (s : PState V N) : Same s (E.errorCorrectionP r l' s) := by
  refine tagS_foldl _ (fun s j => ?_) _ _
  split <;> exact ⟨rfl, rfl⟩

theorem tagS_interpolateP (l' : Nat) (s : PState V N) : Same s (E.interpolateP r l' s) := by
  refine tagS_foldl _ (fun s j => ?_) _ _
  split <;> exact ⟨rfl, rfl⟩

/-- Messages of one visit of level `l'`, that is relaxations, residual and coarse correction (mgrit.py:268-285), with
`x` F-relaxations. -/
def visitM (E : Cfg V K T N) (r l op l' x : Nat) : Nat :=
  x * (one E r l op l' 0 + one E r l op l' 1) + E.cf l' * one E r l op l' 2 +
    (one E r l op l' 3 + one E r l op l' 4)

/-- Messages of a V-cycle (mgrit.py:261-290), see `Cfg.vcycP`. -/
def vcycM (E : Cfg V K T N) (r l op : Nat) : Nat → Nat → Nat → Bool → Nat
  | 0, l', _, _ => one E r l op l' 5
  | d + 1, l', it, ff =>
    visitM E r l op l' ((if (0 < l' ∨ (it = 0 ∧ l' = 0)) ∧ ff then 1 else 0) + E.cf l' + 1) +
      vcycM E r l op d (l' + 1) it true

/-- Messages of an iteration (mgrit.py:261-290), see `Cfg.iterationP`. -/
def iterM (E : Cfg V K T N) (r l op : Nat) : Nat → Nat → Sys.Cycle → Nat → Bool → Nat
  | 0, l', _, _, _ => one E r l op l' 5
  | d + 1, l', cyc, it, ff =>
    visitM E r l op l' ((if (0 < l' ∨ (it = 0 ∧ l' = 0)) ∧ ff then 1 else 0) + E.cf l' + 1) +
      iterM E r l op d (l' + 1) cyc it true + (if l' ≠ 0 ∧ cyc = Sys.Cycle.F then vcycM E r l op (d + 1) l' it false else 0)

theorem MS.relax (h : E.Base) (hr : r < E.P) {l' : Nat} (hl : l' < E.ts.length) (s : PState V N) :
    MS l op b B (destOK E r l op) (E.cf l' * (one E r l op l' 2 + (one E r l op l' 0 + one E r l op l' 1))) s
      (Cfg.timesP (fun s => (E.cRelaxP r l' s).bind (E.fRelaxP r l')) (E.cf l') s) :=
  .timesP (fun s => .bind (.cRelaxP h hr hl s) fun s' => .fRelaxP h hr hl s') _ _

theorem MS.vcycP (h : E.Base) (hr : r < E.P) (d l' it : Nat) (ff : Bool) (hl : l' + d < E.ts.length)
    (s : PState V N) :
    MS l op b B (destOK E r l op) (vcycM E r l op d l' it ff) s (E.vcycP r d l' it ff s) := by
  induction d generalizing l' ff s with
  | zero => exact .forwardSolveP h hr hl s
  | succ d ih =>
    unfold Cfg.vcycP vcycM visitM
    refine MS.cast (k := (if (0 < l' ∨ (it = 0 ∧ l' = 0)) ∧ ff then one E r l op l' 0 + one E r l op l' 1 else 0) +
        (E.cf l' * (one E r l op l' 2 + (one E r l op l' 0 + one E r l op l' 1)) +
        ((one E r l op l' 3 + one E r l op l' 4) + (vcycM E r l op d (l' + 1) it true +
          (one E r l op l' 0 + one E r l op l' 1))))) ?_ ?_
    · refine .bind (.opt (.fRelaxP h hr (by omega) s)) fun s' => .bind (.relax h hr (by omega) s') fun s' => ?_
      refine .bind (.fasResidualP h hr (by omega) s') fun s' => .bind (ih _ _ (by omega) s') fun s' => ?_
      exact .from (tagS_errorCorrectionP _ _) (.fRelaxP h hr (by omega) _)
    · split <;> ring

theorem MS.iterationP (h : E.Base) (hr : r < E.P) (d l' : Nat) (cyc : Sys.Cycle) (it : Nat) (ff : Bool)
    (hl : l' + d < E.ts.length) (s : PState V N) :
    MS l op b B (destOK E r l op) (iterM E r l op d l' cyc it ff) s (E.iterationP r d l' cyc it ff s) := by
  induction d generalizing l' ff s with
  | zero => exact .forwardSolveP h hr hl s
  | succ d ih =>
    unfold Cfg.iterationP iterM visitM
    refine MS.cast (k := (if (0 < l' ∨ (it = 0 ∧ l' = 0)) ∧ ff then one E r l op l' 0 + one E r l op l' 1 else 0) +
        (E.cf l' * (one E r l op l' 2 + (one E r l op l' 0 + one E r l op l' 1)) +
        ((one E r l op l' 3 + one E r l op l' 4) + (iterM E r l op d (l' + 1) cyc it true +
          ((one E r l op l' 0 + one E r l op l' 1) +
          (if l' ≠ 0 ∧ cyc = Sys.Cycle.F then vcycM E r l op (d + 1) l' it false else 0)))))) ?_ ?_
    · refine .bind (.opt (.fRelaxP h hr (by omega) s)) fun s' => .bind (.relax h hr (by omega) s') fun s' => ?_
      refine .bind (.fasResidualP h hr (by omega) s') fun s' => .bind (ih _ _ (by omega) s') fun s' => ?_
      refine .bind (.from (tagS_errorCorrectionP _ _) (.fRelaxP h hr (by omega) _)) fun s' => ?_
      exact .opt (.vcycP h hr _ _ _ _ (by omega) _)
    · generalize vcycM E r l op (d + 1) l' it false = X
      split <;> ring

/-- Messages of the level loop of nested iteration (mgrit.py:559-566). -/
def nestLoopM (E : Cfg V K T N) (r l op : Nat) : Nat → Nat
  | 0 => 0
  | l' + 1 => (if 0 < l' then iterM E r l op (E.L - 1 - l') l' Sys.Cycle.V 0 true else 0) + nestLoopM E r l op l'

theorem MS.nestedLoopP (h : E.Base) (hr : r < E.P) (k : Nat) (hk : k < E.ts.length) (s : PState V N) :
    MS l op b B (destOK E r l op) (nestLoopM E r l op k) s (E.nestedLoopP r k s) := by
  induction k generalizing s with
  | zero => exact .ret .rfl'
  | succ k ih =>
    unfold Cfg.nestedLoopP nestLoopM
    refine .from (s' := E.interpolateP r k s) (tagS_interpolateP _ _) ?_
    refine .bind (.opt (.iterationP h hr _ _ _ _ _ ?_ _)) fun s' => ih (by omega) s'
    show k + (E.ts.length - 1 - k) < _
    omega

theorem MS.nestedIterationP (h : E.Base) (hr : r < E.P) (s : PState V N) :
    MS l op b B (destOK E r l op) (one E r l op (E.L - 1) 5 + nestLoopM E r l op (E.L - 1)) s
      (E.nestedIterationP r s) := by
  have hpos := h.valid.pos
  have hL : E.L = E.ts.length := rfl
  unfold Cfg.nestedIterationP
  exact .bind (.forwardSolveP h hr (by omega) s) fun s' => .nestedLoopP h hr _ (by omega) s'

theorem Sent.collectP {op : Nat} (hop : op ≠ 8) {G : Nat → Nat → Nat → Prop} {tag : Nat} (v : Payload V N)
    (f : List (Payload V N) → Payload V N) (n : Nat) :
    (E.collectP r tag v f).Sent l op G (fun _ n' => n' = n) n := by
  have hm : ∀ l' : Nat, ¬ (l' = l ∧ 8 = op) := fun l' h => hop h.2.symm
  unfold Cfg.collectP
  split
  · refine Prog.Sent.bind (Q := fun _ n' => n' = n) ?_ fun xs n' hn => ?_
    · generalize [v] = acc
      generalize List.range' 1 (E.P - 1) = qs
      induction qs generalizing acc with
      | nil => rfl
      | cons q qs ih => exact fun m => ih _
    · subst hn
      refine Prog.Sent.bind (Q := fun _ n'' => n'' = n') ?_ fun _ n'' hn => hn
      generalize List.range' 1 (E.P - 1) = qs
      induction qs with
      | nil => rfl
      | cons q qs ih =>
        show Prog.Sent l op G _ n' (.send _ _ _ _)
        unfold Prog.Sent
        rw [if_neg (hm _)]
        exact ih
  · unfold Prog.Sent
    rw [if_neg (hm _)]
    exact fun m => rfl

theorem MS.wait {b B : Nat} {D : Nat → Prop} {k : Nat} {s : PState V N} {p : Prog (Msg V N) (PState V N)}
    (h : MS l op b B D k s p) : MS l op b B D k s (.wait p) := fun n hn hB => h n hn hB

theorem MS.convergenceP (h : E.Base) (hr : r < E.P) (hop : op ≠ 8) (it : Nat) (s : PState V N) :
    MS l op b B (destOK E r l op)
      ((if E.convCrit = 0 ∨ E.convCrit = 2 then one E r l op 0 7 else 0) + one E r l op 0 6) s
      (E.convergenceP r it s) := by
  intro n hn hB
  unfold Cfg.convergenceP
  refine Prog.Sent.bind (Q := fun (p : List N × PState V N) n' =>
    (n' = n + (if E.convCrit = 0 ∨ E.convCrit = 2 then one E r l op 0 7 else 0) ∧ p.2.tagS l op = b + n') ∧
      p.2.solveIter = s.solveIter) ?_ fun p n' hp => ?_
  · split
    · rename_i hc
      rw [if_pos hc] at hB
      unfold Cfg.residualP
      have h1 : MS l op b B (destOK E r l op) (one E r l op 0 7) s
          (if (E.info r 0).lastF then E.sendP (E.info r 0).sendTo 0 7 (.vec (s.u 0 (E.len r 0 - 1))) s else .ret s) := by
        rw [← one_eq (c := (E.info r 0).lastF) (by decide) rfl]
        exact .opt (.send' h hr (l' := 0) (op' := 7) h.valid.pos (by decide))
      refine (h1 n hn (by omega)).bind fun s1 n1 h1 => ?_
      obtain ⟨⟨rfl, h1t⟩, h1i⟩ := h1
      have h2 : MS l op b B (destOK E r l op) 0 s1 (if (E.info r 0).firstC && !s1.sf 0 7 then
          E.recvU (E.info r 0).getFrom 0 7 0 s1 else .ret s1) := .opt0 (.recvU E)
      refine (h2 _ h1t (by omega)).bind fun s2 n2 h2 => ?_
      obtain ⟨⟨rfl, h2t⟩, h2i⟩ := h2
      exact ⟨⟨rfl, h2t⟩, h2i.trans h1i⟩
    · exact ⟨⟨rfl, hn⟩, rfl⟩
  · obtain ⟨val, s1⟩ := p
    obtain ⟨⟨rfl, ht⟩, hi⟩ := hp
    dsimp only at ht hi ⊢
    generalize (if E.convCrit = 0 ∨ E.convCrit = 2 then one E r l op 0 7 else 0) = c7 at hB ht ⊢
    by_cases hg : E.global = true
    · rw [if_pos hg]
      have h6 : one E r l op 0 6 = 0 := by
        unfold one bit
        split
        · rename_i h1
          rw [if_pos h1.2.symm, if_neg]
          rw [hg]
          simp
        · rfl
      rw [h6]
      refine (Sent.collectP hop _ _ _).bind fun p n2 hn2 => ?_
      subst hn2
      split
      · exact ⟨⟨rfl, ht⟩, hi⟩
      · trivial
    · rw [if_neg hg]
      have hg : E.global = false := by simpa using hg
      have h1 : MS l op b B (destOK E r l op) 0 s1 (if 0 < r ∧ s1.sf 0 6 = false then
          (E.recvP (some (r - 1)) 0 6 s1).bind fun p =>
            match p.1 with
            | .flag b => .ret { p.2 with pre := b, preIt := if b then some it else p.2.preIt }
            | _ => .fail "wrong data"
          else .ret s1) := by
        refine .opt0 fun n hn _ => ?_
        refine (Sent.recvP E).bind fun p n' hp => ?_
        obtain ⟨rfl, hp⟩ := hp
        split
        · refine ⟨⟨rfl, ?_⟩, hp.2⟩
          show p.2.tagS l op = _
          rw [hp.1, hn]
        · trivial
      refine (h1 _ ht (by omega)).bind fun s2 n2 h2 => ?_
      obtain ⟨⟨rfl, h2t⟩, h2i⟩ := h2
      have h3 : MS l op b B (destOK E r l op) (one E r l op 0 6)
          { s2 with fin := s2.pre && (val.all E.ltTol || decide (it = E.maxIter)), finIt := some it }
          (if r + 1 < E.P then E.sendP (some (r + 1)) 0 6
            (.flag (s2.pre && (val.all E.ltTol || decide (it = E.maxIter))))
            { s2 with fin := s2.pre && (val.all E.ltTol || decide (it = E.maxIter)), finIt := some it }
           else .ret { s2 with fin := s2.pre && (val.all E.ltTol || decide (it = E.maxIter)), finIt := some it }) := by
        have e : one E r l op 0 6 = if r + 1 < E.P then (if 0 = l ∧ 6 = op then 1 else 0) else 0 := by
          unfold one bit
          by_cases h1 : 0 = l ∧ 6 = op
          · obtain ⟨rfl, rfl⟩ := h1
            simp [hg]
          · simp only [if_neg h1, ite_self]
        rw [e]
        refine .opt (.sendP E fun e1 e2 d hd => ?_)
        subst e2
        unfold destOK
        rw [if_pos rfl]
        exact (Option.some.inj hd).symm
      refine (h3 _ h2t (by omega)).bind fun s3 n3 h3 => ?_
      obtain ⟨⟨rfl, h3t⟩, h3i⟩ := h3
      exact ⟨⟨by omega, h3t⟩, (h3i.trans h2i).trans hi⟩

/-- Messages of `clean_up` (mgrit.py:648-691). -/
def cleanM (E : Cfg V K T N) (r l op : Nat) : Nat :=
  if E.global then 0 else
    ((List.range (E.L - 1)).map fun l' => one E r l op l' 0 + (one E r l op l' 1 + (one E r l op l' 2 +
      (one E r l op l' 3 + one E r l op l' 4)))).sum + one E r l op (E.L - 1) 5 + one E r l op 0 7

theorem MS.cleanUpP (h : E.Base) (hr : r < E.P) (s : PState V N) :
    MS l op b B (destOK E r l op) (cleanM E r l op) s (E.cleanUpP r s) := by
  have hpos := h.valid.pos
  have hL : E.L = E.ts.length := rfl
  unfold Cfg.cleanUpP cleanM
  refine MS.wait ?_
  split
  · exact .ret .rfl'
  · refine MS.cast (k := _ + (one E r l op (E.L - 1) 5 + (one E r l op 0 7 + (0 + 0))))
      (.bind (.forIn' (w := fun l' => one E r l op l' 0 + (one E r l op l' 1 + (one E r l op l' 2 +
      (one E r l op l' 3 + one E r l op l' 4)))) _ (fun l' hl' s => ?_) s) fun s' => .bind ?_ fun s' => .bind ?_ fun s' =>
        .bind ?_ fun s' => ?_) (by omega)
    · have hl' : l' + 1 < E.ts.length := by have := List.mem_range.1 hl'; omega
      unfold Cfg.cleanSend
      rw [← one_eq (c := (E.info r l').lastC) (op' := 0) (by decide) rfl,
        ← one_eq (c := (E.info r l').commBack) (op' := 1) (by decide) rfl,
        ← one_eq (c := (E.info r l').lastF) (op' := 2) (by decide) rfl,
        ← one_eq (c := (E.info r l').lastF) (op' := 3) (by decide) rfl,
        ← one_eq (c := (E.info r (l' + 1)).sendTo.isSome) (op' := 4) (by decide) rfl]
      refine .bind (.opt (.send' h hr (l' := l') (op' := 0) (show l' < _ by omega) (by decide))) fun s' => ?_
      refine .bind (.opt (.send' h hr (l' := l') (op' := 1) (show l' < _ by omega) (by decide))) fun s' => ?_
      refine .bind (.opt (.send' h hr (l' := l') (op' := 2) (show l' < _ by omega) (by decide))) fun s' => ?_
      refine .bind (.opt (.send' h hr (l' := l') (op' := 3) (show l' < _ by omega) (by decide))) fun s' => ?_
      exact .opt (.send' h hr (l' := l') (op' := 4) (show l' + 1 < _ by omega) (by decide))
    · rw [← one_eq (c := (E.info r (E.L - 1)).sendTo.isSome) (by decide) rfl]
      exact .opt (.send' h hr (l' := E.L - 1) (op' := 5) (show E.L - 1 < _ by omega) (by decide))
    · rw [← one_eq (c := (E.info r 0).lastF) (by decide) rfl]
      by_cases hF : (E.info r 0).lastF = true
      · rw [if_pos hF, if_pos hF]
        refine .sendP E fun e1 e2 d hd => ?_
        subst e1 e2
        obtain rfl := Option.some.inj hd
        unfold destOK
        rw [if_neg (by decide)]
        obtain ⟨c1, c2, -⟩ := ((h.spec hr hpos).lastF).1 hF
        obtain ⟨q, hq⟩ := h.adj_right hr hpos c1 c2
        have := adj_fine h hq
        subst this
        exact hq
      · rw [if_neg hF, if_neg hF]
        exact .ret .rfl'
    · refine .opt0 ?_
      refine MS.cast (k := _ + (0 + 0)) (.bind (.forIn' (w := fun _ => 0) _ (fun l' hl' s => ?_) _) fun s' =>
        .bind (.opt0 (.recvU E)) fun s' => .opt0 (.recvU E)) (by simp)
      unfold Cfg.cleanRecv
      refine MS.cast (k := 0 + (0 + (0 + (0 + 0)))) (.bind (.opt0 (.recvU E)) fun s' => .bind (.opt0 (.recvU E)) fun s' =>
        .bind (.opt0 (.recvU E)) fun s' => .bind (.opt0 (.recvU E)) fun s' => .opt0 fun n hn _ => ?_) rfl
      refine (Sent.recvP E).bind fun p n' hp => ?_
      obtain ⟨rfl, hp⟩ := hp
      exact ⟨⟨rfl, by rw [hp.1, hn]⟩, hp.2⟩
    · exact MS.wait (.ret .rfl')

/-- Messages of one iteration including the convergence check (mgrit.py:604-612). -/
def bodyM (E : Cfg V K T N) (r l op it : Nat) : Nat :=
  iterM E r l op (E.L - 1) 0 E.cyc it true +
    ((if E.convCrit = 0 ∨ E.convCrit = 2 then one E r l op 0 7 else 0) + one E r l op 0 6)

/-- Messages of the first `m` iterations (mgrit.py:603-635). -/
def loopM (E : Cfg V K T N) (r l op : Nat) : Nat → Nat
  | 0 => 0
  | m + 1 => loopM E r l op m + bodyM E r l op m

theorem loopM_mono {m m' : Nat} (hm : m ≤ m') : loopM E r l op m ≤ loopM E r l op m' := by
  induction hm with
  | refl => exact Nat.le_refl _
  | step _ ih => exact ih.trans (Nat.le_add_right _ _)

theorem Sent.solveLoopP (h : E.Base) (hr : r < E.P) (hop : op ≠ 8) (k it : Nat) (s : PState V N) (n a : Nat)
    (hk : it + k = E.maxIter) (h0 : k = 0 → it = 0) (hi : s.solveIter = it) (hn : s.tagS l op = b + n)
    (ha : n = a + loopM E r l op it) (hB : a + loopM E r l op E.maxIter + (if 0 < E.maxIter then cleanM E r l op else 0) ≤ B) :
    (E.solveLoopP r k it s).Sent l op (MG (destOK E r l op) b B)
      (fun s' n' => s'.solveIter ≤ E.maxIter ∧
        n' = a + loopM E r l op s'.solveIter + (if 0 < s'.solveIter then cleanM E r l op else 0)) n := by
  induction k generalizing it s n with
  | zero =>
    obtain rfl := h0 rfl
    unfold Cfg.solveLoopP
    refine ⟨by omega, ?_⟩
    rw [hi, ha]
    rfl
  | succ k ih =>
    rw [if_pos (show 0 < E.maxIter by omega)] at hB
    have hmono : loopM E r l op (it + 1) ≤ loopM E r l op E.maxIter := loopM_mono (by omega)
    have hbody : loopM E r l op (it + 1) = loopM E r l op it + bodyM E r l op it := rfl
    unfold bodyM at hbody
    have hconv := fun s1 : PState V N => MS.convergenceP (l := l) (op := op) (b := b) (B := B) h hr hop (it + 1) s1
    generalize (if E.convCrit = 0 ∨ E.convCrit = 2 then one E r l op 0 7 else 0) + one E r l op 0 6 = cc at hbody hconv
    unfold Cfg.solveLoopP
    refine (MS.iterationP h hr (E.L - 1) 0 E.cyc it true ?_ { s with solveIter := it + 1 } n hn (by omega)).bind
      fun s1 n1 h1 => ?_
    · have := h.valid.pos
      show 0 + (E.ts.length - 1) < _
      omega
    obtain ⟨⟨rfl, h1t⟩, h1i⟩ := h1
    refine (hconv s1 _ h1t (by omega)).bind fun s2 n2 h2 => ?_
    obtain ⟨⟨rfl, h2t⟩, h2i⟩ := h2
    generalize hs3 : (if E.outLvl = 2 then Cfg.outputP s2 else s2) = s3
    have h3t : s3.tagS l op = s2.tagS l op := by rw [← hs3]; split <;> rfl
    have h3i : s3.solveIter = it + 1 := by
      have : s3.solveIter = s2.solveIter := by rw [← hs3]; split <;> rfl
      rw [this, h2i, h1i]
    rw [← h3t] at h2t
    have hclean : (E.cleanUpP r s3).Sent l op (MG (destOK E r l op) b B)
        (fun s' n' => s'.solveIter ≤ E.maxIter ∧
          n' = a + loopM E r l op s'.solveIter + (if 0 < s'.solveIter then cleanM E r l op else 0))
        (n + iterM E r l op (E.L - 1) 0 E.cyc it true + cc) := by
      refine (MS.cleanUpP h hr s3 _ h2t (by omega)).mono fun s' n' hs' => ?_
      obtain ⟨⟨rfl, -⟩, hi'⟩ := hs'
      rw [hi', h3i, if_pos (by omega)]
      exact ⟨by omega, by omega⟩
    by_cases hc : E.ltTol (s3.conv (it + 1)) ∨ it + 1 = E.maxIter
    · rw [if_pos hc]
      by_cases hg : E.global = true
      · rw [if_pos hg]
        exact hclean
      · rw [if_neg hg]
        by_cases hc' : (s3.fin && s3.pre) ∨ it + 1 = E.maxIter
        · rw [if_pos hc']
          exact hclean
        · rw [if_neg hc']
          have : it + 1 ≠ E.maxIter := fun e => hc' (Or.inr e)
          exact ih (it + 1) s3 _ (by omega) (by omega) h3i h2t (by omega)
    · rw [if_neg hc]
      have : it + 1 ≠ E.maxIter := fun e => hc (Or.inr e)
      exact ih (it + 1) s3 _ (by omega) (by omega) h3i h2t (by omega)

/-- Messages of nested iteration (mgrit.py:551-566). -/
def nestM (E : Cfg V K T N) (r l op : Nat) : Nat :=
  if E.nested then one E r l op (E.L - 1) 5 + nestLoopM E r l op (E.L - 1) else 0

/-- Messages of a run that ends after `m` iterations. -/
def totalM (E : Cfg V K T N) (r l op m : Nat) : Nat :=
  nestM E r l op + loopM E r l op m + (if 0 < m then cleanM E r l op else 0)

theorem Sent.barrierP (hop : op ≠ 8) {G : Nat → Nat → Nat → Prop} (n : Nat) :
    (E.barrierP r).Sent l op G (fun _ n' => n' = n) n :=
  (Sent.collectP hop _ _ _).bind fun _ _ h => h

theorem Sent.mainP (h : E.Base) (hr : r < E.P) (hop : op ≠ 8) (s : PState V N) (hi : s.solveIter = 0)
    (ht : s.tagS l op = b) :
    (E.mainP r s).Sent l op (MG (destOK E r l op) b (totalM E r l op E.maxIter))
      (fun s' n => s'.solveIter ≤ E.maxIter ∧ n = totalM E r l op s'.solveIter) 0 := by
  generalize hB : totalM E r l op E.maxIter = B
  unfold totalM at hB
  unfold Cfg.mainP Cfg.setupP
  refine Prog.Sent.bind (Q := fun s' n => (n = nestM E r l op ∧ s'.tagS l op = b + n) ∧ s'.solveIter = 0) ?_
    fun s1 n1 h1 => ?_
  · refine (Sent.barrierP hop 0).bind fun _ n hn => ?_
    subst hn
    have h1 : MS l op b B (destOK E r l op) (nestM E r l op) s (if E.nested then E.nestedIterationP r s else .ret s) :=
      .opt (.nestedIterationP h hr s)
    refine (h1 0 ht (by omega)).bind fun s1 n1 h1 => ?_
    obtain ⟨⟨rfl, h1t⟩, h1i⟩ := h1
    refine Prog.Sent.bind (Q := fun _ n' => n' = 0 + nestM E r l op) ?_ fun _ n2 hn2 => ?_
    · split
      · exact Sent.barrierP hop _
      · rfl
    · subst hn2
      refine ⟨⟨by omega, ?_⟩, ?_⟩
      · rw [← h1t]
        split <;> split <;> rfl
      · rw [← hi, ← h1i]
        split <;> split <;> rfl
  · obtain ⟨⟨rfl, h1t⟩, h1i⟩ := h1
    unfold Cfg.solveP
    refine (Sent.solveLoopP h hr hop E.maxIter 0 s1 _ (nestM E r l op) (by omega) (fun _ => rfl) h1i h1t rfl
      (by omega)).bind fun s2 n2 h2 => ?_
    refine (Sent.barrierP hop n2).bind fun _ n3 hn3 => ?_
    subst hn3
    have : (if E.outLvl = 1 then Cfg.outputP s2 else s2).solveIter = s2.solveIter := by split <;> rfl
    unfold Prog.Sent
    rw [this]
    exact h2

end ops
end Pymgrit
