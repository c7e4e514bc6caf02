import Verif.Log
import Verif.LocalCex

/-!
# Local criteria: announcements (C30, C31)

The announcements are the messages `convergence_criterion` sends to the next process
(mgrit.py:447-449).  Every process is watched by a monitor; see `Verif.Log`.
-/

set_option linter.unusedSectionVars false

namespace Pymgrit

variable {V K T N : Type}

/-- What the monitor of a process remembers: tags of the announcements `finished` received from the
previous process, number of own announcements so far, and whether `finished` has been announced. -/
structure FM where
  seen : List Nat
  n : Nat
  done : Bool

/-- Monitor of process `r`: announcements go to process `r + 1`, the `i`-th one has tag
`350000 + i`; `finished` is announced only after the previous process has announced it in an iteration
that is not later.  With `strict`, nothing is announced after `finished`. -/
def flagMon (strict : Bool) (r : Nat) : Mon (Msg V N) FM where
  ok x d t m := ∀ b, m.data = Payload.flag b → d = r + 1 ∧ t = 350000 + x.n ∧
    (strict = true → x.done = false) ∧ (b = true → r = 0 ∨ ∃ t' ∈ x.seen, t' ≤ t)
  onSend x _ _ m := match m.data with
    | .flag b => { x with n := x.n + 1, done := x.done || b }
    | _ => x
  onRecv x s t m := match m.data with
    | .flag true => if s + 1 = r then { x with seen := t :: x.seen } else x
    | _ => x

/-- Fields the monitor depends on. -/
structure Keep (s s' : PState V N) : Prop where
  pre : s'.pre = s.pre
  tagS : s'.tagS 0 6 = s.tagS 0 6
  tagR : s'.tagR 0 6 = s.tagR 0 6

theorem Keep.refl (s : PState V N) : Keep s s := ⟨rfl, rfl, rfl⟩
theorem Keep.trans {a b c : PState V N} (h : Keep a b) (h' : Keep b c) : Keep a c :=
  ⟨h'.pre.trans h.pre, h'.tagS.trans h.tagS, h'.tagR.trans h.tagR⟩

theorem Keep.foldl {ι : Type} (f : PState V N → ι → PState V N) (hf : ∀ s i, Keep s (f s i))
    (xs : List ι) (s : PState V N) : Keep s (xs.foldl f s) := by
  induction xs generalizing s with
  | nil => exact .refl s
  | cons x xs ih => exact (hf s x).trans (ih _)

/-- The monitor saw no announcement being sent, and the fields it depends on are unchanged. -/
structure Fr (x : FM) (s : PState V N) (y : FM) (s' : PState V N) : Prop where
  n : y.n = x.n
  done : y.done = x.done
  seen : ∀ t ∈ x.seen, t ∈ y.seen
  keep : Keep s s'

theorem Fr.trans {x y z : FM} {s s' s'' : PState V N} (h : Fr x s y s') (h' : Fr y s' z s'') :
    Fr x s z s'' :=
  ⟨h'.n.trans h.n, h'.done.trans h.done, fun t ht => h'.seen t (h.seen t ht), h.keep.trans h'.keep⟩

section frame
variable {strict : Bool} {r : Nat}

def FrS (strict : Bool) (r : Nat) (x : FM) (s : PState V N) (p : Prog (Msg V N) (PState V N)) : Prop :=
  p.Safe (flagMon strict r) x (Fr x s)

theorem FrS.ret {x : FM} {s s' : PState V N} (h : Keep s s') : FrS strict r x s (.ret s') :=
  ⟨rfl, rfl, fun _ h => h, h⟩

theorem FrS.bind {x : FM} {s : PState V N} {p : Prog (Msg V N) (PState V N)}
    {f : PState V N → Prog (Msg V N) (PState V N)} (h : FrS strict r x s p)
    (hf : ∀ y s', FrS strict r y s' (f s')) : FrS strict r x s (p.bind f) := by
  refine Prog.Safe.bind _ (Prog.Safe.mono _ h fun y s' h' => ?_)
  exact Prog.Safe.mono _ (hf y s') fun z s'' h'' => h'.trans h''

theorem FrS.from {x : FM} {s s' : PState V N} {p : Prog (Msg V N) (PState V N)} (h : Keep s s')
    (hp : FrS strict r x s' p) : FrS strict r x s p :=
  Prog.Safe.mono _ hp fun _ _ h' => ⟨h'.n, h'.done, h'.seen, h.trans h'.keep⟩

theorem FrS.ite {c : Prop} [Decidable c] {x : FM} {s : PState V N} {p q : Prog (Msg V N) (PState V N)}
    (hp : FrS strict r x s p) (hq : FrS strict r x s q) : FrS strict r x s (if c then p else q) := by
  split <;> assumption

theorem FrS.forIn' {ι : Type} {f : PState V N → ι → Prog (Msg V N) (PState V N)}
    (hf : ∀ x s i, FrS strict r x s (f s i)) (xs : List ι) (x : FM) (s : PState V N) :
    FrS strict r x s (Prog.forIn' xs f s) := by
  induction xs generalizing x s with
  | nil => exact .ret (.refl s)
  | cons i xs ih => exact .bind (hf _ _ _) fun y s' => ih y s'

theorem flagMon_onRecv (x : FM) (s t : Nat) (m : Msg V N) :
    ((flagMon strict r).onRecv x s t m).n = x.n ∧ ((flagMon strict r).onRecv x s t m).done = x.done ∧
    ∀ t' ∈ x.seen, t' ∈ ((flagMon strict r).onRecv x s t m).seen := by
  simp only [flagMon]
  split
  · split
    · exact ⟨rfl, rfl, fun _ h => List.mem_cons_of_mem _ h⟩
    · exact ⟨rfl, rfl, fun _ h => h⟩
  · exact ⟨rfl, rfl, fun _ h => h⟩

variable [LinearOrder T] [Inhabited T] (E : Cfg V K T N)

theorem Keep.setU (s : PState V N) (l i : Nat) (x : V) : Keep s (s.setU l i x) := ⟨rfl, rfl, rfl⟩
theorem Keep.setG (s : PState V N) (l i : Nat) (x : V) : Keep s (s.setG l i x) := ⟨rfl, rfl, rfl⟩

theorem FrS.sendP {dst : Option Nat} {l op : Nat} (hop : op ≠ 6) {v : V} {x : FM} {s : PState V N} :
    FrS strict r x s (E.sendP dst l op (.vec v) s) := by
  unfold Cfg.sendP
  split
  · trivial
  · refine ⟨fun b hb => ?_, rfl, rfl, fun _ h => h, rfl, ?_, rfl⟩
    · cases hb
    · exact Cfg.upd2_ne _ _ (by omega)

theorem Safe.recvP {src : Option Nat} {l op : Nat} (hop : op ≠ 6) {x : FM} {s : PState V N} :
    (E.recvP src l op s).Safe (flagMon strict r) x fun y p => Fr x s y p.2 := by
  unfold Cfg.recvP
  split
  · trivial
  · rename_i q
    intro m
    show Prog.Safe _ (if _ then _ else _) _ _
    by_cases hi : (E.instr && !(decide (m.lvl = l) && decide (m.op = op))) = true
    · rw [if_pos hi]
      trivial
    · rw [if_neg hi]
      obtain ⟨h1, h2, h3⟩ := flagMon_onRecv (strict := strict) (r := r) x q (s.tagR l op) m
      exact ⟨h1, h2, h3, rfl, rfl, Cfg.upd2_ne _ _ (by omega)⟩

theorem FrS.recvU {src : Option Nat} {l op lu : Nat} (hop : op ≠ 6) {x : FM} {s : PState V N} :
    FrS strict r x s (E.recvU src l op lu s) := by
  refine Prog.Safe.bind _ (Prog.Safe.mono _ (Safe.recvP E hop) fun y p h => ?_)
  split
  · exact ⟨h.n, h.done, h.seen, h.keep.trans (.setU _ _ _ _)⟩
  · trivial

/-- Sequential composition with conditional parts. -/
theorem FrS.opt {c : Prop} [Decidable c] {x : FM} {s : PState V N} {p : Prog (Msg V N) (PState V N)}
    {f : PState V N → Prog (Msg V N) (PState V N)} (h : FrS strict r x s p)
    (hf : ∀ y s', FrS strict r y s' (f s')) :
    FrS strict r x s ((if c then p else .ret s).bind f) :=
  .bind (.ite h (.ret (.refl s))) hf

section ops
variable [Add V]

theorem FrS.fRelaxP (l : Nat) (x : FM) (s : PState V N) : FrS strict r x s (E.fRelaxP r l s) := by
  unfold Cfg.fRelaxP
  refine .opt (.sendP E (by decide)) fun y s' => .opt (.recvU E (by decide)) fun y s' => ?_
  refine .forIn' (fun x s j => ?_) _ _ _
  unfold Cfg.fBody
  refine .opt (.recvU E (by decide)) fun y s' => ?_
  exact .from (.setU _ _ _ _) (.ite (.sendP E (by decide)) (.ret (.refl _)))

theorem FrS.forwardSolveP (l : Nat) (x : FM) (s : PState V N) :
    FrS strict r x s (E.forwardSolveP r l s) := by
  unfold Cfg.forwardSolveP
  refine .opt (.recvU E (by decide)) fun y s' => ?_
  refine .from (Keep.foldl (fun s j => s.setU l j (E.propAt r l j s)) (fun s i => Keep.setU _ _ _ _)
    (List.range' 1 (E.len r l - 1)) s') ?_
  exact .ite (.sendP E (by decide)) (.ret (.refl _))

variable [Sub V]

theorem FrS.fasResidualP (l : Nat) (x : FM) (s : PState V N) :
    FrS strict r x s (E.fasResidualP r l s) := by
  unfold Cfg.fasResidualP
  refine .from (s' := E.restrictLoop r l s) (Keep.foldl _ (fun s i => Keep.setU _ _ _ _) _ _) ?_
  refine .opt (.sendP E (by decide)) fun y s' => .opt (.recvU E (by decide)) fun y s' => ?_
  refine .opt (.sendP E (by decide)) fun y s' => .opt (.recvU E (by decide)) fun y s' => ?_
  refine .ret (Keep.trans (b := { s' with v := Function.update s'.v (l + 1) (s'.u (l + 1)) })
    ⟨rfl, rfl, rfl⟩ (Keep.foldl _ (fun s i => ?_) _ _))
  split
  · split <;> exact Keep.setG _ _ _ _
  · exact .refl _

theorem Keep.errorCorrectionP (l : Nat) (s : PState V N) : Keep s (E.errorCorrectionP r l s) := by
  refine Keep.foldl _ (fun s i => ?_) _ _
  split
  · exact Keep.setU _ _ _ _
  · exact .refl _

theorem Keep.interpolateP (l : Nat) (s : PState V N) : Keep s (E.interpolateP r l s) := by
  refine Keep.foldl _ (fun s i => ?_) _ _
  split
  · exact Keep.setU _ _ _ _
  · exact .refl _

theorem FrS.timesP {f : PState V N → Prog (Msg V N) (PState V N)} (hf : ∀ x s, FrS strict r x s (f s))
    (k : Nat) (x : FM) (s : PState V N) : FrS strict r x s (Cfg.timesP f k s) := by
  induction k generalizing x s with
  | zero => exact .ret (.refl s)
  | succ k ih => exact .bind (hf _ _) fun y s' => ih y s'

variable [SMul K V] [One K] [Sub K]

theorem FrS.cRelaxP (l : Nat) (x : FM) (s : PState V N) : FrS strict r x s (E.cRelaxP r l s) := by
  unfold Cfg.cRelaxP
  refine .opt (.sendP E (by decide)) fun y s' => .opt (.recvU E (by decide)) fun y s' => ?_
  refine .ret (Keep.foldl _ (fun s i => ?_) _ _)
  split
  · exact Keep.setU _ _ _ _
  · exact .refl _

theorem FrS.vcycP (d l it : Nat) (ff : Bool) (x : FM) (s : PState V N) :
    FrS strict r x s (E.vcycP r d l it ff s) := by
  induction d generalizing l ff x s with
  | zero => exact .forwardSolveP E l x s
  | succ d ih =>
    unfold Cfg.vcycP
    refine .opt (.fRelaxP E _ _ _) fun y s' => .bind (.timesP (fun x s => ?_) _ _ _) fun y s' => ?_
    · exact .bind (.cRelaxP E _ _ _) fun y s' => .fRelaxP E _ _ _
    · refine .bind (.fasResidualP E _ _ _) fun y s' => .bind (ih _ _ _ _) fun y s' => ?_
      exact .from (.errorCorrectionP E _ _) (.fRelaxP E _ _ _)

theorem FrS.iterationP (d l : Nat) (cyc : Sys.Cycle) (it : Nat) (ff : Bool) (x : FM) (s : PState V N) :
    FrS strict r x s (E.iterationP r d l cyc it ff s) := by
  induction d generalizing l ff x s with
  | zero => exact .forwardSolveP E l x s
  | succ d ih =>
    unfold Cfg.iterationP
    refine .opt (.fRelaxP E _ _ _) fun y s' => .bind (.timesP (fun x s => ?_) _ _ _) fun y s' => ?_
    · exact .bind (.cRelaxP E _ _ _) fun y s' => .fRelaxP E _ _ _
    · refine .bind (.fasResidualP E _ _ _) fun y s' => .bind (ih _ _ _ _) fun y s' => ?_
      refine .bind (.from (.errorCorrectionP E _ _) (.fRelaxP E _ _ _)) fun y s' => ?_
      exact .ite (.vcycP E _ _ _ _ _ _) (.ret (.refl _))

theorem FrS.nestedIterationP (x : FM) (s : PState V N) :
    FrS strict r x s (E.nestedIterationP r s) := by
  unfold Cfg.nestedIterationP
  refine .bind (.forwardSolveP E _ _ _) fun y s' => ?_
  generalize E.L - 1 = n
  induction n generalizing y s' with
  | zero => exact .ret (.refl _)
  | succ n ih =>
    unfold Cfg.nestedLoopP
    refine .from (s' := E.interpolateP r n s') (.interpolateP E n s') ?_
    exact .opt (.iterationP E _ _ _ _ _ _ _) fun y s' => ih y s'

omit [Sub V] [SMul K V] [One K] [Sub K] [Add V] in
theorem Safe.collectP (tag : Nat) (v : Payload V N) (f : List (Payload V N) → Payload V N)
    (hv : ∀ b, v ≠ .flag b) (hf : ∀ xs b, f xs ≠ .flag b) (x : FM) (s : PState V N) :
    (E.collectP r tag v f).Safe (flagMon strict r) x fun y _ => Fr x s y s := by
  have snd : ∀ (x : FM) (d t : Nat) (m : Msg V N), (∀ b, m.data ≠ .flag b) →
      (flagMon strict r).onSend x d t m = x := by
    intro x d t m h
    unfold flagMon
    dsimp only
    split
    · rename_i b hb; exact absurd hb (h b)
    · rfl
  unfold Cfg.collectP
  split
  · refine Prog.Safe.bind _ (Prog.Safe.mono (post := fun y _ => Fr x s y s) _ ?_ fun y xs h => ?_)
    · generalize [v] = acc
      generalize List.range' 1 (E.P - 1) = qs
      have h0 : Fr x s x s := ⟨rfl, rfl, fun _ h => h, .refl s⟩
      have : ∀ y, Fr x s y s → (Prog.forIn' qs (fun acc q =>
          Prog.recv q tag fun m => Prog.ret (acc ++ [m.data])) acc).Safe (flagMon strict r) y
          fun y _ => Fr x s y s := by
        induction qs generalizing acc with
        | nil => exact fun y h => h
        | cons q qs ih =>
          intro y h m
          obtain ⟨h1, h2, h3⟩ := flagMon_onRecv (strict := strict) (r := r) y q tag m
          exact ih _ _ ⟨h1.trans h.n, h2.trans h.done, fun t ht => h3 t (h.seen t ht), h.keep⟩
      exact this x h0
    · refine Prog.Safe.bind _ ?_
      generalize List.range' 1 (E.P - 1) = qs
      induction qs with
      | nil => exact h
      | cons q qs ih =>
        refine ⟨fun b hb => absurd hb (hf xs b), ?_⟩
        rw [snd _ _ _ _ (fun b => hf xs b)]
        exact ih
  · refine ⟨fun b hb => absurd hb (hv b), fun m => ?_⟩
    rw [snd _ _ _ _ hv]
    obtain ⟨h1, h2, h3⟩ := flagMon_onRecv (strict := strict) (r := r) x 0 (tag + 1) m
    exact ⟨h1, h2, h3, .refl s⟩

omit [Sub V] [SMul K V] [One K] [Sub K] [Add V] in
theorem FrS.barrier {f : PState V N → Prog (Msg V N) (PState V N)} {x : FM} {s : PState V N}
    (hf : ∀ y, FrS strict r y s (f s)) : FrS strict r x s ((E.barrierP r).bind fun _ => f s) := by
  unfold Cfg.barrierP
  rw [Prog.bind_assoc]
  refine Prog.Safe.bind _ (Prog.Safe.mono _ (Safe.collectP E 2 .unit (fun _ => .unit)
    (fun b h => by cases h) (fun _ b h => by cases h) x s) fun y _ h => ?_)
  exact Prog.Safe.mono _ (hf y) fun z s'' h'' => h.trans h''

omit [SMul K V] [One K] [Sub K] in
theorem Safe.residualP (x : FM) (s : PState V N) :
    (E.residualP r s).Safe (flagMon strict r) x fun y p => Fr x s y p.2 := by
  unfold Cfg.residualP
  refine Prog.Safe.bind _ (Prog.Safe.mono (post := Fr x s) _
    (FrS.ite (.sendP E (by decide)) (.ret (.refl _))) fun y s' h => ?_)
  refine Prog.Safe.bind _ (Prog.Safe.mono (post := Fr y s') _
    (FrS.ite (.recvU E (by decide)) (.ret (.refl _))) fun z s'' h' => ?_)
  exact h.trans h'

omit [SMul K V] [One K] [Sub K] in
theorem FrS.cleanUpP (x : FM) (s : PState V N) : FrS strict r x s (E.cleanUpP r s) := by
  unfold Cfg.cleanUpP
  refine FrS.ite (x := x) (s := s) (.ret (.refl _)) ?_
  refine .bind (.forIn' (fun x s l => ?_) _ _ _) fun y s' => ?_
  · unfold Cfg.cleanSend
    refine .opt (.sendP E (by decide)) fun y s' => .opt (.sendP E (by decide)) fun y s' => ?_
    refine .opt (.sendP E (by decide)) fun y s' => .opt (.sendP E (by decide)) fun y s' => ?_
    exact .ite (.sendP E (by decide)) (.ret (.refl _))
  · refine .opt (.sendP E (by decide)) fun y s' => .opt (.sendP E (by decide)) fun y s' => ?_
    refine .opt (.bind (.forIn' (fun x s l => ?_) _ _ _) fun y s' => ?_) fun y s' => ?_
    · unfold Cfg.cleanRecv
      refine .opt (.recvU E (by decide)) fun y s' => .opt (.recvU E (by decide)) fun y s' => ?_
      refine .opt (.recvU E (by decide)) fun y s' => .opt (.recvU E (by decide)) fun y s' => ?_
      refine .ite ?_ (.ret (.refl _))
      exact Prog.Safe.bind _ (Prog.Safe.mono _ (Safe.recvP E (by decide)) fun y p h => h)
    · refine .opt (.recvU E (by decide)) fun y s' => ?_
      exact .ite (.recvU E (by decide)) (.ret (.refl _))
    · exact FrS.ret (strict := strict) (r := r) (x := y) (.refl s')

/-- Invariant at the head of the iteration loop. -/
structure FI (r : Nat) (x : FM) (s : PState V N) : Prop where
  tag : s.tagS 0 6 = 350000 + x.n ∨ E.P ≤ r + 1
  le : s.tagR 0 6 ≤ s.tagS 0 6 ∨ E.P ≤ r + 1
  pre : s.pre = true → r = 0 ∨ (∃ t ∈ x.seen, t ≤ s.tagS 0 6) ∨ E.P ≤ r + 1

omit [Sub V] [SMul K V] [One K] [Sub K] [Add V] in
theorem FI.frame {x y : FM} {s s' : PState V N} (h : FI E r x s) (hf : Fr x s y s') : FI E r y s' := by
  refine ⟨?_, ?_, fun hp => ?_⟩
  · rw [hf.keep.tagS, hf.n]; exact h.tag
  · rw [hf.keep.tagS, hf.keep.tagR]; exact h.le
  · rw [hf.keep.tagS]
    rcases h.pre (hf.keep.pre ▸ hp) with h' | ⟨t, ht, h'⟩ | h'
    · exact .inl h'
    · exact .inr (.inl ⟨t, hf.seen t ht, h'⟩)
    · exact .inr (.inr h')

omit [SMul K V] [One K] [Sub K] in
/-- `convergence_criterion` keeps the invariant.  If `finished` is announced then all values meet the
tolerance or this is the last iteration. -/
theorem Safe.convergenceP (it : Nat) (x : FM) (s : PState V N) (h : FI E r x s)
    (hx : strict = true → x.done = false) :
    (E.convergenceP r it s).Safe (flagMon strict r) x fun y s' => FI E r y s' ∧ (y.done = x.done ∨
      E.global = false ∧ s'.fin = true ∧ s'.pre = true ∧
        (it = E.maxIter ∨ ∃ xs : List N, xs.all E.ltTol = true ∧ s'.conv it = E.tnorm xs)) := by
  unfold Cfg.convergenceP
  refine Prog.Safe.bind _ (Prog.Safe.mono (post := fun y p => FI E r y p.2 ∧ y.done = x.done) _ ?_ ?_)
  · split
    · exact Prog.Safe.mono _ (Safe.residualP E x s) fun y p h' => ⟨h.frame E h', h'.done⟩
    · exact ⟨⟨h.tag, h.le, h.pre⟩, rfl⟩
  · rintro y ⟨val, s⟩ ⟨h, hd⟩
    dsimp only at h ⊢
    by_cases hg : E.global = true
    · rw [if_pos hg]
      refine Prog.Safe.bind _ (Prog.Safe.mono _ (Safe.collectP E 0 _ _ (fun b h => by cases h)
        (fun _ b h => by cases h) y s) fun z p h' => ?_)
      split
      · have := h.frame E h'
        exact ⟨⟨this.tag, this.le, this.pre⟩, .inl (h'.done.trans hd)⟩
      · trivial
    rw [if_neg hg]
    -- the announcement of the previous process
    refine Prog.Safe.bind _ (Prog.Safe.mono (post := fun y s => (s.tagS 0 6 = 350000 + y.n ∨ E.P ≤ r + 1) ∧
      (s.tagR 0 6 ≤ s.tagS 0 6 + 1 ∨ E.P ≤ r + 1) ∧
      (s.pre = true → r = 0 ∨ (∃ t ∈ y.seen, t ≤ s.tagS 0 6) ∨ E.P ≤ r + 1) ∧ y.done = x.done) _ ?_ ?_)
    · split
      · rename_i hr
        unfold Cfg.recvP
        intro m
        show Prog.Safe _ (Prog.bind (if _ then _ else _) _) _ _
        by_cases hi : (E.instr && !(decide (m.lvl = 0) && decide (m.op = 6))) = true
        · rw [if_pos hi]
          trivial
        · rw [if_neg hi]
          obtain ⟨h1, h2, h3⟩ := flagMon_onRecv (strict := strict) (r := r) y (r - 1) (s.tagR 0 6) m
          simp only [Prog.ret_bind]
          split
          · rename_i b hb
            refine ⟨?_, ?_, fun hp => ?_, h2.trans hd⟩
            · rw [h1]; exact h.tag
            · simp only [Cfg.upd2_self]
              exact h.le.imp (by omega) id
            · have hb' : b = true := hp
              subst hb'
              rcases h.le with hle | hle
              · right; left
                refine ⟨s.tagR 0 6, ?_, hle⟩
                simp only [flagMon]
                rw [show m.data = Payload.flag true from hb]
                simp only [if_pos (show r - 1 + 1 = r by omega)]
                exact List.mem_cons_self
              · exact .inr (.inr hle)
          · trivial
      · exact ⟨h.tag, h.le.imp (by omega) id, h.pre, hd⟩
    · rintro z s ⟨h1, h2, h3, h4⟩
      obtain ⟨f, hf⟩ : ∃ f, f = (s.pre && (val.all E.ltTol || decide (it = E.maxIter))) := ⟨_, rfl⟩
      rw [← hf]
      have key : f = true → s.pre = true ∧ (it = E.maxIter ∨ val.all E.ltTol = true) := by
        intro h
        rw [hf, Bool.and_eq_true, Bool.or_eq_true, decide_eq_true_eq] at h
        exact ⟨h.1, h.2.symm⟩
      have fin : f = true → (it = E.maxIter ∨ ∃ xs : List N, xs.all E.ltTol = true ∧
          Function.update s.conv it (E.tnorm val) it = E.tnorm xs) := by
        intro h
        exact (key h).2.imp id fun h => ⟨val, h, Function.update_self _ _ _⟩
      refine Prog.Safe.bind _ ?_
      split
      · rename_i hr
        have hP : ¬ E.P ≤ r + 1 := by omega
        have h1 := h1.resolve_right hP
        have h2 := h2.resolve_right hP
        refine ⟨fun b hb => ?_, ?_⟩
        · cases hb
          refine ⟨rfl, h1, fun hs => h4.trans (hx hs), fun hfin => ?_⟩
          rcases h3 (key hfin).1 with h | h | h
          · exact .inl h
          · exact .inr h
          · exact absurd h hP
        · refine ⟨⟨.inl ?_, .inl ?_, fun hp => ?_⟩, ?_⟩
          · simp only [Cfg.upd2_self, flagMon]; omega
          · simp only [Cfg.upd2_self]; omega
          · rcases h3 hp with h | ⟨t, ht, h⟩ | h
            · exact .inl h
            · refine .inr (.inl ⟨t, ht, ?_⟩)
              simp only [Cfg.upd2_self]; omega
            · exact .inr (.inr h)
          · cases hfb : f
            · left
              simp [flagMon, h4]
            · exact .inr ⟨by simpa using hg, rfl, (key hfb).1, fin hfb⟩
      · rename_i hr
        have hP : E.P ≤ r + 1 := by omega
        exact ⟨⟨.inr hP, .inr hP, fun _ => .inr (.inr hP)⟩, .inl h4⟩

theorem Safe.solveLoopP (hn : strict = true → ∀ xs : List N, xs.all E.ltTol = true →
    E.ltTol (E.tnorm xs) = true) (k it : Nat) (x : FM) (s : PState V N) (h : FI E r x s)
    (hx : strict = true → x.done = false) :
    (E.solveLoopP r k it s).Safe (flagMon strict r) x fun _ _ => True := by
  induction k generalizing it x s with
  | zero => trivial
  | succ k ih =>
    unfold Cfg.solveLoopP
    refine Prog.Safe.bind _ (Prog.Safe.mono _ (FrS.iterationP E (E.L - 1) 0 E.cyc it true x
      { s with solveIter := it + 1 }) fun y s1 hf => ?_)
    have h1 : FI E r y s1 := FI.frame E (s := { s with solveIter := it + 1 })
      ⟨h.tag, h.le, h.pre⟩ hf
    refine Prog.Safe.bind _ (Prog.Safe.mono _ (Safe.convergenceP E (it + 1) y s1 h1
      fun hs => hf.done.trans (hx hs)) ?_)
    rintro z s2 ⟨h2, hd⟩
    obtain ⟨s3, hs3⟩ : ∃ s3, s3 = if E.outLvl = 2 then Cfg.outputP s2 else s2 := ⟨_, rfl⟩
    dsimp only
    rw [← hs3]
    have e : FI E r z s3 ∧ s3.fin = s2.fin ∧ s3.pre = s2.pre ∧ s3.conv = s2.conv := by
      rw [hs3]; split
      · exact ⟨⟨h2.tag, h2.le, h2.pre⟩, rfl, rfl, rfl⟩
      · exact ⟨h2, rfl, rfl, rfl⟩
    have clean : (E.cleanUpP r s3).Safe (flagMon strict r) z fun _ _ => True :=
      Prog.Safe.mono _ (FrS.cleanUpP E z s3) fun _ _ _ => trivial
    rcases hd with hd | ⟨hg, hfin, hpre, hv⟩
    · have loop := ih (it + 1) z s3 e.1 fun hs => (hd.trans hf.done).trans (hx hs)
      split
      · split
        · exact clean
        · split
          · exact clean
          · exact loop
      · exact loop
    · cases hs : strict
      · have loop := ih (it + 1) z s3 e.1 fun h => by rw [hs] at h; cases h
        rw [hs] at loop clean
        split
        · split
          · exact clean
          · split
            · exact clean
            · exact loop
        · exact loop
      · rw [hs] at clean
        have : E.ltTol (s3.conv (it + 1)) = true ∨ it + 1 = E.maxIter := by
          rcases hv with h | ⟨xs, h, h'⟩
          · exact .inr h
          · left
            rw [e.2.2.2, h']
            exact hn hs xs h
        rw [if_pos this, if_neg (by rw [hg]; decide),
          if_pos (.inl (by rw [e.2.1, e.2.2.1, hfin, hpre]; rfl))]
        exact clean

theorem Safe.mainP [Zero N] (hn : strict = true → ∀ xs : List N, xs.all E.ltTol = true →
    E.ltTol (E.tnorm xs) = true) (offs : Nat → Nat → Nat) :
    (E.mainP r (E.initState offs r)).Safe (flagMon strict r) ⟨[], 0, false⟩ fun _ _ => True := by
  unfold Cfg.mainP
  have init : FI E r ⟨[], 0, false⟩ (E.initState offs r) := by
    refine ⟨.inl rfl, .inl (Nat.le_refl _), fun hp => .inl ?_⟩
    simpa [Cfg.initState] using hp
  refine Prog.Safe.bind _ (Prog.Safe.mono (post := Fr ⟨[], 0, false⟩ (E.initState offs r)) _ ?_
    fun y s hf => ?_)
  · generalize E.initState offs r = s
    generalize (⟨[], 0, false⟩ : FM) = x
    unfold Cfg.setupP
    refine FrS.barrier E (f := fun s => _) fun y => ?_
    refine .opt (.nestedIterationP E _ _) fun y s => ?_
    refine FrS.from (s' := if E.convCrit = 1 ∨ E.convCrit = 3 then { s with saved := s.u 0 } else s)
      (by split <;> exact ⟨rfl, rfl, rfl⟩) ?_
    generalize (if E.convCrit = 1 ∨ E.convCrit = 3 then { s with saved := s.u 0 } else s) = s
    have fin : ∀ y, FrS strict r y s (.ret (if E.outLvl = 2 then Cfg.outputP s else s)) :=
      fun y => .ret (by split <;> exact ⟨rfl, rfl, rfl⟩)
    dsimp only
    split
    · exact FrS.barrier E (f := fun s => .ret (if E.outLvl = 2 then Cfg.outputP s else s)) fin
    · exact fin y
  · unfold Cfg.solveP
    refine Prog.Safe.bind _ (Prog.Safe.mono _ (Safe.solveLoopP E hn _ _ y s (init.frame E hf)
      fun _ => hf.done) fun z s' _ => ?_)
    refine Prog.Safe.mono (post := Fr z s') _ (FrS.barrier E
      (f := fun s => .ret (if E.outLvl = 1 then Cfg.outputP s else s)) fun y => .ret ?_) fun _ _ _ => trivial
    split <;> exact ⟨rfl, rfl, rfl⟩

end ops
end frame

section props
variable [LinearOrder T] [Inhabited T] [Add V] [Sub V] [SMul K V] [One K] [Sub K] [Zero N]

/-- The announcement `b` of process `r` in its `i`-th iteration (from 0), as an event: a message to
process `r + 1` with the tag of `op_id` 6 (mgrit.py:447-449, 192-195). -/
def Announce (r i : Nat) (b : Bool) (e : Nat × Ev (Msg V N)) : Prop :=
  ∃ m : Msg V N, m.data = .flag b ∧ e = (r, Ev.snd (r + 1) (350000 + i) m)

theorem exec_bound {α M : Type} {P : Nat} {c c' : Conf P M α} {log : List (Nat × Ev M)}
    (h : Exec c log c') : ∀ e ∈ log, e.1 < P := by
  induction h with
  | start => simp
  | @step _ _ _ r _ _ _ _ ih =>
    intro e he
    rcases List.mem_append.1 he with h | h
    · exact ih e h
    · obtain ⟨x, -, rfl⟩ := List.mem_map.1 h
      exact r.isLt

/-- Number of announcements of process `r` in a log. -/
def announced (r : Nat) (log : List (Nat × Ev (Msg V N))) : Nat :=
  (log.filter fun e => decide (e.1 = r) && match e.2 with
    | .snd _ _ ⟨.flag _, _, _, _⟩ => true
    | _ => false).length

theorem after_n (strict : Bool) (r : Nat) (x : FM) (log : List (Nat × Ev (Msg V N))) :
    ((flagMon strict r).after r x log).n = x.n + announced r log := by
  induction log generalizing x with
  | nil => rfl
  | cons e log ih =>
    have : (flagMon strict r).after r x (e :: log) =
        (flagMon strict r).after r ((flagMon strict r).after r x [e]) log :=
      (flagMon strict r).after_append r x [e] log
    rw [this, ih]
    obtain ⟨r', e⟩ := e
    by_cases hr : r' = r
    · subst hr
      rcases e with ⟨d, t, ⟨da, f, l, o⟩⟩ | ⟨s, t, m⟩
      · cases da <;> simp [Mon.after, Mon.next, flagMon, announced]
        omega
      · simp only [Mon.after, announced]
        have := (flagMon_onRecv (strict := strict) (r := r') x s t m).1
        simpa [Mon.next] using this
    · simp [Mon.after, announced, hr]

theorem after_seen (strict : Bool) (r : Nat) (x : FM) (log : List (Nat × Ev (Msg V N))) {t : Nat}
    (h : t ∈ ((flagMon strict r).after r x log).seen) : t ∈ x.seen ∨
    ∃ m L1 L2, log = L1 ++ (r, Ev.rcv (r - 1) t m) :: L2 ∧ m.data = Payload.flag true ∧ 0 < r := by
  induction log generalizing x with
  | nil => exact .inl h
  | cons e log ih =>
    rw [show (flagMon strict r).after r x (e :: log) =
        (flagMon strict r).after r ((flagMon strict r).after r x [e]) log from
      (flagMon strict r).after_append r x [e] log] at h
    rcases ih _ h with h | ⟨m, L1, L2, rfl, h2⟩
    · obtain ⟨r', e⟩ := e
      by_cases hr : r' = r
      · subst hr
        rcases e with ⟨d, t', ⟨da, f, l, o⟩⟩ | ⟨s, t', m⟩
        · left
          cases da <;> simpa [Mon.after, Mon.next, flagMon] using h
        · simp only [Mon.after, Mon.next, flagMon, List.filterMap_cons, if_true, List.filterMap_nil,
            List.foldl_cons, List.foldl_nil] at h
          split at h
          · rename_i hm
            split at h
            · rename_i hs
              rcases List.mem_cons.1 h with rfl | h
              · refine .inr ⟨m, [], log, ?_, hm, by omega⟩
                rw [show s = r' - 1 by omega]
                rfl
              · exact .inl h
            · exact .inl h
          · exact .inl h
      · left
        simpa [Mon.after, hr] using h
    · exact .inr ⟨m, e :: L1, L2, rfl, h2⟩

theorem after_done (strict : Bool) (r : Nat) (x : FM) (log : List (Nat × Ev (Msg V N)))
    (h : x.done = true ∨ ∃ i, ∃ e ∈ log, Announce r i true e) :
    ((flagMon strict r).after r x log).done = true := by
  induction log generalizing x with
  | nil =>
    rcases h with h | ⟨i, e, he, -⟩
    · exact h
    · cases he
  | cons e log ih =>
    rw [show (flagMon strict r).after r x (e :: log) =
        (flagMon strict r).after r ((flagMon strict r).after r x [e]) log from
      (flagMon strict r).after_append r x [e] log]
    apply ih
    have keep : x.done = true → ((flagMon strict r).after r x [e]).done = true := by
      intro hx
      obtain ⟨r', e⟩ := e
      by_cases hr : r' = r
      · subst hr
        rcases e with ⟨d, t', ⟨da, f, l, o⟩⟩ | ⟨s, t', m⟩
        · cases da <;> simp [Mon.after, Mon.next, flagMon, hx]
        · simp only [Mon.after]
          have := (flagMon_onRecv (strict := strict) (r := r') x s t' m).2.1
          simpa [hx, Mon.next] using this
      · simpa [Mon.after, hr] using hx
    rcases h with h | ⟨i, e', he, ha⟩
    · exact .inl (keep h)
    · rcases List.mem_cons.1 he with rfl | he
      · left
        obtain ⟨m, hm, rfl⟩ := ha
        obtain ⟨da, f, l, o⟩ := m
        cases hm
        simp [Mon.after, Mon.next, flagMon]
      · exact .inr ⟨i, e', he, ha⟩

/-- The `i`-th announcement of a process carries tag `350000 + i` and goes to the next process: tags of
announcements count iterations, so that `i` in `Announce r i b` is the number of the iteration. -/
theorem C30_tags (E : Cfg V K T N) {log : List (Nat × Ev (Msg V N))}
    {c : Conf E.P (Msg V N) (PState V N)} (h : Exec (startConf E) log c)
    {L1 L2 : List (Nat × Ev (Msg V N))} {r d t : Nat} {m : Msg V N} {b : Bool}
    (hl : log = L1 ++ (r, Ev.snd d t m) :: L2) (hm : m.data = .flag b) :
    d = r + 1 ∧ t = 350000 + announced r L1 := by
  have hr : r < E.P := exec_bound h (r, Ev.snd d t m) (by rw [hl]; simp)
  have h1 := (h.safe (flagMon false r) ⟨r, hr⟩ ⟨[], 0, false⟩ (fun _ _ => True)
    (Safe.mainP E (fun h => by cases h) _)).2 L1 L2 d t m hl b hm
  refine ⟨h1.1, ?_⟩
  rw [h1.2.1, after_n]
  simp

/-- C30: in every execution of every configuration, if process `r` announces in iteration `i` that it
is finished, then every process `q < r` has announced it before, in an iteration `j ≤ i`. -/
theorem C30 (E : Cfg V K T N) {log : List (Nat × Ev (Msg V N))}
    {c : Conf E.P (Msg V N) (PState V N)} (h : Exec (startConf E) log c)
    {L1 L2 : List (Nat × Ev (Msg V N))} {r i q : Nat} {e : Nat × Ev (Msg V N)}
    (hl : log = L1 ++ e :: L2) (ha : Announce r i true e) (hq : q < r) :
    ∃ j, j ≤ i ∧ ∃ e' ∈ L1, Announce q j true e' := by
  induction r generalizing i e L1 L2 with
  | zero => omega
  | succ r ih =>
    obtain ⟨m, hm, rfl⟩ := ha
    have hr : r + 1 < E.P := exec_bound h (r + 1, Ev.snd (r + 1 + 1) (350000 + i) m) (by rw [hl]; simp)
    have h1 := (h.safe (flagMon false (r + 1)) ⟨r + 1, hr⟩ ⟨[], 0, false⟩ (fun _ _ => True)
      (Safe.mainP E (fun h => by cases h) _)).2 L1 L2 _ _ m hl true hm
    obtain ⟨-, -, -, h4⟩ := h1
    rcases h4 rfl with h4 | ⟨t, ht, hle⟩
    · omega
    rcases after_seen _ _ _ _ ht with h5 | ⟨m', M1, M2, e1, hm', -⟩
    · cases h5
    rw [Nat.add_sub_cancel] at e1
    have h6 : (r, Ev.snd (r + 1) t m') ∈ M1 :=
      (h.sent rfl).2 M1 (M2 ++ (r + 1, Ev.snd (r + 1 + 1) (350000 + i) m) :: L2) (r + 1) r t m' (by
        rw [hl, e1, List.append_assoc, List.cons_append])
    obtain ⟨N1, N2, e2⟩ := List.append_of_mem h6
    have hl2 : log = N1 ++ (r, Ev.snd (r + 1) t m') :: (N2 ++ (r + 1, Ev.rcv r t m') :: (M2 ++
        (r + 1, Ev.snd (r + 1 + 1) (350000 + i) m) :: L2)) := by
      rw [hl, e1, e2]; simp
    have ht' := (C30_tags E h hl2 hm').2
    have sub : ∀ e ∈ N1, e ∈ L1 := by
      intro e he
      rw [e1, e2]; simp [he]
    have here : (r, Ev.snd (r + 1) t m') ∈ L1 := by rw [e1, e2]; simp
    by_cases hqr : q = r
    · subst hqr
      exact ⟨announced q N1, by omega, _, here, m', hm', by rw [ht']⟩
    · obtain ⟨j, hj, e', he', ha'⟩ := ih hl2 ⟨m', hm', by rw [ht']⟩ (by omega)
      exact ⟨j, by omega, e', sub e' he', ha'⟩

/-- C31, for time norms that are below `tol` when all entries are (the maximum norm): in every
execution a process that has announced being finished never announces anything again, that is (every
iteration of a process other than the last ends with an announcement) performs no further iteration.
Without the hypothesis on the norm this fails: `C31_counterexample`.  Missing in this form: the values
sent by the clean-up are those of the last iteration. -/
theorem C31_partial (E : Cfg V K T N)
    (hn : ∀ xs : List N, xs.all E.ltTol = true → E.ltTol (E.tnorm xs) = true)
    {log : List (Nat × Ev (Msg V N))} {c : Conf E.P (Msg V N) (PState V N)}
    (h : Exec (startConf E) log c) {L1 L2 : List (Nat × Ev (Msg V N))} {r i : Nat}
    {e : Nat × Ev (Msg V N)} (hl : log = L1 ++ e :: L2) (ha : Announce r i true e) :
    ∀ j b, ∀ e' ∈ L2, ¬ Announce r j b e' := by
  intro j b e' he' ha'
  have hr : r < E.P := by
    obtain ⟨m, -, rfl⟩ := ha
    exact exec_bound h _ (by rw [hl]; exact List.mem_append_right _ List.mem_cons_self)
  obtain ⟨M1, M2, e2⟩ := List.append_of_mem he'
  obtain ⟨m', hm', rfl⟩ := ha'
  have h1 := (h.safe (flagMon true r) ⟨r, hr⟩ ⟨[], 0, false⟩ (fun _ _ => True)
    (Safe.mainP E (fun _ => hn) _)).2 (L1 ++ e :: M1) M2 (r + 1) (350000 + j) m' (by rw [hl, e2]; simp) b hm'
  have h2 := after_done true r ⟨[], 0, false⟩ (L1 ++ e :: M1) (.inr ⟨i, e, by simp, ha⟩)
  rw [h1.2.2.1 rfl] at h2
  cases h2

end props

/-- Three processes, maximum norm; everybody is finished after the first iterations. -/
def threeCfg : Cfg Int Int Nat Int :=
  { lateCfg 2 1 with
    ts := [List.range 12, [0, 2, 4, 6, 8, 10]]
    P := 3 }

/-- Processes 0 and 1 run ahead of process 2. -/
def threeRun (k : Nat) : List (Prog (Msg Int Int) (PState Int Int)) × Mail (Msg Int Int) :=
  let c := runs threeCfg k
  let a := runProc 3 0 100000 (c.1.getD 0 (.fail "")) c.2
  let b := runProc 3 1 100000 (c.1.getD 1 (.fail "")) a.2
  ((c.1.set 0 a.1).set 1 b.1, b.2)

theorem threeRun_steps (k : Nat) : Steps (startConf threeCfg) (confOf 3 (threeRun k).1 (threeRun k).2) := by
  obtain ⟨hs, hlen⟩ := runs_steps threeCfg k
  have hl : (runs threeCfg k).1.length = 3 := hlen
  have h1 := runOnly_steps (q := (runs threeCfg k).2) hl 0 100000
  refine Relation.ReflTransGen.trans hs (h1.trans ?_)
  have h2 := runOnly_steps (P := 3) (ps := (runs threeCfg k).1.set 0
    (runProc 3 0 100000 ((runs threeCfg k).1.getD 0 (.fail "")) (runs threeCfg k).2).1) (by rw [List.length_set]; exact hl)
    1 100000 (q := (runProc 3 0 100000 ((runs threeCfg k).1.getD 0 (.fail "")) (runs threeCfg k).2).2)
  have e : ∀ x, ((runs threeCfg k).1.set 0 x).getD 1 (.fail "") = (runs threeCfg k).1.getD 1 (.fail "") := by
    intro x
    simp [List.getD_eq_getElem?_getD, List.getElem?_set]
  simp only [Fin.val_one, e] at h2
  exact h2

/-- The hypotheses of `C30` and `C31_partial` are met: in `threeCfg` the time norm is the maximum norm,
and there is an execution in which process 1 announces its end in its second iteration. -/
example : (∀ xs : List Int, xs.all threeCfg.ltTol = true → threeCfg.ltTol (threeCfg.tnorm xs) = true) ∧
    ∃ log c, Exec (startConf threeCfg) log c ∧ ∃ e ∈ log, Announce 1 1 true e := by
  refine ⟨fun xs h => ?_, ?_⟩
  · show decide (maxNorm xs < 1) = true
    rw [decide_eq_true_eq, maxNorm]
    have : ∀ a < 1, xs.foldl max a < (1 : Int) := by
      induction xs with
      | nil => exact fun a h => h
      | cons x xs ih =>
        intro a ha
        rw [List.all_cons, Bool.and_eq_true] at h
        have hx : x < 1 := of_decide_eq_true h.1
        exact ih h.2 _ (max_lt ha hx)
    exact this 0 (by decide)
  · obtain ⟨log, hl⟩ := (threeRun_steps 2).exec
    refine ⟨log, _, hl, ?_⟩
    have h : flagsOf (threeRun 2).2 1 2 350001 = [true] := by decide +kernel
    have hm : true ∈ flagsOf (threeRun 2).2 1 2 350001 := by rw [h]; exact List.mem_cons_self
    obtain ⟨m, hm, hf⟩ := List.mem_filterMap.1 hm
    refine ⟨_, (hl.sent rfl).1 1 2 350001 m hm, m, ?_, rfl⟩
    cases hd : m.data <;> simp [hd] at hf
    rw [hf]

end Pymgrit
