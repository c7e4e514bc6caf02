import Verif.Crash

/-!
# Barriers of a solver run

All messages of the sweeps and of the criteria have other tags than those of a barrier, so that the
messages of the barriers can be counted.
-/

set_option linter.unusedSectionVars false

namespace Pymgrit
open Cfg

variable {V K T N : Type} {b : Nat}

/-- Tags are at least 50000 (mgrit.py:192-195). -/
def Tagged (s : PState V N) : Prop := ∀ l op, 50000 ≤ s.tagS l op ∧ 50000 ≤ s.tagR l op

theorem Tagged.of_eq {s s' : PState V N} (h : Tagged s) (h1 : s'.tagS = s.tagS) (h2 : s'.tagR = s.tagR) :
    Tagged s' := by
  intro l op
  rw [h1, h2]
  exact h l op

theorem upd2_ge {a : Nat → Nat → Nat} (h : ∀ l op, 50000 ≤ a l op) (l op : Nat) (l' op' : Nat) :
    50000 ≤ upd2 a l op (a l op + 1) l' op' := by
  unfold upd2
  by_cases h1 : l' = l
  · subst h1
    rw [Function.update_self]
    by_cases h2 : op' = op
    · subst h2
      rw [Function.update_self]
      have := h l' op'
      omega
    · rw [Function.update_of_ne h2]; exact h _ _
  · rw [Function.update_of_ne h1]; exact h _ _

theorem Tagged.foldl {ι : Type} (f : PState V N → ι → PState V N) (hf : ∀ s i, Tagged s → Tagged (f s i))
    (xs : List ι) {s : PState V N} (h : Tagged s) : Tagged (xs.foldl f s) := by
  induction xs generalizing s with
  | nil => exact h
  | cons x xs ih => exact ih (hf _ _ h)

/-- A part of the solver: started with good tags it is quiet and ends with good tags. -/
def QS (b : Nat) (s : PState V N) (p : Prog (Msg V N) (PState V N)) : Prop := Tagged s → p.Quiet b Tagged

theorem QS.ret {s s' : PState V N} (h : Tagged s → Tagged s') : QS b s (.ret s') := h

theorem QS.bind {s : PState V N} {p : Prog (Msg V N) (PState V N)}
    {f : PState V N → Prog (Msg V N) (PState V N)} (h : QS b s p) (hf : ∀ s', QS b s' (f s')) :
    QS b s (p.bind f) := fun ht => (h ht).bind fun a ha => hf a ha

theorem QS.from {s s' : PState V N} {p : Prog (Msg V N) (PState V N)} (h : Tagged s → Tagged s')
    (hp : QS b s' p) : QS b s p := fun ht => hp (h ht)

theorem QS.ite {c : Prop} [Decidable c] {s : PState V N} {p q : Prog (Msg V N) (PState V N)}
    (hp : QS b s p) (hq : QS b s q) : QS b s (if c then p else q) := by
  split <;> assumption

theorem QS.forIn' {ι : Type} {f : PState V N → ι → Prog (Msg V N) (PState V N)}
    (hf : ∀ s i, QS b s (f s i)) (xs : List ι) (s : PState V N) : QS b s (Prog.forIn' xs f s) := by
  induction xs generalizing s with
  | nil => exact .ret id
  | cons i xs ih => exact .bind (hf _ _) fun s' => ih s'

variable [LinearOrder T] [Inhabited T] (E : Cfg V K T N) {r : Nat}

theorem QS.sendP {dst : Option Nat} {l op : Nat} {v : Payload V N} {s : PState V N} :
    QS b s (E.sendP dst l op v s) := by
  intro h
  unfold Cfg.sendP
  split
  · trivial
  · have := (h l op).1
    exact ⟨by omega, fun l' op' => ⟨upd2_ge (fun l op => (h l op).1) l op l' op', (h l' op').2⟩⟩

theorem Quiet.recvP {src : Option Nat} {l op : Nat} {s : PState V N} (h : Tagged s) :
    (E.recvP src l op s).Quiet b fun p => Tagged p.2 := by
  unfold Cfg.recvP
  split
  · trivial
  · have := (h l op).2
    refine ⟨by omega, fun m => ?_⟩
    show Prog.Quiet b _ (if _ then _ else _)
    by_cases hi : (E.instr && !(decide (m.lvl = l) && decide (m.op = op))) = true
    · rw [if_pos hi]
      trivial
    · rw [if_neg hi]
      exact fun l' op' => ⟨(h l' op').1, upd2_ge (fun l op => (h l op).2) l op l' op'⟩

theorem QS.recvU {src : Option Nat} {l op lu : Nat} {s : PState V N} :
    QS b s (E.recvU src l op lu s) := by
  intro h
  refine (Quiet.recvP E h).bind fun p hp => ?_
  split
  · exact hp.of_eq rfl rfl
  · trivial

theorem QS.opt {c : Prop} [Decidable c] {s : PState V N} {p : Prog (Msg V N) (PState V N)}
    {f : PState V N → Prog (Msg V N) (PState V N)} (h : QS b s p) (hf : ∀ s', QS b s' (f s')) :
    QS b s ((if c then p else .ret s).bind f) :=
  .bind (.ite h (.ret id)) hf

section ops
variable [Add V]

theorem QS.fRelaxP (l : Nat) (s : PState V N) : QS b s (E.fRelaxP r l s) := by
  unfold Cfg.fRelaxP
  refine .opt (.sendP E) fun s' => .opt (.recvU E) fun s' => ?_
  refine .forIn' (fun s j => ?_) _ _
  unfold Cfg.fBody
  refine .opt (.recvU E) fun s' => ?_
  exact .from (s' := s'.setU l j (E.propAt r l j s')) (fun h => h.of_eq rfl rfl) (.ite (.sendP E) (.ret id))

theorem QS.forwardSolveP (l : Nat) (s : PState V N) : QS b s (E.forwardSolveP r l s) := by
  unfold Cfg.forwardSolveP
  refine .opt (.recvU E) fun s' => ?_
  refine .from (Tagged.foldl (fun s j => s.setU l j (E.propAt r l j s)) (fun s i h => h.of_eq rfl rfl)
    (List.range' 1 (E.len r l - 1))) ?_
  exact .ite (.sendP E) (.ret id)

variable [Sub V]

theorem QS.fasResidualP (l : Nat) (s : PState V N) : QS b s (E.fasResidualP r l s) := by
  unfold Cfg.fasResidualP
  refine .from (s' := E.restrictLoop r l s) (fun h => by
    unfold Cfg.restrictLoop
    exact Tagged.foldl _ (fun s i (h : Tagged s) => h.of_eq (s' := s.setU _ _ _) rfl rfl) _ h) ?_
  refine .opt (.sendP E) fun s' => .opt (.recvU E) fun s' => ?_
  refine .opt (.sendP E) fun s' => .opt (.recvU E) fun s' => ?_
  refine .ret fun h => Tagged.foldl _ (fun s i h => ?_) _
    (s := { s' with v := Function.update s'.v (l + 1) (s'.u (l + 1)) }) (h.of_eq rfl rfl)
  split
  · split <;> exact h.of_eq rfl rfl
  · exact h

theorem Tagged.errorCorrectionP (l : Nat) {s : PState V N} (h : Tagged s) :
    Tagged (E.errorCorrectionP r l s) := by
  refine Tagged.foldl _ (fun s i h => ?_) _ h
  split
  · exact h.of_eq rfl rfl
  · exact h

theorem Tagged.interpolateP (l : Nat) {s : PState V N} (h : Tagged s) :
    Tagged (E.interpolateP r l s) := by
  refine Tagged.foldl _ (fun s i h => ?_) _ h
  split
  · exact h.of_eq rfl rfl
  · exact h

theorem QS.timesP {f : PState V N → Prog (Msg V N) (PState V N)} (hf : ∀ s, QS b s (f s))
    (k : Nat) (s : PState V N) : QS b s (Cfg.timesP f k s) := by
  induction k generalizing s with
  | zero => exact .ret id
  | succ k ih => exact .bind (hf _) fun s' => ih s'

variable [SMul K V] [One K] [Sub K]

theorem QS.cRelaxP (l : Nat) (s : PState V N) : QS b s (E.cRelaxP r l s) := by
  unfold Cfg.cRelaxP
  refine .opt (.sendP E) fun s' => .opt (.recvU E) fun s' => ?_
  refine .ret fun h => Tagged.foldl _ (fun s i h => ?_) _ h
  split
  · exact h.of_eq rfl rfl
  · exact h

theorem QS.vcycP (d l it : Nat) (ff : Bool) (s : PState V N) : QS b s (E.vcycP r d l it ff s) := by
  induction d generalizing l ff s with
  | zero => exact .forwardSolveP E l s
  | succ d ih =>
    unfold Cfg.vcycP
    refine .opt (.fRelaxP E _ _) fun s' => .bind (.timesP (fun s => ?_) _ _) fun s' => ?_
    · exact .bind (.cRelaxP E _ _) fun s' => .fRelaxP E _ _
    · refine .bind (.fasResidualP E _ _) fun s' => .bind (ih _ _ _) fun s' => ?_
      exact .from (.errorCorrectionP E _) (.fRelaxP E _ _)

theorem QS.iterationP (d l : Nat) (cyc : Sys.Cycle) (it : Nat) (ff : Bool) (s : PState V N) :
    QS b s (E.iterationP r d l cyc it ff s) := by
  induction d generalizing l ff s with
  | zero => exact .forwardSolveP E l s
  | succ d ih =>
    unfold Cfg.iterationP
    refine .opt (.fRelaxP E _ _) fun s' => .bind (.timesP (fun s => ?_) _ _) fun s' => ?_
    · exact .bind (.cRelaxP E _ _) fun s' => .fRelaxP E _ _
    · refine .bind (.fasResidualP E _ _) fun s' => .bind (ih _ _ _) fun s' => ?_
      refine .bind (.from (.errorCorrectionP E _) (.fRelaxP E _ _)) fun s' => ?_
      exact .ite (.vcycP E _ _ _ _ _) (.ret id)

theorem QS.nestedIterationP (s : PState V N) : QS b s (E.nestedIterationP r s) := by
  unfold Cfg.nestedIterationP
  refine .bind (.forwardSolveP E _ _) fun s' => ?_
  generalize E.L - 1 = n
  induction n generalizing s' with
  | zero => exact .ret id
  | succ n ih =>
    unfold Cfg.nestedLoopP
    refine .from (s' := E.interpolateP r n s') (.interpolateP E n) ?_
    exact .opt (.iterationP E _ _ _ _ _ _) fun s' => ih s'

theorem Quiet.residualP {s : PState V N} (h : Tagged s) :
    (E.residualP r s).Quiet b fun p => Tagged p.2 := by
  unfold Cfg.residualP
  refine (QS.ite (s := s) (.sendP E) (.ret id) h).bind fun s' h' => ?_
  exact (QS.ite (s := s') (.recvU E) (.ret id) h').bind fun s'' h'' => h''

theorem Quiet.collectP (v : Payload V N) (f : List (Payload V N) → Payload V N) :
    (E.collectP r 0 v f).Quiet 2 fun _ => True := by
  unfold Cfg.collectP
  split
  · refine Prog.Quiet.bind (Q := fun _ => True) ?_ fun xs _ => Prog.Quiet.bind (Q := fun _ => True) ?_
      fun _ _ => trivial
    · generalize [v] = acc
      generalize List.range' 1 (E.P - 1) = qs
      induction qs generalizing acc with
      | nil => trivial
      | cons q qs ih => exact ⟨by decide, fun m => ih _⟩
    · generalize List.range' 1 (E.P - 1) = qs
      induction qs with
      | nil => trivial
      | cons q qs ih => exact ⟨by decide, ih⟩
  · exact ⟨by decide, by decide, fun m => trivial⟩

theorem QS.convergenceP (it : Nat) (s : PState V N) : QS 2 s (E.convergenceP r it s) := by
  intro h
  unfold Cfg.convergenceP
  refine Prog.Quiet.bind (Q := fun p => Tagged p.2) ?_ fun p hp => ?_
  · split
    · exact Quiet.residualP E h
    · exact h.of_eq rfl rfl
  · obtain ⟨val, s⟩ := p
    dsimp only
    split
    · refine (Quiet.collectP E _ _).bind fun p _ => ?_
      split
      · exact hp.of_eq rfl rfl
      · trivial
    · refine Prog.Quiet.bind (Q := Tagged) ?_ fun s' h' => ?_
      · split
        · refine (Quiet.recvP E hp).bind fun p hp => ?_
          split
          · exact hp.of_eq rfl rfl
          · trivial
        · exact hp
      · refine Prog.Quiet.bind (Q := Tagged) ?_ fun s'' h'' => h''.of_eq rfl rfl
        refine QS.ite (.sendP E) (.ret id) ?_
        exact h'.of_eq rfl rfl

theorem QS.cleanUpP (s : PState V N) : QS b s (E.cleanUpP r s) := by
  unfold Cfg.cleanUpP
  refine QS.ite (s := s) (.ret id) ?_
  refine .bind (.forIn' (fun s l => ?_) _ _) fun s' => ?_
  · unfold Cfg.cleanSend
    refine .opt (.sendP E) fun s' => .opt (.sendP E) fun s' => ?_
    refine .opt (.sendP E) fun s' => .opt (.sendP E) fun s' => ?_
    exact .ite (.sendP E) (.ret id)
  · refine .opt (.sendP E) fun s' => .opt (.sendP E) fun s' => ?_
    refine .opt (.bind (.forIn' (fun s l => ?_) _ _) fun s' => ?_) fun s' => ?_
    · unfold Cfg.cleanRecv
      refine .opt (.recvU E) fun s' => .opt (.recvU E) fun s' => ?_
      refine .opt (.recvU E) fun s' => .opt (.recvU E) fun s' => ?_
      refine .ite (fun h => ?_) (.ret id)
      exact (Quiet.recvP E h).bind fun p hp => hp
    · refine .opt (.recvU E) fun s' => ?_
      exact .ite (.recvU E) (.ret id)
    · exact QS.ret (b := b) (s := s') id

theorem Tagged.outputP {s : PState V N} (h : Tagged s) : Tagged (Cfg.outputP s) := h.of_eq rfl rfl

theorem QS.solveLoopP (k it : Nat) (s : PState V N) : QS 2 s (E.solveLoopP r k it s) := by
  induction k generalizing it s with
  | zero => exact .ret id
  | succ k ih =>
    unfold Cfg.solveLoopP
    refine .bind (.from (s' := { s with solveIter := it + 1 }) (fun h => h.of_eq rfl rfl)
      (.iterationP E _ _ _ _ _ _)) fun s1 => .bind (.convergenceP E _ _) fun s2 => ?_
    refine .from (s' := if E.outLvl = 2 then Cfg.outputP s2 else s2) (fun h => ?_) ?_
    · split
      · exact h.outputP
      · exact h
    · exact .ite (.ite (.cleanUpP E _) (.ite (.cleanUpP E _) (ih _ _))) (ih _ _)

/-! ### Counting barriers -/

/-- Number of barriers of constructor and `solve()` (mgrit.py:140-245, 590-646). -/
def barriers : Nat := if E.maxIter = 0 then 3 else 2

/-- What the counters of process `r` say about its remaining program. -/
def BarJ (r : Nat) (x : Cnt) (p : Prog (Msg V N) (PState V N)) : Prop :=
  if r = 0 then
    ∀ q, 1 ≤ q → q < E.P → barriers E ≤ x true q 3 →
      (∃ a, p.Returns a) ∧ ∀ q', 1 ≤ q' → q' < E.P → barriers E ≤ x false q' 2
  else barriers E ≤ x true 0 2 → ∃ a, p.Returns a

/-- The counters of a process that has returned. -/
def BarPost (r : Nat) (x : Cnt) (_ : PState V N) : Prop :=
  if r = 0 then ∀ q, 1 ≤ q → q < E.P → barriers E ≤ x false q 2
  else barriers E ≤ x false 0 3

/-- The counters before barrier number `i`. -/
def BarAt (r i : Nat) (x : Cnt) : Prop :=
  if r = 0 then ∀ q, 1 ≤ q → q < E.P → x false q 2 = i ∧ x true q 3 = i
  else x true 0 2 = i ∧ x false 0 3 = i

theorem BarAt.same {i : Nat} {x y : Cnt} (h : BarAt E r i x) (hs : x.Same y) : BarAt E r i y := by
  unfold BarAt at h ⊢
  split
  · rename_i h0
    rw [if_pos h0] at h
    intro q h1 h2
    rw [← (hs false q).1, ← (hs true q).2]
    exact h q h1 h2
  · rename_i h0
    rw [if_neg h0] at h
    rw [← (hs true 0).1, ← (hs false 0).2]
    exact h

theorem BarAt.low {i : Nat} {x : Cnt} (h : BarAt E r i x) (hi : i < barriers E)
    (p : Prog (Msg V N) (PState V N)) : BarJ E r x p := by
  unfold BarAt at h
  unfold BarJ
  split
  · rename_i h0
    rw [if_pos h0] at h
    intro q h1 h2 h3
    have := (h q h1 h2).2
    omega
  · rename_i h0
    rw [if_neg h0] at h
    intro h3
    omega

theorem bump_self (x : Cnt) (b : Bool) (p t : Nat) : x.bump b p t b p t = x b p t + 1 := by
  simp [Cnt.bump]

theorem bump_other {x : Cnt} {b b' : Bool} {p p' t t' : Nat} (h : ¬ (b' = b ∧ p' = p ∧ t' = t)) :
    x.bump b p t b' p' t' = x b' p' t' := by
  simp only [Cnt.bump, if_neg h]

/-- Receiving one message of a barrier from each process. -/
theorem recv_loop {J : Cnt → Prog (Msg V N) (PState V N) → Prop} {post : Cnt → PState V N → Prop}
    {f : List (Payload V N) → Prog (Msg V N) (PState V N)} (n : Nat) :
    ∀ (a : Nat) (acc : List (Payload V N)) (x : Cnt),
    (∀ y p, (∀ q, y true q 3 = x true q 3) → J y p) →
    (∀ y acc', (∀ q, y true q 3 = x true q 3) → (∀ q, q < a → y false q 2 = x false q 2) →
      (∀ q, a ≤ q → q < a + n → y false q 2 = x false q 2 + 1) → (f acc').Along J post y) →
    ((Prog.forIn' (List.range' a n) (fun acc q => Prog.recv q 2 fun m => .ret (acc ++ [m.data])) acc).bind
      f).Along J post x := by
  induction n with
  | zero =>
    intro a acc x hJ hf
    exact hf x acc (fun _ => rfl) (fun _ _ => rfl) (fun q h1 h2 => by omega)
  | succ n ih =>
    intro a acc x hJ hf
    rw [List.range'_succ]
    refine ⟨hJ x _ fun _ => rfl, fun m => ?_⟩
    show Prog.Along J post ((Prog.forIn' (List.range' (a + 1) n) _ (acc ++ [m.data])).bind f) _
    have h3 : ∀ q, (x.bump false a 2) true q 3 = x true q 3 := fun q => bump_other (by simp)
    refine ih (a + 1) _ _ (fun y p hy => hJ y p fun q => by rw [hy, h3]) fun y acc' h1 h2 h4 => ?_
    refine hf y acc' (fun q => by rw [h1, h3]) (fun q hq => ?_) fun q hq hq' => ?_
    · rw [h2 q (by omega)]
      exact bump_other (by simp; omega)
    · by_cases hqa : q = a
      · subst hqa
        rw [h2 q (by omega), bump_self]
      · rw [h4 q (by omega) (by omega), bump_other (by simp; omega)]

/-- Sending one message of a barrier to each process. -/
theorem send_loop {J : Cnt → Prog (Msg V N) (PState V N) → Prop} {post : Cnt → PState V N → Prop}
    {f : Prog (Msg V N) (PState V N)} {v : Payload V N} (n : Nat) :
    ∀ (a : Nat) (x : Cnt),
    (∀ y p, (∀ b, f.Returns b → p.Returns b) → (∀ q, y false q 2 = x false q 2) →
      (∀ q, q < a → y true q 3 = x true q 3) → (∀ q, a ≤ q → y true q 3 ≤ x true q 3 + 1) → J y p) →
    (∀ y, (∀ q, y false q 2 = x false q 2) → (∀ q, q < a → y true q 3 = x true q 3) →
      (∀ q, a ≤ q → q < a + n → y true q 3 = x true q 3 + 1) → f.Along J post y) →
    ((Prog.forIn' (List.range' a n) (fun _ q => Prog.send q 3 ⟨v, false, 0, 8⟩ (.ret ())) ()).bind
      fun _ => f).Along J post x := by
  induction n with
  | zero =>
    intro a x hJ hf
    exact hf x (fun _ => rfl) (fun _ _ => rfl) (fun q h1 h2 => by omega)
  | succ n ih =>
    intro a x hJ hf
    rw [List.range'_succ]
    refine ⟨hJ x _ (fun b hb => ?_) (fun _ => rfl) (fun _ _ => rfl) fun _ _ => Nat.le_succ _, ?_⟩
    · show Prog.Returns b ((Prog.forIn' (List.range' (a + 1) n) _ ()).bind _)
      generalize List.range' (a + 1) n = qs
      induction qs with
      | nil => exact hb
      | cons q qs ih => exact ih
    · show Prog.Along J post ((Prog.forIn' (List.range' (a + 1) n) _ ()).bind _) _
      have h3 : ∀ q, (x.bump true a 3) false q 2 = x false q 2 := fun q => bump_other (by simp)
      refine ih (a + 1) _ (fun y p hp hy hy1 hy2 => hJ y p hp (fun q => by rw [hy, h3]) (fun q hq => ?_)
        fun q hq => ?_) fun y h1 h2 h4 => ?_
      · rw [hy1 q (by omega)]
        exact bump_other (by simp; omega)
      · by_cases hqa : q = a
        · subst hqa
          rw [hy1 q (by omega), bump_self]
        · have := hy2 q (by omega)
          rwa [bump_other (by simp; omega)] at this
      refine hf y (fun q => by rw [h1, h3]) (fun q hq => ?_) fun q hq hq' => ?_
      · rw [h2 q (by omega)]
        exact bump_other (by simp; omega)
      · by_cases hqa : q = a
        · subst hqa
          rw [h2 q (by omega), bump_self]
        · rw [h4 q (by omega) (by omega), bump_other (by simp; omega)]

/-- A barrier in front of the rest of the program; the last one is followed by the return. -/
theorem barrier_along {i : Nat} {x : Cnt} (h : BarAt E r i x) (hi : i < barriers E)
    {f : Prog (Msg V N) (PState V N)} (hl : i + 1 = barriers E → ∃ a, f.Returns a)
    (hf : ∀ y, BarAt E r (i + 1) y → f.Along (BarJ E r) (BarPost E r) y) :
    ((E.barrierP r).bind fun _ => f).Along (BarJ E r) (BarPost E r) x := by
  unfold Cfg.barrierP Cfg.collectP
  rw [Prog.bind_assoc]
  simp only [Prog.ret_bind]
  by_cases h0 : r = 0
  · rw [if_pos h0]
    subst h0
    rw [Prog.bind_assoc]
    have hx : ∀ q, 1 ≤ q → q < E.P → x false q 2 = i ∧ x true q 3 = i := by
      have := h
      unfold BarAt at this
      rwa [if_pos rfl] at this
    refine recv_loop (E.P - 1) 1 _ x (fun y p hy => ?_) fun y acc' h1 h2 h4 => ?_
    · unfold BarJ
      rw [if_pos rfl]
      intro q hq1 hq2 h3
      rw [hy, (hx q hq1 hq2).2] at h3
      omega
    · rw [Prog.bind_assoc]
      simp only [Prog.ret_bind]
      have hy2 : ∀ q, 1 ≤ q → q < E.P → y false q 2 = i + 1 := fun q hq1 hq2 => by
        rw [h4 q hq1 (by omega), (hx q hq1 hq2).1]
      refine send_loop (f := f) (E.P - 1) 1 y (fun z p hp hz _ hz2 => ?_) fun z z1 z2 z3 => hf z ?_
      · unfold BarJ
        rw [if_pos rfl]
        by_cases hlast : i + 1 = barriers E
        · intro _ _ _ _
          obtain ⟨a, ha⟩ := hl hlast
          refine ⟨⟨a, hp a ha⟩, fun q' hq1 hq2 => ?_⟩
          rw [hz, hy2 q' hq1 hq2, hlast]
        · intro q hq1 hq2 h3
          have := hz2 q hq1
          rw [h1, (hx q hq1 hq2).2] at this
          omega
      · unfold BarAt
        rw [if_pos rfl]
        intro q hq1 hq2
        refine ⟨by rw [z1, hy2 q hq1 hq2], ?_⟩
        rw [z3 q hq1 (by omega), h1, (hx q hq1 hq2).2]
  · rw [if_neg h0]
    have hx : x true 0 2 = i ∧ x false 0 3 = i := by
      unfold BarAt at h
      rwa [if_neg h0] at h
    refine ⟨h.low E hi _, ?_, fun m => hf _ ?_⟩
    · unfold BarJ
      rw [if_neg h0]
      intro h2
      rw [bump_self, hx.1] at h2
      obtain ⟨a, ha⟩ := hl (by omega)
      exact ⟨a, fun m => ha⟩
    · unfold BarAt
      rw [if_neg h0]
      refine ⟨?_, ?_⟩
      · rw [bump_other (by simp), bump_self, hx.1]
      · rw [bump_self, bump_other (by simp), hx.2]

end ops
end Pymgrit
