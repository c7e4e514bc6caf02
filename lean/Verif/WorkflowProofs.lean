import Verif.Workflow
import Mathlib.Algebra.Order.BigOperators.Group.Finset

/-!
# Helper lemmas for the optimization workflow: the invariant
-/

namespace Pymgrit.Opt

variable {X R O : Type} {F : Flow X R O}

/-- What the optimizer still has to do. -/
def Master.rest (f : X → O) : Master X O → List (X × O)
  | .think s => seq f s
  | .meshed x k => seq f (.ask x k)
  | .waiting x k => seq f (.ask x k)
  | .stopped => []

/-- The point of the evaluation the workers have been told about. -/
def Master.cur : Master X O → Option X
  | .waiting x _ => some x
  | _ => none

def Master.told (m : Master X O) : Nat := if m.cur.isSome then 1 else 0

def Master.isStopped : Master X O → Bool
  | .stopped => true
  | _ => false

def Worker.running : Worker X → Nat
  | .run _ => 1
  | _ => 0

/-- In front of the second broadcast, having contributed. -/
def Worker.owing : Worker X → Nat
  | .gather => 1
  | .left => 1
  | _ => 0

def Worker.inGather : Worker X → Nat
  | .gather => 1
  | _ => 0

def Worker.isEnded : Worker X → Bool
  | .ended => true
  | _ => false

/-- The invariant of the workflow. -/
structure Inv (F : Flow X R O) (st : Strat X O) (s : St F) : Prop where
  hist : s.hist ++ s.m.rest (fun x => F.obj (F.value x)) = seq (fun x => F.obj (F.value x)) st
  disk : ∀ x k, s.m = .meshed x k ∨ s.m = .waiting x k → s.disk = some x
  run : ∀ i seen, s.w i = .run seen → seen.length ≤ F.reads i ∧ (s.contrib i).length = s.hist.length ∧
    ∃ x, s.m.cur = some x ∧ ∀ y ∈ seen, y = x
  nocrash : ∀ i, s.w i ≠ .crashed
  rounds : ∀ i, (s.contrib i).length + (s.w i).running ≤ s.hist.length + s.m.told
  flags : ∀ i, s.flags i = List.replicate (s.hist.length + s.m.told - ((s.contrib i).length + (s.w i).running)) false ++
    (if s.m.isStopped && !(s.w i).isEnded then [true] else [])
  ended : ∀ i, s.w i = .ended → s.m.isStopped = true ∧ (s.contrib i).length = s.hist.length
  owing : ∀ i, (s.w i).owing ≤ (s.contrib i).length
  resM : ((s.contrib (Fin.last F.n)).length = s.hist.length + (s.w (Fin.last F.n)).owing ∧ s.resM = []) ∨
    ((s.contrib (Fin.last F.n)).length = s.hist.length + 1 ∧ (s.w (Fin.last F.n)).owing = 0 ∧
      ∃ x, s.m.cur = some x ∧ s.resM = [F.value x])
  resW : ∀ i, i ≠ Fin.last F.n → (s.resW i).length + ((s.contrib i).length - (s.w i).owing) =
    (s.contrib (Fin.last F.n)).length - (s.w (Fin.last F.n)).owing
  resL : s.resW (Fin.last F.n) = []
  met : ∀ j, (s.contrib (Fin.last F.n)).length ≤ (s.contrib j).length + (s.w (Fin.last F.n)).inGather
  fresh : ∀ i, (s.contrib i).length = s.hist.length + 1 → ∃ x, s.m.cur = some x ∧
    (s.contrib i).getD s.hist.length [] = List.replicate (F.reads i) x

theorem inv_start (st : Strat X O) : Inv F st (start F st) := by
  constructor <;> simp [start, Master.rest, Master.told, Master.cur, Worker.running, Worker.owing, Master.isStopped,
    Worker.inGather]

theorem cur_eq {m : Master X O} {x : X} (h : m.cur = some x) : ∃ k, m = .waiting x k := by
  cases m <;> simp [Master.cur] at h
  exact ⟨_, by rw [h]⟩

theorem told_le (m : Master X O) : m.told ≤ 1 := by unfold Master.told; split <;> omega

theorem told_of_cur {m : Master X O} {x : X} (h : m.cur = some x) : m.told = 1 := by simp [Master.told, h]

theorem cur_of_told {m : Master X O} (h : m.told = 1) : ∃ x, m.cur = some x := by
  unfold Master.told at h
  split at h
  · rename_i h'; exact Option.isSome_iff_exists.mp h'
  · omega

theorem inGather_le (w : Worker X) : w.inGather ≤ w.owing := by cases w <;> simp [Worker.inGather, Worker.owing]

theorem running_owing (w : Worker X) : w.running + w.owing ≤ 1 := by cases w <;> simp [Worker.running, Worker.owing]

theorem inv_ge {st : Strat X O} {s : St F} (h : Inv F st s) (j : Fin (F.n + 1)) :
    s.hist.length ≤ (s.contrib j).length := by
  have := h.met j
  have h1 := inGather_le (s.w (Fin.last F.n))
  rcases h.resM with ⟨a, -⟩ | ⟨a, b, -⟩ <;> omega

theorem replicate_of_forall {l : List X} {x : X} (h : ∀ y ∈ l, y = x) : l = List.replicate l.length x :=
  List.eq_replicate_iff.mpr ⟨rfl, h⟩

theorem inv_step (hr : F.raises = false) {st : Strat X O} {s s' : St F} (h : Inv F st s) (hs : Step s s') :
    Inv F st s' := by
  have hge := inv_ge h
  cases hs with
  | @mesh x k hm =>
    have hh := h.hist
    have hrun := h.run
    have hro := h.rounds
    have hfl := h.flags
    have hen := h.ended
    have hrm := h.resM
    have hfr := h.fresh
    simp only [hm, Master.rest, Master.told, Master.cur, Master.isStopped] at hh hrun hro hfl hen hrm hfr
    refine ⟨?_, ?_, ?_, h.nocrash, ?_, ?_, ?_, h.owing, ?_, h.resW, h.resL, h.met, ?_⟩
    · simpa [Master.rest] using hh
    · rintro y k' (e | e) <;> simp at e
      simp [e.1]
    · simpa [Master.cur] using hrun
    · simpa [Master.told, Master.cur] using hro
    · simpa [Master.told, Master.cur, Master.isStopped] using hfl
    · simpa [Master.isStopped] using hen
    · simpa [Master.cur] using hrm
    · simpa [Master.cur] using hfr
  | @go x k hm =>
    have hh := h.hist
    have hrun := h.run
    have hro := h.rounds
    have hfl := h.flags
    have hen := h.ended
    have hrm := h.resM
    have hfr := h.fresh
    have hd := h.disk x k (.inl hm)
    simp [hm, Master.rest, Master.told, Master.cur, Master.isStopped] at hh hrun hro hfl hen hrm hfr
    refine ⟨?_, ?_, ?_, h.nocrash, ?_, ?_, ?_, h.owing, ?_, h.resW, h.resL, h.met, ?_⟩
    · simpa [Master.rest] using hh
    · rintro y k' (e | e) <;> simp at e
      rw [← e.1]; exact hd
    · intro i seen e
      exact (hrun i seen e).elim
    · intro i
      have := hro i
      simp [Master.told, Master.cur]
      omega
    · intro i
      have := hro i
      have e : s.hist.length + 1 - ((s.contrib i).length + (s.w i).running) =
          s.hist.length - ((s.contrib i).length + (s.w i).running) + 1 := by omega
      simp [hfl i, Master.told, Master.cur, Master.isStopped, e, List.replicate_succ']
    · intro i e
      exact (hen i e).elim
    · exact .inl hrm
    · intro i e
      exact (hfr i e).elim
  | @get x k r rs hm hres =>
    have hcur : s.m.cur = some x := by rw [hm]; rfl
    have htold := told_of_cur hcur
    obtain ⟨h1, h2, y, hy, hy'⟩ : (s.contrib (Fin.last F.n)).length = s.hist.length + 1 ∧
        (s.w (Fin.last F.n)).owing = 0 ∧ ∃ y, s.m.cur = some y ∧ s.resM = [F.value y] := by
      rcases h.resM with ⟨-, b⟩ | b
      · rw [b] at hres; simp at hres
      · exact b
    have hyx : y = x := by rw [hcur] at hy; exact (Option.some.inj hy).symm
    subst hyx
    rw [hy'] at hres
    obtain ⟨hr1, hr2⟩ := List.cons.inj hres
    subst hr1 hr2
    have hig := inGather_le (s.w (Fin.last F.n))
    have hmet := h.met
    have hro := h.rounds
    have hnr : ∀ i, (s.w i).running = 0 ∧ (s.contrib i).length = s.hist.length + 1 := by
      intro i
      have a := hmet i
      have b := hro i
      omega
    refine ⟨?_, ?_, ?_, h.nocrash, ?_, ?_, ?_, h.owing, ?_, h.resW, h.resL, h.met, ?_⟩
    · have hh := h.hist
      rw [hm] at hh
      simpa [Master.rest, seq] using hh
    · rintro z k' (e | e) <;> simp at e
    · intro i seen e
      have := (hnr i).1
      simp only at e
      rw [e] at this
      simp [Worker.running] at this
    · intro i
      have := hnr i
      simp [Master.told, Master.cur, this.1, this.2]
    · intro i
      have := hnr i
      have hf := h.flags i
      rw [hf, this.1, this.2, htold]
      simp [Master.told, Master.cur, hm, Master.isStopped]
    · intro i e
      have := (h.ended i e).1
      rw [hm] at this
      simp [Master.isStopped] at this
    · left
      simp [h1, h2]
    · intro i e
      have := hnr i
      simp at e
      omega
  | stop hm =>
    have hh := h.hist
    have hrun := h.run
    have hro := h.rounds
    have hfl := h.flags
    have hen := h.ended
    have hrm := h.resM
    have hfr := h.fresh
    simp [hm, Master.rest, Master.told, Master.cur, Master.isStopped] at hh hrun hro hfl hen hrm hfr
    refine ⟨?_, ?_, ?_, h.nocrash, ?_, ?_, ?_, h.owing, ?_, h.resW, h.resL, h.met, ?_⟩
    · simpa [Master.rest, seq] using hh
    · rintro y k' (e | e) <;> simp at e
    · intro i seen e
      exact (hrun i seen e).elim
    · simpa [Master.told, Master.cur] using hro
    · intro i
      have : (s.w i).isEnded = false := by
        cases e : s.w i <;> simp [Worker.isEnded]
        exact hen i e
      simp [hfl i, Master.told, Master.cur, Master.isStopped, this]
    · intro i e
      exact (hen i e).elim
    · exact .inl hrm
    · intro i e
      exact (hfr i e).elim
  | @begin i fs hw hf =>
    have hfl := h.flags i
    have hro := h.rounds i
    have hro' : s.m.isStopped = true → s.m.told = 0 := by
      cases s.m <;> simp [Master.isStopped, Master.told, Master.cur]
    have ht := told_le s.m
    have hlt : (s.contrib i).length < s.hist.length + s.m.told := by
      by_contra hc
      rw [hf, hw] at hfl
      rw [show s.hist.length + s.m.told - ((s.contrib i).length + (Worker.idle : Worker X).running) = 0 by
        omega] at hfl
      simp at hfl
      split at hfl <;> simp at hfl
    have hg := hge i
    have hc : (s.contrib i).length = s.hist.length := by omega
    have ht1 : s.m.told = 1 := by omega
    obtain ⟨x, hx⟩ := cur_of_told ht1
    have hst : s.m.isStopped = false := by
      cases hb : s.m.isStopped
      · rfl
      · have := hro' hb; omega
    have hfs : fs = [] := by
      rw [hf, hw, ht1, hc, hst] at hfl
      simpa [Worker.running] using hfl
    subst hfs
    refine ⟨h.hist, h.disk, ?_, ?_, ?_, ?_, ?_, ?_, ?_, ?_, h.resL, ?_, h.fresh⟩
    · intro j seen e
      by_cases hj : j = i
      · subst hj
        simp at e
        subst e
        exact ⟨Nat.zero_le _, hc, x, hx, by simp⟩
      · simp [hj] at e
        exact h.run j seen e
    · intro j
      by_cases hj : j = i
      · subst hj; simp
      · simp [hj, h.nocrash j]
    · intro j
      by_cases hj : j = i
      · subst hj; simp [Worker.running]; omega
      · simpa [hj] using h.rounds j
    · intro j
      by_cases hj : j = i
      · subst hj; simp [Worker.running, hst, ht1, hc]
      · simpa [hj] using h.flags j
    · intro j e
      by_cases hj : j = i
      · subst hj; simp at e
      · simp [hj] at e
        exact h.ended j e
    · intro j
      by_cases hj : j = i
      · subst hj; simp [Worker.owing]
      · simpa [hj] using h.owing j
    · have hrm := h.resM
      by_cases hj : Fin.last F.n = i
      · subst hj
        rw [hw] at hrm
        simpa [Worker.owing] using hrm
      · simpa [hj] using hrm
    · intro j hjl
      have := h.resW j hjl
      have e : ∀ j, (Function.update s.w i (.run []) j).owing = (s.w j).owing := by
        intro j
        by_cases hj : j = i
        · subst hj; simp [hw, Worker.owing]
        · simp [hj]
      simpa [e] using this
    · intro j
      have e : (Function.update s.w i (.run []) (Fin.last F.n)).inGather = (s.w (Fin.last F.n)).inGather := by
        by_cases hj : Fin.last F.n = i
        · subst hj; simp [hw, Worker.inGather]
        · simp [hj]
      simpa [e] using h.met j
  | @quit i fs hw hf =>
    have hfl := h.flags i
    have hro := h.rounds i
    rw [hf, hw] at hfl
    have hz : s.hist.length + s.m.told - ((s.contrib i).length + (Worker.idle : Worker X).running) = 0 := by
      cases hn : s.hist.length + s.m.told - ((s.contrib i).length + (Worker.idle : Worker X).running) with
      | zero => rfl
      | succ n => rw [hn] at hfl; simp [List.replicate_succ] at hfl
    rw [hz] at hfl
    have hst : s.m.isStopped = true := by
      cases hb : s.m.isStopped
      · simp [hb] at hfl
      · rfl
    have hfs : fs = [] := by
      simpa [hst, Worker.isEnded] using hfl
    subst hfs
    have ht : s.m.told = 0 := by
      revert hst
      cases s.m <;> simp [Master.isStopped, Master.told, Master.cur]
    rw [hw] at hro
    simp only [Worker.running] at hz hro
    have hc : (s.contrib i).length = s.hist.length := by omega
    refine ⟨h.hist, h.disk, ?_, ?_, ?_, ?_, ?_, ?_, ?_, ?_, h.resL, ?_, h.fresh⟩
    · intro j seen e
      by_cases hj : j = i
      · subst hj; simp at e
      · simp [hj] at e
        exact h.run j seen e
    · intro j
      by_cases hj : j = i
      · subst hj; simp
      · simp [hj, h.nocrash j]
    · intro j
      by_cases hj : j = i
      · subst hj; simp [Worker.running]; omega
      · simpa [hj] using h.rounds j
    · intro j
      by_cases hj : j = i
      · subst hj; simp [Worker.running, Worker.isEnded, ht, hc]
      · simpa [hj] using h.flags j
    · intro j e
      by_cases hj : j = i
      · subst hj; exact ⟨hst, hc⟩
      · simp [hj] at e
        exact h.ended j e
    · intro j
      by_cases hj : j = i
      · subst hj; simp [Worker.owing]
      · simpa [hj] using h.owing j
    · have hrm := h.resM
      by_cases hj : Fin.last F.n = i
      · subst hj
        rw [hw] at hrm
        simpa [Worker.owing] using hrm
      · simpa [hj] using hrm
    · intro j hjl
      have := h.resW j hjl
      have e : ∀ j, (Function.update s.w i .ended j).owing = (s.w j).owing := by
        intro j
        by_cases hj : j = i
        · subst hj; simp [hw, Worker.owing]
        · simp [hj]
      simpa [e] using this
    · intro j
      have e : (Function.update s.w i .ended (Fin.last F.n)).inGather = (s.w (Fin.last F.n)).inGather := by
        by_cases hj : Fin.last F.n = i
        · subst hj; simp [hw, Worker.inGather]
        · simp [hj]
      simpa [e] using h.met j
  | @read i seen x hw hlen hd =>
    have hrn := h.run i seen hw
    obtain ⟨-, hc, y, hy, hall⟩ := hrn
    obtain ⟨k, hk⟩ := cur_eq hy
    have hxy : y = x := by
      have := h.disk y k (.inr hk)
      rw [hd] at this
      exact (Option.some.inj this).symm
    subst hxy
    have e1 : ∀ j, (Function.update s.w i (.run (seen ++ [y])) j).owing = (s.w j).owing := by
      intro j
      by_cases hj : j = i
      · subst hj; simp [hw, Worker.owing]
      · simp [hj]
    have e2 : ∀ j, (Function.update s.w i (.run (seen ++ [y])) j).running = (s.w j).running := by
      intro j
      by_cases hj : j = i
      · subst hj; simp [hw, Worker.running]
      · simp [hj]
    have e3 : ∀ j, (Function.update s.w i (.run (seen ++ [y])) j).inGather = (s.w j).inGather := by
      intro j
      by_cases hj : j = i
      · subst hj; simp [hw, Worker.inGather]
      · simp [hj]
    have e4 : ∀ j, (Function.update s.w i (.run (seen ++ [y])) j).isEnded = (s.w j).isEnded := by
      intro j
      by_cases hj : j = i
      · subst hj; simp [hw, Worker.isEnded]
      · simp [hj]
    refine ⟨h.hist, h.disk, ?_, ?_, ?_, ?_, ?_, ?_, ?_, ?_, h.resL, ?_, h.fresh⟩
    · intro j seen' e
      by_cases hj : j = i
      · subst hj
        simp at e
        subst e
        refine ⟨by simp; omega, hc, y, hy, ?_⟩
        intro z hz
        rcases List.mem_append.mp hz with hz | hz
        · exact hall z hz
        · simpa using hz
      · simp [hj] at e
        exact h.run j seen' e
    · intro j
      by_cases hj : j = i
      · subst hj; simp
      · simp [hj, h.nocrash j]
    · intro j; simpa [e2] using h.rounds j
    · intro j; simpa [e2, e4] using h.flags j
    · intro j e
      by_cases hj : j = i
      · subst hj; simp at e
      · simp [hj] at e
        exact h.ended j e
    · intro j; simpa [e1] using h.owing j
    · simpa [e1] using h.resM
    · intro j hjl; simpa [e1] using h.resW j hjl
    · intro j; simpa [e3] using h.met j
  | @enter i seen _ hw hlen =>
    obtain ⟨-, hc, x, hx, hall⟩ := h.run i seen hw
    have ht := told_of_cur hx
    have hro := h.rounds
    refine ⟨h.hist, h.disk, ?_, ?_, ?_, ?_, ?_, ?_, ?_, ?_, h.resL, ?_, ?_⟩
    · intro j seen' e
      by_cases hj : j = i
      · subst hj; simp at e
      · simp [hj] at e
        simpa [hj] using h.run j seen' e
    · intro j
      by_cases hj : j = i
      · subst hj; simp
      · simp [hj, h.nocrash j]
    · intro j
      by_cases hj : j = i
      · subst hj; simp [Worker.running]; omega
      · simpa [hj] using h.rounds j
    · intro j
      by_cases hj : j = i
      · subst hj
        have := h.flags j
        rw [hw] at this
        simpa [Worker.running, Worker.isEnded] using this
      · simpa [hj] using h.flags j
    · intro j e
      by_cases hj : j = i
      · subst hj; simp at e
      · simp [hj] at e
        simpa [hj] using h.ended j e
    · intro j
      by_cases hj : j = i
      · subst hj; simp [Worker.owing]
      · simpa [hj] using h.owing j
    · have hrm := h.resM
      by_cases hj : Fin.last F.n = i
      · subst hj
        rw [hw] at hrm
        rcases hrm with ⟨a, b⟩ | ⟨a, b, -⟩
        · left
          simp [Worker.owing] at a ⊢
          exact ⟨a, b⟩
        · omega
      · simpa [hj] using hrm
    · intro j hjl
      have := h.resW j hjl
      by_cases hj : j = i
      · subst hj
        have hl : Fin.last F.n ≠ j := fun e => hjl e.symm
        rw [hw] at this
        simp [hl, Worker.owing] at this ⊢
        exact this
      · by_cases hl : Fin.last F.n = i
        · subst hl
          rw [hw] at this
          simp [hj, Worker.owing] at this ⊢
          exact this
        · simpa [hj, hl] using this
    · intro j
      have hm := h.met j
      by_cases hl : Fin.last F.n = i
      · subst hl
        rw [hw] at hm
        by_cases hj : j = Fin.last F.n
        · subst hj; simp
        · simp [hj, Worker.inGather] at hm ⊢
          exact hm
      · by_cases hj : j = i
        · subst hj
          simp [hl] at hm ⊢
          omega
        · simpa [hl, hj] using hm
    · intro j e
      by_cases hj : j = i
      · subst hj
        refine ⟨x, hx, ?_⟩
        simp only [Function.update_self]
        rw [← hlen, List.getD_eq_getElem?_getD, List.getElem?_append_right (by omega), hc]
        simpa using replicate_of_forall hall
      · simp [hj] at e ⊢
        simpa using h.fresh j e
  | @leave i hw hall =>
    have e1 : ∀ j, (Function.update s.w i .left j).owing = (s.w j).owing := by
      intro j
      by_cases hj : j = i
      · subst hj; simp [hw, Worker.owing]
      · simp [hj]
    have e2 : ∀ j, (Function.update s.w i .left j).running = (s.w j).running := by
      intro j
      by_cases hj : j = i
      · subst hj; simp [hw, Worker.running]
      · simp [hj]
    have e4 : ∀ j, (Function.update s.w i .left j).isEnded = (s.w j).isEnded := by
      intro j
      by_cases hj : j = i
      · subst hj; simp [hw, Worker.isEnded]
      · simp [hj]
    refine ⟨h.hist, h.disk, ?_, ?_, ?_, ?_, ?_, ?_, ?_, ?_, h.resL, ?_, h.fresh⟩
    · intro j seen' e
      by_cases hj : j = i
      · subst hj; simp at e
      · simp [hj] at e
        exact h.run j seen' e
    · intro j
      by_cases hj : j = i
      · subst hj; simp
      · simp [hj, h.nocrash j]
    · intro j; simpa [e2] using h.rounds j
    · intro j; simpa [e2, e4] using h.flags j
    · intro j e
      by_cases hj : j = i
      · subst hj; simp at e
      · simp [hj] at e
        exact h.ended j e
    · intro j; simpa [e1] using h.owing j
    · simpa [e1] using h.resM
    · intro j hjl; simpa [e1] using h.resW j hjl
    · intro j
      by_cases hl : Fin.last F.n = i
      · subst hl
        have := hall j
        simp [Worker.inGather]
        exact this
      · simpa [hl] using h.met j
  | send hw =>
    have hrm := h.resM
    rw [hw] at hrm
    obtain ⟨hcl, hnil⟩ : (s.contrib (Fin.last F.n)).length = s.hist.length + 1 ∧ s.resM = [] := by
      rcases hrm with a | ⟨-, b, -⟩
      · simpa [Worker.owing] using a
      · simp [Worker.owing] at b
    have hrl := h.rounds (Fin.last F.n)
    have ht := told_le s.m
    have ht1 : s.m.told = 1 := by omega
    obtain ⟨x, hx⟩ := cur_of_told ht1
    have hall : ∀ j, (s.contrib j).length = s.hist.length + 1 := by
      intro j
      have a := h.met j
      have b := h.rounds j
      rw [hw] at a
      simp only [Worker.inGather] at a
      omega
    have hval : s.result (Fin.last F.n) = F.value x := by
      unfold St.result Flow.value
      congr 1
      funext j
      obtain ⟨y, hy, hy'⟩ := h.fresh j (hall j)
      rw [hx] at hy
      have : x = y := Option.some.inj hy
      subst this
      rw [hall, Nat.add_sub_cancel]
      exact hy'
    have e2 : ∀ j, (Function.update s.w (Fin.last F.n) .idle j).running = (s.w j).running := by
      intro j
      by_cases hj : j = Fin.last F.n
      · subst hj; simp [hw, Worker.running]
      · simp [hj]
    have e4 : ∀ j, (Function.update s.w (Fin.last F.n) .idle j).isEnded = (s.w j).isEnded := by
      intro j
      by_cases hj : j = Fin.last F.n
      · subst hj; simp [hw, Worker.isEnded]
      · simp [hj]
    refine ⟨h.hist, h.disk, ?_, ?_, ?_, ?_, ?_, ?_, ?_, ?_, ?_, ?_, h.fresh⟩
    · intro j seen' e
      by_cases hj : j = Fin.last F.n
      · subst hj; simp at e
      · simp [hj] at e
        exact h.run j seen' e
    · intro j
      by_cases hj : j = Fin.last F.n
      · subst hj; simp
      · simp [hj, h.nocrash j]
    · intro j; simpa [e2] using h.rounds j
    · intro j; simpa [e2, e4] using h.flags j
    · intro j e
      by_cases hj : j = Fin.last F.n
      · subst hj; simp at e
      · simp [hj] at e
        exact h.ended j e
    · intro j
      by_cases hj : j = Fin.last F.n
      · subst hj; simp [Worker.owing]
      · simpa [hj] using h.owing j
    · right
      exact ⟨hcl, by simp [Worker.owing], x, hx, by simp [hnil, hval]⟩
    · intro j hjl
      have := h.resW j hjl
      rw [hw] at this
      simp [hjl, Worker.owing] at this ⊢
      omega
    · simpa using h.resL
    · intro j
      have := hall j
      simp [Worker.inGather]
      omega
  | @recv i r rs hil hw hres =>
    have hl : Fin.last F.n ≠ i := fun e => hil e.symm
    have e2 : ∀ j, (Function.update s.w i .idle j).running = (s.w j).running := by
      intro j
      by_cases hj : j = i
      · subst hj; simp [hw, Worker.running]
      · simp [hj]
    have e4 : ∀ j, (Function.update s.w i .idle j).isEnded = (s.w j).isEnded := by
      intro j
      by_cases hj : j = i
      · subst hj; simp [hw, Worker.isEnded]
      · simp [hj]
    refine ⟨h.hist, h.disk, ?_, ?_, ?_, ?_, ?_, ?_, ?_, ?_, ?_, ?_, h.fresh⟩
    · intro j seen' e
      by_cases hj : j = i
      · subst hj; simp at e
      · simp [hj] at e
        exact h.run j seen' e
    · intro j
      by_cases hj : j = i
      · subst hj; simp
      · simp [hj, h.nocrash j]
    · intro j; simpa [e2] using h.rounds j
    · intro j; simpa [e2, e4] using h.flags j
    · intro j e
      by_cases hj : j = i
      · subst hj; simp at e
      · simp [hj] at e
        exact h.ended j e
    · intro j
      by_cases hj : j = i
      · subst hj; simp [Worker.owing]
      · simpa [hj] using h.owing j
    · simpa [hl] using h.resM
    · intro j hjl
      have := h.resW j hjl
      by_cases hj : j = i
      · subst hj
        have ho := h.owing j
        rw [hw] at this ho
        rw [hres] at this
        simp [hl, Worker.owing] at this ho ⊢
        omega
      · simpa [hj, hl] using this
    · simpa [hl] using h.resL
    · intro j; simpa [hl] using h.met j
  | crash hr' => rw [hr] at hr'; simp at hr'

theorem inv_exec (hr : F.raises = false) {st : Strat X O} {n : Nat} {s : St F} (h : Exec (start F st) n s) :
    Inv F st s := by
  induction h with
  | nil => exact inv_start st
  | step _ hs ih => exact inv_step hr ih hs

/-- In a state without a next step everything has ended. -/
theorem inv_progress (hr : F.raises = false) {st : Strat X O} {s : St F} (h : Inv F st s) (hno : ∀ s', ¬ Step s s') :
    s.m = .stopped ∧ ∀ i, s.w i = .ended := by
  have hge := inv_ge h
  have hnrun : ∀ i seen, s.w i ≠ .run seen := by
    intro i seen e
    obtain ⟨hlen, -, x, hx, -⟩ := h.run i seen e
    obtain ⟨k, hk⟩ := cur_eq hx
    rcases Nat.lt_or_eq_of_le hlen with hl | hl
    · exact hno _ (.read e hl (h.disk x k (.inr hk)))
    · exact hno _ (.enter hr e hl)
  have hrz : ∀ i, (s.w i).running = 0 := by
    intro i
    cases e : s.w i <;> simp [Worker.running]
    exact hnrun i _ e
  have hidle : ∀ i, s.w i = .idle → s.flags i = [] := by
    intro i e
    cases hf : s.flags i with
    | nil => rfl
    | cons b fs =>
      cases b with
      | false => exact (hno _ (.begin e hf)).elim
      | true => exact (hno _ (.quit e hf)).elim
  have hleft : s.w (Fin.last F.n) ≠ .left := fun e => hno _ (.send e)
  have hleft' : ∀ i, s.w i = .left → s.resW i = [] := by
    intro i e
    by_cases hi : i = Fin.last F.n
    · subst hi; exact (hleft e).elim
    · cases hf : s.resW i with
      | nil => rfl
      | cons r rs => exact (hno _ (.recv hi e hf)).elim
  have hgather : ∀ i, s.w i = .gather → ¬ ∀ j, (s.contrib i).length ≤ (s.contrib j).length :=
    fun i e a => hno _ (.leave e a)
  have hro := h.rounds
  have hig := inGather_le (s.w (Fin.last F.n))
  have hresW := h.resW
  -- a worker in the allgather or behind it is in a round after that of the last result
  have hbig : ∀ i, s.w i = .gather ∨ s.w i = .left → (s.contrib i).length = s.hist.length + 1 ∧ s.m.told = 1 := by
    intro i e
    have ht := told_le s.m
    have hr := hro i
    have hg := hge i
    suffices (s.contrib i).length ≠ s.hist.length by omega
    intro hc
    rcases e with e | e
    · exact hgather i e (fun j => by have := hge j; omega)
    · have hi : i ≠ Fin.last F.n := fun e' => hleft (e' ▸ e)
      have a := hresW i hi
      have b := h.owing i
      rw [hleft' i e, e] at a
      rw [e] at b
      have hl1 : (Worker.left : Worker X).owing = 1 := rfl
      rw [hl1] at a b
      simp only [List.length_nil] at a
      rcases h.resM with ⟨c, -⟩ | ⟨c, d, -⟩ <;> omega
  cases hm : s.m with
  | think t =>
    cases t with
    | done => exact (hno _ (.stop hm)).elim
    | ask x k => exact (hno _ (.mesh hm)).elim
  | meshed x k => exact (hno _ (.go hm)).elim
  | waiting x k =>
    exfalso
    have hres : s.resM = [] := by
      cases hf : s.resM with
      | nil => rfl
      | cons r rs => exact (hno _ (.get hm hf)).elim
    have hcl : (s.contrib (Fin.last F.n)).length = s.hist.length + (s.w (Fin.last F.n)).owing := by
      rcases h.resM with ⟨a, -⟩ | ⟨-, -, y, -, a⟩
      · exact a
      · rw [hres] at a; simp at a
    have ht : s.m.told = 1 := by rw [hm]; rfl
    have hall : ∀ i, (s.contrib i).length = s.hist.length + 1 := by
      intro i
      cases e : s.w i with
      | idle =>
        have a := h.flags i
        rw [hidle i e, hrz i, ht] at a
        have b : (List.replicate (s.hist.length + 1 - ((s.contrib i).length + 0)) false).length = 0 := by
          have := congrArg List.length a
          simp only [List.length_nil, List.length_append] at this
          omega
        have c := hro i
        rw [List.length_replicate] at b
        omega
      | run seen => exact (hnrun i seen e).elim
      | gather => exact (hbig i (.inl e)).1
      | left => exact (hbig i (.inr e)).1
      | ended =>
        have := (h.ended i e).1
        rw [hm] at this
        simp [Master.isStopped] at this
      | crashed => exact (h.nocrash i e).elim
    have := hall (Fin.last F.n)
    have how : (s.w (Fin.last F.n)).owing = 1 := by omega
    cases e : s.w (Fin.last F.n) <;> rw [e] at how <;> simp [Worker.owing] at how
    · exact hgather _ e (fun j => by rw [hall j, this])
    · exact hleft e
  | stopped =>
    refine ⟨rfl, fun i => ?_⟩
    have ht : s.m.told = 0 := by rw [hm]; rfl
    cases e : s.w i with
    | idle =>
      have a := h.flags i
      rw [hidle i e, hm, e] at a
      simp [Master.isStopped, Worker.isEnded] at a
    | run seen => exact (hnrun i seen e).elim
    | gather => have := (hbig i (.inl e)).2; omega
    | left => have := (hbig i (.inr e)).2; omega
    | ended => rfl
    | crashed => exact (h.nocrash i e).elim

/-! ### Counting the steps -/

def Master.pos : Master X O → Nat
  | .think _ => 0
  | .meshed _ _ => 1
  | .waiting _ _ => 2
  | .stopped => 1

/-- Steps of a worker with `r` reads per run and `c` contributions. -/
def Worker.pos (r c : Nat) : Worker X → Nat
  | .idle => c * (r + 4)
  | .run seen => c * (r + 4) + 1 + seen.length
  | .gather => (c - 1) * (r + 4) + r + 2
  | .left => (c - 1) * (r + 4) + r + 3
  | .ended => c * (r + 4) + 1
  | .crashed => 0

/-- The number of steps made so far. -/
def St.count (s : St F) : Nat :=
  3 * s.hist.length + s.m.pos + ∑ i, (s.w i).pos (F.reads i) (s.contrib i).length

theorem sum_one {n : Nat} {f g : Fin n → Nat} {i : Fin n} (h : ∀ j, j ≠ i → g j = f j) (hi : g i = f i + 1) :
    ∑ j, g j = ∑ j, f j + 1 := by
  rw [← Finset.add_sum_erase _ _ (Finset.mem_univ i), ← Finset.add_sum_erase _ f (Finset.mem_univ i), hi]
  rw [Finset.sum_congr rfl (fun j hj => h j (Finset.ne_of_mem_erase hj))]
  exact Nat.add_right_comm _ _ _

theorem count_step (hr : F.raises = false) {st : Strat X O} {s s' : St F} (h : Inv F st s) (hs : Step s s') :
    s'.count = s.count + 1 := by
  have key : ∀ (w' : Fin (F.n + 1) → Worker X) (c' : Fin (F.n + 1) → List (List X)) (i : Fin (F.n + 1)),
      (∀ j, j ≠ i → w' j = s.w j ∧ c' j = s.contrib j) →
      (w' i).pos (F.reads i) (c' i).length = (s.w i).pos (F.reads i) (s.contrib i).length + 1 →
      3 * s.hist.length + s.m.pos + ∑ j, (w' j).pos (F.reads j) (c' j).length = s.count + 1 := by
    intro w' c' i hj hi
    unfold St.count
    rw [sum_one (i := i) (fun j h' => by rw [(hj j h').1, (hj j h').2]) hi]
    omega
  have hup : ∀ (w' : Worker X) (i j : Fin (F.n + 1)), j ≠ i →
      Function.update s.w i w' j = s.w j ∧ s.contrib j = s.contrib j := by
    intro w' i j hj; simp [hj]
  cases hs with
  | mesh hm => simp [St.count, hm, Master.pos]; omega
  | go hm => simp [St.count, hm, Master.pos]; omega
  | get hm _ => simp [St.count, hm, Master.pos]; omega
  | stop hm => simp [St.count, hm, Master.pos]; omega
  | @begin i fs hw hf => exact key _ _ i (hup _ i) (by simp [hw, Worker.pos])
  | @quit i fs hw hf => exact key _ _ i (hup _ i) (by simp [hw, Worker.pos])
  | @read i seen x hw hlen hd => exact key _ _ i (hup _ i) (by simp [hw, Worker.pos]; omega)
  | @enter i seen _ hw hlen =>
    exact key _ _ i (fun j hj => by simp [hj]) (by simp [hw, Worker.pos, hlen]; omega)
  | @leave i hw hall => exact key _ _ i (hup _ i) (by simp [hw, Worker.pos])
  | send hw =>
    refine key _ _ (Fin.last F.n) (hup _ _) ?_
    have := h.owing (Fin.last F.n)
    rw [hw] at this
    simp only [Worker.owing] at this
    obtain ⟨c, hc⟩ : ∃ c, (s.contrib (Fin.last F.n)).length = c + 1 := ⟨_, (Nat.succ_pred_eq_of_pos this).symm⟩
    simp [hw, Worker.pos, hc]
    ring
  | @recv i r rs hil hw hres =>
    refine key _ _ i (hup _ i) ?_
    have := h.owing i
    rw [hw] at this
    simp only [Worker.owing] at this
    obtain ⟨c, hc⟩ : ∃ c, (s.contrib i).length = c + 1 := ⟨_, (Nat.succ_pred_eq_of_pos this).symm⟩
    simp [hw, Worker.pos, hc]
    ring
  | crash hr' => rw [hr] at hr'; simp at hr'

theorem count_exec (hr : F.raises = false) {st : Strat X O} {n : Nat} {s : St F} (h : Exec (start F st) n s) :
    s.count = n := by
  induction h with
  | nil => simp [St.count, start, Master.pos, Worker.pos]
  | step he hs ih => rw [count_step hr (inv_exec hr he) hs, ih]

/-- The number of steps of the whole workflow with `N` evaluations. -/
def Flow.total (F : Flow X R O) (N : Nat) : Nat := 3 * N + 1 + ∑ i, (N * (F.reads i + 4) + 1)

theorem count_le {st : Strat X O} {s : St F} (h : Inv F st s) :
    s.count ≤ F.total (seq (fun x => F.obj (F.value x)) st).length := by
  have hh := congrArg List.length h.hist
  rw [List.length_append] at hh
  set N := (seq (fun x => F.obj (F.value x)) st).length with hN
  have hm : 3 * s.hist.length + s.m.pos ≤ 3 * N + 1 ∧ s.hist.length + s.m.told ≤ N := by
    revert hh
    cases s.m <;> simp [Master.rest, Master.pos, seq, Master.told, Master.cur] <;> omega
  unfold St.count Flow.total
  refine Nat.add_le_add hm.1 (Finset.sum_le_sum fun i _ => ?_)
  have hro := h.rounds i
  have hrun := h.run i
  have how := h.owing i
  have mono : ∀ c, c ≤ N → c * (F.reads i + 4) ≤ N * (F.reads i + 4) := fun c hc => Nat.mul_le_mul_right _ hc
  have hc : (s.contrib i).length ≤ N := by omega
  cases e : s.w i with
  | idle => simp only [Worker.pos]; have := mono _ hc; omega
  | run seen =>
    rw [e] at hro
    simp only [Worker.running] at hro
    have a := mono ((s.contrib i).length + 1) (by omega)
    have b := (hrun seen e).1
    simp only [Worker.pos]
    rw [Nat.add_mul] at a
    omega
  | gather =>
    rw [e] at how
    simp only [Worker.owing] at how
    have a := mono ((s.contrib i).length - 1 + 1) (by omega)
    rw [Nat.add_mul] at a
    simp only [Worker.pos]
    omega
  | left =>
    rw [e] at how
    simp only [Worker.owing] at how
    have a := mono ((s.contrib i).length - 1 + 1) (by omega)
    rw [Nat.add_mul] at a
    simp only [Worker.pos]
    omega
  | ended => simp only [Worker.pos]; have := mono _ hc; omega
  | crashed => simp [Worker.pos]

/-! ### Runs that end in an exception -/

/-- Nobody gets past the exception. -/
def Stuck (F : Flow X R O) (x : X) (k : O → Strat X O) (s : St F) : Prop :=
  s.hist = [] ∧ s.resM = [] ∧
  ((s.m = .think (.ask x k) ∧ ∀ i, s.w i = .idle ∧ s.flags i = []) ∨
   (s.m = .meshed x k ∧ s.disk = some x ∧ ∀ i, s.w i = .idle ∧ s.flags i = []) ∨
   (s.m = .waiting x k ∧ s.disk = some x ∧ ∀ i, (s.w i = .idle ∧ s.flags i = [false]) ∨
      (s.flags i = [] ∧ ((∃ seen, s.w i = .run seen ∧ seen.length ≤ F.reads i) ∨ s.w i = .crashed))))

theorem stuck_step (hr : F.raises = true) {x : X} {k : O → Strat X O} {s s' : St F} (h : Stuck F x k s)
    (hs : Step s s') : Stuck F x k s' := by
  obtain ⟨hh, hM, hc⟩ := h
  have hno : ∀ i, s.w i ≠ .gather ∧ s.w i ≠ .left := by
    intro i
    rcases hc with ⟨-, b⟩ | ⟨-, -, b⟩ | ⟨-, -, b⟩
    · simp [(b i).1]
    · simp [(b i).1]
    · rcases b i with ⟨c, -⟩ | ⟨-, ⟨seen, c, -⟩ | c⟩ <;> simp [c]
  cases hs with
  | mesh hm =>
    rcases hc with ⟨a, b⟩ | ⟨a, b⟩ | ⟨a, b⟩ <;> rw [a] at hm <;> simp at hm
    obtain ⟨rfl, rfl⟩ := hm
    exact ⟨hh, hM, .inr (.inl ⟨rfl, rfl, b⟩)⟩
  | @go y k' hm =>
    rcases hc with ⟨a, b⟩ | ⟨a, d, b⟩ | ⟨a, b⟩ <;> rw [a] at hm <;> simp at hm
    obtain ⟨rfl, rfl⟩ := hm
    exact ⟨hh, hM, .inr (.inr ⟨rfl, d, fun i => .inl ⟨(b i).1, by simp [(b i).2]⟩⟩)⟩
  | get hm hres => rw [hM] at hres; simp at hres
  | stop hm => rcases hc with ⟨a, b⟩ | ⟨a, b⟩ | ⟨a, b⟩ <;> rw [a] at hm <;> simp at hm
  | @begin i fs hw hf =>
    rcases hc with ⟨-, b⟩ | ⟨-, -, b⟩ | ⟨a, d, b⟩
    · rw [(b i).2] at hf; simp at hf
    · rw [(b i).2] at hf; simp at hf
    · have hfs : fs = [] := by
        rcases b i with ⟨-, c⟩ | ⟨c, -⟩ <;> rw [hf] at c <;> simpa using c
      refine ⟨hh, hM, .inr (.inr ⟨a, d, fun j => ?_⟩)⟩
      by_cases hj : j = i
      · subst hj; right; simp [hfs]
      · simpa [hj] using b j
  | @quit i fs hw hf =>
    rcases hc with ⟨-, b⟩ | ⟨-, -, b⟩ | ⟨a, d, b⟩
    · rw [(b i).2] at hf; simp at hf
    · rw [(b i).2] at hf; simp at hf
    · rcases b i with ⟨-, c⟩ | ⟨c, -⟩ <;> rw [hf] at c <;> simp at c
  | @read i seen y hw hlen hd =>
    rcases hc with ⟨-, b⟩ | ⟨-, -, b⟩ | ⟨a, d, b⟩
    · rw [(b i).1] at hw; simp at hw
    · rw [(b i).1] at hw; simp at hw
    · refine ⟨hh, hM, .inr (.inr ⟨a, d, fun j => ?_⟩)⟩
      by_cases hj : j = i
      · subst hj
        right
        rcases b j with ⟨c, -⟩ | ⟨c, -⟩
        · rw [hw] at c; simp at c
        · exact ⟨c, .inl ⟨seen ++ [y], by simp, by simp; omega⟩⟩
      · simpa [hj] using b j
  | enter hr' => rw [hr] at hr'; simp at hr'
  | leave hw => exact ((hno _).1 hw).elim
  | send hw => exact ((hno _).2 hw).elim
  | recv _ hw => exact ((hno _).2 hw).elim
  | @crash i seen _ hw hlen =>
    rcases hc with ⟨-, b⟩ | ⟨-, -, b⟩ | ⟨a, d, b⟩
    · rw [(b i).1] at hw; simp at hw
    · rw [(b i).1] at hw; simp at hw
    · refine ⟨hh, hM, .inr (.inr ⟨a, d, fun j => ?_⟩)⟩
      by_cases hj : j = i
      · subst hj
        right
        rcases b j with ⟨c, -⟩ | ⟨c, -⟩
        · rw [hw] at c; simp at c
        · exact ⟨c, .inr (by simp)⟩
      · simpa [hj] using b j

/-! ### `np.argmin` -/

theorem argminFrom_spec (ds : List ℚ) : ∀ (l : List ℚ) (b : ℚ) (bi : Nat), l[bi]? = some b →
    (∀ j d, l[j]? = some d → b ≤ d ∧ (j < bi → b < d)) →
    ∃ m, (l ++ ds)[argminFrom ds b bi l.length]? = some m ∧
      ∀ j d, (l ++ ds)[j]? = some d → m ≤ d ∧ (j < argminFrom ds b bi l.length → m < d) := by
  induction ds with
  | nil => intro l b bi h1 h2; exact ⟨b, by simpa [argminFrom] using h1, by simpa [argminFrom] using h2⟩
  | cons d ds ih =>
    intro l b bi h1 h2
    have hbi : bi < l.length := by
      by_contra hc
      rw [List.getElem?_eq_none (by omega)] at h1
      simp at h1
    have hl : (l ++ [d]).length = l.length + 1 := by simp
    have ha : l ++ d :: ds = (l ++ [d]) ++ ds := by simp
    have hcase : ∀ j e, (l ++ [d])[j]? = some e → l[j]? = some e ∨ (j = l.length ∧ e = d) := by
      intro j e he
      rcases Nat.lt_trichotomy j l.length with hj | hj | hj
      · left; rwa [List.getElem?_append_left hj] at he
      · right; subst hj; simp at he; exact ⟨rfl, he.symm⟩
      · rw [List.getElem?_eq_none (by simp; omega)] at he; simp at he
    unfold argminFrom
    split
    · rename_i hlt
      rw [ha, ← hl]
      have hlen : argminFrom ds d l.length (l ++ [d]).length = argminFrom ds d l.length (l ++ [d]).length := rfl
      refine ih (l ++ [d]) d l.length (by simp) ?_
      intro j e he
      rcases hcase j e he with h | ⟨h, h'⟩
      · have := (h2 j e h).1
        exact ⟨by linarith, fun _ => by linarith⟩
      · subst h'; exact ⟨le_refl _, fun hj => by omega⟩
    · rename_i hlt
      rw [ha, ← hl]
      refine ih (l ++ [d]) b bi (by rw [List.getElem?_append_left hbi]; exact h1) ?_
      intro j e he
      rcases hcase j e he with h | ⟨h, h'⟩
      · exact h2 j e h
      · subst h'; exact ⟨not_lt.mp hlt, fun hj => by omega⟩

theorem argmin_spec {l : List ℚ} (hl : l ≠ []) :
    ∃ m, l[argmin l]? = some m ∧ ∀ j d, l[j]? = some d → m ≤ d ∧ (j < argmin l → m < d) := by
  cases l with
  | nil => exact (hl rfl).elim
  | cons d ds =>
    have := argminFrom_spec ds [d] d 0 rfl (by
      intro j e he
      cases j with
      | zero => simp at he; subst he; exact ⟨le_refl _, fun h => by omega⟩
      | succ j => simp at he)
    simpa [argmin] using this

end Pymgrit.Opt
