import Verif.Loc2

/-!
# Local criteria: the slots of one iteration and of the clean-up
-/

set_option linter.unusedSectionVars false

namespace Pymgrit

variable {V K T N : Type} [LinearOrder T] [Inhabited T]

theorem firsts_absorb {X Y Z : List Slot} (h : ∀ y ∈ Y, y ∈ X) : firsts (X ++ (Y ++ Z)) = firsts (X ++ Z) := by
  rw [firsts_append, firsts_append, firsts_append, List.filter_append, List.filter_filter]
  congr 1
  rw [List.filter_eq_nil_iff.2, List.nil_append]
  · refine List.filter_congr fun y _ => ?_
    by_cases hy : y ∈ Y
    · simp [h y hy]
    · simp [hy]
  · intro y hy
    simp [h y (mem_firsts.1 hy)]

theorem firsts_absorb_end {X Y : List Slot} (h : ∀ y ∈ Y, y ∈ X) : firsts (X ++ Y) = firsts X := by
  have := firsts_absorb (X := X) (Y := Y) (Z := []) h
  simpa using this

namespace Cfg
variable {E : Cfg V K T N} {r : Nat}

/-- The slots of one level of the clean-up. -/
def lvlS (l : Nat) : List Slot := [(l, 0), (l, 1), (l, 2), (l, 3), (l, 4)]

/-- Slots of `d + 1` levels from level `l` on, in the order of their first use. -/
def canS : Nat → Nat → List Slot
  | 0, l => [(l, 5)]
  | d + 1, l => lvlS l ++ canS d (l + 1)

variable (E) in
/-- Slots of the clean-up. -/
def cleanS : List Slot := canS (E.L - 1) 0 ++ [(0, 7)]

theorem canS_eq (d l : Nat) : canS d l = (List.range' l d).flatMap lvlS ++ [(l + d, 5)] := by
  induction d generalizing l with
  | zero => rfl
  | succ d ih =>
    rw [canS, ih, List.range'_succ, List.flatMap_cons, List.append_assoc]
    congr 3
    rw [Nat.add_assoc, Nat.add_comm 1 d]

theorem canS_lvl {d l : Nat} {x : Slot} (hx : x ∈ canS d l) : l ≤ x.1 ∧ x.2 ≤ 5 ∧ lvlOf x.1 x.2 ≤ l + d := by
  induction d generalizing l with
  | zero =>
    simp only [canS, List.mem_singleton] at hx
    subst hx
    exact ⟨Nat.le_refl _, by simp, Nat.le_of_eq (lvlOf_ne (by simp))⟩
  | succ d ih =>
    rw [canS, List.mem_append] at hx
    rcases hx with hx | hx
    · have h1 : x.1 = l ∧ x.2 ≤ 4 := by
        simp only [lvlS, List.mem_cons, List.not_mem_nil, or_false] at hx
        rcases hx with rfl | rfl | rfl | rfl | rfl <;> simp
      refine ⟨by omega, by omega, ?_⟩
      unfold lvlOf
      split <;> omega
    · have := ih hx
      omega

theorem canS_nodup (d l : Nat) : (canS d l).Nodup := by
  induction d generalizing l with
  | zero => simp [canS]
  | succ d ih =>
    rw [canS, List.nodup_append]
    refine ⟨by simp [lvlS], ih _, fun x hx y hy e => ?_⟩
    subst e
    have h1 : x.1 = l := by
      simp only [lvlS, List.mem_cons, List.not_mem_nil, or_false] at hx
      rcases hx with rfl | rfl | rfl | rfl | rfl <;> rfl
    have := canS_lvl hy
    omega

theorem cleanS_nodup : (E.cleanS).Nodup := by
  rw [cleanS, List.nodup_append]
  refine ⟨canS_nodup _ _, by simp, fun x hx y hy e => ?_⟩
  subst e
  rw [List.mem_singleton] at hy
  subst hy
  have := canS_lvl hx
  simp at this

theorem cleanS_ok (h : E.Base) {x : Slot} (hx : x ∈ E.cleanS) : E.SlotOK x ∧ x.2 ≠ 6 := by
  have hL : E.L = E.ts.length := rfl
  have := h.valid.pos
  rw [cleanS, List.mem_append, List.mem_singleton] at hx
  rcases hx with hx | rfl
  · have := canS_lvl hx
    unfold SlotOK
    omega
  · exact ⟨this, by decide⟩

theorem mem_rep {σ : List Slot} {k : Nat} {x : Slot} (h : x ∈ rep σ k) : x ∈ σ := by
  induction k with
  | zero => cases h
  | succ k ih =>
    rw [rep, List.mem_append] at h
    exact h.elim id ih

theorem mem_lvlS {l : Nat} {x : Slot} (h1 : x.1 = l) (h2 : x.2 ≤ 4) : x ∈ lvlS l := by
  obtain ⟨a, b⟩ := x
  simp only at h1 h2
  subst h1
  have : b = 0 ∨ b = 1 ∨ b = 2 ∨ b = 3 ∨ b = 4 := by omega
  rcases this with rfl | rfl | rfl | rfl | rfl <;> simp [lvlS]

theorem vcycS_sub {d l it : Nat} {ff : Bool} {x : Slot} (hx : x ∈ E.vcycS d l it ff) : x ∈ canS d l := by
  induction d generalizing l ff with
  | zero => exact hx
  | succ d ih =>
    simp only [vcycS, List.mem_append] at hx
    rw [canS, List.mem_append]
    have hF : ∀ x ∈ [(l, 0), (l, 1)], x ∈ lvlS l := by simp [lvlS]
    rcases hx with hx | hx | hx | hx | hx
    · split at hx
      · exact .inl (hF x hx)
      · cases hx
    · have := mem_rep hx
      simp only [List.cons_append, List.nil_append, List.mem_cons, List.not_mem_nil, or_false] at this
      rcases this with rfl | rfl | rfl <;> simp [lvlS]
    · left
      simp only [List.mem_cons, List.not_mem_nil, or_false] at hx
      rcases hx with rfl | rfl <;> simp [lvlS]
    · exact .inr (ih hx)
    · exact .inl (hF x hx)

theorem iterS_sub {d l it : Nat} {cyc : Sys.Cycle} {ff : Bool} {x : Slot} (hx : x ∈ E.iterS d l cyc it ff) :
    x ∈ canS d l := by
  induction d generalizing l ff with
  | zero => exact hx
  | succ d ih =>
    simp only [iterS, List.mem_append] at hx
    have hF : ∀ x ∈ [(l, 0), (l, 1)], x ∈ lvlS l := by simp [lvlS]
    rcases hx with hx | hx | hx | hx | hx | hx
    · rw [canS, List.mem_append]
      split at hx
      · exact .inl (hF x hx)
      · cases hx
    · rw [canS, List.mem_append]
      have := mem_rep hx
      simp only [List.cons_append, List.nil_append, List.mem_cons, List.not_mem_nil, or_false] at this
      rcases this with rfl | rfl | rfl <;> simp [lvlS]
    · rw [canS, List.mem_append]
      left
      simp only [List.mem_cons, List.not_mem_nil, or_false] at hx
      rcases hx with rfl | rfl <;> simp [lvlS]
    · rw [canS, List.mem_append]
      exact .inr (ih hx)
    · rw [canS, List.mem_append]
      exact .inl (hF x hx)
    · split at hx
      · exact vcycS_sub hx
      · cases hx

theorem nestedLoopS_ok {l : Nat} (hl : l + 1 ≤ E.ts.length) {x : Slot} (hx : x ∈ E.nestedLoopS l) :
    E.SlotOK x ∧ x.2 ≠ 6 := by
  have hL : E.L = E.ts.length := rfl
  induction l with
  | zero => cases hx
  | succ l ih =>
    rw [nestedLoopS, List.mem_append] at hx
    rcases hx with hx | hx
    · split at hx
      · have := canS_lvl (iterS_sub hx)
        unfold SlotOK
        omega
      · cases hx
    · exact ih (by omega) hx

theorem nestedS_ok (h : E.Base) {x : Slot} (hx : x ∈ E.nestedS) : E.SlotOK x ∧ x.2 ≠ 6 := by
  have hL : E.L = E.ts.length := rfl
  have := h.valid.pos
  rw [nestedS, List.mem_append, List.mem_singleton] at hx
  rcases hx with rfl | hx
  · refine ⟨?_, by simp⟩
    show lvlOf (E.L - 1) 5 < _
    rw [lvlOf_ne (by decide)]
    omega
  · exact nestedLoopS_ok (by omega) hx

theorem filter_can {d l : Nat} {σ : List Slot} (hσ : ∀ y ∈ σ, y.1 < l) :
    (canS d l).filter (fun y => decide (y ∉ σ)) = canS d l := by
  refine List.filter_eq_self.2 fun y hy => ?_
  simp only [decide_eq_true_eq]
  intro h
  have := canS_lvl hy
  have := hσ y h
  omega

variable (E) in
/-- Rest of an iteration on level `l` after the first sweeps. -/
def tailS (d l : Nat) (cyc : Sys.Cycle) (it : Nat) : List Slot := [(l, 0), (l, 1)] ++
    if l ≠ 0 ∧ cyc = Sys.Cycle.F then vcycS E (d + 1) l it false else []

/-- First uses on a coarse level. -/
theorem firsts_iterS (hcf : ∀ l, l + 1 < E.ts.length → 1 ≤ E.cf l) {d l it : Nat} {cyc : Sys.Cycle}
    (hl : 0 < l) (hd : l + d + 1 = E.ts.length) : firsts (E.iterS d l cyc it true) = canS d l := by
  induction d generalizing l with
  | zero => rfl
  | succ d ih =>
    have ih := ih (l := l + 1) (by omega) (by omega)
    obtain ⟨k, hk⟩ : ∃ k, E.cf l = k + 1 := ⟨E.cf l - 1, by have := hcf l (by omega); omega⟩
    have e : E.iterS (d + 1) l cyc it true = ([(l, 0), (l, 1)] ++ ([(l, 2)] ++ [(l, 0), (l, 1)])) ++
        (rep ([(l, 2)] ++ [(l, 0), (l, 1)]) k ++ (([(l, 3), (l, 4)] ++ E.iterS d (l + 1) cyc it true) ++
          E.tailS d l cyc it)) := by
      simp only [iterS, hk, rep, tailS]
      rw [if_pos ⟨.inl hl, trivial⟩]
      simp only [List.append_assoc]
    rw [e, firsts_absorb, ← List.append_assoc, firsts_absorb_end, ← List.append_assoc, firsts_append, ih,
      filter_can, canS]
    · congr 1
      simp [firsts, lvlS, Prod.ext_iff]
    · simp
    · intro y hy
      have hI : ∀ y ∈ canS d (l + 1), y ∈ E.iterS d (l + 1) cyc it true := fun y hy =>
        mem_firsts.1 (by rw [ih]; exact hy)
      have hy' : y ∈ canS (d + 1) l := by
        rw [tailS, List.mem_append] at hy
        rcases hy with hy | hy
        · rw [canS, List.mem_append]
          left
          simp only [List.mem_cons, List.not_mem_nil, or_false] at hy
          rcases hy with rfl | rfl <;> simp [lvlS]
        · split at hy
          · exact vcycS_sub hy
          · cases hy
      rw [canS, List.mem_append] at hy'
      rcases hy' with hy' | hy'
      · simp only [lvlS, List.mem_cons, List.not_mem_nil, or_false] at hy'
        rcases hy' with rfl | rfl | rfl | rfl | rfl <;> simp
      · simp [hI y hy']
    · intro y hy
      exact List.mem_append_right _ (mem_rep hy)

variable (E) in
/-- Slots of an iteration with its residual. -/
def roundS (it : Nat) : List Slot := E.iterS (E.L - 1) 0 E.cyc it true ++ [(0, 7)]

theorem roundS_sub {it : Nat} {x : Slot} (hx : x ∈ E.roundS it) : x ∈ E.cleanS := by
  rw [roundS, List.mem_append] at hx
  rw [cleanS, List.mem_append]
  exact hx.imp iterS_sub id

/-- On the fine level a process receives either before its C-points or before its F-points. -/
theorem firstC_excl (h : E.Base) (hr : r < E.P) {p : Nat} (h2 : E.pv r (0, 2) = some p) :
    E.pv r (0, 0) = none ∧ E.pv r (0, 1) = none := by
  have hs := h.spec hr h.valid.pos
  have hc : (E.info r 0).firstC = true := by
    by_contra hc
    rw [pv_ne6 (by decide), recvFlag_false (op := 2) hc] at h2
    cases h2
  have h2 := hs.firstC.1 hc
  constructor
  · rw [pv_ne6 (by decide)]
    refine recvFlag_false fun h0 => ?_
    have := hs.firstF.1 h0
    exact this.2.2.1 h2.2.2.1
  · rw [pv_ne6 (by decide)]
    refine recvFlag_false fun h0 => ?_
    have := hs.commFront.1 h0
    exact this.2.2.1 h2.2.2.1

/-- A process that goes on expects from a finished partner, after the first iteration, one message per
slot, in the order in which the clean-up sends them. -/
theorem firsts_roundS (h : E.Base) (hcf : ∀ l, l + 1 < E.ts.length → 1 ≤ E.cf l) (hr : r < E.P) {it p : Nat}
    (hit : 0 < it) :
    (firsts (E.roundS it)).filter (fun x => decide (E.pv r x = some p)) =
      E.cleanS.filter fun x => decide (E.pv r x = some p) := by
  have hL : E.L = E.ts.length := rfl
  have hpos := h.valid.pos
  have h7 : ∀ (σ : List Slot), (∀ x ∈ σ, x ∈ canS (E.L - 1) 0) →
      firsts (σ ++ [(0, 7)]) = firsts σ ++ [(0, 7)] := by
    intro σ hσ
    rw [firsts_append]
    congr 1
    have : ((0, 7) : Slot) ∉ σ := fun h => by
      have := canS_lvl (hσ _ h)
      simp at this
    simp [firsts, this]
  rw [roundS, h7 _ fun x hx => iterS_sub hx, cleanS, List.filter_append, List.filter_append]
  congr 1
  rcases hd : E.L - 1 with _ | d
  · rfl
  · have ih := firsts_iterS hcf (d := d) (l := 1) (it := it) (cyc := E.cyc) (by omega) (by omega)
    obtain ⟨k, hk⟩ : ∃ k, E.cf 0 = k + 1 := ⟨E.cf 0 - 1, by have := hcf 0 (by omega); omega⟩
    have e : E.iterS (d + 1) 0 E.cyc it true = ([(0, 2)] ++ [(0, 0), (0, 1)]) ++
        (rep ([(0, 2)] ++ [(0, 0), (0, 1)]) k ++ (([(0, 3), (0, 4)] ++ E.iterS d 1 E.cyc it true) ++
          [(0, 0), (0, 1)])) := by
      simp only [iterS, hk, rep]
      rw [if_neg (by simp; omega), if_neg (by simp)]
      simp only [List.append_assoc, List.nil_append, List.append_nil, Nat.zero_add]
    rw [e, firsts_absorb (fun y hy => mem_rep hy), ← List.append_assoc, firsts_absorb_end,
      ← List.append_assoc, firsts_append, ih, filter_can, canS, List.filter_append, List.filter_append]
    · congr 1
      have e2 : firsts (([(0, 2)] ++ [(0, 0), (0, 1)]) ++ [(0, 3), (0, 4)]) =
          [(0, 2), (0, 0), (0, 1), (0, 3), (0, 4)] := by decide
      rw [e2]
      by_cases h2 : E.pv r (0, 2) = some p
      · obtain ⟨h0, h1⟩ := firstC_excl h hr h2
        simp [lvlS, List.filter_cons, h0, h1, h2]
      · simp [lvlS, List.filter_cons, h2]
    · simp
    · intro y hy
      simp only [List.mem_cons, List.not_mem_nil, or_false] at hy
      rcases hy with rfl | rfl <;> simp

/-- All slots of the clean-up are used in every iteration but the first. -/
theorem cleanS_sub (h : E.Base) (hcf : ∀ l, l + 1 < E.ts.length → 1 ≤ E.cf l) (hr : r < E.P) {it p : Nat}
    (hit : 0 < it) {x : Slot} (hx : x ∈ E.cleanS) (hp : E.pv r x = some p) : x ∈ E.roundS it := by
  have : x ∈ E.cleanS.filter fun x => decide (E.pv r x = some p) := by simp [hx, hp]
  rw [← firsts_roundS h hcf hr hit, List.mem_filter] at this
  exact mem_firsts.1 this.1

end Cfg

end Pymgrit
