import Verif.Messages
import Verif.PropsCrash

/-!
# C114: number, receivers and tags of the messages
-/

set_option linter.unusedSectionVars false

namespace Pymgrit
open Cfg

variable {V K T N : Type} [LinearOrder T] [Inhabited T] [Add V] [Sub V] [SMul K V] [One K] [Sub K]
variable {E : Cfg V K T N} {r l op : Nat}

/-! ### Specification -/

/-- Process `r` has points on level `l`, and they are not the last ones of this level. -/
def hasNext (E : Cfg V K T N) (r l : Nat) : Prop :=
  lo E.ts E.P l r < lo E.ts E.P l (r + 1) ∧ lo E.ts E.P l (r + 1) < npts E.ts l

/-- The last point of process `r` on level `l` is a C-point. -/
def endsC (E : Cfg V K T N) (r l : Nat) : Prop := lo E.ts E.P l (r + 1) - 1 ∈ allC E.ts l

/-- The point after those of process `r` on level `l` is a C-point. -/
def nextC (E : Cfg V K T N) (r l : Nat) : Prop := lo E.ts E.P l (r + 1) ∈ allC E.ts l

/-- Does process `r` send messages of kind `op` on level `l`?  Kinds 0 and 1: F-relaxation starting from a
C-point or an F-point of another process; 2: C-relaxation; 3 and 4: FAS residual, values of this level and of
the next coarser level; 5: solve on the coarsest level; 6: flags of the local criteria; 7: residual
(mgrit.py:301-331, 345-350, 396-399, 440-452, 467-484, 503-520). -/
def links (E : Cfg V K T N) (r l : Nat) : Nat → Prop
  | 0 => hasNext E r l ∧ endsC E r l ∧ ¬ nextC E r l
  | 1 => hasNext E r l ∧ ¬ endsC E r l ∧ ¬ nextC E r l
  | 2 => hasNext E r l ∧ ¬ endsC E r l ∧ nextC E r l
  | 3 => hasNext E r l ∧ ¬ endsC E r l ∧ nextC E r l
  | 4 => hasNext E r (l + 1)
  | 5 => hasNext E r l
  | 6 => (E.convCrit ≠ 0 ∧ E.convCrit ≠ 1) ∧ r + 1 < E.P
  | 7 => hasNext E r l ∧ ¬ endsC E r l ∧ nextC E r l
  | _ => False

/-- How often kind `op` is used on level `l` in iteration number `it` (from 0). -/
def sweeps (E : Cfg V K T N) (l it : Nat) : Nat → Nat
  | 0 | 1 =>
    if l + 1 < E.L then
      if l = 0 then E.cf 0 + 1 + (if it = 0 then 1 else 0)
      else if E.cyc = Sys.Cycle.V then E.cf l + 2 else l * (E.cf l + 2) + (E.cf l + 1)
    else 0
  | 2 => if l + 1 < E.L then (if l = 0 ∨ E.cyc = Sys.Cycle.V then 1 else l + 1) * E.cf l else 0
  | 3 | 4 => if l + 1 < E.L then (if l = 0 ∨ E.cyc = Sys.Cycle.V then 1 else l + 1) else 0
  | 5 => if l + 1 = E.L then (if l = 0 ∨ E.cyc = Sys.Cycle.V then 1 else l) else 0
  | 6 => if l = 0 then 1 else 0
  | 7 => if l = 0 ∧ (E.convCrit = 0 ∨ E.convCrit = 2) then 1 else 0
  | _ => 0

/-- How often kind `op` is used on level `l` in nested iteration. -/
def sweepsNested (E : Cfg V K T N) (l : Nat) : Nat → Nat
  | 0 | 1 => if l + 1 < E.L then l * (E.cf l + 2) else 0
  | 2 => if l + 1 < E.L then l * E.cf l else 0
  | 3 | 4 => if l + 1 < E.L then l else 0
  | 5 => if l + 1 = E.L then max 1 l else 0
  | _ => 0

/-- How often kind `op` is used on level `l` in `clean_up` after a run with a local criterion. -/
def sweepsClean (E : Cfg V K T N) (l : Nat) : Nat → Nat
  | 0 | 1 | 2 | 3 | 4 => if l + 1 < E.L then 1 else 0
  | 5 => if l + 1 = E.L then 1 else 0
  | 7 => if l = 0 then 1 else 0
  | _ => 0

open Classical in
/-- Number of messages of kind `op` that process `r` sends on level `l` in a run with `m` iterations. -/
noncomputable def msgCount (E : Cfg V K T N) (r l op m : Nat) : Nat :=
  if links E r l op then
    (if E.nested then sweepsNested E l op else 0) + ((List.range m).map fun it => sweeps E l it op).sum +
      (if (E.convCrit ≠ 0 ∧ E.convCrit ≠ 1) ∧ 0 < m then sweepsClean E l op else 0)
  else 0

/-! ### Closed forms of the counts -/

theorem links_iff (h : E.Base) (hr : r < E.P) (hl : l < E.L) (h4 : op = 4 → l + 1 < E.L) :
    bit E r l op = 1 ∧ links E r l op ∨ bit E r l op = 0 ∧ ¬ links E r l op := by
  have hs := h.spec hr hl
  have hsend : ∀ l', l' < E.L → ((E.info r l').sendTo.isSome = true ↔ hasNext E r l') := by
    intro l' hl'
    have hs' := h.spec hr hl'
    constructor
    · intro hq
      obtain ⟨q, hq⟩ := Option.isSome_iff_exists.1 hq
      have ha := (hs'.sendTo q).1 hq
      refine ⟨ha.2.2.1, ?_⟩
      have := h.lo_le l' (q + 1)
      have := ha.2.2.2.1
      have := ha.2.2.2.2
      omega
    · intro hn
      obtain ⟨q, hq⟩ := h.adj_right hr hl' hn.1 hn.2
      rw [(hs'.sendTo q).2 hq]
      rfl
  have hb : ∀ {c : Bool} {p : Prop}, (c = true ↔ p) →
      ((if c = true then 1 else 0) = 1 ∧ p ∨ (if c = true then 1 else 0) = 0 ∧ ¬ p) := by
    intro c p hcp
    by_cases hc : c = true
    · exact Or.inl ⟨if_pos hc, hcp.1 hc⟩
    · exact Or.inr ⟨if_neg hc, fun hp => hc (hcp.2 hp)⟩
  have hg : E.global = false ↔ E.convCrit ≠ 0 ∧ E.convCrit ≠ 1 := by
    unfold Cfg.global
    simp
  unfold bit
  match op with
  | 0 => exact hb (hs.lastC.trans ⟨fun ⟨a, b, c, d⟩ => ⟨⟨a, b⟩, c, d⟩, fun ⟨⟨a, b⟩, c, d⟩ => ⟨a, b, c, d⟩⟩)
  | 1 => exact hb (hs.commBack.trans ⟨fun ⟨a, b, c, d⟩ => ⟨⟨a, b⟩, c, d⟩, fun ⟨⟨a, b⟩, c, d⟩ => ⟨a, b, c, d⟩⟩)
  | 2 => exact hb (hs.lastF.trans ⟨fun ⟨a, b, c, d⟩ => ⟨⟨a, b⟩, c, d⟩, fun ⟨⟨a, b⟩, c, d⟩ => ⟨a, b, c, d⟩⟩)
  | 3 => exact hb (hs.lastF.trans ⟨fun ⟨a, b, c, d⟩ => ⟨⟨a, b⟩, c, d⟩, fun ⟨⟨a, b⟩, c, d⟩ => ⟨a, b, c, d⟩⟩)
  | 4 => exact hb (hsend (l + 1) (h4 rfl))
  | 5 => exact hb (hsend l hl)
  | 6 =>
    rw [if_pos rfl]
    by_cases hc : E.global = false ∧ r + 1 < E.P
    · rw [if_pos hc]
      exact Or.inl ⟨rfl, hg.1 hc.1, hc.2⟩
    · rw [if_neg hc]
      exact Or.inr ⟨rfl, fun hx => hc ⟨hg.2 hx.1, hx.2⟩⟩
  | 7 => exact hb (hs.lastF.trans ⟨fun ⟨a, b, c, d⟩ => ⟨⟨a, b⟩, c, d⟩, fun ⟨⟨a, b⟩, c, d⟩ => ⟨a, b, c, d⟩⟩)
  | op + 8 => exact Or.inr ⟨by simp [sendFlag], fun hx => hx⟩

theorem one_ne {l' op' : Nat} (hl : l' ≠ l) : one E r l op l' op' = 0 := if_neg fun h => hl h.1

theorem one_op_ne {l' op' : Nat} (hl : op' ≠ op) : one E r l op l' op' = 0 := if_neg fun h => hl h.2

theorem one_self : one E r l op l op = bit E r l op := if_pos ⟨rfl, rfl⟩

theorem visitM_ne {l' x : Nat} (hl : l' ≠ l) : visitM E r l op l' x = 0 := by
  unfold visitM
  simp only [one_ne hl]
  simp

theorem visitM_self {x : Nat} : visitM E r l op l x =
    bit E r l op * (if op = 0 ∨ op = 1 then x else if op = 2 then E.cf l else if op = 3 ∨ op = 4 then 1 else 0) := by
  unfold visitM
  by_cases h0 : op = 0
  · subst h0
    simp [one_op_ne, one_self, Nat.mul_comm]
  by_cases h1 : op = 1
  · subst h1
    simp [one_op_ne, one_self, Nat.mul_comm]
  by_cases h2 : op = 2
  · subst h2
    simp [one_op_ne, one_self, Nat.mul_comm]
  by_cases h3 : op = 3
  · subst h3
    simp [one_op_ne, one_self]
  by_cases h4 : op = 4
  · subst h4
    simp [one_op_ne, one_self]
  rw [one_op_ne (Ne.symm h0), one_op_ne (Ne.symm h1), one_op_ne (Ne.symm h2), one_op_ne (Ne.symm h3),
    one_op_ne (Ne.symm h4)]
  simp [h0, h1, h2, h3, h4]

theorem vcycM_eq (d l' it : Nat) (ff : Bool) : vcycM E r l op d l' it ff =
    if l < l' ∨ l' + d < l then 0 else if l = l' + d then one E r l op l 5 else
      visitM E r l op l ((if (0 < l ∨ it = 0) ∧ (l = l' → ff = true) then 1 else 0) + E.cf l + 1) := by
  induction d generalizing l' ff with
  | zero =>
    unfold vcycM
    by_cases h : l' = l
    · subst h
      simp
    · rw [one_ne h, if_pos (by omega)]
  | succ d ih =>
    unfold vcycM
    rw [ih]
    by_cases h : l' = l
    · subst h
      rw [if_pos (show l' < l' + 1 ∨ _ from Or.inl (by omega)), Nat.add_zero,
        if_neg (show ¬ (l' < l' ∨ l' + (d + 1) < l') by omega), if_neg (show ¬ l' = l' + (d + 1) by omega)]
      congr 3
      by_cases hf : ff = true
      · by_cases hc : 0 < l' ∨ it = 0
        · rw [if_pos ⟨by omega, hf⟩, if_pos ⟨hc, fun _ => hf⟩]
        · rw [if_neg (fun hx => hc (by omega)), if_neg (fun hx => hc hx.1)]
      · rw [if_neg (fun hx => hf hx.2), if_neg (fun hx => hf (hx.2 rfl))]
    · rw [visitM_ne h, Nat.zero_add]
      by_cases h1 : l < l' ∨ l' + (d + 1) < l
      · rw [if_pos h1, if_pos (by omega)]
      · rw [if_neg h1, if_neg (by omega)]
        by_cases h2 : l = l' + (d + 1)
        · rw [if_pos h2, if_pos (by omega)]
        · rw [if_neg h2, if_neg (by omega)]
          congr 3
          by_cases hc : 0 < l ∨ it = 0
          · rw [if_pos ⟨hc, fun _ => rfl⟩, if_pos ⟨hc, fun e => absurd e.symm h⟩]
          · rw [if_neg (fun hx => hc hx.1), if_neg (fun hx => hc hx.1)]

theorem iterM_V (d l' it : Nat) (ff : Bool) :
    iterM E r l op d l' Sys.Cycle.V it ff = vcycM E r l op d l' it ff := by
  induction d generalizing l' ff with
  | zero => rfl
  | succ d ih =>
    unfold iterM
    rw [ih, if_neg (show ¬ (l' ≠ 0 ∧ Sys.Cycle.V = Sys.Cycle.F) by simp), Nat.add_zero]
    rfl

theorem iterM_F (d l' it : Nat) (h0 : 0 < l') : iterM E r l op d l' Sys.Cycle.F it true =
    if l < l' ∨ l' + d < l then 0 else if l = l' + d then (d + 1) * one E r l op l 5 else
      (l - l' + 1) * visitM E r l op l (E.cf l + 2) + visitM E r l op l (E.cf l + 1) := by
  induction d generalizing l' with
  | zero =>
    unfold iterM
    by_cases h : l' = l
    · subst h
      simp
    · rw [one_ne h, if_pos (by omega)]
  | succ d ih =>
    unfold iterM
    rw [ih (l' + 1) (by omega), vcycM_eq, if_pos (show l' ≠ 0 ∧ Sys.Cycle.F = Sys.Cycle.F from ⟨by omega, rfl⟩),
      if_pos (show (0 < l' ∨ (it = 0 ∧ l' = 0)) ∧ true = true from ⟨Or.inl h0, rfl⟩)]
    by_cases h : l' = l
    · subst h
      rw [if_pos (show l' < l' + 1 ∨ _ from Or.inl (by omega)), if_neg (by omega), if_neg (by omega), if_neg (by simp),
        if_neg (by omega), if_neg (by omega)]
      simp only [Nat.sub_self, Nat.zero_add, Nat.one_mul, Nat.add_zero]
      congr 2
      omega
    · rw [visitM_ne h, Nat.zero_add]
      by_cases h1 : l < l' ∨ l' + (d + 1) < l
      · rw [if_pos h1, if_pos (by omega)]
        simp [h1]
      · rw [if_neg h1, if_neg (by omega), if_neg h1]
        by_cases h2 : l = l' + (d + 1)
        · rw [if_pos h2, if_pos (by omega), if_pos h2]
          ring
        · rw [if_neg h2, if_neg (by omega), if_neg h2, if_pos ⟨Or.inl (by omega), fun e => absurd e.symm h⟩]
          obtain ⟨e, rfl⟩ : ∃ e, l = l' + 1 + e := ⟨l - (l' + 1), by omega⟩
          rw [show l' + 1 + e - (l' + 1) = e by omega, show l' + 1 + e - l' = e + 1 by omega,
            show 1 + E.cf (l' + 1 + e) + 1 = E.cf (l' + 1 + e) + 2 by omega]
          ring

theorem nestLoopM_eq (k : Nat) (hk : k < E.L) (hl : l < E.L) : nestLoopM E r l op k =
    if l + 1 = E.L then (k - 1) * one E r l op l 5 else min l (k - 1) * visitM E r l op l (E.cf l + 2) := by
  induction k with
  | zero => simp [nestLoopM]
  | succ k ih =>
    unfold nestLoopM
    rw [ih (by omega), iterM_V, vcycM_eq]
    by_cases h0 : k = 0
    · subst h0
      simp
    · rw [if_pos (show 0 < k by omega)]
      obtain ⟨j, rfl⟩ : ∃ j, k = j + 1 := ⟨k - 1, by omega⟩
      by_cases h1 : l + 1 = E.L
      · rw [if_pos h1, if_pos h1, if_neg (by omega), if_pos (by omega)]
        simp only [Nat.add_sub_cancel]
        ring
      · rw [if_neg h1, if_neg h1]
        by_cases h2 : l < j + 1
        · rw [if_pos (Or.inl h2), show min l (j + 1 - 1) = l by omega, show min l (j + 1 + 1 - 1) = l by omega, Nat.zero_add]
        · rw [if_neg (by omega), if_neg (by omega), if_pos ⟨Or.inl (by omega), fun _ => rfl⟩,
            show min l (j + 1 - 1) = j by omega, show min l (j + 1 + 1 - 1) = j + 1 by omega,
            show 1 + E.cf l + 1 = E.cf l + 2 by omega]
          ring

theorem one5_self : one E r l op l 5 = bit E r l op * (if op = 5 then 1 else 0) := by
  by_cases h : op = 5
  · subst h
    simp [one_self]
  · rw [one_op_ne (Ne.symm h), if_neg h, Nat.mul_zero]

theorem nestM_eq (hl : l < E.L) :
    nestM E r l op = bit E r l op * (if E.nested then sweepsNested E l op else 0) := by
  unfold nestM
  by_cases hn : E.nested = true
  · rw [if_pos hn, if_pos hn, nestLoopM_eq _ (by omega) hl]
    by_cases h1 : l + 1 = E.L
    · rw [if_pos h1, show E.L - 1 = l by omega, one5_self]
      by_cases h5 : op = 5
      · subst h5
        simp only [sweepsNested, if_pos h1, if_true, Nat.mul_one]
        rw [show max 1 l = 1 + (l - 1) by omega]
        ring
      · rw [if_neg h5]
        simp only [Nat.mul_zero, Nat.add_zero]
        match op with
        | 0 | 1 | 2 | 3 | 4 => simp [sweepsNested, h1]
        | 5 => exact absurd rfl h5
        | op + 6 => simp [sweepsNested]
    · rw [if_neg h1, one_ne (by omega), Nat.zero_add, visitM_self, show min l (E.L - 1 - 1) = l by omega]
      have h2 : l + 1 < E.L := by omega
      match op with
      | 0 | 1 | 2 | 3 | 4 => simp only [sweepsNested, if_pos h2]; simp; try ring
      | 5 => simp [sweepsNested, h1]
      | op + 6 => simp [sweepsNested]
  · rw [if_neg hn, if_neg hn, Nat.mul_zero]

theorem iterM_eq (hl : l < E.L) (it : Nat) : iterM E r l op (E.L - 1) 0 E.cyc it true =
    bit E r l op * (if op = 6 ∨ op = 7 then 0 else sweeps E l it op) := by
  by_cases hV : E.cyc = Sys.Cycle.V
  · rw [hV, iterM_V, vcycM_eq, if_neg (by omega)]
    by_cases h1 : l + 1 = E.L
    · rw [if_pos (by omega), one5_self]
      have h2 : ¬ l + 1 < E.L := by omega
      match op with
      | 0 | 1 | 2 | 3 | 4 => simp [sweeps, h2]
      | 5 => simp [sweeps, h1, hV]
      | 6 | 7 => simp
      | op + 8 => simp [sweeps]
    · rw [if_neg (by omega), visitM_self]
      have h2 : l + 1 < E.L := by omega
      match op with
      | 0 | 1 =>
        simp only [sweeps, if_pos h2, hV, if_true]
        simp only [true_or, or_true, if_true, show ¬ ((0:Nat) = 6 ∨ (0:Nat) = 7) by omega,
          show ¬ ((1:Nat) = 6 ∨ (1:Nat) = 7) by omega, if_false]
        congr 1
        by_cases h0 : l = 0
        · subst h0
          by_cases hi : it = 0
          · simp [hi]; omega
          · simp [hi]
        · rw [if_pos ⟨Or.inl (by omega), fun e => trivial⟩, if_neg h0]
          omega
      | 2 | 3 | 4 => simp [sweeps, h2, hV]
      | 5 => simp [sweeps, h1]
      | 6 | 7 => simp
      | op + 8 => simp [sweeps]
  · have hF : E.cyc = Sys.Cycle.F := by cases hc : E.cyc <;> simp_all
    rw [hF]
    rcases Nat.eq_zero_or_pos (E.L - 1) with hL | hL
    · have e : E.L - 1 = 0 := hL
      rw [e]
      obtain rfl : l = 0 := by omega
      unfold iterM
      rw [one5_self]
      have h2 : ¬ 0 + 1 < E.L := by omega
      have h3 : 0 + 1 = E.L := by omega
      match op with
      | 0 | 1 | 2 | 3 | 4 => simp only [sweeps, if_neg h2]; simp
      | 5 => simp only [sweeps, if_pos h3]; simp
      | 6 | 7 => simp
      | op + 8 => simp [sweeps]
    · obtain ⟨d, hd⟩ : ∃ d, E.L - 1 = d + 1 := ⟨E.L - 1 - 1, by omega⟩
      rw [hd]
      unfold iterM
      rw [iterM_F _ _ _ (by omega), if_neg (show ¬ ((0:Nat) ≠ 0 ∧ _) from fun hx => hx.1 rfl), Nat.add_zero]
      by_cases h0 : l = 0
      · subst h0
        rw [if_pos (Or.inl (by omega)), Nat.add_zero, visitM_self]
        have h2 : 0 + 1 < E.L := by omega
        match op with
        | 0 | 1 =>
          simp only [sweeps, if_pos h2, if_true]
          simp only [true_or, or_true, if_true, show ¬ ((0:Nat) = 6 ∨ (0:Nat) = 7) by omega,
            show ¬ ((1:Nat) = 6 ∨ (1:Nat) = 7) by omega, if_false]
          congr 1
          by_cases hi : it = 0
          · simp [hi]; omega
          · simp [hi]
        | 2 | 3 | 4 => simp only [sweeps, if_pos h2]; simp
        | 5 => simp only [sweeps, if_neg (show ¬ 0 + 1 = E.L by omega)]; simp
        | 6 | 7 => simp
        | op + 8 => simp [sweeps]
      · rw [visitM_ne (Ne.symm h0), Nat.zero_add, if_neg (by omega)]
        by_cases h1 : l + 1 = E.L
        · rw [if_pos (by omega), one5_self]
          have h2 : ¬ l + 1 < E.L := by omega
          match op with
          | 0 | 1 | 2 | 3 | 4 => simp only [sweeps, if_neg h2]; simp
          | 5 =>
            simp only [sweeps, if_pos h1, hF]
            simp [h0]
            rw [Nat.mul_comm]
            congr 1
            omega
          | 6 | 7 => simp
          | op + 8 => simp [sweeps]
        · rw [if_neg (by omega), visitM_self, visitM_self, show l - (0 + 1) + 1 = l by omega]
          have h2 : l + 1 < E.L := by omega
          match op with
          | 0 | 1 | 2 | 3 | 4 =>
            simp only [sweeps, if_pos h2, hF]
            simp [h0]
            try ring
          | 5 => simp [sweeps, h1]
          | 6 | 7 => simp
          | op + 8 => simp [sweeps]

theorem bodyM_eq (hl : l < E.L) (it : Nat) : bodyM E r l op it = bit E r l op * sweeps E l it op := by
  unfold bodyM
  rw [iterM_eq hl]
  by_cases h6 : op = 6
  · subst h6
    rw [if_pos (Or.inl rfl), one_op_ne (show (7:Nat) ≠ 6 by omega), ite_self, Nat.mul_zero, Nat.zero_add, Nat.zero_add]
    by_cases h0 : l = 0
    · subst h0
      rw [one_self]
      simp [sweeps]
    · rw [one_ne (Ne.symm h0)]
      simp [sweeps, h0]
  by_cases h7 : op = 7
  · subst h7
    rw [if_pos (Or.inr rfl), one_op_ne (show (6:Nat) ≠ 7 by omega), Nat.mul_zero, Nat.zero_add, Nat.add_zero]
    by_cases h0 : l = 0
    · subst h0
      rw [one_self]
      by_cases hc : E.convCrit = 0 ∨ E.convCrit = 2
      · simp [sweeps, hc]
      · simp [sweeps, hc]
    · rw [one_ne (Ne.symm h0)]
      simp [sweeps, h0]
  rw [if_neg (by omega), one_op_ne (Ne.symm h6), one_op_ne (Ne.symm h7), ite_self]
  rfl

theorem sum_one {n : Nat} {f : Nat → Nat} (hf : ∀ l', l' ≠ l → f l' = 0) :
    ((List.range n).map f).sum = if l < n then f l else 0 := by
  induction n with
  | zero => rfl
  | succ n ih =>
    rw [List.range_succ, List.map_append, List.sum_append, ih]
    simp only [List.map_cons, List.map_nil, List.sum_cons, List.sum_nil, Nat.add_zero]
    by_cases h : n = l
    · subst h
      simp
    · rw [hf n h]
      by_cases h1 : l < n
      · rw [if_pos h1, if_pos (by omega)]
        rfl
      · rw [if_neg h1, if_neg (by omega)]

theorem cleanM_eq (hl : l < E.L) : cleanM E r l op =
    bit E r l op * (if E.convCrit ≠ 0 ∧ E.convCrit ≠ 1 then sweepsClean E l op else 0) := by
  unfold cleanM
  by_cases hg : E.global = true
  · rw [if_pos hg, if_neg, Nat.mul_zero]
    unfold Cfg.global at hg
    simp only [decide_eq_true_eq] at hg
    omega
  · rw [if_neg hg, if_pos]
    · rw [sum_one (l := l) fun l' hl' => by simp only [one_ne hl']]
      by_cases h1 : l + 1 = E.L
      · rw [if_neg (by omega), Nat.zero_add, show E.L - 1 = l by omega, one5_self]
        have h2 : ¬ l + 1 < E.L := by omega
        match op with
        | 0 | 1 | 2 | 3 | 4 => simp [sweepsClean, h2, one_op_ne]
        | 5 => simp [sweepsClean, h1, one_op_ne]
        | 7 =>
          by_cases h0 : l = 0
          · subst h0
            simp [sweepsClean, one_self]
          · simp [sweepsClean, h0, one_ne (Ne.symm h0)]
        | 6 => simp [sweepsClean, one_op_ne]
        | op + 8 => rw [one_op_ne (by omega)]; simp [sweepsClean]
      · rw [if_pos (by omega), one_ne (show E.L - 1 ≠ l by omega)]
        have h2 : l + 1 < E.L := by omega
        match op with
        | 0 | 1 | 2 | 3 | 4 => simp [sweepsClean, h2, one_op_ne, one_self]
        | 5 => simp [sweepsClean, h1, one_op_ne]
        | 7 =>
          by_cases h0 : l = 0
          · subst h0
            simp [sweepsClean, one_self, one_op_ne]
          · simp [sweepsClean, h0, one_ne (Ne.symm h0), one_op_ne]
        | 6 => simp [sweepsClean, one_op_ne]
        | op + 8 =>
          simp only [one_op_ne (show (0:Nat) ≠ op + 8 by omega), one_op_ne (show (1:Nat) ≠ op + 8 by omega),
            one_op_ne (show (2:Nat) ≠ op + 8 by omega), one_op_ne (show (3:Nat) ≠ op + 8 by omega),
            one_op_ne (show (4:Nat) ≠ op + 8 by omega), one_op_ne (show (7:Nat) ≠ op + 8 by omega)]
          simp [sweepsClean]
    · unfold Cfg.global at hg
      simp only [decide_eq_true_eq] at hg
      omega

theorem loopM_eq (hl : l < E.L) (m : Nat) :
    loopM E r l op m = bit E r l op * ((List.range m).map fun it => sweeps E l it op).sum := by
  induction m with
  | zero => simp [loopM]
  | succ m ih =>
    unfold loopM
    rw [ih, bodyM_eq hl, List.range_succ, List.map_append, List.sum_append]
    simp [Nat.mul_add]

theorem nestLoopM_big (hl : E.L ≤ l) (k : Nat) : nestLoopM E r l op k = 0 ∨ E.L ≤ k := by
  induction k with
  | zero => exact Or.inl rfl
  | succ k ih =>
    by_cases hk : E.L ≤ k + 1
    · exact Or.inr hk
    · rcases ih with h | h
      · left
        unfold nestLoopM
        rw [h, iterM_V, vcycM_eq, if_pos (Or.inr (by omega))]
        simp
      · omega

/-- No messages on levels that do not exist. -/
theorem totalM_big (h : E.Base) (hl : E.L ≤ l) (m : Nat) : totalM E r l op m = 0 := by
  have hpos : 0 < E.L := h.valid.pos
  have h0 : (0 : Nat) ≠ l := by omega
  have h5 : E.L - 1 ≠ l := by omega
  have e1 : nestM E r l op = 0 := by
    unfold nestM
    rw [one_ne h5]
    rcases nestLoopM_big (r := r) (op := op) hl (E.L - 1) with h | h
    · rw [h, Nat.add_zero, ite_self]
    · omega
  have e2 : ∀ it, iterM E r l op (E.L - 1) 0 E.cyc it true = 0 := by
    intro it
    by_cases hV : E.cyc = Sys.Cycle.V
    · rw [hV, iterM_V, vcycM_eq, if_pos (Or.inr (by omega))]
    · have hF : E.cyc = Sys.Cycle.F := by cases hc : E.cyc <;> simp_all
      rw [hF]
      rcases Nat.eq_zero_or_pos (E.L - 1) with hL | hL
      · rw [hL]
        exact one_ne h0
      · obtain ⟨d, hd⟩ : ∃ d, E.L - 1 = d + 1 := ⟨E.L - 1 - 1, by omega⟩
        rw [hd]
        unfold iterM
        rw [visitM_ne h0, iterM_F _ _ _ (by omega), if_pos (Or.inr (by omega)), if_neg (fun hx => hx.1 rfl)]
  have e3 : loopM E r l op m = 0 := by
    induction m with
    | zero => rfl
    | succ m ih =>
      unfold loopM bodyM
      rw [ih, e2, one_ne h0, one_ne h0, ite_self]
  have e4 : cleanM E r l op = 0 := by
    unfold cleanM
    rw [one_ne h5, one_ne h0, sum_one (l := l) fun l' hl' => by simp only [one_ne hl'],
      if_neg (show ¬ l < E.L - 1 by omega), ite_self]
  unfold totalM
  rw [e1, e3, e4, ite_self]

theorem msgCount_zero (h1 : sweepsNested E l op = 0) (h2 : ∀ it, sweeps E l it op = 0) (h3 : sweepsClean E l op = 0)
    (m : Nat) : msgCount E r l op m = 0 := by
  unfold msgCount
  rw [h1, h3]
  simp [h2]

theorem totalM_eq (h : E.Base) (hr : r < E.P) (m : Nat) : totalM E r l op m = msgCount E r l op m := by
  have hpos : 0 < E.L := h.valid.pos
  by_cases hl : l < E.L
  · by_cases h4 : op = 4 → l + 1 < E.L
    · unfold totalM msgCount
      rw [nestM_eq hl, loopM_eq hl, cleanM_eq hl]
      rcases links_iff h hr hl h4 with ⟨h1, h2⟩ | ⟨h1, h2⟩
      · rw [h1, if_pos h2]
        simp only [Nat.one_mul]
        congr 1
        by_cases hm : 0 < m <;> simp [hm]
      · rw [h1, if_neg h2]
        simp
    · obtain ⟨h4', h4''⟩ : op = 4 ∧ ¬ l + 1 < E.L := by
        by_contra hx
        exact h4 fun e => by by_contra hy; exact hx ⟨e, hy⟩
      subst h4'
      have z1 : sweepsNested E l 4 = 0 := if_neg h4''
      have z2 : ∀ it, sweeps E l it 4 = 0 := fun it => if_neg h4''
      have z3 : sweepsClean E l 4 = 0 := if_neg h4''
      rw [msgCount_zero z1 z2 z3]
      unfold totalM
      rw [nestM_eq hl, loopM_eq hl, cleanM_eq hl, z1, z3]
      simp [z2]
  · rw [totalM_big h (by omega)]
    have h1 : ¬ l + 1 < E.L := by omega
    have h2 : ¬ l + 1 = E.L := by omega
    have h3 : ¬ l = 0 := by omega
    refine (msgCount_zero ?_ (fun it => ?_) ?_ m).symm
    · unfold sweepsNested
      split <;> first | exact if_neg h1 | exact if_neg h2 | rfl
    · unfold sweeps
      split <;> first | exact if_neg h1 | exact if_neg h2 | exact if_neg h3 | exact if_neg (fun hx => h3 hx.1) | rfl
    · unfold sweepsClean
      split <;> first | exact if_neg h1 | exact if_neg h2 | exact if_neg h3 | rfl

/-! ### Executions with a log of the messages -/

section logged
variable {P : Nat} {M α : Type}

/-- Executions with crashes as in `FStep`, with the list of all messages sent so far: sender, receiver, tag and
content (`isend`, mgrit.py:704-713). -/
inductive Logged (c0 : FConf P M α) : List (Nat × Nat × Nat × M) → FConf P M α → Prop
  | nil : Logged c0 [] c0
  | send {log : List (Nat × Nat × Nat × M)} {r : Fin P} {d t : Nat} {m : M} {k : Prog M α} {p : Fin P → Prog M α}
      {q : Chans M} {dead : Fin P → Prop} (h : Logged c0 log ⟨⟨p, q⟩, dead⟩) (hr : ¬ dead r)
      (hp : p r = .send d t m k) (hd : d < P) :
      Logged c0 (log ++ [(r.val, d, t, m)]) ⟨⟨Function.update p r k, q.push r d t m⟩, dead⟩
  | recv {log : List (Nat × Nat × Nat × M)} {r : Fin P} {s t : Nat} {m : M} {ms : List M} {k : M → Prog M α}
      {p : Fin P → Prog M α} {q : Chans M} {dead : Fin P → Prop} (h : Logged c0 log ⟨⟨p, q⟩, dead⟩) (hr : ¬ dead r)
      (hp : p r = .recv s t k) (hq : q s r t = m :: ms) :
      Logged c0 log ⟨⟨Function.update p r (k m), q.pop s r t⟩, dead⟩
  | wait {log : List (Nat × Nat × Nat × M)} {r : Fin P} {k : Prog M α} {p : Fin P → Prog M α} {q : Chans M}
      {dead : Fin P → Prop} (h : Logged c0 log ⟨⟨p, q⟩, dead⟩) (hr : ¬ dead r) (hp : p r = .wait k) :
      Logged c0 log ⟨⟨Function.update p r k, q⟩, dead⟩
  | crash {log : List (Nat × Nat × Nat × M)} (r : Fin P) {p : Fin P → Prog M α} {q q' : Chans M}
      {dead : Fin P → Prop} (h : Logged c0 log ⟨⟨p, q⟩, dead⟩)
      (hq : ∀ s d t, s ≠ r.val → q' s d t = q s d t) (hq' : ∀ d t, q' r.val d t <+: q r.val d t) :
      Logged c0 log ⟨⟨p, q'⟩, fun x => x = r ∨ dead x⟩

/-- Every execution has a log. -/
theorem FSteps.logged {c0 c : FConf P M α} (h : FSteps c0 c) : ∃ log, Logged c0 log c := by
  induction h with
  | refl => exact ⟨[], .nil⟩
  | tail _ hs ih =>
    obtain ⟨log, ih⟩ := ih
    cases hs with
    | send hr hp hd => exact ⟨_, .send ih hr hp hd⟩
    | recv hr hp hq => exact ⟨_, .recv ih hr hp hq⟩
    | wait hr hp => exact ⟨_, .wait ih hr hp⟩
    | crash r hq hq' => exact ⟨_, .crash r ih hq hq'⟩

/-- A logged execution is an execution. -/
theorem Logged.steps {c0 c : FConf P M α} {log : List (Nat × Nat × Nat × M)} (h : Logged c0 log c) :
    FSteps c0 c := by
  induction h with
  | nil => exact .refl
  | send _ hr hp hd ih => exact ih.tail (.send hr hp hd)
  | recv _ hr hp hq ih => exact ih.tail (.recv hr hp hq)
  | wait _ hr hp ih => exact ih.tail (.wait hr hp)
  | crash r _ hq hq' ih => exact ih.tail (.crash r hq hq')

end logged

/-- The messages of process `r` of kind `op` on level `l`. -/
def sentBy (r l op : Nat) (log : List (Nat × Nat × Nat × Msg V N)) : List (Nat × Nat × Nat × Msg V N) :=
  log.filter fun x => decide (x.1 = r ∧ x.2.2.2.lvl = l ∧ x.2.2.2.op = op)

theorem Logged.sent {P : Nat} {α : Type} {c0 c : FConf P (Msg V N) α} {log : List (Nat × Nat × Nat × Msg V N)}
    (h : Logged c0 log c) (r : Fin P) {G : Nat → Nat → Nat → Prop} {Q : α → Nat → Prop}
    (h0 : (c0.conf.prog r).Sent l op G Q 0) :
    (c.conf.prog r).Sent l op G Q (sentBy r l op log).length ∧
      ∀ i x, (sentBy r l op log)[i]? = some x → G x.2.1 x.2.2.1 i := by
  induction h with
  | nil => exact ⟨h0, fun i x hx => by simp [sentBy] at hx⟩
  | @send log q d t m k p ch dead h hq hp hd ih =>
    obtain ⟨ih1, ih2⟩ := ih
    by_cases hqr : q = r
    · subst hqr
      dsimp only at ih1 ⊢
      rw [hp] at ih1
      rw [Function.update_self]
      unfold Prog.Sent at ih1
      by_cases hm : m.lvl = l ∧ m.op = op
      · rw [if_pos hm] at ih1
        have e : sentBy q.val l op (log ++ [(q.val, d, t, m)]) = sentBy q.val l op log ++ [(q.val, d, t, m)] := by
          simp [sentBy, hm]
        rw [e]
        refine ⟨by rw [List.length_append]; exact ih1.2, fun i x hx => ?_⟩
        rw [List.getElem?_append] at hx
        split at hx
        · exact ih2 i x hx
        · rename_i hi
          have : i = (sentBy q.val l op log).length := by
            by_contra hne
            rw [List.getElem?_eq_none (by simp; omega)] at hx
            simp at hx
          subst this
          simp at hx
          subst hx
          exact ih1.1
      · rw [if_neg hm] at ih1
        have e : sentBy q.val l op (log ++ [(q.val, d, t, m)]) = sentBy q.val l op log := by
          have : ¬ (m.lvl = l ∧ m.op = op) := hm
          simp [sentBy, this]
        rw [e]
        exact ⟨ih1, ih2⟩
    · dsimp only at ih1 ⊢
      rw [Function.update_of_ne (Ne.symm hqr)]
      have hv : q.val ≠ r.val := fun e => hqr (Fin.ext e)
      have e : sentBy r.val l op (log ++ [(q.val, d, t, m)]) = sentBy r.val l op log := by
        simp [sentBy, hv]
      rw [e]
      exact ⟨ih1, ih2⟩
  | @recv log q s t m ms k p ch dead h hq hp hc ih =>
    refine ⟨?_, ih.2⟩
    by_cases hqr : q = r
    · subst hqr
      have ih1 := ih.1
      dsimp only at ih1 ⊢
      rw [hp] at ih1
      rw [Function.update_self]
      exact ih1 m
    · dsimp only
      rw [Function.update_of_ne (Ne.symm hqr)]
      exact ih.1
  | @wait log q k p ch dead h hq hp ih =>
    refine ⟨?_, ih.2⟩
    by_cases hqr : q = r
    · subst hqr
      have ih1 := ih.1
      dsimp only at ih1 ⊢
      rw [hp] at ih1
      rw [Function.update_self]
      exact ih1
    · dsimp only
      rw [Function.update_of_ne (Ne.symm hqr)]
      exact ih.1
  | crash q h hq hq' ih => exact ih

/-- C114: in every execution, with any schedule, any crashes and any early completion of `Waitall`, message number
`i` of kind `op` on level `l` of a process goes to the next process with points on that level and has tag
`50000 (op + 1) + i`; there are never more messages than those of `max_iter` iterations; and a process that returns
from `solve()` after `m` iterations has sent exactly `msgCount` of them. -/
theorem C114_messages (h : E.Base) {log : List (Nat × Nat × Nat × Msg V N)} [Zero N]
    {c : FConf E.P (Msg V N) (PState V N)} (hx : Logged (startConf E).alive log c) (r : Fin E.P) (l op : Nat)
    (hop : op < 8) :
    (∀ i x, (sentBy r l op log)[i]? = some x →
      (if op = 6 then x.2.1 = r.val + 1 else Adj E.ts E.P (if op = 4 then l + 1 else l) r x.2.1) ∧
      x.2.2.1 = 50000 * (op + 1) + i) ∧
    (sentBy r l op log).length ≤ msgCount E r l op E.maxIter ∧
    ∀ s, c.conf.prog r = .ret s → s.solveIter ≤ E.maxIter ∧
      (sentBy r l op log).length = msgCount E r l op s.solveIter := by
  have h0 := Sent.mainP (l := l) (op := op) (b := 50000 * (op + 1)) h r.isLt (by omega)
    (E.initState (fun r l => off E.ts E.P l r) r) rfl rfl
  obtain ⟨h1, h2⟩ := hx.sent r (l := l) (op := op) h0
  refine ⟨fun i x hi => ⟨(h2 i x hi).1, (h2 i x hi).2.1⟩, ?_, fun s hs => ?_⟩
  · rw [← totalM_eq h r.isLt]
    rcases Nat.eq_zero_or_pos (sentBy r l op log).length with hz | hz
    · omega
    · obtain ⟨x, hx⟩ : ∃ x, (sentBy r l op log)[(sentBy r l op log).length - 1]? = some x :=
        ⟨_, List.getElem?_eq_getElem (by omega)⟩
      have := (h2 _ x hx).2.2
      omega
  · rw [hs] at h1
    unfold Prog.Sent at h1
    rw [← totalM_eq h r.isLt]
    exact h1

/-- C114, the sum in closed form: every iteration uses the same number of messages, except that the first one has an
additional F-relaxation on the finest level. -/
theorem C114_iterations (hop : op < 8) (m : Nat) :
    ((List.range m).map fun it => sweeps E l it op).sum =
      m * sweeps E l 1 op + (if op ≤ 1 ∧ l = 0 ∧ 1 < E.L ∧ 0 < m then 1 else 0) := by
  have hs : ∀ it, 0 < it → sweeps E l it op = sweeps E l 1 op := by
    intro it hit
    unfold sweeps
    split <;> first | rfl | (simp [show it ≠ 0 by omega])
  induction m with
  | zero => simp
  | succ m ih =>
    rw [List.range_succ, List.map_append, List.sum_append, ih]
    simp only [List.map_cons, List.map_nil, List.sum_cons, List.sum_nil, Nat.add_zero]
    rcases Nat.eq_zero_or_pos m with hm | hm
    · subst hm
      match op with
      | 0 | 1 =>
        by_cases h0 : l = 0
        · subst h0
          by_cases hL : 0 + 1 < E.L
          · have hL' : 1 < E.L := by omega
            simp [sweeps, hL']
          · have hL' : ¬ 1 < E.L := by omega
            simp [sweeps, hL']
        · simp [sweeps, h0]
      | 2 | 3 | 4 | 5 | 6 | 7 => simp [sweeps]
    · rw [hs m hm]
      by_cases hc : op ≤ 1 ∧ l = 0 ∧ 1 < E.L
      · rw [if_pos ⟨hc.1, hc.2.1, hc.2.2, hm⟩, if_pos ⟨hc.1, hc.2.1, hc.2.2, by omega⟩]
        ring
      · rw [if_neg (fun hx => hc ⟨hx.1, hx.2.1, hx.2.2.1⟩), if_neg (fun hx => hc ⟨hx.1, hx.2.1, hx.2.2.1⟩)]
        ring

/-- The smallest value that the MPI standard allows for the largest tag (`MPI_TAG_UB`). -/
def mpiTagUB : Nat := 32767

/-- C114 for the tags: all messages of the sweeps have tags beyond the bound that MPI guarantees, so that an MPI
library with that bound rejects the first one. -/
theorem C114_tag_bound (h : E.Base) {log : List (Nat × Nat × Nat × Msg V N)} [Zero N]
    {c : FConf E.P (Msg V N) (PState V N)} (hx : Logged (startConf E).alive log c) (r : Fin E.P) (l op : Nat)
    (hop : op < 8) (x : Nat × Nat × Nat × Msg V N) (hm : x ∈ sentBy r l op log) : mpiTagUB < x.2.2.1 := by
  obtain ⟨i, hi⟩ := List.getElem?_of_mem hm
  have := ((C114_messages h hx r l op hop).1 i x hi).2
  unfold mpiTagUB
  omega

/-- C114, what is needed instead: the tags of a run stay below `50000 (op + 1)` plus the number of messages. -/
theorem C114_tags_partial (h : E.Base) {log : List (Nat × Nat × Nat × Msg V N)} [Zero N]
    {c : FConf E.P (Msg V N) (PState V N)} (hx : Logged (startConf E).alive log c) (r : Fin E.P) (l op : Nat)
    (hop : op < 8) (x : Nat × Nat × Nat × Msg V N) (hm : x ∈ sentBy r l op log) :
    x.2.2.1 < 50000 * (op + 1) + msgCount E r l op E.maxIter := by
  obtain ⟨i, hi⟩ := List.getElem?_of_mem hm
  obtain ⟨h1, h2, -⟩ := C114_messages h hx r l op hop
  have := (h1 i x hi).2
  have : i < (sentBy r l op log).length := by
    by_contra hge
    rw [List.getElem?_eq_none (by omega)] at hi
    simp at hi
  omega

theorem msgCount_pos (hl : links E r l op) {m : Nat} (hm : 0 < m) (hs : ∀ it, 0 < sweeps E l it op) :
    0 < msgCount E r l op m := by
  unfold msgCount
  rw [if_pos hl]
  obtain ⟨k, rfl⟩ : ∃ k, m = k + 1 := ⟨m - 1, by omega⟩
  rw [List.range_succ, List.map_append, List.sum_append]
  have := hs k
  simp only [List.map_cons, List.map_nil, List.sum_cons, List.sum_nil]
  omega

/-- C114, such messages exist: on at least two processes and with at least one iteration process 0 has sent a message
whose tag MPI need not accept. -/
theorem C114_beyond (h : E.Good) (hP : 1 < E.P) {log : List (Nat × Nat × Nat × Msg V N)} [Zero N]
    {c : FConf E.P (Msg V N) (PState V N)} (hx : Logged (startConf E).alive log c) {s : PState V N}
    (hs : c.conf.prog ⟨0, h.Ppos⟩ = .ret s) (hm : 0 < s.solveIter) :
    ∃ x ∈ log, x.1 = 0 ∧ mpiTagUB < x.2.2.1 := by
  have hpos : 0 < E.L := h.valid.pos
  have hb : E.Base := h.toBase
  have hn : hasNext E 0 0 := by
    have h1 := lo_lt hb (show 0 < E.P by omega)
    have h2 := lo_lt hb (show 1 < E.P by omega)
    have h3 := hb.lo_le 0 2
    exact ⟨h1, Nat.lt_of_lt_of_le h2 h3⟩
  obtain ⟨op, hop, hl, hsw⟩ : ∃ op, op < 8 ∧ links E 0 0 op ∧ ∀ it, 0 < sweeps E 0 it op := by
    by_cases hL : E.L = 1
    · exact ⟨5, by omega, hn, fun it => by simp [sweeps, hL]⟩
    · have hL' : 0 + 1 < E.L := by omega
      by_cases hC : endsC E 0 0
      · by_cases hC' : nextC E 0 0
        · refine ⟨4, by omega, ⟨?_, ?_⟩, fun it => by simp [sweeps, hL']⟩
          · rw [hb.lo_zero hL']
            exact hb.lo_pos hL' (by omega) (by omega)
          · obtain ⟨k, hk, hke⟩ := List.getElem_of_mem hC'
            have hk' : k < npts E.ts (0 + 1) := by
              rw [allC_length h.valid hL'] at hk
              exact hk
            have h2 := cpt_lt_lo h.valid h.Ppos h.PN hL' (show 0 + 1 ≤ E.P by omega) hk'
            rw [show (allC E.ts 0).getD k 0 = lo E.ts E.P 0 (0 + 1) by simp [hk, hke]] at h2
            have := h2.not.1 (Nat.lt_irrefl _)
            omega
        · exact ⟨0, by omega, ⟨hn, hC, hC'⟩, fun it => by
            simp only [sweeps, if_pos hL', if_true]
            omega⟩
      · by_cases hC' : nextC E 0 0
        · exact ⟨3, by omega, ⟨hn, hC, hC'⟩, fun it => by simp only [sweeps, if_pos hL']; simp⟩
        · exact ⟨1, by omega, ⟨hn, hC, hC'⟩, fun it => by
            simp only [sweeps, if_pos hL', if_true]
            omega⟩
  have h3 := ((C114_messages hb hx ⟨0, h.Ppos⟩ 0 op hop).2.2 s hs).2
  have h4 := msgCount_pos hl hm hsw
  dsimp only at h3
  have h5 : 0 < (sentBy 0 0 op log).length := by omega
  obtain ⟨x, hxm⟩ := List.exists_mem_of_length_pos h5
  have h6 := C114_tag_bound hb hx ⟨0, h.Ppos⟩ 0 op hop x hxm
  have h7 := List.mem_filter.1 hxm
  have h8 := of_decide_eq_true h7.2
  exact ⟨x, h7.1, h8.1, h6⟩

/-- The hypotheses are met by the example on 4 processes (F-cycles, nested iteration), where process 0 sends the value of
its last point, a C-point, in every F-relaxation of the finest level: 3 times in the first, 2 times in the others of `m`
iterations. -/
example (m : Nat) (hm : 0 < m) : (exCfg 4).Good ∧ 1 < (exCfg 4).P ∧ msgCount (exCfg 4) 0 0 0 m = 2 * m + 1 := by
  refine ⟨exCfg_good 4 (by decide) (by decide), by decide, ?_⟩
  have hl : links (exCfg 4) 0 0 0 := by
    show (_ ∧ _) ∧ _ ∧ ¬ _
    unfold endsC nextC
    decide
  unfold msgCount
  rw [if_pos hl, C114_iterations (by decide)]
  have e1 : (if (exCfg 4).nested = true then sweepsNested (exCfg 4) 0 0 else 0) = 0 := by decide
  have e2 : sweeps (exCfg 4) 0 1 0 = 2 := by decide
  have e3 : 1 < (exCfg 4).L := by decide
  have e4 : ¬ (((exCfg 4).convCrit ≠ 0 ∧ (exCfg 4).convCrit ≠ 1) ∧ 0 < m) := fun h => h.1.1 rfl
  rw [e1, e2, if_pos ⟨by omega, rfl, e3, hm⟩, if_neg e4]
  omega

end Pymgrit
