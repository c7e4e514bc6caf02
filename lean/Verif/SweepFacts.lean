import Verif.Spec
import Mathlib.Tactic.Ring

/-! Helper facts about whole iterations. -/

set_option linter.unusedSectionVars false

namespace Pymgrit
namespace Sys
variable {V K : Type} {S : Sys V K}

section noalg
variable [Add V]

theorem WF.fRelax_idem (h : S.WF) {l : Nat} (hl : l + 1 < S.L) {s : GState V}
    (hF : ∀ i, i < S.n l → i ∉ S.C l → s.u l i = S.prop s.g l i (s.u l (i - 1))) :
    S.fRelax l s = s := by
  have : sweep (S.F l) (fun u i => S.prop s.g l i (u (i - 1))) (s.u l) = s.u l := by
    refine sweep_unique (h.F_compat l hl) (fun i x => S.prop s.g l i x) _ _ (h.F_pos hl) ?_
      (fun _ _ => rfl)
    intro i hi
    have := (h.F_mem l hl i).1 hi
    exact hF i this.1 this.2
  unfold fRelax
  rw [this]
  simp [GState.setU]

/-- F-points of level `l` satisfy the recurrence. -/
def FRelaxed (S : Sys V K) (l : Nat) (s : GState V) : Prop :=
  ∀ i, i < S.n l → i ∉ S.C l → s.u l i = S.prop s.g l i (s.u l (i - 1))

theorem WF.fRelax_relaxed (h : S.WF) {l : Nat} (hl : l + 1 < S.L) (s : GState V) :
    FRelaxed S l (S.fRelax l s) := fun _ hi hC => h.fRelax_F hl s hi hC

variable [Sub V] [SMul K V] [One K] [Sub K]

theorem vcyc_relaxed (h : S.WF) (coarse : Nat → GState V → GState V) (d l it : Nat) (ff : Bool)
    (hl : l + 1 < S.L) (s : GState V) : FRelaxed S l (S.vcyc coarse (d + 1) l it ff s) := by
  simp only [vcyc]
  exact h.fRelax_relaxed hl _

theorem iteration_relaxed (h : S.WF) (coarse : Nat → GState V → GState V) (d l it : Nat)
    (cyc : Cycle) (ff : Bool) (hl : l + 1 < S.L) (s : GState V) :
    FRelaxed S l (S.iteration coarse (d + 1) l cyc it ff s) := by
  simp only [iteration]
  split
  · exact vcyc_relaxed h coarse d l it false hl _
  · exact h.fRelax_relaxed hl _

theorem vcyc_it (coarse : Nat → GState V → GState V) (d l it it' : Nat) (ff : Bool) (hl : 0 < l)
    (s : GState V) : S.vcyc coarse d l it ff s = S.vcyc coarse d l it' ff s := by
  induction d generalizing l ff s with
  | zero => rfl
  | succ d ih =>
    have e : ∀ it, ((0 < l ∨ it = 0 ∧ l = 0) ∧ ff = true) ↔ ff = true := by
      intro it; simp [hl]
    simp only [vcyc, e]
    rw [ih (l + 1) true (by omega)]

theorem iteration_it (coarse : Nat → GState V → GState V) (d l it it' : Nat) (cyc : Cycle)
    (ff : Bool) (hl : 0 < l) (s : GState V) :
    S.iteration coarse d l cyc it ff s = S.iteration coarse d l cyc it' ff s := by
  induction d generalizing l ff s with
  | zero => rfl
  | succ d ih =>
    have e : ∀ it, ((0 < l ∨ it = 0 ∧ l = 0) ∧ ff = true) ↔ ff = true := by
      intro it; simp [hl]
    simp only [iteration, e]
    rw [ih (l + 1) true (by omega), vcyc_it coarse (d + 1) l it it' false hl]

/-- From an F-relaxed state the iteration number does not matter. -/
theorem WF.fineIteration_it (h : S.WF) (coarse : Nat → GState V → GState V) (cyc : Cycle)
    (it it' : Nat) {s : GState V} (hs : 1 < S.L → FRelaxed S 0 s) :
    S.fineIteration coarse cyc it s = S.fineIteration coarse cyc it' s := by
  unfold fineIteration
  have hL := h.Lpos
  obtain ⟨d, hd⟩ : ∃ d, S.L - 1 = d := ⟨_, rfl⟩
  rw [hd]
  cases d with
  | zero => rfl
  | succ d =>
    have hid := h.fRelax_idem (l := 0) (by omega) (hs (by omega))
    simp only [iteration]
    have e : ∀ (p : Prop) [Decidable p], (if p then S.fRelax 0 s else s) = s := by
      intro p _; split
      · exact hid
      · rfl
    rw [e, e, iteration_it coarse d (0 + 1) it it' cyc true (by omega)]
    simp

/-- The first iteration starts with an F-relaxation. -/
theorem WF.fineIteration_first (h : S.WF) (coarse : Nat → GState V → GState V) (cyc : Cycle)
    (hL : 1 < S.L) (s : GState V) :
    S.fineIteration coarse cyc 0 s = S.fineIteration coarse cyc 0 (S.fRelax 0 s) := by
  unfold fineIteration
  obtain ⟨d, hd⟩ : ∃ d, S.L - 1 = d + 1 := ⟨S.L - 2, by omega⟩
  have hid := h.fRelax_idem (l := 0) (by omega) (h.fRelax_relaxed (l := 0) (by omega) s)
  rw [hd]
  simp [iteration, hid]

theorem WF.fineIteration_relaxed (h : S.WF) (coarse : Nat → GState V → GState V) (cyc : Cycle)
    (it : Nat) (s : GState V) (hL : 1 < S.L) : FRelaxed S 0 (S.fineIteration coarse cyc it s) := by
  unfold fineIteration
  obtain ⟨d, hd⟩ : ∃ d, S.L - 1 = d + 1 := ⟨S.L - 2, by omega⟩
  rw [hd]
  exact iteration_relaxed h coarse d 0 it cyc true (by omega) s

theorem WF.fineIteration_keeps (h : S.WF) {coarse : Nat → GState V → GState V}
    (hcoarse : ∀ s, Keeps (S.L - 1) s (coarse (S.L - 1) s)) (cyc : Cycle) (it : Nat)
    (s : GState V) : Keeps 0 s (S.fineIteration coarse cyc it s) :=
  h.keeps_iteration hcoarse (S.L - 1) 0 it cyc true (by have := h.Lpos; omega) s

end noalg

section alg
variable [AddCommGroup V] [Ring K] [Module K V]

/-- Growth of the exact prefix over several iterations, for any coarsest-level solver that keeps
and extends exact prefixes. -/
theorem WF.iterates_interval (h : S.WF) (hw : S.w = 1) (hL : 1 < S.L)
    (hR : ∀ l, l + 1 < S.L → S.R l 0 = 0) (hI : ∀ l, l + 1 < S.L → S.I l 0 = 0)
    (hIR : ∀ l, l + 1 < S.L → ∀ x, S.I l (S.R l x) = x)
    {coarse : Nat → GState V → GState V}
    (hcoarse : ∀ s, Pres S (S.L - 1) s (coarse (S.L - 1) s))
    (hgc : ∀ s, Grows S (S.L - 1) s (coarse (S.L - 1) s)) (cyc : Cycle) (k : Nat) (s : GState V) :
    Exact S 0 (iterates S coarse cyc (k + 1) s) (S.intEnd 0 ((k + 1) * (S.cf 0 + 1))) := by
  obtain ⟨d, hd⟩ : ∃ d, S.L - 1 = d + 1 := ⟨S.L - 2, by omega⟩
  have step : ∀ it s j, Exact S 0 s (S.intEnd 0 j) →
      Exact S 0 (S.fineIteration coarse cyc it s) (S.intEnd 0 (j + S.cf 0 + 1)) := by
    intro it s j he
    unfold fineIteration
    rw [hd]
    exact h.interval_iteration hw hR hI hIR hcoarse hgc d 0 it cyc true (by omega) s j he
  induction k with
  | zero =>
    show Exact S 0 (S.fineIteration coarse cyc 0 s) _
    rw [h.fineIteration_first coarse cyc hL s]
    have := step 0 (S.fRelax 0 s) 0 (h.fRelax_interval (by omega) (fun _ => ?_) (fun hj => ?_))
    · simpa using this
    · intro i h1 hi
      rw [h.cpt_zero (by omega)] at hi; omega
    · have := h.npos (0 + 1) (by omega); omega
  | succ k ih =>
    have := step (k + 1) _ _ ih
    have e : (k + 1 + 1) * (S.cf 0 + 1) = (k + 1) * (S.cf 0 + 1) + S.cf 0 + 1 := by ring
    rw [e]
    exact this

theorem WF.iterates_interval_anyw (h : S.WF) (hL : 1 < S.L)
    (hR : ∀ l, l + 1 < S.L → S.R l 0 = 0) (hI : ∀ l, l + 1 < S.L → S.I l 0 = 0)
    (hIR : ∀ l, l + 1 < S.L → ∀ x, S.I l (S.R l x) = x)
    {coarse : Nat → GState V → GState V}
    (hcoarse : ∀ s, Pres S (S.L - 1) s (coarse (S.L - 1) s))
    (hgc : ∀ s, Grows S (S.L - 1) s (coarse (S.L - 1) s)) (cyc : Cycle) (k : Nat) (s : GState V) :
    Exact S 0 (iterates S coarse cyc (k + 1) s) (S.intEnd 0 (k + 1)) := by
  obtain ⟨d, hd⟩ : ∃ d, S.L - 1 = d + 1 := ⟨S.L - 2, by omega⟩
  have step : ∀ it s j, Exact S 0 s (S.intEnd 0 j) →
      Exact S 0 (S.fineIteration coarse cyc it s) (S.intEnd 0 (j + 1)) := by
    intro it s j he
    unfold fineIteration
    rw [hd]
    exact h.interval_iteration_anyw hR hI hIR hcoarse hgc d 0 it cyc true (by omega) s j he
  induction k with
  | zero =>
    show Exact S 0 (S.fineIteration coarse cyc 0 s) _
    rw [h.fineIteration_first coarse cyc hL s]
    have := step 0 (S.fRelax 0 s) 0 (h.fRelax_interval (by omega) (fun _ => ?_) (fun hj => ?_))
    · simpa using this
    · intro i h1 hi
      rw [h.cpt_zero (by omega)] at hi; omega
    · have := h.npos (0 + 1) (by omega); omega
  | succ k ih => exact step (k + 1) _ _ ih

theorem grows_forwardSolve (l : Nat) (s : GState V) : Grows S l s (S.forwardSolve l s) :=
  fun p _ => exact_forwardSolve l s (p + 1)

end alg
end Sys
end Pymgrit
