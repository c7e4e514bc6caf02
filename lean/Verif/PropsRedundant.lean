import Verif.SeqLemmas
import Verif.Hier
import Mathlib.Algebra.Group.Basic
import Mathlib.Tactic.Abel

/-!
# C140: a coarsest level with the same time points as the level above

`examples/petsc4py/example_gray_scott_2d_petsc.py:35-36` builds both coarse levels from `problem_level_0.t[::2]`: the third level has
the points of the second one.  With the same time integrator and identity transfers such a level has no effect on the values.
-/

namespace Pymgrit.Redundant

open Sys

variable {V K : Type} [AddCommGroup V] [SMul K V] [One K] [Sub K] {S S' : Sys V K}

/-- Level `l + 1` is the coarsest one and a copy of level `l`: the same points, the same time integrator, transfers that do nothing. -/
structure Copy (S : Sys V K) (l : Nat) : Prop where
  top : l + 2 = S.L
  points : S.C l = List.range (S.n l)
  restr : ∀ x, S.R l x = x
  interp : ∀ x, S.I l x = x
  step : ∀ i x, S.Φ (l + 1) i x = S.Φ l i x

/-- `S'` is the solver `S` without its coarsest level `l + 1`. -/
structure Without (S S' : Sys V K) (l : Nat) : Prop where
  L : S.L = l + 2
  L' : S'.L = l + 1
  n : S.n l = S'.n l
  C : ∀ k, k < l → S.C k = S'.C k
  F : ∀ k, k < l → S.F k = S'.F k
  R : ∀ k, k < l → S.R k = S'.R k
  I : ∀ k, k < l → S.I k = S'.I k
  cf : ∀ k, k < l → S.cf k = S'.cf k
  step : ∀ k, k ≤ l → S.Φ k = S'.Φ k
  w : S.w = S'.w

/-- The same data on the levels up to `l`. -/
def Agree (l : Nat) (s t : GState V) : Prop := ∀ j, j ≤ l → s.u j = t.u j ∧ s.v j = t.v j ∧ s.g j = t.g j

theorem Agree.refl (l : Nat) (s : GState V) : Agree l s s := fun _ _ => ⟨rfl, rfl, rfl⟩

theorem Agree.trans {l : Nat} {s t r : GState V} (h1 : Agree l s t) (h2 : Agree l t r) : Agree l s r :=
  fun j hj => ⟨(h1 j hj).1.trans (h2 j hj).1, (h1 j hj).2.1.trans (h2 j hj).2.1, (h1 j hj).2.2.trans (h2 j hj).2.2⟩

theorem Agree.symm {l : Nat} {s t : GState V} (h : Agree l s t) : Agree l t s :=
  fun j hj => ⟨(h j hj).1.symm, (h j hj).2.1.symm, (h j hj).2.2.symm⟩

theorem agree_setU {l k : Nat} {s t : GState V} (h : Agree l s t) {x y : Nat → V} (e : x = y) : Agree l (s.setU k x) (t.setU k y) := by
  intro j hj
  refine ⟨?_, (h j hj).2.1, (h j hj).2.2⟩
  by_cases hk : j = k
  · subst hk; simp [e]
  · rw [GState.setU_u_ne _ _ hk, GState.setU_u_ne _ _ hk]; exact (h j hj).1

theorem prop_congr {l k : Nat} {s t : GState V} (h : Agree l s t) (hk : k ≤ l) (e : S.Φ k = S'.Φ k) (i : Nat) (x : V) :
    S.prop s.g k i x = S'.prop t.g k i x := by unfold prop; rw [(h k hk).2.2, e]

theorem agree_forward {l k : Nat} {s t : GState V} (h : Agree l s t) (hk : k ≤ l) (e : S.Φ k = S'.Φ k) (en : S.n k = S'.n k) :
    Agree l (S.forwardSolve k s) (S'.forwardSolve k t) := by
  refine agree_setU h ?_
  simp only [prop_congr h hk e, (h k hk).1, en]

section without

variable {l k : Nat} (hw : Without S S' l) {s t : GState V} (h : Agree l s t) (hk : k < l)
include hw h hk

theorem agree_fRelax : Agree l (S.fRelax k s) (S'.fRelax k t) := by
  refine agree_setU h ?_
  simp only [prop_congr h hk.le (hw.step k hk.le), (h k hk.le).1, hw.F k hk]

theorem agree_cRelax : Agree l (S.cRelax k s) (S'.cRelax k t) := by
  refine agree_setU h ?_
  simp only [prop_congr h hk.le (hw.step k hk.le), (h k hk.le).1, hw.C k hk, hw.w]

theorem agree_corr : Agree l (S.errorCorrection k s) (S'.errorCorrection k t) := by
  refine agree_setU h ?_
  simp only [(h k hk.le).1, (h (k + 1) hk).1, (h (k + 1) hk).2.1, hw.C k hk, hw.I k hk]

theorem agree_interp : Agree l (S.interpolate k s) (S'.interpolate k t) := by
  refine agree_setU h ?_
  simp only [(h k hk.le).1, (h (k + 1) hk).1, hw.C k hk, hw.I k hk]

theorem agree_fas : Agree l (S.fasResidual k s) (S'.fasResidual k t) := by
  have e : ∀ c, S.fasRes s k c = S'.fasRes t k c := by
    intro c; unfold fasRes; rw [(h k hk.le).1, (h k hk.le).2.2, hw.R k hk, hw.step k hk.le]
  intro j hj
  by_cases hjk : j = k + 1
  · subst hjk
    simp only [fasResidual, Function.update_self, e, (h k hk.le).1, (h (k + 1) hj).1, (h (k + 1) hj).2.2, hw.C k hk, hw.R k hk,
      hw.step (k + 1) hj, and_self]
  · rw [fasResidual_u_ne _ hjk, fasResidual_u_ne _ hjk, fasResidual_v_ne _ hjk, fasResidual_v_ne _ hjk, fasResidual_g_ne _ hjk,
      fasResidual_g_ne _ hjk]
    exact h j hj

end without

theorem agree_times {l : Nat} {f f' : GState V → GState V} (hf : ∀ s t, Agree l s t → Agree l (f s) (f' t)) {k k' : Nat}
    (e : k = k') {s t : GState V} (h : Agree l s t) : Agree l (times f k s) (times f' k' t) := by
  subst e
  induction k generalizing s t with
  | zero => exact h
  | succ k ih => exact ih (hf s t h)

/-- The time stepping of a level only depends on its initial value, its right-hand side and the entries beyond the grid. -/
theorem forward_congr {l : Nat} {s t : GState V} (hg : s.g l = t.g l) (hu : ∀ i, i = 0 ∨ S.n l ≤ i → s.u l i = t.u l i) :
    (S.forwardSolve l s).u l = (S.forwardSolve l t).u l := by
  have hp : ∀ i x, S.prop s.g l i x = S.prop t.g l i x := by intro i x; unfold prop; rw [hg]
  simp only [forwardSolve, GState.setU_u_same]
  refine sweep_unique (Compat.of_sorted List.pairwise_lt_range') (fun i x => S.prop s.g l i x) (s.u l) _ ?_ ?_ ?_
  · intro i hi; simp at hi; omega
  · intro i hi
    have := sweep_post (Compat.of_sorted List.pairwise_lt_range') (fun i x => S.prop t.g l i x) (t.u l)
      (idx := List.range' 1 (S.n l - 1)) (by intro i hi; simp at hi; omega) i hi
    rw [hp]
    exact this
  · intro i hi
    rw [sweep_of_not_mem hi, hu i]
    simp at hi
    omega

section tail

variable (h : S.WF) {l : Nat} (hc : Copy S l)
include h hc

theorem hlt : l + 1 < S.L := by have := hc.top; omega

theorem n_eq : S.n (l + 1) = S.n l := by
  rw [← h.C_len l (hlt h hc), hc.points, List.length_range]

theorem cpt_id {k : Nat} (hk : k < S.n l) : S.cpt l k = k := by
  rw [cpt_eq (by rw [hc.points, List.length_range]; exact hk)]
  simp [hc.points]

theorem F_nil : S.F l = [] := by
  rw [List.eq_nil_iff_forall_not_mem]
  intro i hi
  have := (h.F_mem l (hlt h hc) i).1 hi
  rw [hc.points, List.mem_range] at this
  exact this.2 this.1

theorem fRelax_id (s : GState V) : S.fRelax l s = s := by
  unfold fRelax
  rw [F_nil h hc, sweep_nil]
  simp [GState.setU]

/-- Coarse-grid correction by a copy of the level: time stepping. -/
theorem correction (s : GState V) :
    Agree l (S.errorCorrection l (S.forwardSolve (l + 1) (S.fasResidual l s))) (S.forwardSolve l s) := by
  have hl := hlt h hc
  have hn := n_eq h hc
  set r := S.fasResidual l s with hr
  set q := S.forwardSolve (l + 1) r with hq
  have hru : ∀ k, k < S.n l → r.u (l + 1) k = s.u l k := by
    intro k hk
    rw [hr, h.fasResidual_u hl s (by rw [hn]; exact hk), hc.restr, cpt_id h hc hk]
  have hql : q.u l = s.u l := by rw [hq, forwardSolve_u_ne _ (by omega), hr, fasResidual_u_ne _ (by omega)]
  have hqv : ∀ k, k < S.n l → q.v (l + 1) k = s.u l k := by
    intro k hk
    rw [hq, forwardSolve_v, hr, fasResidual_v_eq, ← hr, hru k hk]
  -- the right-hand side of the copy is that of the level
  have hprop : ∀ k x, k ≠ 0 → k < S.n l → S.prop r.g (l + 1) k x = S.prop s.g l k x := by
    intro k x h0 hk
    have e := h.fasResidual_g hl s (k := k) (by rw [hn]; exact hk) h0
    rw [← hr, hru k hk, hru (k - 1) (by omega), cpt_id h hc hk, hc.step] at e
    unfold prop
    rw [if_neg (Nat.succ_ne_zero l), e, hc.step]
    unfold fasRes
    split
    · rw [hc.restr]; abel
    · rw [hc.restr]; abel
  have hsol : ∀ k, k < S.n l → q.u (l + 1) k = (S.forwardSolve l s).u l k := by
    intro k
    induction k with
    | zero => intro hk; rw [hq, forwardSolve_zero, forwardSolve_zero, hru 0 hk]
    | succ k ih =>
      intro hk
      rw [hq, forwardSolve_pos r (by omega) (by rw [hn]; exact hk), ← hq, forwardSolve_pos s (by omega) hk,
        hprop (k + 1) _ (by omega) hk, Nat.add_sub_cancel, ih (by omega)]
  intro j hj
  refine ⟨?_, ?_, ?_⟩
  · by_cases hjl : j = l
    · subst hjl
      funext i
      by_cases hi : i ≠ 0 ∧ i < S.n j
      · have e := h.errorCorrection_C hl q (k := i) (by rw [hn]; exact hi.2) hi.1
        rw [cpt_id h hc hi.2, hc.interp, hql, hqv i hi.2, hsol i hi.2] at e
        rw [e]; abel
      · have hi' : i ∉ S.C j ∨ i = 0 := by
          rw [hc.points, List.mem_range]
          by_cases h0 : i = 0
          · exact Or.inr h0
          · exact Or.inl fun hlt => hi ⟨h0, hlt⟩
        rw [h.errorCorrection_not hl q hi', hql]
        simp only [forwardSolve, GState.setU_u_same]
        rw [sweep_of_not_mem]
        simp
        omega
    · rw [errorCorrection_u_ne _ hjl, hq, forwardSolve_u_ne _ (by omega), hr, fasResidual_u_ne _ (by omega),
        forwardSolve_u_ne _ hjl]
  · rw [errorCorrection_v, hq, forwardSolve_v, hr, fasResidual_v_ne _ (by omega), forwardSolve_v]
  · rw [errorCorrection_g, hq, forwardSolve_g, hr, fasResidual_g_ne _ (by omega), forwardSolve_g]

/-- The relaxation of the level is lost: time stepping starts from the initial value. -/
theorem forward_relaxed (k : Nat) (s : GState V) :
    Agree l (S.forwardSolve l (times (fun s => S.fRelax l (S.cRelax l s)) k s)) (S.forwardSolve l s) := by
  induction k generalizing s with
  | zero => exact Agree.refl _ _
  | succ k ih =>
    refine (ih _).trans ?_
    show Agree l (S.forwardSolve l (S.fRelax l (S.cRelax l s))) (S.forwardSolve l s)
    rw [fRelax_id h hc]
    intro j hj
    refine ⟨?_, by simp, by simp⟩
    by_cases hjl : j = l
    · subst hjl
      refine forward_congr (by simp) ?_
      rintro i (rfl | hi)
      · exact cRelax_zero s
      · exact cRelax_not_C s (by rw [hc.points, List.mem_range]; omega)
    · rw [forwardSolve_u_ne _ hjl, cRelax_u_ne _ hjl, forwardSolve_u_ne _ hjl]

theorem forward_forward (s : GState V) : Agree l (S.forwardSolve l (S.forwardSolve l s)) (S.forwardSolve l s) := by
  intro j hj
  refine ⟨?_, by simp, by simp⟩
  by_cases hjl : j = l
  · subst hjl
    refine forward_congr (by simp) ?_
    intro i hi
    simp only [forwardSolve, GState.setU_u_same]
    rw [sweep_of_not_mem]
    simp
    omega
  · rw [forwardSolve_u_ne _ hjl]

theorem tail_v (it : Nat) (ff : Bool) (s : GState V) : Agree l (S.vcyc S.forwardSolve 1 l it ff s) (S.forwardSolve l s) := by
  simp only [vcyc]
  rw [fRelax_id h hc (S.errorCorrection l _), fRelax_id h hc s, ite_self]
  exact (correction h hc _).trans (forward_relaxed h hc _ s)

theorem tail_i (cyc : Cycle) (it : Nat) (ff : Bool) (s : GState V) :
    Agree l (S.iteration S.forwardSolve 1 l cyc it ff s) (S.forwardSolve l s) := by
  simp only [iteration]
  rw [fRelax_id h hc (S.errorCorrection l _), fRelax_id h hc s, ite_self]
  have h1 := (correction h hc (times (fun s => S.fRelax l (S.cRelax l s)) (S.cf l) s)).trans (forward_relaxed h hc _ s)
  split
  · refine (tail_v h hc it false _).trans ?_
    exact (agree_forward h1 le_rfl rfl rfl).trans (forward_forward h hc s)
  · exact h1

variable (hw : Without S S' l)
include hw

theorem vcyc_agree (d k it : Nat) (ff : Bool) (hk : k + d = l) {s t : GState V} (hs : Agree l s t) :
    Agree l (S.vcyc S.forwardSolve (d + 1) k it ff s) (S'.vcyc S'.forwardSolve d k it ff t) := by
  induction d generalizing k ff s t with
  | zero =>
    have : k = l := by omega
    subst this
    exact (tail_v h hc it ff s).trans (agree_forward hs le_rfl (hw.step _ le_rfl) hw.n)
  | succ d ih =>
    rw [vcyc]
    conv => arg 3; rw [vcyc]
    refine agree_fRelax hw (agree_corr hw (ih (k + 1) true (by omega) (agree_fas hw (agree_times ?_ (hw.cf k (by omega)) ?_) (by omega))) (by omega)) (by omega)
    · exact fun s t h => agree_fRelax hw (agree_cRelax hw h (by omega)) (by omega)
    · split
      · exact agree_fRelax hw hs (by omega)
      · exact hs

theorem iteration_agree (d k : Nat) (cyc : Cycle) (it : Nat) (ff : Bool) (hk : k + d = l) {s t : GState V} (hs : Agree l s t) :
    Agree l (S.iteration S.forwardSolve (d + 1) k cyc it ff s) (S'.iteration S'.forwardSolve d k cyc it ff t) := by
  induction d generalizing k ff s t with
  | zero =>
    have : k = l := by omega
    subst this
    exact (tail_i h hc cyc it ff s).trans (agree_forward hs le_rfl (hw.step _ le_rfl) hw.n)
  | succ d ih =>
    rw [iteration]
    conv => arg 3; rw [iteration]
    have key : Agree l
        (S.fRelax k (S.errorCorrection k (S.iteration S.forwardSolve (d + 1) (k + 1) cyc it true (S.fasResidual k
          (times (fun s => S.fRelax k (S.cRelax k s)) (S.cf k) (if (0 < k ∨ it = 0 ∧ k = 0) ∧ ff = true then S.fRelax k s else s))))))
        (S'.fRelax k (S'.errorCorrection k (S'.iteration S'.forwardSolve d (k + 1) cyc it true
          (S'.fasResidual k (times (fun s => S'.fRelax k (S'.cRelax k s)) (S'.cf k)
            (if (0 < k ∨ it = 0 ∧ k = 0) ∧ ff = true then S'.fRelax k t else t)))))) := by
      refine agree_fRelax hw (agree_corr hw (ih (k + 1) true (by omega) (agree_fas hw (agree_times ?_ (hw.cf k (by omega)) ?_) (by omega))) (by omega)) (by omega)
      · exact fun s t h => agree_fRelax hw (agree_cRelax hw h (by omega)) (by omega)
      · split
        · exact agree_fRelax hw hs (by omega)
        · exact hs
    split
    · exact vcyc_agree h hc hw (d + 1) k it false hk key
    · exact key

theorem nested_agree (k : Nat) (hk : k ≤ l) {s t : GState V} (hs : Agree l s t) :
    Agree l (S.nestedLoop S.forwardSolve k s) (S'.nestedLoop S'.forwardSolve k t) := by
  have ht := hc.top
  induction k generalizing s t with
  | zero => exact hs
  | succ k ih =>
    rw [nestedLoop]
    conv => arg 3; rw [nestedLoop]
    refine ih (by omega) ?_
    have h1 : Agree l (S.interpolate k s) (S'.interpolate k t) := agree_interp hw hs (by omega)
    split
    · have e1 : S.L - 1 - k = (l - k) + 1 := by omega
      have e2 : S'.L - 1 - k = l - k := by rw [hw.L']; omega
      rw [e1, e2]
      exact iteration_agree h hc hw (l - k) k Cycle.V 0 true (by omega) h1
    · exact h1

end tail

/-- The values after the nested iteration, if requested (mgrit.py:231-232), and `k` iterations (603-606). -/
def after (S : Sys V K) (nested : Bool) (cyc : Cycle) (s : GState V) : Nat → GState V
  | 0 => if nested then S.nestedIteration S.forwardSolve s else s
  | k + 1 => S.fineIteration S.forwardSolve cyc k (after S nested cyc s k)

theorem after_agree (h : S.WF) {l : Nat} (hc : Copy S l) (hw : Without S S' l) (hl : 0 < l) (nested : Bool) (cyc : Cycle) (s : GState V) (k : Nat) :
    Agree l (after S nested cyc s k) (after S' nested cyc s k) := by
  have ht := hc.top
  have eL : S'.L - 1 = l := by rw [hw.L']; omega
  induction k with
  | zero =>
    simp only [after]
    split
    · unfold nestedIteration
      rw [eL, show S.L - 1 = l + 1 by omega, nestedLoop]
      obtain ⟨p, rfl⟩ : ∃ p, l = p + 1 := ⟨l - 1, by omega⟩
      rw [if_pos (by omega), show S.L - 1 - (p + 1) = 1 by omega]
      refine nested_agree h hc hw (p + 1) le_rfl ?_
      refine (tail_i h hc Cycle.V 0 true _).trans ?_
      refine Agree.trans ?_ (agree_forward (Agree.refl _ s) le_rfl (hw.step _ le_rfl) hw.n)
      intro j hj
      refine ⟨?_, by simp, by simp⟩
      by_cases hjl : j = p + 1
      · subst hjl
        refine forward_congr (by simp) ?_
        intro i hi
        rw [h.interpolate_not (hlt h hc) _ (by
          rw [hc.points, List.mem_range]
          omega), forwardSolve_u_ne _ (by omega)]
      · rw [forwardSolve_u_ne _ hjl, interpolate_u_ne _ hjl, forwardSolve_u_ne _ (by omega), forwardSolve_u_ne _ hjl]
    · exact Agree.refl _ _
  | succ k ih =>
    simp only [after, fineIteration]
    rw [eL, show S.L - 1 = l + 1 by omega]
    exact iteration_agree h hc hw l 0 cyc k true (by omega) ih

/-- C140.  After the nested iteration and any number of iterations, for both cycle types and every relaxation, the values on all levels
above the copy, and the residuals the solver reports, are exactly those of the solver without the additional level. -/
theorem C140_no_effect (h : S.WF) {l : Nat} (hc : Copy S l) (hw : Without S S' l) (hl : 0 < l) (nested : Bool) (cyc : Cycle) (s : GState V) (k : Nat) :
    (∀ j, j ≤ l → (after S nested cyc s k).u j = (after S' nested cyc s k).u j) ∧
    S.residuals (after S nested cyc s k) = S'.residuals (after S' nested cyc s k) := by
  have key := after_agree h hc hw hl nested cyc s k
  refine ⟨fun j hj => (key j hj).1, ?_⟩
  unfold residuals
  rw [(key 0 (Nat.zero_le _)).1, hw.C 0 hl, hw.step 0 (Nat.zero_le _)]

end Pymgrit.Redundant
