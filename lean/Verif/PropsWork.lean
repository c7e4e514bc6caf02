import Verif.Work
import Verif.PropsPlots

/-!
# Property C106: number of calls of `step()`

Counts per level for one process (`comm_time_size == 1`); `C106_processes` shows that on several processes the loops of
the processes together have the same lengths.
-/

set_option linter.unusedSectionVars false

namespace Pymgrit
open Sys Trace

section
variable {V K : Type} [Add V] (S : Sys V K)

/-- Calls of `step[j]` of one operation. -/
def opW (x : OpKind × Nat) (j : Nat) : Nat := S.opCalls x.1 x.2 (fun _ => 0) j

/-- Calls of `step[j]` of a sequence of operations. -/
def logW (xs : List (OpKind × Nat)) (j : Nat) : Nat := (xs.map fun x => opW S x j).sum

theorem opCalls_add (o : OpKind) (l : Nat) (c : Calls) (j : Nat) : S.opCalls o l c j = c j + opW S (o, l) j := by
  cases o <;> simp only [opW, opCalls, calls, Function.update_apply, id] <;>
    (repeat' split) <;> subst_vars <;> simp_all <;> omega

theorem runLog_opCalls (xs : List (OpKind × Nat)) (c : Calls) (j : Nat) :
    runLog S.opCalls xs c j = c j + logW S xs j := by
  induction xs generalizing c with
  | nil => simp [runLog, logW]
  | cons x xs ih =>
    show runLog S.opCalls xs (S.opCalls x.1 x.2 c) j = _
    rw [ih, opCalls_add]
    simp [logW]; ring

theorem logW_append (xs ys : List (OpKind × Nat)) (j : Nat) : logW S (xs ++ ys) j = logW S xs j + logW S ys j := by
  simp [logW]

/-- Number of steps on level `l`. -/
abbrev Sys.nSteps (l : Nat) : Nat := S.n l - 1

/-- Well-formed hierarchy, F-points listed once: what the numbers of calls depend on. -/
structure Sizes : Prop where
  C : ∀ l, l + 1 < S.L → (S.C l).length = S.n (l + 1)
  C' : ∀ l, l + 1 < S.L → ((S.C l).filter (· ≠ 0)).length = S.nSteps (l + 1)
  F : ∀ l, l + 1 < S.L → (S.F l).length + S.nSteps (l + 1) = S.nSteps l

theorem sizes (h : S.WF) (hF : ∀ l, l + 1 < S.L → (S.F l).Nodup) : Sizes S where
  C := h.C_len
  C' := by
    intro l hl
    have h0 := h.zero_mem_C hl
    have hn := h.C_nodup hl
    have e : (S.C l).filter (· ≠ 0) = (S.C l).erase 0 := by
      rw [hn.erase_eq_filter]
      congr 1
      funext x
      by_cases hx : x = 0 <;> simp [bne, hx]
    rw [e, List.length_erase_of_mem h0, h.C_len l hl]
  F := by
    intro l hl
    have h0 := h.npos (l + 1) hl
    have h1 := h.npos l (by omega)
    have hp : (S.C l ++ S.F l).Perm (List.range (S.n l)) := by
      rw [List.perm_ext_iff_of_nodup _ List.nodup_range]
      · intro i
        rw [List.mem_append, List.mem_range, h.F_mem l hl]
        constructor
        · rintro (hi | hi)
          · exact h.C_lt l hl i hi
          · exact hi.1
        · intro hi
          by_cases hc : i ∈ S.C l
          · exact Or.inl hc
          · exact Or.inr ⟨hi, hc⟩
      · rw [List.nodup_append]
        refine ⟨h.C_nodup hl, hF l hl, ?_⟩
        rintro a ha b hb rfl
        exact ((h.F_mem l hl a).1 hb).2 ha
    have := hp.length_eq
    rw [List.length_append, List.length_range, h.C_len l hl] at this
    show _ + (S.n (l + 1) - 1) = S.n l - 1
    omega

/-- Calls of `step[j]` of a visit of level `j` that starts with an F-relaxation. -/
def visitW (j : Nat) : Nat :=
  if j + 1 < S.L then 2 * (S.F j).length + S.cf j * S.nSteps j + S.nSteps (j + 1) else S.nSteps j

variable {S}

theorem logW_cf (h : Sizes S) {l : Nat} (hl : l + 1 < S.L) (k j : Nat) :
    logW S (List.replicate k [(OpKind.cRelax, l), (OpKind.fRelax, l)]).flatten j = if j = l then k * S.nSteps l else 0 := by
  induction k with
  | zero => simp [logW]
  | succ k ih =>
    rw [List.replicate_succ, List.flatten_cons, logW_append, ih]
    have h1 := h.C' l hl
    have h2 := h.F l hl
    by_cases hj : j = l
    · subst hj
      simp only [logW, opW, opCalls, calls, List.map_cons, List.map_nil, List.sum_cons, List.sum_nil,
        Function.update_self, if_true, h1, Nat.zero_add, Nat.add_zero]
      rw [Nat.succ_mul]
      omega
    · simp [logW, opW, opCalls, calls, hj]

theorem logW_fRelax (l j : Nat) : logW S [(OpKind.fRelax, l)] j = if j = l then (S.F l).length else 0 := by
  by_cases hj : j = l
  · subst hj; simp [logW, opW, opCalls, calls]
  · simp [logW, opW, opCalls, calls, hj]

theorem logW_post (l j : Nat) :
    logW S [(OpKind.corr, l), (OpKind.fRelax, l)] j = if j = l then (S.F l).length else 0 := by
  by_cases hj : j = l
  · subst hj; simp [logW, opW, opCalls, calls]
  · simp [logW, opW, opCalls, calls, hj]

theorem logW_fas (h : Sizes S) {l : Nat} (hl : l + 1 < S.L) (j : Nat) :
    logW S [(OpKind.fas, l)] j = if j = l ∨ j = l + 1 then S.nSteps (l + 1) else 0 := by
  have h1 := h.C l hl
  by_cases hj : j = l
  · subst hj; simp [logW, opW, opCalls, calls, h1]
  · by_cases hj1 : j = l + 1
    · subst hj1; simp [logW, opW, opCalls, calls, h1]
    · simp [logW, opW, opCalls, calls, hj, hj1]

theorem logW_solve (l j : Nat) : logW S [(OpKind.solve, l)] j = if j = l then S.nSteps l else 0 := by
  by_cases hj : j = l
  · subst hj; simp [logW, opW, opCalls, calls]
  · simp [logW, opW, opCalls, calls, hj]

theorem logW_interp (l j : Nat) : logW S [(OpKind.interp, l)] j = 0 := by simp [logW, opW, opCalls]

/-- Calls of a V-cycle that starts on level `l` with an F-relaxation. -/
theorem logW_vops (h : Sizes S) (d l it j : Nat) (hL : l + d + 1 = S.L) (hit : 0 < l ∨ it = 0) :
    logW S (vops S.cf d l it true) j =
      if j = l then visitW S l else if l < j ∧ j < S.L then visitW S j + S.nSteps j else 0 := by
  induction d generalizing l with
  | zero =>
    rw [vops, logW_solve]
    by_cases hj : j = l
    · subst hj; rw [if_pos rfl, if_pos rfl, visitW, if_neg (by omega)]
    · rw [if_neg hj, if_neg hj, if_neg (by omega)]
  | succ d ih =>
    rw [vops, if_pos ⟨by omega, rfl⟩]
    simp only [logW_append]
    rw [logW_fRelax, logW_cf h (by omega), logW_fas h (by omega), ih (l + 1) (by omega) (by omega), logW_post]
    by_cases hj : j = l
    · subst hj
      simp only [visitW, if_pos, show j + 1 < S.L by omega, true_or, show ¬ j = j + 1 by omega,
        show ¬ (j + 1 < j ∧ j < S.L) by omega, if_false, if_true]
      ring
    · by_cases hj1 : j = l + 1
      · subst hj1
        simp only [hj, if_false, or_true, if_true, show l < l + 1 ∧ l + 1 < S.L by omega, and_self]
        ring
      · simp only [hj, hj1, if_false, or_self]
        by_cases hjj : l + 1 < j ∧ j < S.L
        · rw [if_pos hjj, if_pos ⟨by omega, by omega⟩]; ring
        · rw [if_neg hjj, if_neg (by omega)]

/-- Calls of a V-cycle that starts on level `l` without F-relaxation. -/
theorem logW_vops_false (h : Sizes S) (d l it j : Nat) (hL : l + (d + 1) + 1 = S.L) (ff : Bool)
    (hff : ¬ ((0 < l ∨ (it = 0 ∧ l = 0)) ∧ ff = true)) :
    logW S (vops S.cf (d + 1) l it ff) j =
      if j = l then (S.cf l + 1) * S.nSteps l else if l < j ∧ j < S.L then visitW S j + S.nSteps j else 0 := by
  rw [vops, if_neg hff]
  simp only [logW_append]
  rw [logW_cf h (by omega), logW_fas h (by omega), logW_vops h d (l + 1) it j (by omega) (by omega), logW_post]
  have hF := h.F l (by omega)
  by_cases hj : j = l
  · subst hj
    simp only [show ¬ j = j + 1 by omega,
      show ¬ (j + 1 < j ∧ j < S.L) by omega, if_false, if_true, true_or, logW, List.map_nil, List.sum_nil]
    rw [Nat.succ_mul]; omega
  · by_cases hj1 : j = l + 1
    · subst hj1
      simp only [hj, if_false, or_true, if_true, show l < l + 1 ∧ l + 1 < S.L by omega, and_self]
      simp [logW]; ring
    · simp only [hj, hj1, if_false, or_self]
      by_cases hjj : l + 1 < j ∧ j < S.L
      · rw [if_pos hjj, if_pos ⟨by omega, by omega⟩]; simp [logW]
      · rw [if_neg hjj, if_neg (by omega)]; simp [logW]

/-- Calls of `step[j]` of an F-cycle on level `l ≥ 1`. -/
theorem logW_ops_F (h : Sizes S) (d l it j : Nat) (hL : l + d + 1 = S.L) (hl : 0 < l) :
    logW S (ops S.cf d l Cycle.F it true) j =
      if l ≤ j ∧ j < S.L then
        (j - l + 1) * visitW S j + (if j + 1 < S.L then (S.cf j + 1) * S.nSteps j else 0) +
          (if l < j then (j - l + 1) * S.nSteps j else 0)
      else 0 := by
  induction d generalizing l with
  | zero =>
    rw [ops, logW_solve]
    by_cases hj : j = l
    · subst hj
      rw [if_pos rfl, if_pos ⟨Nat.le_refl _, by omega⟩, if_neg (by omega), if_neg (by omega), visitW, if_neg (by omega)]
      simp
    · rw [if_neg hj, if_neg (by omega)]
  | succ d ih =>
    rw [ops, if_pos ⟨by omega, rfl⟩, if_pos ⟨by omega, rfl⟩]
    simp only [logW_append]
    rw [logW_fRelax, logW_cf h (by omega), logW_fas h (by omega), ih (l + 1) (by omega) (by omega), logW_post,
      logW_vops_false h d l it j (by omega) false (by simp)]
    by_cases hj : j = l
    · subst hj
      rw [if_neg (show ¬ (j + 1 ≤ j ∧ j < S.L) by omega)]
      simp only [visitW, show j + 1 < S.L by omega, show j ≤ j ∧ j < S.L by omega, show ¬ j < j by omega, if_true, if_false, true_or, and_self, Nat.sub_self]
      ring
    · simp only [hj, if_false, false_or]
      by_cases hjj : l < j ∧ j < S.L
      · simp only [hjj, show l + 1 ≤ j ∧ j < S.L by omega, show l ≤ j ∧ j < S.L by omega, and_self, if_true]
        obtain ⟨e, rfl⟩ : ∃ e, j = l + 1 + e := ⟨j - l - 1, by omega⟩
        rw [show l + 1 + e - (l + 1) = e by omega, show l + 1 + e - l = e + 1 by omega]
        by_cases he : e = 0
        · subst he
          rw [if_neg (show ¬ l + 1 < l + 1 + 0 by omega)]
          simp only [Nat.add_zero, if_true]
          ring
        · rw [if_neg (by omega), if_pos (show l + 1 < l + 1 + e by omega)]
          ring
      · rw [if_neg hjj, if_neg (by omega), if_neg (by omega)]
        simp; omega

/-- Calls of `step[j]` of an iteration on the finest level. -/
theorem logW_iter (h : Sizes S) (hL : 2 ≤ S.L) (cyc : Cycle) (it j : Nat) :
    logW S (ops S.cf (S.L - 1) 0 cyc it true) j =
      if j = 0 then (S.cf 0 + 1) * S.nSteps 0 + (if it = 0 then (S.F 0).length else 0)
      else if j < S.L then match cyc with
        | .V => visitW S j + S.nSteps j
        | .F => j * visitW S j + (if j + 1 < S.L then (S.cf j + 1) * S.nSteps j else 0) + j * S.nSteps j
      else 0 := by
  obtain ⟨d, hd⟩ : ∃ d, S.L = d + 2 := ⟨S.L - 2, by omega⟩
  have hF := h.F 0 (by omega)
  have hmul : (S.cf 0 + 1) * S.nSteps 0 = S.cf 0 * S.nSteps 0 + S.nSteps 0 := by ring
  rw [show S.L - 1 = d + 1 by omega]
  cases cyc with
  | V =>
    rw [ops_V]
    by_cases hit : it = 0
    · rw [logW_vops h (d + 1) 0 it j (by omega) (Or.inr hit)]
      by_cases hj : j = 0
      · subst hj
        simp only [if_true, hit, visitW, show 0 + 1 < S.L by omega]
        omega
      · simp only [hj, if_false, show 0 < j by omega, true_and]
    · rw [logW_vops_false h d 0 it j (by omega) true (by simp [hit])]
      by_cases hj : j = 0
      · subst hj
        simp [hit]
      · simp only [hj, if_false, show 0 < j by omega, true_and]
  | F =>
    rw [ops, if_neg (show ¬ (0 ≠ 0 ∧ Cycle.F = Cycle.F) by simp)]
    rw [logW_append, logW_append, logW_append, logW_append, logW_append]
    rw [logW_cf h (by omega), logW_fas h (by omega), logW_ops_F h d (0 + 1) it j (by omega) (by omega), logW_post,
      show logW S [] j = 0 from rfl]
    have hpre : logW S (if (0 < 0 ∨ it = 0 ∧ 0 = 0) ∧ true = true then [(OpKind.fRelax, 0)] else []) j =
        if j = 0 ∧ it = 0 then (S.F 0).length else 0 := by
      by_cases hit : it = 0
      · rw [if_pos ⟨Or.inr ⟨hit, rfl⟩, rfl⟩, logW_fRelax]; simp [hit]
      · rw [if_neg (by simp [hit])]; simp [hit, logW]
    rw [hpre]
    by_cases hj : j = 0
    · subst hj
      simp only [if_true, true_and, true_or, show ¬ (0 + 1 ≤ 0 ∧ 0 < S.L) by omega, if_false]
      omega
    · by_cases hjL : j < S.L
      · simp only [hj, if_false, false_and, false_or, hjL, and_true, show 0 + 1 ≤ j by omega, if_true]
        by_cases hj1 : j = 1
        · subst hj1
          simp; ring
        · rw [if_neg (show ¬ j = 0 + 1 by omega), if_pos (show 0 + 1 < j by omega), show j - (0 + 1) + 1 = j by omega]
          ring
      · simp only [hj, if_false, false_and, false_or, hjL, and_false, show ¬ j = 0 + 1 by omega]

/-- Calls of `step[j]` of nested iteration below level `l`. -/
theorem logW_nops (h : Sizes S) (l j : Nat) (hl : l + 1 ≤ S.L) :
    logW S (nops S.L S.cf l) j =
      if j = 0 ∨ S.L ≤ j then 0 else if j < l then j * visitW S j + (j - 1) * S.nSteps j
      else (l - 1) * (visitW S j + S.nSteps j) := by
  induction l with
  | zero =>
    rw [show logW S (nops S.L S.cf 0) j = 0 from rfl]
    simp
  | succ l ih =>
    rw [nops, logW_append, ih (by omega), show ∀ (o : OpKind × Nat) xs, o :: xs = [o] ++ xs from fun _ _ => rfl,
      logW_append, logW_interp]
    by_cases hl0 : l = 0
    · subst hl0
      simp only [Nat.lt_irrefl, if_false, show logW S [] j = 0 from rfl, Nat.not_lt_zero, Nat.zero_sub, Nat.zero_mul]
      by_cases hj : j = 0 ∨ S.L ≤ j
      · simp [hj]
      · simp only [hj, if_false, show ¬ j < 0 + 1 by omega]
        simp
    · rw [if_pos (by omega), ops_V, logW_vops h (S.L - 1 - l) l 0 j (by omega) (by omega)]
      by_cases hj : j = 0 ∨ S.L ≤ j
      · rw [if_pos hj, if_pos hj, if_neg (by omega), if_neg (by omega)]
      · rw [if_neg hj, if_neg hj]
        by_cases h1 : j < l
        · rw [if_neg (by omega), if_neg (by omega), if_pos h1, if_pos (by omega)]
          ring
        · by_cases h2 : j = l
          · subst h2
            rw [if_pos rfl, if_neg h1, if_pos (by omega)]
            obtain ⟨e, rfl⟩ : ∃ e, j = e + 1 := ⟨j - 1, by omega⟩
            simp only [Nat.add_sub_cancel]
            ring
          · rw [if_neg h2, if_pos ⟨by omega, by omega⟩, if_neg h1, if_neg (by omega)]
            obtain ⟨e, rfl⟩ : ∃ e, l = e + 1 := ⟨l - 1, by omega⟩
            simp only [Nat.add_sub_cancel]
            ring

end

section
variable {V K N : Type} [Add V] [Sub V] [SMul K V] [One K] [Sub K] {S : Sys V K}

theorem iterationN_eq (cyc : Cycle) (it : Nat) (s : GState V) (c : Calls) :
    S.iterationN cyc it (s, c) =
      (S.fineIteration S.forwardSolve cyc it s, fun j => c j + logW S (ops S.cf (S.L - 1) 0 cyc it true) j) := by
  unfold iterationN fineIteration
  rw [iteration_run, runLog_opN, iteration_sys, iteration_run]
  congr 1
  funext j
  exact runLog_opCalls S _ _ _

/-- C106, the values: the functions with counter compute the same values as the functions of the solver. -/
theorem C106_values (cyc : Cycle) (it : Nat) (s : GState V) (c : Calls) :
    (S.iterationN cyc it (s, c)).1 = S.fineIteration S.forwardSolve cyc it s := by
  rw [iterationN_eq]

/-- Calls of `step[j]` in one iteration on the levels `j ≥ 1`: `(ν + 3) n_j - n_{j+1}` for a V-cycle and
`(j (ν + 3) + ν + 1) n_j - j n_{j+1}` for an F-cycle, with `ν = cf_iter[j]` and `n_j` the number of steps of level `j`; on
the coarsest level `2 n_j` and `2 j n_j`. -/
def coarseCalls (S : Sys V K) (cyc : Cycle) (j : Nat) : Nat :=
  match cyc with
  | .V => if j + 1 < S.L then (S.cf j + 3) * S.nSteps j - S.nSteps (j + 1) else 2 * S.nSteps j
  | .F => if j + 1 < S.L then (j * (S.cf j + 3) + S.cf j + 1) * S.nSteps j - j * S.nSteps (j + 1)
      else 2 * j * S.nSteps j

theorem visitW_eq (h : Sizes S) {j : Nat} (hj : j + 1 < S.L) :
    visitW S j + S.nSteps (j + 1) = (S.cf j + 2) * S.nSteps j := by
  have := h.F j hj
  rw [visitW, if_pos hj, Nat.add_mul]
  omega

theorem logW_coarse (h : Sizes S) (hL : 2 ≤ S.L) (cyc : Cycle) (it j : Nat) (hj : 0 < j) (hjL : j < S.L) :
    logW S (ops S.cf (S.L - 1) 0 cyc it true) j = coarseCalls S cyc j := by
  rw [logW_iter h hL, if_neg (by omega), if_pos hjL]
  by_cases hj1 : j + 1 < S.L
  · have hv := visitW_eq h hj1
    have hF := h.F j hj1
    cases cyc with
    | V =>
      simp only [coarseCalls, if_pos hj1]
      have : (S.cf j + 3) * S.nSteps j = (S.cf j + 2) * S.nSteps j + S.nSteps j := by ring
      omega
    | F =>
      simp only [coarseCalls, if_pos hj1]
      have e : (j * (S.cf j + 3) + S.cf j + 1) * S.nSteps j =
          j * ((S.cf j + 2) * S.nSteps j) + (S.cf j + 1) * S.nSteps j + j * S.nSteps j := by ring
      rw [e, ← hv]
      have e2 : j * (visitW S j + S.nSteps (j + 1)) = j * visitW S j + j * S.nSteps (j + 1) := by ring
      omega
  · have hv : visitW S j = S.nSteps j := by rw [visitW, if_neg hj1]
    cases cyc with
    | V => simp only [coarseCalls, if_neg hj1, hv]; ring
    | F => simp only [coarseCalls, if_neg hj1, hv]; ring

/-- C106, one iteration after the first: on the finest level `step()` is called exactly `cf_iter[0] + 1` times per time
step, for both cycle types; the coarser levels see `coarseCalls`, other levels no call. -/
theorem C106_iteration (h : S.WF) (hF : ∀ l, l + 1 < S.L → (S.F l).Nodup) (hL : 2 ≤ S.L) (cyc : Cycle) (it : Nat)
    (hit : 0 < it) (s : GState V) (c : Calls) (j : Nat) :
    (S.iterationN cyc it (s, c)).2 j = c j +
      if j = 0 then (S.cf 0 + 1) * (S.n 0 - 1) else if j < S.L then coarseCalls S cyc j else 0 := by
  have hs := sizes S h hF
  rw [iterationN_eq]
  show c j + _ = _
  congr 1
  by_cases hj : j = 0
  · subst hj
    rw [logW_iter hs hL]
    simp [show it ≠ 0 by omega]
  · by_cases hjL : j < S.L
    · rw [if_neg hj, if_pos hjL, logW_coarse hs hL cyc it j (by omega) hjL]
    · rw [if_neg hj, if_neg hjL, logW_iter hs hL, if_neg hj, if_neg hjL]

/-- C106, the first iteration: one more call per F-point of the finest level. -/
theorem C106_first_iteration (h : S.WF) (hF : ∀ l, l + 1 < S.L → (S.F l).Nodup) (hL : 2 ≤ S.L) (cyc : Cycle)
    (s : GState V) (c : Calls) (j : Nat) :
    (S.iterationN cyc 0 (s, c)).2 j = c j +
      if j = 0 then (S.cf 0 + 1) * (S.n 0 - 1) + (S.n 0 - S.n 1) else if j < S.L then coarseCalls S cyc j else 0 := by
  have hs := sizes S h hF
  rw [iterationN_eq]
  show c j + _ = _
  congr 1
  by_cases hj : j = 0
  · subst hj
    rw [logW_iter hs hL]
    have := hs.F 0 (by omega)
    have h0 := h.npos 0 (by omega)
    have h1 := h.npos 1 (by omega)
    simp only [if_true]
    have e1 : S.nSteps 0 = S.n 0 - 1 := rfl
    have e2 : S.nSteps (0 + 1) = S.n 1 - 1 := rfl
    rw [e1] at this ⊢
    omega
  · by_cases hjL : j < S.L
    · rw [if_neg hj, if_pos hjL, logW_coarse hs hL cyc 0 j (by omega) hjL]
    · rw [if_neg hj, if_neg hjL, logW_iter hs hL, if_neg hj, if_neg hjL]

/-- C106, nested iteration: it never calls `step()` of the finest level; on level `j` between the finest and the coarsest
it calls `step[j]` `j (ν + 3) - 1` times per step minus `j n_{j+1}`, on the coarsest level `2 (L - 2) + 1` times per
step. -/
theorem C106_nested (h : S.WF) (hF : ∀ l, l + 1 < S.L → (S.F l).Nodup) (hL : 2 ≤ S.L) (s : GState V) (c : Calls) :
    (S.nestedN (s, c)).1 = S.nestedIteration S.forwardSolve s ∧
    (S.nestedN (s, c)).2 0 = c 0 ∧
    (∀ j, 0 < j → j + 1 < S.L → (S.nestedN (s, c)).2 j + S.nSteps j + j * S.nSteps (j + 1) =
      c j + j * (S.cf j + 3) * S.nSteps j) ∧
    (S.nestedN (s, c)).2 (S.L - 1) = c (S.L - 1) + (2 * (S.L - 2) + 1) * S.nSteps (S.L - 1) := by
  have hs := sizes S h hF
  have e : S.nestedN (s, c) = (S.nestedIteration S.forwardSolve s, fun j =>
      c j + logW S ((OpKind.solve, S.L - 1) :: nops S.L S.cf (S.L - 1)) j) := by
    unfold nestedN nested
    rw [nestedLoop_run, opN_eq, runLog_opN, nested_log, nestedLog_eq]
    congr 1
    funext j
    have := runLog_opCalls S ((OpKind.solve, S.L - 1) :: nops S.L S.cf (S.L - 1)) c j
    exact this
  have hcons : ∀ j, logW S ((OpKind.solve, S.L - 1) :: nops S.L S.cf (S.L - 1)) j =
      (if j = S.L - 1 then S.nSteps (S.L - 1) else 0) + logW S (nops S.L S.cf (S.L - 1)) j := by
    intro j
    rw [show ∀ (o : OpKind × Nat) xs, o :: xs = [o] ++ xs from fun _ _ => rfl, logW_append, logW_solve]
  rw [e]
  simp only [hcons]
  refine ⟨trivial, ?_, ?_, ?_⟩
  · rw [logW_nops hs (S.L - 1) 0 (by omega), if_neg (by omega), if_pos (Or.inl rfl)]
    simp
  · intro j hj hj1
    rw [logW_nops hs (S.L - 1) j (by omega), if_neg (by omega), if_neg (by omega), if_pos (by omega)]
    have hv := visitW_eq hs hj1
    obtain ⟨e, rfl⟩ : ∃ e, j = e + 1 := ⟨j - 1, by omega⟩
    have e1 : (e + 1) * (visitW S (e + 1) + S.nSteps (e + 1 + 1)) = (e + 1) * ((S.cf (e + 1) + 2) * S.nSteps (e + 1)) := by
      rw [hv]
    simp only [Nat.add_sub_cancel]
    nlinarith
  · rw [logW_nops hs (S.L - 1) _ (by omega), if_pos trivial, if_neg (by omega), if_neg (by omega), visitW, if_neg (by omega),
      show S.L - 1 - 1 = S.L - 2 by omega]
    ring

theorem convergenceN_eq (c : Ctl V N) (it : Nat) (s : Run V N) (k : Calls) :
    S.convergenceN c it (s, k) = (S.convergence c it s,
      if c.convCrit = 0 then calls 0 ((S.C 0).filter (· ≠ 0)).length k else k) := by
  unfold convergenceN convergence
  split
  · simp only [residualsN_eq]
  · rfl

theorem solveBodyN_eq (c : Ctl V N) (it : Nat) (s : Run V N) (k : Calls) :
    S.solveBodyN c it (s, k) = (S.solveBody c S.forwardSolve it s, (S.solveBodyN c it (s, k)).2) := by
  unfold solveBodyN solveBody
  simp only [iterationN_eq, convergenceN_eq]
  split <;> rfl

/-- Calls of one pass of the loop of `solve` on the finest level. -/
theorem solveBodyN_calls (hs : Sizes S) (hL : 2 ≤ S.L) (c : Ctl V N) (it : Nat) (s : Run V N) (k : Calls) (j : Nat) :
    (S.solveBodyN c it (s, k)).2 j = k j + if j = 0 then
        (S.cf 0 + 1) * S.nSteps 0 + (if it = 0 then (S.F 0).length else 0) + (if c.convCrit = 0 then S.nSteps 1 else 0)
      else if j < S.L then coarseCalls S c.cyc j else 0 := by
  have h1 : (S.solveBodyN c it (s, k)).2 j = (if c.convCrit = 0 then calls 0 ((S.C 0).filter (· ≠ 0)).length
      (fun j => k j + logW S (ops S.cf (S.L - 1) 0 c.cyc it true) j) else
      (fun j => k j + logW S (ops S.cf (S.L - 1) 0 c.cyc it true) j)) j := by
    unfold solveBodyN
    simp only [iterationN_eq, convergenceN_eq]
    split <;> rfl
  rw [h1]
  have hC := hs.C' 0 (by omega)
  by_cases hj : j = 0
  · subst hj
    by_cases hc : c.convCrit = 0
    · simp only [hc, if_true, calls, Function.update_self, hC]
      rw [logW_iter hs hL]
      simp only [if_true]
      ring
    · simp only [hc, if_false, if_true]
      rw [logW_iter hs hL]
      simp
  · have e : (if c.convCrit = 0 then calls 0 ((S.C 0).filter (· ≠ 0)).length
      (fun j => k j + logW S (ops S.cf (S.L - 1) 0 c.cyc it true) j) else
      (fun j => k j + logW S (ops S.cf (S.L - 1) 0 c.cyc it true) j)) j =
      k j + logW S (ops S.cf (S.L - 1) 0 c.cyc it true) j := by
      split
      · simp [calls, hj]
      · rfl
    rw [e, if_neg hj]
    congr 1
    by_cases hjL : j < S.L
    · rw [if_pos hjL, logW_coarse hs hL c.cyc it j (by omega) hjL]
    · rw [if_neg hjL, logW_iter hs hL, if_neg hj, if_neg hjL]

theorem solveLoopN_eq (hs : Sizes S) (hL : 2 ≤ S.L) (c : Ctl V N) (n it : Nat) (s : Run V N) (k : Calls) (hsi : s.iter = it) :
    (S.solveLoopN c n it (s, k)).1 = S.solveLoop c S.forwardSolve n it s ∧
    ∃ m, (S.solveLoop c S.forwardSolve n it s).iter = it + m ∧ ∀ j, (S.solveLoopN c n it (s, k)).2 j =
      k j + if j = 0 then m * ((S.cf 0 + 1) * S.nSteps 0 + (if c.convCrit = 0 then S.nSteps 1 else 0)) +
          (if it = 0 ∧ 0 < m then (S.F 0).length else 0)
        else if j < S.L then m * coarseCalls S c.cyc j else 0 := by
  induction n generalizing it s k with
  | zero => exact ⟨rfl, 0, by simp [solveLoop, hsi], fun j => by simp [solveLoopN]⟩
  | succ n ih =>
    have hb := solveBodyN_eq (S := S) c it s k
    have hk := solveBodyN_calls hs hL c it s k
    have hit : (S.solveBody c S.forwardSolve it s).iter = it + 1 := by
      unfold solveBody convergence
      split <;> split <;> rfl
    simp only [solveLoopN, solveLoop]
    rw [hb]
    simp only
    by_cases hst : stops c it (S.solveBody c S.forwardSolve it s) = true
    · rw [if_pos hst, if_pos hst]
      refine ⟨rfl, 1, hit, fun j => ?_⟩
      simp only
      rw [hk j]
      by_cases hj : j = 0
      · subst hj; simp; ring
      · simp [hj]
    · rw [if_neg hst, if_neg hst]
      obtain ⟨e1, m, hm, e2⟩ := ih (it + 1) (S.solveBody c S.forwardSolve it s) (S.solveBodyN c it (s, k)).2 hit
      refine ⟨e1, m + 1, by rw [hm]; ring, fun j => ?_⟩
      rw [e2 j, hk j]
      by_cases hj : j = 0
      · subst hj
        simp
        ring
      · by_cases hjL : j < S.L
        · simp [hj, hjL]; ring
        · simp [hj, hjL]

/-- C106, a whole `solve()` with `m` iterations: on the finest level `step()` is called `m (cf_iter[0] + 1)` times per time
step, once more per F-point, and, for the residual criterion, `m` times per C-point other than the initial one; on the
coarser levels `m` times the calls of an iteration.  The values are those of the solver without counter. -/
theorem C106_solve (h : S.WF) (hF : ∀ l, l + 1 < S.L → (S.F l).Nodup) (hL : 2 ≤ S.L) (c : Ctl V N) (hmax : 0 < c.maxIter)
    (s : Run V N) (hs0 : s.iter = 0) (k : Calls) :
    (S.solveN c (s, k)).1 = S.solve c S.forwardSolve s ∧
    ∀ j, (S.solveN c (s, k)).2 j = k j + (if j = 0 then
        (S.solve c S.forwardSolve s).iter * ((S.cf 0 + 1) * (S.n 0 - 1) + (if c.convCrit = 0 then S.n 1 - 1 else 0)) +
          (S.n 0 - S.n 1)
      else if j < S.L then (S.solve c S.forwardSolve s).iter * coarseCalls S c.cyc j else 0) := by
  have hs := sizes S h hF
  obtain ⟨e1, m, hm, e2⟩ := solveLoopN_eq hs hL c c.maxIter 0 s k hs0
  have hiter : (S.solve c S.forwardSolve s).iter = m := by
    unfold solve
    simp only
    split
    · show (S.solveLoop c S.forwardSolve c.maxIter 0 s).iter = m
      omega
    · omega
  have hpos : 0 < m := by
    obtain ⟨m', hm1, -, hit, -⟩ := C17_stopping_rule (S := S) c S.forwardSolve s hmax
    omega
  have hFl : (S.F 0).length = S.n 0 - S.n 1 := by
    have := hs.F 0 (by omega)
    have h0 := h.npos 0 (by omega)
    have h1 := h.npos 1 (by omega)
    have e1 : S.nSteps 0 = S.n 0 - 1 := rfl
    have e2 : S.nSteps (0 + 1) = S.n 1 - 1 := rfl
    omega
  have e3 : S.solveN c (s, k) = (S.solve c S.forwardSolve s, (S.solveLoopN c c.maxIter 0 (s, k)).2) := by
    unfold solveN solve
    simp only
    rw [← e1]
    split <;> rfl
  rw [e3]
  refine ⟨rfl, fun j => ?_⟩
  simp only
  rw [e2 j, hiter]
  simp only [true_and, hpos, if_true, hFl]

end

/-- The hypotheses hold for every valid hierarchy. -/
theorem allF_nodup {V K T N : Type} [LinearOrder T] [Inhabited T] (E : Cfg V K T N) (l : Nat) : (E.sys.F l).Nodup :=
  List.nodup_range.filter _

/-- Three levels with 8, 4 and 2 steps, F-cycles with one CF-relaxation: after the first iteration 16 calls on the finest
level, 22 on the next, 8 on the coarsest. -/
example : (exCfg 1).sys.WF ∧ (∀ l, l + 1 < (exCfg 1).sys.L → ((exCfg 1).sys.F l).Nodup) ∧ 2 ≤ (exCfg 1).sys.L ∧
    coarseCalls (exCfg 1).sys .F 1 = 22 ∧ coarseCalls (exCfg 1).sys .F 2 = 8 ∧ 0 < (exCfg 1).ctl.maxIter :=
  ⟨exSys_wf 1, fun l _ => allF_nodup _ l, by decide, by decide, by decide, by decide⟩

/-! ### Several processes -/

section
variable {T : Type} [LinearOrder T] [Inhabited T] {ts : List (List T)} {P : Nat} {ord : Nat → Nat → List Nat → List Nat}

/-- Sums of differences. -/
theorem sum_diff (f : Nat → Nat) (hf : ∀ r, r < P → f r ≤ f (r + 1)) :
    ((List.range P).map fun r => f (r + 1) - f r).sum + f 0 = f P := by
  induction P with
  | zero => simp
  | succ P ih =>
    rw [List.range_succ, List.map_append, List.sum_append]
    have := ih fun r hr => hf r (by omega)
    have := hf P (by omega)
    simp
    omega

/-- C106 on several processes: the loops of the processes over the F-points, over the C-points without the initial one,
and over the points of the coarsest solve together have as many passes as on one process, so no call of `step()` in these
loops is made twice or left out. -/
theorem C106_processes (h : Valid ts) (hP : 0 < P) (hPn : P ≤ npts ts 0) (hord : ∀ r l xs, (ord r l xs).Perm xs) :
    (∀ l, l + 1 < ts.length →
      ((List.range P).map fun r => (setupLevel ts P (ord r l) r l).idxF.length).sum + npts ts (l + 1) = npts ts l ∧
      ((List.range P).map fun r => ((setupLevel ts P (ord r l) r l).idxC.filter
        fun j => decide (j ≠ 0 ∨ r ≠ 0)).length).sum + 1 = npts ts (l + 1)) ∧
    ∀ l, l < ts.length →
      ((List.range P).map fun r => (setupLevel ts P (ord r l) r l).t.length - 1).sum + 1 = npts ts l := by
  have hmono : ∀ l, l < ts.length → ∀ r, r < P → lo ts P l r ≤ lo ts P l (r + 1) := fun l hl r hr =>
    h.lo_mono hP hPn hl (by omega) (by omega)
  have hsum : ∀ l, l < ts.length → ((List.range P).map fun r => lo ts P l (r + 1) - lo ts P l r).sum = npts ts l := by
    intro l hl
    have := sum_diff (P := P) (fun r => lo ts P l r) (hmono l hl)
    simp only [h.lo_zero hP hPn hl, h.lo_last (P := P) l] at this
    omega
  have hdrop : ∀ (g : Nat → Nat), 0 < g 0 → ((List.range P).map fun r => g r - if r = 0 then 1 else 0).sum + 1 =
      ((List.range P).map g).sum := by
    intro g hg
    obtain ⟨p, rfl⟩ : ∃ p, P = p + 1 := ⟨P - 1, by omega⟩
    rw [List.range_succ_eq_map]
    simp only [List.map_cons, List.sum_cons, List.map_map, if_true]
    rw [show ((fun r => g r - if r = 0 then 1 else 0) ∘ Nat.succ) = g ∘ Nat.succ from by funext x; simp]
    omega
  have hfirst : ∀ l, l < ts.length → lo ts P l 0 < lo ts P l 1 := by
    intro l hl
    rw [h.lo_zero hP hPn hl]
    exact h.lo_pos hPn hl (by omega) (by omega)
  have hC : ∀ l r, l + 1 < ts.length → r < P →
      (setupLevel ts P (ord r l) r l).idxC.length = lo ts P (l + 1) (r + 1) - lo ts P (l + 1) r := by
    intro l r hl hr
    rw [(C05_pairing h hPn hord hr hl).1, (spec0 h hPn hord hr hl).idx, List.length_range']
  refine ⟨fun l hl => ⟨?_, ?_⟩, fun l hl => ?_⟩
  · rw [← hsum l (by omega), ← hsum (l + 1) hl, ← List.sum_map_add]
    apply congrArg List.sum
    apply List.map_congr_left
    intro r hr
    have hr' := List.mem_range.1 hr
    have hp := (C05_partition h hPn hord hr' (show l < ts.length by omega)).1.length_eq
    rw [List.length_append, (spec0 h hPn hord hr' (show l < ts.length by omega)).idx, List.length_range', hC l r hl hr'] at hp
    omega
  · rw [← hsum (l + 1) hl, ← hdrop (fun r => lo ts P (l + 1) (r + 1) - lo ts P (l + 1) r)
      (by have := hfirst (l + 1) hl; simp only [Nat.zero_add]; omega)]
    congr 2
    apply List.map_congr_left
    intro r hr
    have hr' := List.mem_range.1 hr
    have hs := spec0 h hPn hord hr' (show l < ts.length by omega)
    have hpt := C05_partition h hPn hord hr' (show l < ts.length by omega)
    by_cases h0 : r = 0
    · subst h0
      have hmem : 0 ∈ (setupLevel ts P (ord 0 l) 0 l).idxC := by
        rw [hs.idxC, List.mem_map]
        refine ⟨0, ?_, by simp⟩
        rw [hs.cpts, hs.pts, List.mem_filter, List.mem_range'_1, h.lo_zero hP hPn (by omega)]
        have := hfirst l (by omega)
        rw [h.lo_zero hP hPn (by omega)] at this
        exact ⟨⟨Nat.le_refl _, by simpa using this⟩, decide_eq_true (List.mem_of_getElem? (allC_zero h (by omega)))⟩
      have hnd : (setupLevel ts P (ord 0 l) 0 l).idxC.Nodup := hpt.2.2.1.imp fun hab => Nat.ne_of_lt hab
      have e : (setupLevel ts P (ord 0 l) 0 l).idxC.filter (fun j => decide (j ≠ 0 ∨ 0 ≠ 0)) =
          (setupLevel ts P (ord 0 l) 0 l).idxC.erase 0 := by
        rw [hnd.erase_eq_filter]
        congr 1
        funext x
        by_cases hx : x = 0 <;> simp [bne, hx]
      rw [e, List.length_erase_of_mem hmem, hC l 0 hl hr']
      simp
    · rw [if_neg h0, List.filter_eq_self.2 (by intro j _; simp [h0]), hC l r hl hr']
      simp
  · rw [← hsum l hl, ← hdrop (fun r => lo ts P l (r + 1) - lo ts P l r)
      (by have := hfirst l hl; simp only [Nat.zero_add]; omega)]
    congr 2
    apply List.map_congr_left
    intro r hr
    have hr' := List.mem_range.1 hr
    rw [(spec0 h hPn hord hr' hl).t_len]
    have hm := hmono l hl r hr'
    by_cases h0 : r = 0
    · subst h0
      rw [if_pos (hfirst l hl), off, gh, if_pos rfl, if_pos rfl]
      rfl
    · have hpos := h.lo_pos hPn hl (show r ≤ P by omega) (show 0 < r by omega)
      rw [off, gh, if_neg h0, if_neg h0]
      split <;> omega

end

example : Valid exGrid ∧ 3 ≤ npts exGrid 0 ∧
    ((List.range 3).map fun r => (setupLevel exGrid 3 id r 0).idxF.length) = [1, 2, 1] := ⟨exGrid_valid, by decide, by decide⟩

end Pymgrit
