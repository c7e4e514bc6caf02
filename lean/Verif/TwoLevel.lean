import Verif.SweepFacts
import Mathlib.Algebra.Module.Basic
import Mathlib.Tactic.Abel

/-!
# One iteration on a two-level hierarchy

Auxiliary facts for `Verif.PropsAlgo`: the values at the C-points after one iteration, in terms of the
values before.
-/

set_option linter.unusedSectionVars false

namespace Pymgrit

/-- Fine propagation from the `(j-1)`-th to the `j`-th coarse point of the point list `C`. -/
def fineInterval {V : Type} (Φ : Nat → V → V) (C : List Nat) (j : Nat) (x : V) : V :=
  stepsFrom Φ (C.getD (j - 1) 0) (C.getD j 0 - C.getD (j - 1) 0) x

/-- One CF-relaxation seen from the coarse points: each value but the first becomes the weighted mean
of the fine propagation of its left neighbour and itself. -/
def cfSweep {V K : Type} [Add V] [SMul K V] [One K] [Sub K] (P : Nat → V → V) (w : K)
    (U : Nat → V) (j : Nat) : V :=
  if j = 0 then U 0 else w • P j (U (j - 1)) + (1 - w) • U j

/-- `r` CF-relaxations seen from the coarse points. -/
def cfSweeps {V K : Type} [Add V] [SMul K V] [One K] [Sub K] (P : Nat → V → V) (w : K) :
    Nat → (Nat → V) → Nat → V
  | 0, U => U
  | r + 1, U => cfSweeps P w r (cfSweep P w U)

theorem seqSol_add {V : Type} (Φ : Nat → V → V) (x0 : V) (a m : Nat) :
    seqSol Φ x0 (a + m) = stepsFrom Φ a m (seqSol Φ x0 a) := by
  induction m with
  | zero => rfl
  | succ m ih => rw [← Nat.add_assoc, seqSol, ih]; rfl

namespace Sys
variable {V K : Type} {S : Sys V K}

theorem relaxed_steps [Add V] {s : GState V} (hF : FRelaxed S 0 s) {a m : Nat} (hn : a + m < S.n 0)
    (hno : ∀ i, a < i → i ≤ a + m → i ∉ S.C 0) :
    s.u 0 (a + m) = stepsFrom (S.Φ 0) a m (s.u 0 a) := by
  induction m with
  | zero => rfl
  | succ m ih =>
    have := hF (a + m + 1) hn (hno _ (by omega) (by omega))
    rw [← Nat.add_assoc, this, Nat.add_sub_cancel, ih (by omega) (fun i h1 h2 => hno i h1 (by omega))]
    simp [prop, stepsFrom]

theorem WF.no_C_between (h : S.WF) {l j : Nat} (hl : l + 1 < S.L) (hj : j < S.n (l + 1))
    (h0 : j ≠ 0) {i : Nat} (h1 : S.cpt l (j - 1) < i) (h2 : i < S.cpt l j) : i ∉ S.C l := by
  intro hi
  obtain ⟨k, hk, rfl⟩ := (h.mem_C_iff hl).1 hi
  have a := (h.cpt_le_iff hl hk (k' := j - 1) (by omega))
  have b := (h.cpt_le_iff hl hj hk)
  omega

theorem WF.cpt_bound (h : S.WF) {l j : Nat} (hl : l + 1 < S.L) (hj : j < S.n (l + 1)) :
    S.cpt l j < S.n l := h.C_lt l hl _ (cpt_mem (by rw [h.C_len l hl]; exact hj))

theorem WF.interval_eq [Add V] (h : S.WF) (hL : 1 < S.L) {s : GState V} (hF : FRelaxed S 0 s) {j : Nat}
    (hj : j < S.n 1) (h0 : j ≠ 0) :
    S.Φ 0 (S.cpt 0 j) (s.u 0 (S.cpt 0 j - 1))
      = fineInterval (S.Φ 0) (S.C 0) j (s.u 0 (S.cpt 0 (j - 1))) := by
  have hlt := h.cpt_lt (l := 0) (by omega) (k := j - 1) (k' := j) (by omega) hj
  have hb := h.cpt_bound (l := 0) (by omega) hj
  have e := relaxed_steps hF (a := S.cpt 0 (j - 1)) (m := S.cpt 0 j - 1 - S.cpt 0 (j - 1)) (by omega)
    (fun i h1 h2 => h.no_C_between (l := 0) (by omega) hj h0 h1 (by omega))
  rw [show S.cpt 0 (j - 1) + (S.cpt 0 j - 1 - S.cpt 0 (j - 1)) = S.cpt 0 j - 1 by omega] at e
  rw [e]
  unfold fineInterval
  change _ = stepsFrom (S.Φ 0) (S.cpt 0 (j - 1)) (S.cpt 0 j - S.cpt 0 (j - 1)) _
  obtain ⟨m, hm⟩ : ∃ m, S.cpt 0 j - S.cpt 0 (j - 1) = m + 1 := ⟨_, (Nat.sub_add_cancel (by omega)).symm⟩
  rw [hm, show S.cpt 0 j - 1 - S.cpt 0 (j - 1) = m by omega]
  simp only [stepsFrom]
  congr 1
  omega

theorem seqSol_cpt (h : S.WF) (hL : 1 < S.L) (x0 : V) {j : Nat} (hj : j < S.n 1) (h0 : j ≠ 0) :
    seqSol (S.Φ 0) x0 (S.cpt 0 j)
      = fineInterval (S.Φ 0) (S.C 0) j (seqSol (S.Φ 0) x0 (S.cpt 0 (j - 1))) := by
  have hlt := h.cpt_lt (l := 0) (by omega) (k := j - 1) (k' := j) (by omega) hj
  unfold fineInterval
  change _ = stepsFrom (S.Φ 0) (S.cpt 0 (j - 1)) (S.cpt 0 j - S.cpt 0 (j - 1)) _
  rw [← seqSol_add]
  congr 1
  omega

/-- The C-point values of a state. -/
def cvals (S : Sys V K) (s : GState V) (j : Nat) : V := s.u 0 (S.cpt 0 j)

section
variable [Add V] [SMul K V] [One K] [Sub K]

theorem WF.cfSweep_eq (h : S.WF) (hL : 1 < S.L) {s : GState V} (hF : FRelaxed S 0 s)
    (hadj : ∀ i, i ∈ S.C 0 → i + 1 ∉ S.C 0) {j : Nat} (hj : j < S.n 1) :
    S.cvals (S.fRelax 0 (S.cRelax 0 s)) j
      = cfSweep (fineInterval (S.Φ 0) (S.C 0)) S.w (S.cvals s) j := by
  have hmem : S.cpt 0 j ∈ S.C 0 := cpt_mem (by rw [h.C_len 0 (by omega)]; exact hj)
  unfold cvals cfSweep
  rw [h.fRelax_C (by omega) _ hmem]
  split
  · next h0 =>
    subst h0
    simp only [h.cpt_zero (l := 0) (by omega)]
    exact cRelax_zero s
  · next h0 =>
    have hlt := h.cpt_lt (l := 0) (by omega) (k := j - 1) (k' := j) (by omega) hj
    have hne : S.cpt 0 j ≠ 0 := by omega
    rw [h.cRelax_C (by omega) s hmem hne]
    have : S.cpt 0 j - 1 ∉ S.C 0 := fun hc => hadj _ hc (by rwa [Nat.sub_add_cancel (by omega)])
    rw [cRelax_not_C s this, ← h.interval_eq hL hF hj h0]
    simp [prop]

theorem cfSweeps_congr (P : Nat → V → V) (w : K) (n r : Nat) {U U' : Nat → V}
    (hU : ∀ j, j < n → U j = U' j) : ∀ j, j < n → cfSweeps P w r U j = cfSweeps P w r U' j := by
  induction r generalizing U U' with
  | zero => exact hU
  | succ r ih =>
    refine ih fun j hj => ?_
    unfold cfSweep
    split
    · exact hU 0 (by omega)
    · rw [hU j hj, hU (j - 1) (by omega)]

theorem WF.cfSweeps_eq (h : S.WF) (hL : 1 < S.L) (hadj : ∀ i, i ∈ S.C 0 → i + 1 ∉ S.C 0) (r : Nat)
    {s : GState V} (hF : FRelaxed S 0 s) {j : Nat} (hj : j < S.n 1) :
    S.cvals (times (fun s => S.fRelax 0 (S.cRelax 0 s)) r s) j
      = cfSweeps (fineInterval (S.Φ 0) (S.C 0)) S.w r (S.cvals s) j := by
  induction r generalizing s with
  | zero => rfl
  | succ r ih =>
    simp only [times, cfSweeps]
    rw [ih (h.fRelax_relaxed (by omega) _)]
    exact cfSweeps_congr _ _ (S.n 1) r (fun j hj => h.cfSweep_eq hL hF hadj hj) j hj

theorem WF.times_relaxed (h : S.WF) (hL : 1 < S.L) (r : Nat) {s : GState V} (hF : FRelaxed S 0 s) :
    FRelaxed S 0 (times (fun s => S.fRelax 0 (S.cRelax 0 s)) r s) := by
  induction r generalizing s with
  | zero => exact hF
  | succ r ih => exact ih (h.fRelax_relaxed (by omega) _)

/-- Whatever the iteration number, the state after the leading relaxations of an iteration is
F-relaxed, provided the state before is F-relaxed or this is the first iteration. -/
theorem WF.lead_relaxed (h : S.WF) (hL : 1 < S.L) (it : Nat) {s : GState V}
    (hF : it = 0 ∨ FRelaxed S 0 s) :
    FRelaxed S 0 (if (0 < 0 ∨ (it = 0 ∧ 0 = 0)) ∧ true then S.fRelax 0 s else s) := by
  split
  · exact h.fRelax_relaxed (by omega) _
  · next hn =>
    rcases hF with rfl | hF
    · simp at hn
    · exact hF

end

section
variable [AddCommGroup V] [SMul K V] [One K] [Sub K]

/-- The state of a two-level iteration before the coarse-grid correction. -/
def pre (S : Sys V K) (it : Nat) (s : GState V) : GState V :=
  times (fun s => S.fRelax 0 (S.cRelax 0 s)) (S.cf 0)
    (if (0 < 0 ∨ (it = 0 ∧ 0 = 0)) ∧ true then S.fRelax 0 s else s)

theorem fineIteration_two (hL : S.L = 2) (cyc : Cycle) (it : Nat) (s : GState V) :
    S.fineIteration S.forwardSolve cyc it s
      = S.fRelax 0 (S.errorCorrection 0 (S.forwardSolve 1 (S.fasResidual 0 (S.pre it s)))) := by
  unfold fineIteration
  rw [hL]
  simp [iteration, pre]

theorem WF.two_level (h : S.WF) (hL : S.L = 2) (hR : ∀ x, S.R 0 x = x) (hI : ∀ x, S.I 0 x = x)
    (cyc : Cycle) (it : Nat) {s : GState V} (hF : it = 0 ∨ FRelaxed S 0 s) {j : Nat}
    (hj : j < S.n 1) :
    S.cvals (S.fineIteration S.forwardSolve cyc it s) j =
      if j = 0 then S.cvals (S.pre it s) 0
      else fineInterval (S.Φ 0) (S.C 0) j (S.cvals (S.pre it s) (j - 1))
        + S.Φ 1 j (S.cvals (S.fineIteration S.forwardSolve cyc it s) (j - 1))
        - S.Φ 1 j (S.cvals (S.pre it s) (j - 1)) := by
  have hp : FRelaxed S 0 (S.pre it s) :=
    h.times_relaxed (by omega) _ (h.lead_relaxed (by omega) it hF)
  rw [fineIteration_two hL]
  generalize S.pre it s = p at hp ⊢
  have hl : 0 + 1 < S.L := by omega
  have hval : ∀ j, j < S.n 1 →
      S.cvals (S.fRelax 0 (S.errorCorrection 0 (S.forwardSolve 1 (S.fasResidual 0 p)))) j
        = (S.forwardSolve 1 (S.fasResidual 0 p)).u 1 j := by
    intro j hj
    have hmem : S.cpt 0 j ∈ S.C 0 := cpt_mem (by rw [h.C_len 0 hl]; exact hj)
    unfold cvals
    rw [h.fRelax_C hl _ hmem]
    by_cases h0 : j = 0
    · subst h0
      rw [h.errorCorrection_not hl _ (Or.inr (h.cpt_zero hl)), forwardSolve_zero,
        h.fasResidual_u hl p hj, hR, forwardSolve_u_ne _ (by omega), fasResidual_u_ne _ (by omega)]
    · rw [h.errorCorrection_C hl _ hj h0, hI, forwardSolve_v, fasResidual_v_eq,
        forwardSolve_u_ne _ (by omega), fasResidual_u_ne _ (by omega), h.fasResidual_u hl p hj, hR]
      abel
  rw [hval j hj]
  split
  · next h0 =>
    subst h0
    rw [forwardSolve_zero, h.fasResidual_u hl p hj, hR]; rfl
  · next h0 =>
    rw [hval (j - 1) (by omega), forwardSolve_pos _ (by omega) hj]
    simp only [prop, if_neg (by omega : ¬ (1 : Nat) = 0)]
    rw [h.fasResidual_g hl p hj h0, h.fasResidual_u hl p hj, h.fasResidual_u hl p (show j - 1 < S.n (0 + 1) by simp only [Nat.zero_add]; omega)]
    simp only [fasRes, if_true, hR]
    rw [h.interval_eq (by omega) hp hj h0]
    unfold cvals
    abel

end
end Sys
end Pymgrit
