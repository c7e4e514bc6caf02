import Verif.SweepFacts
import Verif.Examples

/-!
# Properties C07-C09, C12-C15, C38: relaxation, coarsest solve, cycles

The theorems hold for every system `S` satisfying `Sys.WF`; `Cfg.sys_wf` shows that every valid grid
hierarchy gives one.  No algebraic law is assumed unless listed as an instance argument; the step
functions `S.Φ` and transfers are arbitrary.  The FAS step of level `l` to point `i` is
`S.prop g l i x`: `Φ 0 i x` on level 0 and `g l i + Φ l i x` on coarser levels.
-/

set_option linter.unusedSectionVars false

namespace Pymgrit
open Sys

variable {V K : Type} {S : Sys V K}

/-! ## C07 -/

/-- C07.  After F-relaxation every F-point holds the (FAS) step of its predecessor's value, C-points
are unchanged, as are all other levels and the arrays `v`, `g`; a second relaxation changes nothing. -/
theorem C07_fRelax [Add V] (h : S.WF) {l : Nat} (hl : l + 1 < S.L) (s : GState V) :
    (∀ i, i < S.n l → i ∉ S.C l →
      (S.fRelax l s).u l i = if l = 0 then S.Φ l i ((S.fRelax l s).u l (i - 1))
        else s.g l i + S.Φ l i ((S.fRelax l s).u l (i - 1))) ∧
    (∀ i, i ∈ S.C l → (S.fRelax l s).u l i = s.u l i) ∧
    (∀ l', l' ≠ l → (S.fRelax l s).u l' = s.u l') ∧
    (S.fRelax l s).v = s.v ∧ (S.fRelax l s).g = s.g ∧
    S.fRelax l (S.fRelax l s) = S.fRelax l s :=
  ⟨fun _ hi hC => h.fRelax_F hl s hi hC, fun _ hi => h.fRelax_C hl s hi,
   fun _ hl' => fRelax_u_ne s hl', rfl, rfl, h.fRelax_idem hl (h.fRelax_relaxed hl s)⟩

/-- C07.  These conditions determine the result: F-relaxation computes the only array with them. -/
theorem C07_fRelax_unique [Add V] (h : S.WF) {l : Nat} (hl : l + 1 < S.L) (s : GState V)
    (x : Nat → V)
    (hF : ∀ i, i < S.n l → i ∉ S.C l →
      x i = if l = 0 then S.Φ l i (x (i - 1)) else s.g l i + S.Φ l i (x (i - 1)))
    (hC : ∀ i, ¬ (i < S.n l ∧ i ∉ S.C l) → x i = s.u l i) : (S.fRelax l s).u l = x := by
  simp only [fRelax, GState.setU_u_same]
  refine sweep_unique (h.F_compat l hl) (fun i x => S.prop s.g l i x) _ _ (h.F_pos hl) ?_ ?_
  · intro i hi
    have := (h.F_mem l hl i).1 hi
    exact hF i this.1 this.2
  · intro i hi
    exact hC i fun hc => hi ((h.F_mem l hl i).2 hc)

/-! ## C08 -/

/-- C08.  After C-relaxation every C-point but the initial one is `w·step(predecessor) + (1-w)·old`;
the predecessor value is the relaxed one if the predecessor is a C-point other than 0 and the old one
otherwise.  F-points, the initial point, other levels and `v`, `g` are unchanged. -/
theorem C08_cRelax [Add V] [SMul K V] [One K] [Sub K] (h : S.WF) {l : Nat} (hl : l + 1 < S.L)
    (s : GState V) :
    (∀ i, i ∈ S.C l → i ≠ 0 → (S.cRelax l s).u l i =
      S.w • (if l = 0 then S.Φ l i ((S.cRelax l s).u l (i - 1))
        else s.g l i + S.Φ l i ((S.cRelax l s).u l (i - 1))) + (1 - S.w) • s.u l i) ∧
    (∀ i, i ∉ S.C l ∨ i = 0 → (S.cRelax l s).u l i = s.u l i) ∧
    (∀ l', l' ≠ l → (S.cRelax l s).u l' = s.u l') ∧
    (S.cRelax l s).v = s.v ∧ (S.cRelax l s).g = s.g := by
  refine ⟨fun i hi h0 => h.cRelax_C hl s hi h0, ?_, fun _ hl' => cRelax_u_ne s hl', rfl, rfl⟩
  rintro i (hi | rfl)
  · exact cRelax_not_C s hi
  · exact cRelax_zero s

/-- C08.  If no two C-points are adjacent, only old values enter. -/
theorem C08_cRelax_old [Add V] [SMul K V] [One K] [Sub K] (h : S.WF) {l : Nat} (hl : l + 1 < S.L)
    (hadj : ∀ i, i ∈ S.C l → i + 1 ∉ S.C l) (s : GState V) {i : Nat} (hi : i ∈ S.C l)
    (h0 : i ≠ 0) :
    (S.cRelax l s).u l i =
      S.w • (if l = 0 then S.Φ l i (s.u l (i - 1)) else s.g l i + S.Φ l i (s.u l (i - 1)))
        + (1 - S.w) • s.u l i := by
  rw [(C08_cRelax h hl s).1 i hi h0]
  have : i - 1 ∉ S.C l := fun hc => hadj _ hc (by rwa [Nat.sub_add_cancel (by omega)])
  rw [cRelax_not_C s this]

/-! ## C09 -/

/-- C09.  The coarsest solve satisfies the (FAS) recurrence at every point, with the first value
unchanged; nothing else changes. -/
theorem C09_coarsest_solve [Add V] (l : Nat) (s : GState V) :
    (S.forwardSolve l s).u l 0 = s.u l 0 ∧
    (∀ i, 1 ≤ i → i < S.n l → (S.forwardSolve l s).u l i =
      if l = 0 then S.Φ l i ((S.forwardSolve l s).u l (i - 1))
      else s.g l i + S.Φ l i ((S.forwardSolve l s).u l (i - 1))) ∧
    (∀ l', l' ≠ l → (S.forwardSolve l s).u l' = s.u l') ∧
    (S.forwardSolve l s).v = s.v ∧ (S.forwardSolve l s).g = s.g :=
  ⟨forwardSolve_zero l s, fun _ h1 hi => forwardSolve_pos s h1 hi,
   fun _ hl' => forwardSolve_u_ne s hl', rfl, rfl⟩

/-- C09.  The recurrence and the first value determine the solution. -/
theorem C09_unique [Add V] (l : Nat) (s : GState V) (x : Nat → V) (h0 : x 0 = s.u l 0)
    (hx : ∀ i, 1 ≤ i → i < S.n l →
      x i = if l = 0 then S.Φ l i (x (i - 1)) else s.g l i + S.Φ l i (x (i - 1))) :
    ∀ i, i < S.n l → (S.forwardSolve l s).u l i = x i := by
  intro i
  induction i with
  | zero => intro _; rw [forwardSolve_zero, h0]
  | succ i ih =>
    intro hi
    rw [(C09_coarsest_solve l s).2.1 (i + 1) (by omega) hi, hx (i + 1) (by omega) hi,
      Nat.add_sub_cancel, ih (by omega)]

/-- C09.  On level 0 the solve is sequential time stepping from the first value. -/
theorem C09_level0 [Add V] (s : GState V) :
    Solved (S.Φ 0) (S.n 0) ((S.forwardSolve 0 s).u 0) := by
  rw [solved_iff]
  intro i h1 hi
  simpa using (C09_coarsest_solve (S := S) 0 s).2.1 i h1 hi

/-! ## C12 -/

/-- C12.  If the fine iterate is the sequential solution, every further iteration (any cycle, number
of levels, relaxation count and weight, nonlinear steps) leaves it unchanged and all residuals that
enter the reported value vanish.  Transfers only have to map zero to zero. -/
theorem C12_fixed_point [AddCommGroup V] [Ring K] [Module K V] (h : S.WF)
    (hR : ∀ l, l + 1 < S.L → S.R l 0 = 0) (hI : ∀ l, l + 1 < S.L → S.I l 0 = 0)
    (cyc : Cycle) (it : Nat) (s : GState V) (hs : Solved (S.Φ 0) (S.n 0) (s.u 0)) :
    (∀ i, i < S.n 0 → (S.fineIteration S.forwardSolve cyc it s).u 0 i = s.u 0 i) ∧
    Solved (S.Φ 0) (S.n 0) ((S.fineIteration S.forwardSolve cyc it s).u 0) ∧
    ∀ x, x ∈ S.residuals (S.fineIteration S.forwardSolve cyc it s) → x = 0 := by
  have hL := h.Lpos
  have hpres : Pres S 0 s (S.fineIteration S.forwardSolve cyc it s) :=
    h.pres_iteration hR hI (fun s => pres_forwardSolve _ s) (S.L - 1) 0 it cyc true (by omega) s
  have hex : Exact S 0 s (S.n 0) := (exact_zero_iff S s _).2 ((solved_iff_solvedTo _ _ _).1 hs)
  have hsame := hpres.2 _ hex
  have hsol : Solved (S.Φ 0) (S.n 0) ((S.fineIteration S.forwardSolve cyc it s).u 0) :=
    (solved_iff_solvedTo _ _ _).2 ((exact_zero_iff S _ _).1 (hpres.exact hex))
  refine ⟨fun i hi => hsame i (by omega) hi, hsol, ?_⟩
  intro x hx
  simp only [residuals, List.mem_map, List.mem_filter, decide_eq_true_eq] at hx
  obtain ⟨i, ⟨hiC, hi0⟩, rfl⟩ := hx
  have hin : i < S.n 0 := by
    by_cases hl : 0 + 1 < S.L
    · exact h.C_lt 0 hl i hiC
    · have e : S.L - 1 = 0 := by omega
      have := h.C_last
      rw [e] at this
      rw [this] at hiC
      exact List.mem_range.1 hiC
  have := (solved_iff _ _ _).1 hsol i (by omega) hin
  rw [← this, sub_self]

/-! ## C13 -/

/-- Points after the first are C-points or F-points, the latter relaxed after an iteration. -/
theorem solved_of_residuals [AddCommGroup V] [SMul K V] [One K] [Sub K] (h : S.WF) (cyc : Cycle)
    (coarse : Nat → GState V → GState V) (it : Nat) (s : GState V)
    (hres : ∀ x, x ∈ S.residuals (S.fineIteration coarse cyc it s) → x = 0) :
    Solved (S.Φ 0) (S.n 0) ((S.fineIteration coarse cyc it s).u 0) := by
  have hL := h.Lpos
  rw [solved_iff]
  intro i h1 hi
  by_cases hC : i ∈ S.C 0
  · have := hres (S.Φ 0 i ((S.fineIteration coarse cyc it s).u 0 (i - 1)) -
      (S.fineIteration coarse cyc it s).u 0 i) (by
        simp only [residuals, List.mem_map, List.mem_filter, decide_eq_true_eq]
        exact ⟨i, ⟨hC, by omega⟩, rfl⟩)
    exact (sub_eq_zero.1 this).symm
  · have hL1 : 1 < S.L := by
      by_contra hc
      have e : S.L - 1 = 0 := by omega
      have := h.C_last
      rw [e] at this
      exact hC (by rw [this]; exact List.mem_range.2 hi)
    have := h.fineIteration_relaxed coarse cyc it s hL1 i hi hC
    simpa [prop] using this

/-- C13.  If the value recorded after an iteration under the residual criterion is zero (for any
spatial norm and time norm that vanish only at zero), the fine iterate is the sequential solution at
every point. -/
theorem C13_zero_residual [AddCommGroup V] [SMul K V] [One K] [Sub K] {N : Type} [Zero N]
    (h : S.WF) (c : Ctl V N) (hcrit : c.convCrit = 0)
    (hnorm : ∀ x, c.norm x = 0 → x = 0)
    (htnorm : ∀ xs, c.tnorm xs = 0 → ∀ x, x ∈ xs → x = 0)
    (coarse : Nat → GState V → GState V) (it : Nat) (s : Run V N)
    (hz : (S.solveBody c coarse it s).conv (it + 1) = 0) :
    Solved (S.Φ 0) (S.n 0) ((S.solveBody c coarse it s).st.u 0) := by
  have e1 : (S.solveBody c coarse it s).st = S.fineIteration coarse c.cyc it s.st := by
    unfold solveBody convergence Run.output
    rw [if_pos hcrit]
    split <;> rfl
  have e2 : (S.solveBody c coarse it s).conv (it + 1) =
      c.tnorm ((S.residuals (S.fineIteration coarse c.cyc it s.st)).map c.norm) := by
    unfold solveBody convergence Run.output
    rw [if_pos hcrit]
    split <;> simp
  rw [e1]
  refine solved_of_residuals h c.cyc coarse it s.st ?_
  intro x hx
  exact hnorm x (htnorm _ (e2 ▸ hz) _ (List.mem_map.2 ⟨x, hx, rfl⟩))

/-! ## C14 -/

/-- C14.  With copying transfers and weight one, after `k` iterations (any cycle, levels, initial
guess, nonlinear steps) the iterate equals the sequential solution at every point before the C-point
number `k·(cf+1) + 1`, i.e. on the first `k·(cf+1) + 1` coarse intervals. -/
theorem C14_prefix [AddCommGroup V] [Ring K] [Module K V] (h : S.WF) (hL : 1 < S.L)
    (hw : S.w = 1) (hR : ∀ l x, S.R l x = x) (hI : ∀ l x, S.I l x = x) (cyc : Cycle) (k : Nat)
    (hk : 1 ≤ k) (s : GState V) :
    ∀ i, i < S.n 0 → (∀ c, (S.C 0)[k * (S.cf 0 + 1) + 1]? = some c → i < c) →
      (iterates S S.forwardSolve cyc k s).u 0 i =
        seqSol (S.Φ 0) ((iterates S S.forwardSolve cyc k s).u 0 0) i := by
  obtain ⟨k, rfl⟩ : ∃ m, k = m + 1 := ⟨k - 1, by omega⟩
  have hex := h.iterates_interval hw hL (fun l _ => hR l 0) (fun l _ => hI l 0)
    (fun l _ x => by rw [hR, hI]) (coarse := S.forwardSolve) (fun s => pres_forwardSolve _ s)
    (fun s => grows_forwardSolve _ s) cyc k s
  rw [exact_zero_iff] at hex
  intro i hi hic
  refine hex i ?_ hi
  unfold intEnd
  have hlen := h.C_len 0 (by omega)
  split
  · rename_i hlt
    have := hic (S.cpt 0 ((k + 1) * (S.cf 0 + 1) + 1)) (by
      rw [cpt_eq (by omega), List.getElem?_eq_getElem (by omega)])
    omega
  · omega

/-- C14.  The same for every relaxation weight, with one coarse interval per iteration. -/
theorem C14_prefix_any_weight [AddCommGroup V] [Ring K] [Module K V] (h : S.WF) (hL : 1 < S.L)
    (hR : ∀ l x, S.R l x = x) (hI : ∀ l x, S.I l x = x) (cyc : Cycle) (k : Nat)
    (hk : 1 ≤ k) (s : GState V) :
    ∀ i, i < S.n 0 → (∀ c, (S.C 0)[k + 1]? = some c → i < c) →
      (iterates S S.forwardSolve cyc k s).u 0 i =
        seqSol (S.Φ 0) ((iterates S S.forwardSolve cyc k s).u 0 0) i := by
  obtain ⟨k, rfl⟩ : ∃ m, k = m + 1 := ⟨k - 1, by omega⟩
  have hex := h.iterates_interval_anyw hL (fun l _ => hR l 0) (fun l _ => hI l 0)
    (fun l _ x => by rw [hR, hI]) (coarse := S.forwardSolve) (fun s => pres_forwardSolve _ s)
    (fun s => grows_forwardSolve _ s) cyc k s
  rw [exact_zero_iff] at hex
  intro i hi hic
  refine hex i ?_ hi
  unfold intEnd
  have hlen := h.C_len 0 (by omega)
  split
  · rename_i hlt
    have := hic (S.cpt 0 (k + 1 + 1)) (by
      rw [cpt_eq (by omega), List.getElem?_eq_getElem (by omega)])
    omega
  · omega

/-- C14.  Finite termination: once `k·(cf+1)` reaches the number of coarse intervals (number of
points of level 1 minus one) the iterate is the sequential solution. -/
theorem C14_finite_termination [AddCommGroup V] [Ring K] [Module K V] (h : S.WF) (hL : 1 < S.L)
    (hw : S.w = 1) (hR : ∀ l x, S.R l x = x) (hI : ∀ l x, S.I l x = x) (cyc : Cycle) (k : Nat)
    (hk1 : 1 ≤ k) (hk : S.n 1 - 1 ≤ k * (S.cf 0 + 1)) (s : GState V) :
    Solved (S.Φ 0) (S.n 0) ((iterates S S.forwardSolve cyc k s).u 0) := by
  intro i hi
  refine C14_prefix h hL hw hR hI cyc k hk1 s i hi ?_
  intro c hc
  have hlen : (S.C 0).length = S.n 1 := h.C_len 0 (by omega)
  obtain ⟨hlt, -⟩ := List.getElem?_eq_some_iff.1 hc
  omega

/-- C14.  Finite termination for every weight: as many iterations as coarse intervals suffice. -/
theorem C14_finite_termination_any_weight [AddCommGroup V] [Ring K] [Module K V] (h : S.WF)
    (hL : 1 < S.L) (hR : ∀ l x, S.R l x = x) (hI : ∀ l x, S.I l x = x) (cyc : Cycle) (k : Nat)
    (hk1 : 1 ≤ k) (hk : S.n 1 - 1 ≤ k) (s : GState V) :
    Solved (S.Φ 0) (S.n 0) ((iterates S S.forwardSolve cyc k s).u 0) := by
  intro i hi
  refine C14_prefix_any_weight h hL hR hI cyc k hk1 s i hi ?_
  intro c hc
  have hlen : (S.C 0).length = S.n 1 := h.C_len 0 (by omega)
  obtain ⟨hlt, -⟩ := List.getElem?_eq_some_iff.1 hc
  omega

/-! ## C15 -/

/-- C15.  After any iteration (number `it`), performing the leading F-relaxation in the next iteration
(as iteration number 0 does) or omitting it (as all others do) gives the same result. -/
theorem C15_skip_first_f_relax [Add V] [Sub V] [SMul K V] [One K] [Sub K] (h : S.WF)
    (coarse : Nat → GState V → GState V) (cyc : Cycle) (it it' : Nat) (s : GState V) :
    S.fineIteration coarse cyc it' (S.fineIteration coarse cyc it s) =
      S.fineIteration coarse cyc 0 (S.fineIteration coarse cyc it s) :=
  h.fineIteration_it coarse cyc it' 0 fun hL => h.fineIteration_relaxed coarse cyc it s hL

/-- C15.  Evaluating the convergence criterion does not change the solution. -/
theorem C15_convergence_keeps [Add V] [Sub V] {N : Type} (c : Ctl V N) (it : Nat) (s : Run V N) :
    (S.convergence c it s).st = s.st := by
  unfold convergence; split <;> rfl

/-! ## C38 -/

/-- A coarsest-level solver that also applies `f` to one cell of an unused level: used to observe
how often the coarsest solver is called. -/
def probe (L : Nat) (f : V → V) (coarse : Nat → GState V → GState V) (l : Nat) (s : GState V) :
    GState V :=
  { coarse l s with v := Function.update (coarse l s).v L fun _ => f (s.v L 0) }

/-- `f` applied `k` times. -/
def applyN (f : V → V) : Nat → V → V
  | 0, x => x
  | k + 1, x => applyN f k (f x)

theorem applyN_add (f : V → V) (a b : Nat) (x : V) :
    applyN f b (applyN f a x) = applyN f (a + b) x := by
  induction a generalizing x with
  | zero => simp [applyN]
  | succ a ih => rw [Nat.succ_add]; exact ih (f x)

section
variable [Add V] [Sub V] [SMul K V] [One K] [Sub K]

theorem times_v {l L : Nat} (k : Nat) (s : GState V) :
    (times (fun s => S.fRelax l (S.cRelax l s)) k s).v L = s.v L := by
  induction k generalizing s with
  | zero => rfl
  | succ k ih => rw [times, ih]; rfl

theorem probe_vcyc (L : Nat) (f : V → V) (coarse : Nat → GState V → GState V)
    (d l it : Nat) (ff : Bool) (hd : l + d < L) (s : GState V) :
    (S.vcyc (probe L f coarse) d l it ff s).v L 0 = applyN f 1 (s.v L 0) := by
  induction d generalizing l ff s with
  | zero => simp [vcyc, probe, applyN]
  | succ d ih =>
    simp only [vcyc, fRelax_v, errorCorrection_v]
    rw [ih (l + 1) true (by omega), fasResidual_v_ne _ (by omega), times_v]
    split <;> rfl

theorem probe_iteration (L : Nat) (f : V → V) (coarse : Nat → GState V → GState V)
    (d l it : Nat) (cyc : Cycle) (ff : Bool) (hd : l + d < L) (s : GState V) :
    (S.iteration (probe L f coarse) d l cyc it ff s).v L 0 =
      applyN f (if cyc = Cycle.V then 1 else if l = 0 then max 1 d else d + 1) (s.v L 0) := by
  induction d generalizing l ff s with
  | zero => cases cyc <;> by_cases h0 : l = 0 <;> simp [iteration, probe, applyN, h0]
  | succ d ih =>
    have hpre : ∀ (p : Prop) [Decidable p] s, (S.fasResidual l
        (times (fun s => S.fRelax l (S.cRelax l s)) (S.cf l)
        (if p then S.fRelax l s else s))).v L = s.v L := by
      intro p _ s
      rw [fasResidual_v_ne _ (by omega), times_v]
      split <;> rfl
    have ih' := ih (l + 1) true (by omega)
    cases cyc with
    | V =>
      simp only [iteration, reduceCtorEq, and_false, if_false, fRelax_v, errorCorrection_v]
      rw [ih', hpre]; rfl
    | F =>
      simp only [iteration, and_true]
      by_cases h0 : l = 0
      · simp only [h0, ne_eq, not_true_eq_false, if_false, fRelax_v, errorCorrection_v]
        have ih0 := ih'
        have hpre0 := hpre
        subst h0
        rw [ih0, hpre0]
        simp
      · simp only [ne_eq, h0, not_false_eq_true, if_true]
        rw [probe_vcyc L f coarse (d + 1) l it false hd]
        simp only [fRelax_v, errorCorrection_v]
        rw [ih', hpre, applyN_add]
        simp

end

/-- C38.  One iteration calls the coarsest-level solver exactly once for a V-cycle and exactly `L-1`
times for an F-cycle on `L ≥ 2` levels: observed by letting the solver apply an arbitrary `f` to a
cell nothing else touches. -/
theorem C38_coarse_solve_count [Add V] [Sub V] [SMul K V] [One K] [Sub K] (hL : 2 ≤ S.L)
    (coarse : Nat → GState V → GState V) (cyc : Cycle) (it : Nat) (f : V → V) (s : GState V) :
    (S.fineIteration (probe S.L f coarse) cyc it s).v S.L 0 =
      applyN f (match cyc with | Cycle.V => 1 | Cycle.F => S.L - 1) (s.v S.L 0) := by
  unfold fineIteration
  rw [probe_iteration S.L f coarse (S.L - 1) 0 it cyc true (by omega) s]
  cases cyc with
  | V => rfl
  | F =>
    have : max 1 (S.L - 1) = S.L - 1 := by omega
    simp [this]

/-- C38.  Every visit of a level other than the coarsest ends F-relaxed on that level, and the
recursion on levels is the one of the code (`iteration_eq`). -/
theorem C38_ends_relaxed [Add V] [Sub V] [SMul K V] [One K] [Sub K] (h : S.WF)
    (coarse : Nat → GState V → GState V) (l it : Nat) (cyc : Cycle) (ff : Bool)
    (hl : l + 1 < S.L) (s : GState V) :
    let s' := S.iteration coarse (S.L - 1 - l) l cyc it ff s
    ∀ i, i < S.n l → i ∉ S.C l →
      s'.u l i = if l = 0 then S.Φ l i (s'.u l (i - 1)) else s'.g l i + S.Φ l i (s'.u l (i - 1)) := by
  obtain ⟨d, hd⟩ : ∃ d, S.L - 1 - l = d + 1 := ⟨S.L - 2 - l, by omega⟩
  rw [hd]
  exact iteration_relaxed h coarse d l it cyc ff hl s

/-! ### The hypotheses are met by a three-level nonlinear problem -/

example : (exCfg 1).sys.WF ∧ 1 < (exCfg 1).sys.L ∧ (exCfg 1).sys.w = 1 ∧
    (∀ l x, (exCfg 1).sys.R l x = x) ∧ (∀ l x, (exCfg 1).sys.I l x = x) ∧
    (exCfg 1).sys.n 1 - 1 ≤ 2 * ((exCfg 1).sys.cf 0 + 1) :=
  ⟨exSys_wf 1, by decide, rfl, fun _ _ => rfl, fun _ _ => rfl, by decide⟩

/-- C-points of the example are not adjacent on level 0 (hypothesis of `C08_cRelax_old`). -/
example : ∀ i, i ∈ (exCfg 1).sys.C 0 → i + 1 ∉ (exCfg 1).sys.C 0 := by
  have : (exCfg 1).sys.C 0 = [0, 2, 4, 6, 8] := by decide
  rw [this]; decide

/-- A solved state exists for every system (hypothesis of `C12_fixed_point`). -/
example [Add V] (S : Sys V K) (s : GState V) :
    Solved (S.Φ 0) (S.n 0) ((S.forwardSolve 0 s).u 0) := C09_level0 s

/-- A recorded value of zero occurs (hypothesis of `C13_zero_residual`): after two iterations the
example is solved, so its residual is zero. -/
example : ((exCfg 1).sys.solveBody ⟨Cycle.F, true, 5, 0, fun x => |x|, fun xs => (xs.map fun x => |x|).sum,
    fun x => decide (x < 1), 0⟩ ((exCfg 1).sys.forwardSolve) 1
    ⟨(exCfg 1).sys.fineIteration (exCfg 1).sys.forwardSolve Cycle.F 0
      ⟨fun _ i => if i = 0 then 1 else 0, fun _ _ => 0, fun _ _ => 0⟩, fun _ => 0, fun _ => 7, 0, []⟩).conv 2 = 0 := by
  decide +kernel

end Pymgrit
