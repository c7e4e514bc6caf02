import Verif.EndToEnd2
import Verif.Param
import Verif.PropsOutput
import Mathlib.Algebra.Module.Prod
import Mathlib.Algebra.Order.Field.Rat
import Mathlib.Algebra.Group.Subgroup.Basic

/-!
# Properties C95, C96: transfers that lose information, and a jump of zero

`C14` (finite termination) needs transfers that lose nothing.  Here the transfers may be anything that
maps zero to zero, e.g. restriction to a coarser mesh in space and interpolation back.

* C95: with at least one FCF-relaxation and weight one the iteration still terminates after finitely
  many iterations; with F-relaxation alone the values at the C-points never leave the initial guess plus
  the range of the interpolation.
* C96: if two consecutive iterates agree at the C-points (a jump of zero), nothing changes any more, and
  in the situations of `C14` and `C95` the result is sequential time stepping.  Without FCF-relaxation
  and with a restriction that loses information this fails.
-/

set_option linter.unusedSectionVars false

namespace Pymgrit
open Sys

variable {V K N T : Type} {S : Sys V K}

/-! ## C95 -/

section
variable [AddCommGroup V] [Ring K] [Module K V]

/-- One iteration extends the exact prefix by `cf` coarse intervals, whatever the transfers do with
values other than zero. -/
theorem Sys.WF.interval_iteration_cf (h : S.WF) (hw : S.w = 1)
    (hR : ∀ l, l + 1 < S.L → S.R l 0 = 0) (hI : ∀ l, l + 1 < S.L → S.I l 0 = 0)
    {coarse : Nat → GState V → GState V}
    (hcoarse : ∀ s, Pres S (S.L - 1) s (coarse (S.L - 1) s))
    (d l it : Nat) (cyc : Cycle) (ff : Bool) (hd : l + (d + 1) + 1 = S.L) (s : GState V) (j : Nat)
    (he : Exact S l s (S.intEnd l j)) :
    Exact S l (S.iteration coarse (d + 1) l cyc it ff s) (S.intEnd l (j + S.cf l)) := by
  have hl : l + 1 < S.L := by omega
  simp only [iteration]
  set s0 := (if (0 < l ∨ it = 0 ∧ l = 0) ∧ ff = true then S.fRelax l s else s) with hs0
  have he0 : Exact S l s0 (S.intEnd l j) := by
    rw [hs0]; split
    · exact (h.pres_fRelax hl s).exact he
    · exact he
  have he1 := h.cf_interval hw hl (S.cf l) j s0 he0
  set s1 := times (fun s => S.fRelax l (S.cRelax l s)) (S.cf l) s0
  have hpf := fun s => h.pres_iteration hR hI hcoarse d (l + 1) it cyc true (by omega) s
  have hmain := (h.pres_fRelax hl _).exact
    ((h.pres_cgc hl (hR l hl) (hI l hl) _ hpf s1).exact he1)
  split
  · exact (h.pres_vcyc hR hI hcoarse (d + 1) l it false hd _).exact hmain
  · exact hmain

theorem Sys.WF.iterates_interval_cf (h : S.WF) (hw : S.w = 1) (hL : 1 < S.L)
    (hR : ∀ l, l + 1 < S.L → S.R l 0 = 0) (hI : ∀ l, l + 1 < S.L → S.I l 0 = 0)
    {coarse : Nat → GState V → GState V}
    (hcoarse : ∀ s, Pres S (S.L - 1) s (coarse (S.L - 1) s)) (cyc : Cycle) (k : Nat)
    (s : GState V) :
    Exact S 0 (iterates S coarse cyc (k + 1) s) (S.intEnd 0 ((k + 1) * S.cf 0)) := by
  obtain ⟨d, hd⟩ : ∃ d, S.L - 1 = d + 1 := ⟨S.L - 2, by omega⟩
  have step : ∀ it s j, Exact S 0 s (S.intEnd 0 j) →
      Exact S 0 (S.fineIteration coarse cyc it s) (S.intEnd 0 (j + S.cf 0)) := by
    intro it s j he
    unfold fineIteration
    rw [hd]
    exact h.interval_iteration_cf hw hR hI hcoarse d 0 it cyc true (by omega) s j he
  induction k with
  | zero =>
    show Exact S 0 (S.fineIteration coarse cyc 0 s) _
    rw [h.fineIteration_first coarse cyc hL s]
    have := step 0 (S.fRelax 0 s) 0 (h.fRelax_interval (by omega) (fun _ => ?_) (fun hj => ?_))
    · simpa using this
    · intro i h1 hi
      rw [h.cpt_zero (by omega)] at hi; omega
    · have := h.npos (0 + 1) (by omega); omega
  | succ k ih =>
    have := step (k + 1) _ _ ih
    have e : (k + 1 + 1) * S.cf 0 = (k + 1) * S.cf 0 + S.cf 0 := by ring
    rw [e]
    exact this

/-- C95.  Weight one, transfers that map zero to zero and are otherwise arbitrary: after `k` iterations
(any cycle, levels, initial guess, nonlinear steps) the iterate equals the sequential solution at every
point before the C-point number `k·cf + 1`, i.e. on the first `k·cf + 1` coarse intervals. -/
theorem C95_prefix (h : S.WF) (hL : 1 < S.L) (hw : S.w = 1)
    (hR : ∀ l, l + 1 < S.L → S.R l 0 = 0) (hI : ∀ l, l + 1 < S.L → S.I l 0 = 0) (cyc : Cycle)
    (k : Nat) (hk : 1 ≤ k) (s : GState V) :
    ∀ i, i < S.n 0 → (∀ c, (S.C 0)[k * S.cf 0 + 1]? = some c → i < c) →
      (iterates S S.forwardSolve cyc k s).u 0 i =
        seqSol (S.Φ 0) ((iterates S S.forwardSolve cyc k s).u 0 0) i := by
  obtain ⟨k, rfl⟩ : ∃ m, k = m + 1 := ⟨k - 1, by omega⟩
  have hex := h.iterates_interval_cf hw hL hR hI (coarse := S.forwardSolve)
    (fun s => pres_forwardSolve _ s) cyc k s
  rw [exact_zero_iff] at hex
  intro i hi hic
  refine hex i ?_ hi
  unfold intEnd
  have hlen := h.C_len 0 (by omega)
  split
  · rename_i hlt
    have := hic (S.cpt 0 ((k + 1) * S.cf 0 + 1)) (by
      rw [cpt_eq (by omega), List.getElem?_eq_getElem (by omega)])
    omega
  · omega

/-- C95.  Finite termination: once `k·cf` reaches the number of coarse intervals (number of points of
level 1 minus one) the iterate is the sequential solution. -/
theorem C95_finite_termination (h : S.WF) (hL : 1 < S.L) (hw : S.w = 1)
    (hR : ∀ l, l + 1 < S.L → S.R l 0 = 0) (hI : ∀ l, l + 1 < S.L → S.I l 0 = 0) (cyc : Cycle)
    (k : Nat) (hk1 : 1 ≤ k) (hk : S.n 1 - 1 ≤ k * S.cf 0) (s : GState V) :
    Solved (S.Φ 0) (S.n 0) ((iterates S S.forwardSolve cyc k s).u 0) := by
  intro i hi
  refine C95_prefix h hL hw hR hI cyc k hk1 s i hi ?_
  intro c hc
  have hlen : (S.C 0).length = S.n 1 := h.C_len 0 (by omega)
  obtain ⟨hlt, -⟩ := List.getElem?_eq_some_iff.1 hc
  omega

/-- C95.  Without FCF-relaxation every C-point keeps its initial value up to a value of the group `H`
that contains everything the interpolation can produce. -/
theorem C95_no_relaxation (h : S.WF) (hL : 1 < S.L) (hcf : S.cf 0 = 0) (H : AddSubgroup V)
    (hH : ∀ x, S.I 0 x ∈ H) {coarse : Nat → GState V → GState V}
    (hcoarse : ∀ s, Keeps (S.L - 1) s (coarse (S.L - 1) s)) (cyc : Cycle) (k : Nat) (s : GState V) :
    ∀ i, i ∈ S.C 0 → (iterates S coarse cyc k s).u 0 i - s.u 0 i ∈ H := by
  have step : ∀ it s i, i ∈ S.C 0 →
      (S.fineIteration coarse cyc it s).u 0 i - s.u 0 i ∈ H := by
    intro it s i hi
    obtain ⟨d, hd⟩ : ∃ d, S.L - 1 = d + 1 := ⟨S.L - 2, by omega⟩
    have hl : 0 + 1 < S.L := by omega
    unfold fineIteration
    rw [hd]
    rw [iteration, hcf, times]
    set s0 := (if (0 < 0 ∨ it = 0 ∧ (0 : Nat) = 0) ∧ true = true then S.fRelax 0 s else s) with hs0
    have e0 : s0.u 0 i = s.u 0 i := by
      rw [hs0]; split
      · exact h.fRelax_C hl s hi
      · rfl
    have hk := h.keeps_iteration hcoarse d (0 + 1) it cyc true (by omega) (S.fasResidual 0 s0)
    set s1 := S.iteration coarse d (0 + 1) cyc it true (S.fasResidual 0 s0)
    have e1 : s1.u 0 i = s.u 0 i := by
      rw [hk.u_lt 0 (by omega), fasResidual_u_ne _ (by omega), e0]
    have hmain : (S.fRelax 0 (S.errorCorrection 0 s1)).u 0 i - s.u 0 i ∈ H := by
      rw [h.fRelax_C hl _ hi]
      obtain ⟨j, hj, rfl⟩ := (h.mem_C_iff hl).1 hi
      by_cases hj0 : j = 0
      · subst hj0
        rw [h.errorCorrection_not hl s1 (Or.inr (h.cpt_zero hl)), e1, sub_self]
        exact H.zero_mem
      · rw [h.errorCorrection_C hl s1 hj hj0, e1, add_sub_cancel_left]
        exact hH _
    split
    · next hc => simp at hc
    · exact hmain
  induction k with
  | zero => intro i _; simp [iterates, H.zero_mem]
  | succ k ih =>
    intro i hi
    have := H.add_mem (step k (iterates S coarse cyc k s) i hi) (ih i hi)
    rwa [sub_add_sub_cancel] at this

end

/-! ## C96 -/

section
variable [AddCommGroup V] [Ring K] [Module K V]

theorem respects_eq (S : Sys V K) : Respects S S (fun _ => Eq) (fun _ => Eq) (fun _ => Eq) where
  L := rfl
  n := rfl
  C := rfl
  F := rfl
  cf := rfl
  step := by rintro _ _ _ _ _ _ _ rfl; rfl
  relax := by rintro _ _ _ _ _ _ rfl rfl; rfl
  dif := by rintro _ _ _ _ _ rfl rfl; rfl
  difAdd := by rintro _ _ _ _ _ rfl rfl; rfl
  addDif := by rintro _ _ _ _ _ rfl rfl; rfl
  difSub := by rintro _ _ _ _ _ rfl rfl; rfl
  subAdd := by rintro _ _ _ _ _ rfl rfl; rfl
  restrict := by rintro _ _ _ _ rfl; rfl
  restrictDif := by rintro _ _ _ _ rfl; rfl
  interpDif := by rintro _ _ _ _ rfl; rfl

theorem iterates_fine (h : S.WF) (coarse : Nat → GState V → GState V) (cyc : Cycle) (m : Nat)
    (s : GState V) : iterates S coarse cyc (m + 1) s =
      S.fineIteration coarse cyc 0 (iterates S coarse cyc m s) := by
  cases m with
  | zero => rfl
  | succ m => exact C15_skip_first_f_relax h coarse cyc m (m + 1) (iterates S coarse cyc m s)

/-- C96.  If iterates `m` and `m + 1` agree at the C-points other than the first point, all iterates
from `m + 1` on agree at all points. -/
theorem C96_stationary (h : S.WF) (cyc : Cycle) (m : Nat) (s : GState V)
    (hz : ∀ i, i ∈ S.C 0 → i ≠ 0 → (iterates S S.forwardSolve cyc (m + 1) s).u 0 i =
      (iterates S S.forwardSolve cyc m s).u 0 i) (k : Nat) :
    ∀ i, i < S.n 0 → (iterates S S.forwardSolve cyc (m + 1 + k) s).u 0 i =
      (iterates S S.forwardSolve cyc (m + 1) s).u 0 i := by
  have hr := respects_eq S
  have key : ∀ a b : GState V, (∀ i, i ∈ S.C 0 → a.u 0 i = b.u 0 i) → ∀ i, i < S.n 0 →
      (S.fineIteration S.forwardSolve cyc 0 a).u 0 i =
        (S.fineIteration S.forwardSolve cyc 0 b).u 0 i := by
    intro a b hab
    exact hr.fineIteration_rel h (hr.coarse_forward h) cyc 0 hab (Or.inl rfl)
  have h0 : ∀ i, i ∈ S.C 0 → (iterates S S.forwardSolve cyc (m + 1) s).u 0 i =
      (iterates S S.forwardSolve cyc m s).u 0 i := by
    intro i hi
    by_cases hi0 : i = 0
    · subst hi0
      rw [(keeps_iterates h cyc (m + 1) s).zero, (keeps_iterates h cyc m s).zero]
    · exact hz i hi hi0
  have hC0 : ∀ i, i ∈ S.C 0 → i < S.n 0 := by
    intro i hi
    by_cases hL : 0 + 1 < S.L
    · exact h.C_lt 0 hL i hi
    · have h1 := h.C_last
      have := h.Lpos
      rw [show S.L - 1 = 0 by omega] at h1
      rw [h1] at hi
      simpa using hi
  induction k with
  | zero => intro i _; rfl
  | succ k ih =>
    intro i hi
    rw [← Nat.add_assoc, iterates_fine h _ _ (m + 1 + k), key _ (iterates S S.forwardSolve cyc m s)
      (fun i hi => (ih i (hC0 i hi)).trans (h0 i hi)) i hi, ← iterates_fine h]

theorem solved_of_stationary (h : S.WF) (cyc : Cycle) (m : Nat) (s : GState V)
    (hz : ∀ i, i ∈ S.C 0 → i ≠ 0 → (iterates S S.forwardSolve cyc (m + 1) s).u 0 i =
      (iterates S S.forwardSolve cyc m s).u 0 i)
    (k : Nat) (hk : m + 1 ≤ k)
    (hS : Solved (S.Φ 0) (S.n 0) ((iterates S S.forwardSolve cyc k s).u 0)) :
    Solved (S.Φ 0) (S.n 0) ((iterates S S.forwardSolve cyc (m + 1) s).u 0) := by
  obtain ⟨k, rfl⟩ := Nat.exists_eq_add_of_le hk
  have hst := C96_stationary h cyc m s hz k
  intro i hi
  rw [← hst i hi, ← hst 0 (by omega)]
  exact hS i hi

/-- C96.  Transfers that lose nothing (interpolating what was restricted gives it back), any relaxation
weight: agreement of consecutive iterates at the C-points means the result is sequential time
stepping. -/
theorem C96_lossless (h : S.WF) (hL : 1 < S.L)
    (hR : ∀ l, l + 1 < S.L → S.R l 0 = 0) (hI : ∀ l, l + 1 < S.L → S.I l 0 = 0)
    (hIR : ∀ l, l + 1 < S.L → ∀ x, S.I l (S.R l x) = x) (cyc : Cycle) (m : Nat) (s : GState V)
    (hz : ∀ i, i ∈ S.C 0 → i ≠ 0 → (iterates S S.forwardSolve cyc (m + 1) s).u 0 i =
      (iterates S S.forwardSolve cyc m s).u 0 i) :
    Solved (S.Φ 0) (S.n 0) ((iterates S S.forwardSolve cyc (m + 1) s).u 0) := by
  refine solved_of_stationary h cyc m s hz (m + S.n 1 + 1) (by omega) ?_
  have hex := h.iterates_interval_anyw hL hR hI hIR (coarse := S.forwardSolve)
    (fun s => pres_forwardSolve _ s) (fun s => grows_forwardSolve _ s) cyc (m + S.n 1) s
  rw [exact_zero_iff] at hex
  intro i hi
  refine hex i ?_ hi
  rw [intEnd_ge (by simp; omega)]
  omega

/-- C96.  Transfers that map zero to zero, weight one and at least one FCF-relaxation on the finest
level: agreement of consecutive iterates at the C-points means the result is sequential time
stepping. -/
theorem C96_lossy (h : S.WF) (hL : 1 < S.L) (hw : S.w = 1) (hcf : 1 ≤ S.cf 0)
    (hR : ∀ l, l + 1 < S.L → S.R l 0 = 0) (hI : ∀ l, l + 1 < S.L → S.I l 0 = 0)
    (cyc : Cycle) (m : Nat) (s : GState V)
    (hz : ∀ i, i ∈ S.C 0 → i ≠ 0 → (iterates S S.forwardSolve cyc (m + 1) s).u 0 i =
      (iterates S S.forwardSolve cyc m s).u 0 i) :
    Solved (S.Φ 0) (S.n 0) ((iterates S S.forwardSolve cyc (m + 1) s).u 0) := by
  refine solved_of_stationary h cyc m s hz (m + S.n 1 + 1) (by omega) ?_
  refine C95_finite_termination h hL hw hR hI cyc _ (by omega) ?_ s
  have := Nat.mul_le_mul_left (m + S.n 1 + 1) hcf
  omega

end

/-! ## On any number of processes -/

section
open Cfg
variable [LinearOrder T] [Inhabited T] [AddCommGroup V] [Ring K] [Module K V] [Zero N]

/-- C95 on any number of processes: if the iterations performed times `cf_iter` reach the number of
coarse intervals, the result is sequential time stepping. -/
theorem C95_distributed {E : Cfg V K T N} (h : E.Good) (hL : 1 < E.ts.length) (hw : E.w = 1)
    (hR : ∀ l, l + 1 < E.ts.length → E.R l 0 = 0) (hI : ∀ l, l + 1 < E.ts.length → E.I l 0 = 0)
    (hmax : 0 < E.maxIter)
    {c : Conf E.P (Msg V N) (PState V N)} (h1 : Steps (startConf E) c) (hc : ∀ d, ¬ Step c d)
    (r : Fin E.P) (s : PState V N) (hr : c.prog r = Prog.ret s)
    (hk : (grid E.ts 1).length - 1 ≤ s.solveIter * E.cf 0) : AllSolved E c := by
  refine allSolved_of_serial h h1 hc ?_
  obtain ⟨s', e, hS⟩ := C20_same_as_serial_partial h h1 hc r
  rw [hr] at e
  cases e
  have hser : serialRun E = E.sys.solve E.ctl E.sys.forwardSolve (afterConstructor E) := rfl
  obtain ⟨m, hm1, -, hit, hst, -⟩ :=
    C17_stopping_rule (S := E.sys) E.ctl E.sys.forwardSolve (afterConstructor E) hmax
  rw [hS.iter, hser, hit] at hk
  rw [hser, hst]
  exact C95_finite_termination (E.sys_wf h.valid) hL hw hR hI E.ctl.cyc m hm1 hk (afterConstructor E).st

omit [LinearOrder T] [Inhabited T] [Zero N] in
/-- After nested iteration the C-points of the finest level hold interpolated values. -/
theorem nestedLoop_range (h : S.WF) (hL : 1 < S.L) (coarse : Nat → GState V → GState V) (d : Nat)
    (s : GState V) (q : Nat) (hq : q < S.n 1) (hq0 : q ≠ 0) :
    ∃ x, (S.nestedLoop coarse (d + 1) s).u 0 (S.cpt 0 q) = S.I 0 x := by
  induction d generalizing s with
  | zero => exact ⟨_, h.interpolate_C hL s hq hq0⟩
  | succ d ih => exact ih _

/-- C95 on any number of processes, `cf_iter` zero on the finest level: however many iterations are
performed, the value returned at a C-point other than the first point is the initial guess plus a value
of the group `H` generated by the interpolation; with nested iteration it is a value of `H`. -/
theorem C95_no_relaxation_distributed {E : Cfg V K T N} (h : E.Good) (hL : 1 < E.ts.length)
    (hcf : E.cf 0 = 0) (H : AddSubgroup V) (hH : ∀ x, E.I 0 x ∈ H) (hmax : 0 < E.maxIter)
    {c : Conf E.P (Msg V N) (PState V N)} (h1 : Steps (startConf E) c) (hc : ∀ d, ¬ Step c d)
    (r : Fin E.P) (s : PState V N) (hr : c.prog r = Prog.ret s) (k i j : Nat)
    (hi : (E.info r 0).pts[k]? = some i) (hj : (E.info r 0).idx[k]? = some j)
    (hC : i ∈ allC E.ts 0) (hi0 : i ≠ 0) :
    (E.nested = false → s.u 0 j - E.guess i ∈ H) ∧ (E.nested = true → s.u 0 j ∈ H) := by
  have hwf := E.sys_wf h.valid
  obtain ⟨-, -, -, -, hv⟩ := returned h hmax h1 hc r s hr
  have hH' := C95_no_relaxation hwf hL hcf H hH (coarse := E.sys.forwardSolve)
    (fun s => keeps_forwardSolve s) E.cyc s.solveIter (afterConstructor E).st i hC
  rw [← (hv k i j hi hj).2] at hH'
  refine ⟨fun hn => ?_, fun hn => ?_⟩
  · rwa [constructor_value hn, if_neg hi0, if_pos rfl] at hH'
  · have : (afterConstructor E).st.u 0 i ∈ H := by
      rw [constructor_nested hn]
      have hl : 0 + 1 < E.sys.L := hL
      obtain ⟨d, hd⟩ : ∃ d, E.sys.L - 1 = d + 1 := ⟨E.sys.L - 2, by omega⟩
      unfold nestedIteration
      rw [hd]
      obtain ⟨q, hq, rfl⟩ := (hwf.mem_C_iff hl).1 hC
      obtain ⟨x, hx⟩ := nestedLoop_range hwf hL E.sys.forwardSolve d
        (E.sys.forwardSolve (d + 1) (Run.init (N := N) E.start E.zero E.guess).st) q hq
        (by rintro rfl; exact hi0 (hwf.cpt_zero hl))
      rw [hx]
      exact hH x
    have := H.add_mem hH' this
    rwa [sub_add_cancel] at this

/-- The jump recorded last is zero: iterates agree at the C-points. -/
theorem agree_of_jump {E : Cfg V K T N} (h : E.Good) (hcrit : E.convCrit = 1) (hmax : 0 < E.maxIter)
    (hnorm : ∀ x, E.norm x = 0 → x = 0) (htnorm : ∀ xs, E.tnorm xs = 0 → ∀ x, x ∈ xs → x = 0)
    {c : Conf E.P (Msg V N) (PState V N)} (h1 : Steps (startConf E) c) (hc : ∀ d, ¬ Step c d)
    (r : Fin E.P) (s : PState V N) (hr : c.prog r = Prog.ret s) (hz : s.conv s.solveIter = 0)
    (hS : ∀ m, (∀ i, i ∈ E.sys.C 0 → i ≠ 0 →
        (iterates E.sys E.sys.forwardSolve E.cyc (m + 1) (afterConstructor E).st).u 0 i =
        (iterates E.sys E.sys.forwardSolve E.cyc m (afterConstructor E).st).u 0 i) →
      Solved (E.sys.Φ 0) (E.sys.n 0)
        ((iterates E.sys E.sys.forwardSolve E.cyc (m + 1) (afterConstructor E).st).u 0)) :
    AllSolved E c := by
  refine allSolved_of_serial h h1 hc ?_
  obtain ⟨s', e, hS'⟩ := C20_same_as_serial_partial h h1 hc r
  rw [hr] at e
  cases e
  rw [hS'.conv, hS'.iter] at hz
  have hser : serialRun E = E.sys.solve E.ctl E.sys.forwardSolve (afterConstructor E) := rfl
  rw [hser] at hz ⊢
  obtain ⟨m, hm1, -, hit, hst, -, -, hcv, -⟩ :=
    C17_stopping_rule (S := E.sys) E.ctl E.sys.forwardSolve (afterConstructor E) hmax
  rw [hit, hcv m hm1 (Nat.le_refl m)] at hz
  obtain ⟨m, rfl⟩ : ∃ k, m = k + 1 := ⟨m - 1, by omega⟩
  rw [hst]
  unfold afterConstructor at hz
  rw [Nat.add_sub_cancel, C17_jump_value E.ctl _ _ hcrit] at hz
  refine hS m fun i hi hi0 => ?_
  exact sub_eq_zero.1 (hnorm _ (htnorm _ hz _ (List.mem_map.2 ⟨i, by simp [hi, hi0], rfl⟩)))

/-- C96 on any number of processes, transfers that lose nothing, any weight: if the jump recorded last
is zero, the result is sequential time stepping.  (`norm` and `tnorm` vanish only at zero.) -/
theorem C96_lossless_distributed {E : Cfg V K T N} (h : E.Good) (hL : 1 < E.ts.length)
    (hR : ∀ l, l + 1 < E.ts.length → E.R l 0 = 0) (hI : ∀ l, l + 1 < E.ts.length → E.I l 0 = 0)
    (hIR : ∀ l, l + 1 < E.ts.length → ∀ x, E.I l (E.R l x) = x)
    (hcrit : E.convCrit = 1) (hmax : 0 < E.maxIter)
    (hnorm : ∀ x, E.norm x = 0 → x = 0) (htnorm : ∀ xs, E.tnorm xs = 0 → ∀ x, x ∈ xs → x = 0)
    {c : Conf E.P (Msg V N) (PState V N)} (h1 : Steps (startConf E) c) (hc : ∀ d, ¬ Step c d)
    (r : Fin E.P) (s : PState V N) (hr : c.prog r = Prog.ret s) (hz : s.conv s.solveIter = 0) :
    AllSolved E c :=
  agree_of_jump h hcrit hmax hnorm htnorm h1 hc r s hr hz fun m =>
    C96_lossless (E.sys_wf h.valid) hL hR hI hIR E.cyc m _

/-- C96 on any number of processes, transfers that map zero to zero, weight one, at least one
FCF-relaxation: if the jump recorded last is zero, the result is sequential time stepping.  Not true of
`cf_iter` zero (`C96_counterexample`) nor of all weights (`C96_weight_counterexample`). -/
theorem C96_lossy_partial {E : Cfg V K T N} (h : E.Good) (hL : 1 < E.ts.length)
    (hw : E.w = 1) (hcf : 1 ≤ E.cf 0)
    (hR : ∀ l, l + 1 < E.ts.length → E.R l 0 = 0) (hI : ∀ l, l + 1 < E.ts.length → E.I l 0 = 0)
    (hcrit : E.convCrit = 1) (hmax : 0 < E.maxIter)
    (hnorm : ∀ x, E.norm x = 0 → x = 0) (htnorm : ∀ xs, E.tnorm xs = 0 → ∀ x, x ∈ xs → x = 0)
    {c : Conf E.P (Msg V N) (PState V N)} (h1 : Steps (startConf E) c) (hc : ∀ d, ¬ Step c d)
    (r : Fin E.P) (s : PState V N) (hr : c.prog r = Prog.ret s) (hz : s.conv s.solveIter = 0) :
    AllSolved E c :=
  agree_of_jump h hcrit hmax hnorm htnorm h1 hc r s hr hz fun m =>
    C96_lossy (E.sys_wf h.valid) hL hw hcf hR hI E.cyc m _

end

/-! ## Concrete cases and refutation -/

/-- Values on three mesh points, restricted by full weighting to the middle one and interpolated linearly
with zero at the boundary (as in examples/example_spatial_coarsening.py:33-82); coarse values are kept in
the first component.  The fine step adds `(1, 0, -1)`, which the restriction does not see. -/
def exSpace (P nu : Nat) (crit : Nat) (nested : Bool) : Cfg (ℚ × ℚ × ℚ) ℚ Nat ℚ where
  ts := exQtyGrid
  step := fun l x _ _ => if l = 0 then (x.1 + 1, x.2.1, x.2.2 - 1) else x
  R := fun _ x => (x.1 / 4 + x.2.1 / 2 + x.2.2 / 4, 0, 0)
  I := fun _ x => (x.1 / 2, x.1, x.1 / 2)
  cf := fun _ => nu
  w := 1
  start := fun _ => (0, 0, 0)
  zero := fun _ => (0, 0, 0)
  guess := fun _ => (0, 0, 0)
  cyc := Sys.Cycle.V
  nested := nested
  maxIter := 5
  convCrit := crit
  norm := fun x => |x.1| + |x.2.1| + |x.2.2|
  tnorm := fun xs => (xs.map fun x => |x|).sum
  ltTol := fun x => decide (x < 1 / 10)
  outLvl := 2
  ord := fun _ _ xs => xs
  P := P
  instr := false

theorem exSpace_good (nu crit : Nat) (nested : Bool) (hcrit : crit = 0 ∨ crit = 1) : (exSpace 2 nu crit nested).Good :=
  good_of_gap exQtyGrid_valid (show 0 < 2 by decide) (show 2 ≤ npts exQtyGrid 0 by decide)
    (fun r l hr hl => ordOK_id exQtyGrid_valid (show 2 ≤ npts exQtyGrid 0 by decide) hl hr) hcrit (by
      intro l i hl
      have hl' : l = 0 := by
        have : l + 1 < 2 := hl
        omega
      subst hl'
      have e : allC exQtyGrid 0 = [0, 2, 4, 6] := by decide
      show ¬ (i ∈ allC exQtyGrid 0 ∧ i + 1 ∈ allC exQtyGrid 0)
      rw [e]
      intro hh
      simp only [List.mem_cons, List.not_mem_nil, or_false] at hh
      omega)

theorem exSpace_norm (x : ℚ × ℚ × ℚ) (h : |x.1| + |x.2.1| + |x.2.2| = 0) : x = 0 := by
  have h1 := abs_nonneg x.1
  have h2 := abs_nonneg x.2.1
  have h3 := abs_nonneg x.2.2
  refine Prod.ext (abs_eq_zero.1 ?_) (Prod.ext (abs_eq_zero.1 ?_) (abs_eq_zero.1 ?_)) <;> linarith

theorem exSpace_tnorm (xs : List ℚ) (h : (xs.map fun x => |x|).sum = 0) (x : ℚ) (hx : x ∈ xs) : x = 0 := by
  have := List.all_zero_of_le_zero_le_of_sum_eq_zero (l := xs.map fun x => |x|)
    (by intro y hy; obtain ⟨z, -, rfl⟩ := List.mem_map.1 hy; exact abs_nonneg z) h
    (List.mem_map.2 ⟨x, hx, rfl⟩)
  exact abs_eq_zero.1 this

/-- C96 fails without FCF-relaxation and with a restriction that loses information: the run ends after one
iteration with a jump of zero, and the value at the last point is not the one of time stepping. -/
theorem C96_counterexample : (serialRun (exSpace 2 0 1 false)).iter = 1 ∧
    (serialRun (exSpace 2 0 1 false)).conv 1 = 0 ∧
    (serialRun (exSpace 2 0 1 false)).st.u 0 6 = (0, 0, 0) ∧
    timeStepping (exSpace 2 0 1 false) 6 = (6, 0, -6) := by
  decide +kernel

/-- The same on two processes: the second returns with a recorded jump of zero and a wrong value. -/
theorem C96_counterexample_distributed {c : Conf 2 (Msg (ℚ × ℚ × ℚ) ℚ) (PState (ℚ × ℚ × ℚ) ℚ)}
    (h1 : Steps (startConf (exSpace 2 0 1 false)) c) (hc : ∀ d, ¬ Step c d) :
    ∃ s, c.prog (1 : Fin 2) = Prog.ret s ∧ s.conv s.solveIter = 0 ∧ ¬ AllSolved (exSpace 2 0 1 false) c := by
  obtain ⟨s, e, hS⟩ := C20_same_as_serial_partial (exSpace_good 0 1 false (Or.inr rfl)) h1 hc (1 : Fin 2)
  obtain ⟨c1, c2, c3, c4⟩ := C96_counterexample
  refine ⟨s, e, by rw [hS.conv, hS.iter, c1, c2], fun ha => ?_⟩
  obtain ⟨s', e', hv⟩ := ha (1 : Fin 2)
  rw [e] at e'
  cases e'
  have hp : ((exSpace 2 0 1 false).info 1 0).pts[2]? = some 6 := by decide +kernel
  obtain ⟨j, hj⟩ : ∃ j, ((exSpace 2 0 1 false).info 1 0).idx[2]? = some j := ⟨3, by decide +kernel⟩
  have := hv 2 6 j hp hj
  rw [hS.values 0 2 6 j (by decide) hp hj, c3, c4] at this
  revert this
  decide +kernel

/-- One coarse interval, weight two, one FCF-relaxation, and an interpolation that doubles. -/
def exDouble : Cfg ℚ ℚ Nat ℚ where
  ts := [[0, 1, 2], [0, 2]]
  step := fun _ x _ _ => x + 1
  R := fun _ x => x
  I := fun _ x => 2 * x
  cf := fun _ => 1
  w := 2
  start := fun _ => 0
  zero := fun _ => 0
  guess := fun _ => 0
  cyc := Sys.Cycle.V
  nested := false
  maxIter := 5
  convCrit := 1
  norm := fun x => |x|
  tnorm := fun xs => (xs.map fun x => |x|).sum
  ltTol := fun x => decide (x < 1 / 10)
  outLvl := 2
  ord := fun _ _ xs => xs
  P := 1
  instr := false

/-- C96 also fails with FCF-relaxation for weights other than one and transfers that map zero to zero but
do not undo each other: relaxation and coarse-grid correction cancel. -/
theorem C96_weight_counterexample : (serialRun exDouble).iter = 1 ∧ (serialRun exDouble).conv 1 = 0 ∧
    (serialRun exDouble).st.u 0 2 = 0 ∧ timeStepping exDouble 2 = 2 := by
  decide +kernel

theorem exSpace_zero {P nu crit l : Nat} {nested : Bool} : (exSpace P nu crit nested).R l 0 = 0 ∧
    (exSpace P nu crit nested).I l 0 = 0 := by
  simp [exSpace]

/-- `C95_distributed` and `C96_lossy_partial` apply to the same problem with one FCF-relaxation. -/
example {c : Conf 2 (Msg (ℚ × ℚ × ℚ) ℚ) (PState (ℚ × ℚ × ℚ) ℚ)}
    (h1 : Steps (startConf (exSpace 2 1 1 false)) c) (hc : ∀ d, ¬ Step c d) (r : Fin 2)
    (s : PState (ℚ × ℚ × ℚ) ℚ) (hr : c.prog r = Prog.ret s) :
    (3 ≤ s.solveIter → AllSolved (exSpace 2 1 1 false) c) ∧
      (s.conv s.solveIter = 0 → AllSolved (exSpace 2 1 1 false) c) :=
  ⟨fun hk => C95_distributed (exSpace_good 1 1 false (Or.inr rfl)) (by decide) rfl (fun _ _ => exSpace_zero.1)
      (fun _ _ => exSpace_zero.2) (by decide) h1 hc r s hr (by
        show 4 - 1 ≤ s.solveIter * 1
        omega),
    C96_lossy_partial (exSpace_good 1 1 false (Or.inr rfl)) (by decide) rfl (Nat.le_refl 1) (fun _ _ => exSpace_zero.1)
      (fun _ _ => exSpace_zero.2) rfl (by decide) exSpace_norm exSpace_tnorm h1 hc r s hr⟩

/-- That run takes four iterations and ends with a jump of zero. -/
example : (serialRun (exSpace 2 1 1 false)).iter = 4 ∧ (serialRun (exSpace 2 1 1 false)).conv 4 = 0 := by
  decide +kernel

/-- The multiples of `(1, 2, 1)`, the range of the interpolation. -/
def exRange : AddSubgroup (ℚ × ℚ × ℚ) where
  carrier := {x | x.1 = x.2.2 ∧ x.2.1 = 2 * x.1}
  zero_mem' := by simp
  add_mem' := by
    rintro a b ⟨h1, h2⟩ ⟨h3, h4⟩
    refine ⟨?_, ?_⟩ <;> simp only [Prod.fst_add, Prod.snd_add] <;> linarith
  neg_mem' := by
    rintro a ⟨h1, h2⟩
    refine ⟨?_, ?_⟩ <;> simp only [Prod.fst_neg, Prod.snd_neg] <;> linarith

/-- Without FCF-relaxation no number of iterations, no criterion and no nested iteration makes the value
at the last point right. -/
example (crit : Nat) (hcrit : crit = 0 ∨ crit = 1) (nested : Bool) (s : PState (ℚ × ℚ × ℚ) ℚ)
    {c : Conf 2 (Msg (ℚ × ℚ × ℚ) ℚ) (PState (ℚ × ℚ × ℚ) ℚ)}
    (h1 : Steps (startConf (exSpace 2 0 crit nested)) c) (hc : ∀ d, ¬ Step c d)
    (hr : c.prog (1 : Fin 2) = Prog.ret s) : s.u 0 3 ≠ (6, 0, -6) := by
  have h := C95_no_relaxation_distributed (exSpace_good 0 crit nested hcrit) (by show 1 < 2; decide) rfl exRange
    (fun x => ⟨rfl, by show x.1 = 2 * (x.1 / 2); ring⟩) (by show 0 < 5; decide) h1 hc
    (1 : Fin 2) s hr 2 6 3 (show (setupLevel exQtyGrid 2 (fun xs => xs) 1 0).pts[2]? = _ by decide +kernel)
    (show (setupLevel exQtyGrid 2 (fun xs => xs) 1 0).idx[2]? = _ by decide +kernel)
    (show 6 ∈ allC exQtyGrid 0 by decide) (by decide)
  intro e
  rw [e] at h
  cases nested
  · have := (h.1 rfl).1
    norm_num [exSpace] at this
  · have := (h.2 rfl).1
    norm_num at this

/-- The nonlinear three-level problem of `Verif.Examples` with another weight and the jump criterion. -/
def exJump (P : Nat) : Cfg Int Int Nat Int := { exCfg P with w := -1, convCrit := 1 }

theorem exJump_good (P : Nat) (hP : 0 < P) (hP9 : P ≤ 9) : (exJump P).Good :=
  good_of_gap exGrid_valid hP hP9
    (fun r l hr hl => ordOK_id exGrid_valid hP9 hl hr) (Or.inr rfl) (by
      intro l i hl
      have e0 : allC exGrid 0 = [0, 2, 4, 6, 8] := by decide +kernel
      have e1 : allC exGrid 1 = [0, 2, 4] := by decide +kernel
      match l with
      | 0 => show ¬ (i ∈ allC exGrid 0 ∧ i + 1 ∈ allC exGrid 0); rw [e0]; simp; omega
      | 1 => show ¬ (i ∈ allC exGrid 1 ∧ i + 1 ∈ allC exGrid 1); rw [e1]; simp; omega
      | l + 2 => exact absurd hl (by simp [exJump, exCfg, exGrid]))

/-- `C96_lossless_distributed`. -/
example {P : Nat} (hP : 0 < P) (hP9 : P ≤ 9) {c : Conf P (Msg Int Int) (PState Int Int)}
    (h1 : Steps (startConf (exJump P)) c) (hc : ∀ d, ¬ Step c d) (r : Fin P)
    (s : PState Int Int) (hr : c.prog r = Prog.ret s) (hz : s.conv s.solveIter = 0) :
    AllSolved (exJump P) c :=
  C96_lossless_distributed (exJump_good P hP hP9) (show 1 < 3 by decide) (fun _ _ => rfl) (fun _ _ => rfl)
    (fun _ _ _ => rfl) rfl (show 0 < 5 by decide) (fun x hx => abs_eq_zero.1 hx)
    (fun xs h x hx => abs_eq_zero.1 (List.all_zero_of_le_zero_le_of_sum_eq_zero
      (l := xs.map fun x => |x|)
      (by intro y hy; obtain ⟨z, -, rfl⟩ := List.mem_map.1 hy; exact abs_nonneg z) h
      (List.mem_map.2 ⟨x, hx, rfl⟩))) h1 hc r s hr hz

/-- Its run ends with a jump of zero. -/
example : (serialRun (exJump 1)).conv (serialRun (exJump 1)).iter = 0 := by decide +kernel

end Pymgrit
