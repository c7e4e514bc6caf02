import Verif.PropsDist

/-!
# Property C40: causality

The value computed at a time point depends only on data at times up to that point.
-/

set_option linter.unusedSectionVars false

namespace Pymgrit
open Sys

variable {V K N : Type} {S : Sys V K}

/-- A set of points of all levels closed under predecessors and compatible with the C-points, and
another time integrator that agrees with the one of `S` on it. -/
structure Horizon (S : Sys V K) (A : Nat → Nat → Prop) (Φ' : Nat → Nat → V → V) : Prop where
  pred : ∀ l i, A l i → A l (i - 1)
  cpt : ∀ l k, l + 1 < S.L → k < S.n (l + 1) → (A l (S.cpt l k) ↔ A (l + 1) k)
  step : ∀ l i x, A l i → Φ' l i x = S.Φ l i x

/-- Two states agree on the set. -/
structure Agree (S : Sys V K) (A : Nat → Nat → Prop) (s s' : GState V) : Prop where
  u : ∀ l i, l < S.L → i < S.n l → A l i → s'.u l i = s.u l i
  v : ∀ l i, l < S.L → i < S.n l → A l i → s'.v l i = s.v l i
  g : ∀ l i, l < S.L → i < S.n l → A l i → s'.g l i = s.g l i

theorem Sys.WF.setΦ (h : S.WF) (Φ' : Nat → Nat → V → V) : ({ S with Φ := Φ' } : Sys V K).WF :=
  ⟨h.Lpos, h.npos, h.C_sorted, h.C_zero, h.C_len, h.C_lt, h.C_last, h.F_mem, h.F_compat⟩

section
variable [Add V] [Sub V] [SMul K V] [One K] [Sub K]
variable {A : Nat → Nat → Prop} {Φ' : Nat → Nat → V → V}

/-- Replace `u` on one level. -/
theorem Agree.setU {s s' : GState V} (ha : Agree S A s s') {l : Nat} {x x' : Nat → V}
    (hx : ∀ i, i < S.n l → A l i → x' i = x i) : Agree S A (s.setU l x) (s'.setU l x') := by
  refine ⟨?_, ha.v, ha.g⟩
  intro l' i hl' hi hA
  by_cases e : l' = l
  · subst e; simp [hx i hi hA]
  · rw [GState.setU_u_ne _ _ e, GState.setU_u_ne _ _ e]; exact ha.u l' i hl' hi hA

theorem Horizon.prop (hh : Horizon S A Φ') {s s' : GState V} (ha : Agree S A s s') {l i : Nat}
    (hl : l < S.L) (hi : i < S.n l) (hA : A l i) (x : V) :
    ({ S with Φ := Φ' } : Sys V K).prop s'.g l i x = S.prop s.g l i x := by
  unfold Sys.prop
  rw [ha.g l i hl hi hA]
  simp only [hh.step l i x hA]

theorem agree_fRelax (h : S.WF) (hh : Horizon S A Φ') {s s' : GState V} (ha : Agree S A s s') {l : Nat}
    (hl : l + 1 < S.L) : Agree S A (S.fRelax l s) (({ S with Φ := Φ' } : Sys V K).fRelax l s') := by
  have h' := h.setΦ Φ'
  have key : ∀ i, i < S.n l → A l i →
      (({ S with Φ := Φ' } : Sys V K).fRelax l s').u l i = (S.fRelax l s).u l i := by
    intro i
    induction i using Nat.strong_induction_on with
    | _ i ih =>
      intro hi hA
      by_cases hC : i ∈ S.C l
      · rw [h.fRelax_C hl s hC, h'.fRelax_C hl s' hC]
        exact ha.u l i (by omega) hi hA
      · have h0 : i ≠ 0 := by rintro rfl; exact hC (h.zero_mem_C hl)
        rw [h.fRelax_F hl s hi hC, h'.fRelax_F hl s' hi hC, hh.prop ha (by omega) hi hA,
          ih (i - 1) (by omega) (by omega) (hh.pred l i hA)]
  have := ha.setU (x := (S.fRelax l s).u l) (x' := (({ S with Φ := Φ' } : Sys V K).fRelax l s').u l) key
  simpa [fRelax] using this

theorem agree_forwardSolve (hh : Horizon S A Φ') {s s' : GState V} (ha : Agree S A s s') {l : Nat}
    (hl : l < S.L) :
    Agree S A (S.forwardSolve l s) (({ S with Φ := Φ' } : Sys V K).forwardSolve l s') := by
  have key : ∀ i, i < S.n l → A l i →
      (({ S with Φ := Φ' } : Sys V K).forwardSolve l s').u l i = (S.forwardSolve l s).u l i := by
    intro i
    induction i with
    | zero =>
      intro hi hA
      rw [forwardSolve_zero, forwardSolve_zero]; exact ha.u l 0 hl hi hA
    | succ i ih =>
      intro hi hA
      rw [forwardSolve_pos (S := S) s (by omega) hi,
        forwardSolve_pos (S := { S with Φ := Φ' }) s' (by omega) hi, hh.prop ha hl hi hA,
        Nat.add_sub_cancel, ih (by omega) (hh.pred l _ hA)]
  have := ha.setU (x := (S.forwardSolve l s).u l)
    (x' := (({ S with Φ := Φ' } : Sys V K).forwardSolve l s').u l) key
  simpa [forwardSolve] using this

theorem agree_cRelax (h : S.WF) (hh : Horizon S A Φ') {s s' : GState V} (ha : Agree S A s s') {l : Nat}
    (hl : l + 1 < S.L) : Agree S A (S.cRelax l s) (({ S with Φ := Φ' } : Sys V K).cRelax l s') := by
  have h' := h.setΦ Φ'
  have key : ∀ i, i < S.n l → A l i →
      (({ S with Φ := Φ' } : Sys V K).cRelax l s').u l i = (S.cRelax l s).u l i := by
    intro i
    induction i using Nat.strong_induction_on with
    | _ i ih =>
      intro hi hA
      by_cases h0 : i = 0
      · subst h0
        rw [cRelax_zero, cRelax_zero]; exact ha.u l 0 (by omega) hi hA
      by_cases hC : i ∈ S.C l
      · rw [h.cRelax_C hl s hC h0, h'.cRelax_C hl s' hC h0, hh.prop ha (by omega) hi hA,
          ih (i - 1) (by omega) (by omega) (hh.pred l i hA), ha.u l i (by omega) hi hA]
      · rw [cRelax_not_C (S := S) s hC, cRelax_not_C (S := { S with Φ := Φ' }) s' hC]
        exact ha.u l i (by omega) hi hA
  have := ha.setU (x := (S.cRelax l s).u l) (x' := (({ S with Φ := Φ' } : Sys V K).cRelax l s').u l) key
  simpa [cRelax] using this

theorem fasResidual_g_zero (h : S.WF) {l : Nat} (hl : l + 1 < S.L) (s : GState V) :
    (S.fasResidual l s).g (l + 1) 0 = s.g (l + 1) 0 := by
  simp only [fasResidual, Function.update_self]
  rw [foldl_if (S.C l).zipIdx (fun ck => ck.2 = 0)]
  refine foldl_update_not_mem _ Prod.snd (fun ck _ => _) _ ?_
  intro hm
  obtain ⟨x, hx, e⟩ := List.mem_map.1 hm
  have := (List.mem_filter.1 hx).2
  simp [e] at this

theorem agree_fasResidual (h : S.WF) (hh : Horizon S A Φ') {s s' : GState V} (ha : Agree S A s s')
    {l : Nat} (hl : l + 1 < S.L) :
    Agree S A (S.fasResidual l s) (({ S with Φ := Φ' } : Sys V K).fasResidual l s') := by
  have h' := h.setΦ Φ'
  set S' : Sys V K := { S with Φ := Φ' } with hS'
  have hcl : ∀ k, k < S.n (l + 1) → S.cpt l k < S.n l := fun k hk =>
    h.C_lt l hl _ (cpt_mem (by rw [h.C_len l hl]; exact hk))
  have hu : ∀ k, k < S.n (l + 1) → A (l + 1) k →
      (S'.fasResidual l s').u (l + 1) k = (S.fasResidual l s).u (l + 1) k := by
    intro k hk hA
    rw [h.fasResidual_u hl s hk, h'.fasResidual_u hl s' hk]
    show S.R l (s'.u l (S.cpt l k)) = _
    rw [ha.u l _ (by omega) (hcl k hk) ((hh.cpt l k hl hk).2 hA)]
  have hg : ∀ k, k < S.n (l + 1) → A (l + 1) k →
      (S'.fasResidual l s').g (l + 1) k = (S.fasResidual l s).g (l + 1) k := by
    intro k hk hA
    by_cases h0 : k = 0
    · subst h0
      rw [fasResidual_g_zero h hl s, fasResidual_g_zero h' hl s']
      exact ha.g (l + 1) 0 hl hk hA
    · have hAc := (hh.cpt l k hl hk).2 hA
      have hpos : S.cpt l k ≠ 0 := by
        have := h.cpt_lt hl (k := 0) (k' := k) (by omega) hk
        omega
      rw [h.fasResidual_g hl s hk h0, h'.fasResidual_g hl s' hk h0, hu k hk hA,
        hu (k - 1) (by omega) (hh.pred _ _ hA)]
      have e1 : S'.fasRes s' l (S'.cpt l k) = S.fasRes s l (S.cpt l k) := by
        show S'.fasRes s' l (S.cpt l k) = _
        unfold fasRes
        show (if l = 0 then S.R l (Φ' l (S.cpt l k) (s'.u l (S.cpt l k - 1)) - s'.u l (S.cpt l k))
          else S.R l (s'.g l (S.cpt l k) - s'.u l (S.cpt l k) + Φ' l (S.cpt l k) (s'.u l (S.cpt l k - 1)))) = _
        rw [ha.u l _ (by omega) (hcl k hk) hAc, ha.g l _ (by omega) (hcl k hk) hAc,
          ha.u l (S.cpt l k - 1) (by omega) (by have := hcl k hk; omega) (hh.pred _ _ hAc),
          hh.step l _ _ hAc]
      have e2 : ∀ x, S'.Φ (l + 1) k x = S.Φ (l + 1) k x := fun x => hh.step _ _ x hA
      rw [e1, e2]
  refine ⟨?_, ?_, ?_⟩
  · intro l' i hl' hi hA
    by_cases e : l' = l + 1
    · subst e; exact hu i hi hA
    · rw [fasResidual_u_ne s e, fasResidual_u_ne s' e]; exact ha.u l' i hl' hi hA
  · intro l' i hl' hi hA
    by_cases e : l' = l + 1
    · subst e; rw [fasResidual_v_eq, fasResidual_v_eq]; exact hu i hi hA
    · rw [fasResidual_v_ne s e, fasResidual_v_ne s' e]; exact ha.v l' i hl' hi hA
  · intro l' i hl' hi hA
    by_cases e : l' = l + 1
    · subst e; exact hg i hi hA
    · rw [fasResidual_g_ne s e, fasResidual_g_ne s' e]; exact ha.g l' i hl' hi hA

theorem agree_errorCorrection (h : S.WF) (hh : Horizon S A Φ') {s s' : GState V}
    (ha : Agree S A s s') {l : Nat} (hl : l + 1 < S.L) :
    Agree S A (S.errorCorrection l s) (({ S with Φ := Φ' } : Sys V K).errorCorrection l s') := by
  have key : ∀ i, i < S.n l → A l i →
      (({ S with Φ := Φ' } : Sys V K).errorCorrection l s').u l i = (S.errorCorrection l s).u l i := by
    intro i hi hA
    have h' := h.setΦ Φ'
    by_cases hC : i ∈ S.C l ∧ i ≠ 0
    · obtain ⟨k, hk, rfl⟩ := (h.mem_C_iff hl).1 hC.1
      have hk0 : k ≠ 0 := by rintro rfl; exact hC.2 (h.cpt_zero hl)
      have hAk := (hh.cpt l k hl hk).1 hA
      rw [h.errorCorrection_C hl s hk hk0]
      have := h'.errorCorrection_C hl s' hk hk0
      refine Eq.trans this ?_
      show s'.u l (S.cpt l k) + S.I l _ = _
      rw [ha.u l _ (by omega) hi hA, ha.u (l + 1) k hl hk hAk, ha.v (l + 1) k hl hk hAk]
    · have hn : i ∉ S.C l ∨ i = 0 := by
        by_cases e : i = 0
        · exact Or.inr e
        · exact Or.inl fun hc => hC ⟨hc, e⟩
      rw [h.errorCorrection_not hl s hn, h'.errorCorrection_not hl s' hn]
      exact ha.u l i (by omega) hi hA
  have := ha.setU (x := (S.errorCorrection l s).u l)
    (x' := (({ S with Φ := Φ' } : Sys V K).errorCorrection l s').u l) key
  simpa [errorCorrection] using this

theorem agree_interpolate (h : S.WF) (hh : Horizon S A Φ') {s s' : GState V}
    (ha : Agree S A s s') {l : Nat} (hl : l + 1 < S.L) :
    Agree S A (S.interpolate l s) (({ S with Φ := Φ' } : Sys V K).interpolate l s') := by
  have key : ∀ i, i < S.n l → A l i →
      (({ S with Φ := Φ' } : Sys V K).interpolate l s').u l i = (S.interpolate l s).u l i := by
    intro i hi hA
    have h' := h.setΦ Φ'
    by_cases hC : i ∈ S.C l ∧ i ≠ 0
    · obtain ⟨k, hk, rfl⟩ := (h.mem_C_iff hl).1 hC.1
      have hk0 : k ≠ 0 := by rintro rfl; exact hC.2 (h.cpt_zero hl)
      have hAk := (hh.cpt l k hl hk).1 hA
      rw [h.interpolate_C hl s hk hk0]
      have := h'.interpolate_C hl s' hk hk0
      refine Eq.trans this ?_
      show S.I l _ = _
      rw [ha.u (l + 1) k hl hk hAk]
    · have hn : i ∉ S.C l ∨ i = 0 := by
        by_cases e : i = 0
        · exact Or.inr e
        · exact Or.inl fun hc => hC ⟨hc, e⟩
      rw [h.interpolate_not hl s hn, h'.interpolate_not hl s' hn]
      exact ha.u l i (by omega) hi hA
  have := ha.setU (x := (S.interpolate l s).u l)
    (x' := (({ S with Φ := Φ' } : Sys V K).interpolate l s').u l) key
  simpa [interpolate] using this

theorem agree_times {f f' : GState V → GState V}
    (hf : ∀ s s', Agree S A s s' → Agree S A (f s) (f' s')) (k : Nat) {s s' : GState V}
    (ha : Agree S A s s') : Agree S A (times f k s) (times f' k s') := by
  induction k generalizing s s' with
  | zero => exact ha
  | succ k ih => exact ih (hf _ _ ha)

theorem agree_vcyc (h : S.WF) (hh : Horizon S A Φ') (d l it : Nat) (ff : Bool)
    (hd : l + d + 1 = S.L) {s s' : GState V} (ha : Agree S A s s') :
    Agree S A (S.vcyc S.forwardSolve d l it ff s)
      (({ S with Φ := Φ' } : Sys V K).vcyc ({ S with Φ := Φ' } : Sys V K).forwardSolve d l it ff s') := by
  induction d generalizing l ff s s' with
  | zero => exact agree_forwardSolve hh ha (by omega)
  | succ d ih =>
    have hl : l + 1 < S.L := by omega
    simp only [vcyc]
    refine agree_fRelax h hh (agree_errorCorrection h hh (ih (l + 1) true (by omega)
      (agree_fasResidual h hh (agree_times (fun a b hab => agree_fRelax h hh (agree_cRelax h hh hab hl) hl)
        _ ?_) hl)) hl) hl
    split
    · exact agree_fRelax h hh ha hl
    · exact ha

theorem agree_iteration (h : S.WF) (hh : Horizon S A Φ') (d l it : Nat) (cyc : Cycle) (ff : Bool)
    (hd : l + d + 1 = S.L) {s s' : GState V} (ha : Agree S A s s') :
    Agree S A (S.iteration S.forwardSolve d l cyc it ff s)
      (({ S with Φ := Φ' } : Sys V K).iteration ({ S with Φ := Φ' } : Sys V K).forwardSolve d l cyc it
        ff s') := by
  induction d generalizing l ff s s' with
  | zero => exact agree_forwardSolve hh ha (by omega)
  | succ d ih =>
    have hl : l + 1 < S.L := by omega
    have key : Agree S A (S.fRelax l (S.errorCorrection l
        (S.iteration S.forwardSolve d (l + 1) cyc it true (S.fasResidual l
        (times (fun s => S.fRelax l (S.cRelax l s)) (S.cf l)
        (if (0 < l ∨ it = 0 ∧ l = 0) ∧ ff = true then S.fRelax l s else s))))))
      (({ S with Φ := Φ' } : Sys V K).fRelax l (({ S with Φ := Φ' } : Sys V K).errorCorrection l
        (({ S with Φ := Φ' } : Sys V K).iteration ({ S with Φ := Φ' } : Sys V K).forwardSolve d (l + 1)
          cyc it true (({ S with Φ := Φ' } : Sys V K).fasResidual l
        (times (fun s => ({ S with Φ := Φ' } : Sys V K).fRelax l
          (({ S with Φ := Φ' } : Sys V K).cRelax l s)) (S.cf l)
        (if (0 < l ∨ it = 0 ∧ l = 0) ∧ ff = true then
          ({ S with Φ := Φ' } : Sys V K).fRelax l s' else s')))))) := by
      refine agree_fRelax h hh (agree_errorCorrection h hh (ih (l + 1) true (by omega)
        (agree_fasResidual h hh (agree_times
          (fun a b hab => agree_fRelax h hh (agree_cRelax h hh hab hl) hl) _ ?_) hl)) hl) hl
      split
      · exact agree_fRelax h hh ha hl
      · exact ha
    simp only [iteration]
    split
    · exact agree_vcyc h hh (d + 1) l it false (by omega) key
    · exact key

theorem agree_iterates (h : S.WF) (hh : Horizon S A Φ') (cyc : Cycle) (k : Nat) {s s' : GState V}
    (ha : Agree S A s s') :
    Agree S A (iterates S S.forwardSolve cyc k s)
      (iterates { S with Φ := Φ' } ({ S with Φ := Φ' } : Sys V K).forwardSolve cyc k s') := by
  have hL := h.Lpos
  induction k with
  | zero => exact ha
  | succ k ih => exact agree_iteration h hh (S.L - 1) 0 k cyc true (by omega) ih

theorem agree_nestedLoop (h : S.WF) (hh : Horizon S A Φ') (m : Nat) (hm : m < S.L)
    {s s' : GState V} (ha : Agree S A s s') :
    Agree S A (S.nestedLoop S.forwardSolve m s)
      (({ S with Φ := Φ' } : Sys V K).nestedLoop ({ S with Φ := Φ' } : Sys V K).forwardSolve m s') := by
  induction m generalizing s s' with
  | zero => exact ha
  | succ m ih =>
    simp only [nestedLoop]
    refine ih (by omega) ?_
    have hi := agree_interpolate h hh ha hm
    split
    · exact agree_iteration h hh _ m 0 Cycle.V true (by omega) hi
    · exact hi

theorem agree_nestedIteration (h : S.WF) (hh : Horizon S A Φ') {s s' : GState V}
    (ha : Agree S A s s') :
    Agree S A (S.nestedIteration S.forwardSolve s)
      (({ S with Φ := Φ' } : Sys V K).nestedIteration ({ S with Φ := Φ' } : Sys V K).forwardSolve s') := by
  have hL := h.Lpos
  exact agree_nestedLoop h hh (S.L - 1) (by omega) (agree_forwardSolve hh ha (by omega))

end

variable {T : Type} [LinearOrder T] [Inhabited T]

theorem tAt_mono {g : List T} (hs : g.Pairwise (· < ·)) {i j : Nat} (hij : i ≤ j) (hj : j < g.length) :
    tAt g i ≤ tAt g j :=
  (tAt_le_iff hs (by omega) hj).2 hij

/-- The points with time at most `τ`. -/
theorem horizon_of_time (E : Cfg V K T N) (hv : Valid E.ts) (τ : T) (step' : Nat → V → T → T → V)
    (hstep : ∀ l x t t', t' ≤ τ → step' l x t t' = E.step l x t t') :
    Horizon E.sys (fun l i => i < npts E.ts l ∧ tAt (grid E.ts l) i ≤ τ)
      (fun l i x => step' l x (tAt (grid E.ts l) (i - 1)) (tAt (grid E.ts l) i)) := by
  refine ⟨?_, ?_, ?_⟩
  · rintro l i ⟨h1, h2⟩
    exact ⟨by omega, le_trans (tAt_mono (hv.sorted l) (by omega) h1) h2⟩
  · intro l k hl hk
    have hk' : k < (allC E.ts l).length := by
      rw [allC_length hv hl]; exact hk
    have hc : E.sys.cpt l k = (allC E.ts l)[k] := cpt_eq (S := E.sys) (l := l) hk'
    have ht : tAt (grid E.ts l) (E.sys.cpt l k) = tAt (grid E.ts (l + 1)) k := by
      exact tAt_cpt hv hl hk
    have hlt : E.sys.cpt l k < npts E.ts l := by rw [hc]; exact allC_lt (List.getElem_mem hk')
    rw [ht]
    exact ⟨fun h => ⟨hk, h.2⟩, fun h => ⟨hlt, h.2⟩⟩
  · rintro l i x ⟨_, h2⟩
    exact hstep l x _ _ h2

/-- C40.  Change the step functions only for steps ending after time `τ` and the initial guess only
at points after `τ`.  After the constructor and any number of iterations, with nested iteration or
without, the values at all points up to `τ` are unchanged, on every level. -/
theorem C40_causal [Add V] [Sub V] [SMul K V] [One K] [Sub K] [Zero N] (E : Cfg V K T N)
    (hv : Valid E.ts) (τ : T)
    (step' : Nat → V → T → T → V) (guess' : Nat → V)
    (hstep : ∀ l x t t', t' ≤ τ → step' l x t t' = E.step l x t t')
    (hguess : ∀ i, tAt (grid E.ts 0) i ≤ τ → guess' i = E.guess i) (k : Nat) :
    let E' : Cfg V K T N := { E with step := step', guess := guess' }
    let s : Run V N := E.sys.setup E.ctl E.sys.forwardSolve (Run.init E.start E.zero E.guess)
    let s' : Run V N := E'.sys.setup E'.ctl E'.sys.forwardSolve (Run.init E'.start E'.zero E'.guess)
    ∀ l i, l < E.ts.length → i < (grid E.ts l).length → tAt (grid E.ts l) i ≤ τ →
      (iterates E'.sys E'.sys.forwardSolve E.cyc k s'.st).u l i =
        (iterates E.sys E.sys.forwardSolve E.cyc k s.st).u l i := by
  intro E' s s' l i hl hi ht
  have hwf := E.sys_wf hv
  have hh := horizon_of_time E hv τ step' hstep
  have ha0 : Agree E.sys (fun l i => i < npts E.ts l ∧ tAt (grid E.ts l) i ≤ τ)
      (Run.init (N := N) E.start E.zero E.guess).st (Run.init (N := N) E.start E.zero guess').st := by
    refine ⟨?_, fun _ _ _ _ _ => rfl, fun _ _ _ _ _ => rfl⟩
    intro l i _ _ hA
    show (if i = 0 then E.start l else if l = 0 then guess' i else E.zero l) =
      if i = 0 then E.start l else if l = 0 then E.guess i else E.zero l
    by_cases h0 : l = 0
    · subst h0
      simp only [if_true]
      rw [hguess i hA.2]
    · simp only [h0, if_false]
  have hs : Agree E.sys (fun l i => i < npts E.ts l ∧ tAt (grid E.ts l) i ≤ τ) s.st s'.st := by
    show Agree _ _ (E.sys.setup E.ctl E.sys.forwardSolve (Run.init E.start E.zero E.guess)).st
      (E'.sys.setup E'.ctl E'.sys.forwardSolve (Run.init E'.start E'.zero E'.guess)).st
    rw [setup_st, setup_st]
    show Agree _ _ _ (if E.nested = true then _ else _)
    by_cases hn : E.nested = true
    · rw [if_pos hn, if_pos (show E.ctl.nested = true from hn)]
      exact agree_nestedIteration hwf hh ha0
    · rw [if_neg hn, if_neg (show ¬ E.ctl.nested = true from hn)]
      exact ha0
  exact (agree_iterates hwf hh E.cyc k hs).u l i hl hi ⟨hi, ht⟩

/-- The hypotheses are met by a change of the last steps of the example. -/
example : ∃ step' : Nat → Int → Nat → Nat → Int,
    (∀ l x t t', t' ≤ 5 → step' l x t t' = (exCfg 1).step l x t t') ∧
    step' 0 3 6 7 ≠ (exCfg 1).step 0 3 6 7 :=
  ⟨fun l x t t' => if t' ≤ 5 then (exCfg 1).step l x t t' else 0,
   fun l x t t' h => if_pos h, by decide⟩

end Pymgrit
