import Verif.PropsRedundant2

/-!
# C140: the whole run

Constructor and `solve()` with and without the repeated level: not only the values after the same number of iterations but the number of
iterations, the recorded convergence values and the calls of the output function are the same.
-/

namespace Pymgrit.Redundant

open Sys Cfg

section loop
variable {V K N : Type} [AddCommGroup V] [SMul K V] [One K] [Sub K] {S S' : Sys V K} {l : Nat}

/-- The same run up to the data of the level `l + 1`. -/
structure SameRun (l : Nat) (s t : Run V N) : Prop where
  st : Agree l s.st t.st
  saved : s.saved = t.saved
  conv : s.conv = t.conv
  iter : s.iter = t.iter
  outs : s.outs = t.outs

theorem SameRun.output {s t : Run V N} (h : SameRun l s t) : SameRun l s.output t.output where
  st := h.st
  saved := h.saved
  conv := h.conv
  iter := h.iter
  outs := by simp only [Run.output, h.outs, h.iter, (h.st 0 (Nat.zero_le _)).1]

theorem residuals_agree (hw : Without S S' l) (hl : 0 < l) {s t : GState V} (h : Agree l s t) : S.residuals s = S'.residuals t := by
  unfold residuals
  rw [(h 0 (Nat.zero_le _)).1, hw.C 0 hl, hw.step 0 (Nat.zero_le _)]

theorem jumps_agree (hw : Without S S' l) (hl : 0 < l) {s t : GState V} {p q : Nat → V} (e : p = q) (h : Agree l s t) :
    S.jumps p s = S'.jumps q t := by
  unfold jumps
  rw [(h 0 (Nat.zero_le _)).1, hw.C 0 hl, e]

theorem convergence_agree (hw : Without S S' l) (hl : 0 < l) (c : Ctl V N) (it : Nat) {s t : Run V N} (h : SameRun l s t) :
    SameRun l (S.convergence c it s) (S'.convergence c it t) := by
  unfold convergence
  split_ifs
  · exact ⟨h.st, h.saved, by rw [h.conv, residuals_agree hw hl h.st], h.iter, h.outs⟩
  · exact ⟨h.st, (h.st 0 (Nat.zero_le _)).1, by rw [h.conv, jumps_agree hw hl h.saved h.st], h.iter, h.outs⟩

theorem solveBody_agree (hS : S.WF) (hc : Copy S l) (hw : Without S S' l) (hl : 0 < l) (c : Ctl V N) (it : Nat) {s t : Run V N}
    (h : SameRun l s t) : SameRun l (S.solveBody c S.forwardSolve it s) (S'.solveBody c S'.forwardSolve it t) := by
  have key := convergence_agree hw hl c (it + 1)
    (s := { s with iter := it + 1, st := S.fineIteration S.forwardSolve c.cyc it s.st })
    (t := { t with iter := it + 1, st := S'.fineIteration S'.forwardSolve c.cyc it t.st })
    ⟨by
      show Agree l (S.fineIteration S.forwardSolve c.cyc it s.st) (S'.fineIteration S'.forwardSolve c.cyc it t.st)
      have ht := hc.top
      have eL : S'.L - 1 = l := by rw [hw.L']; omega
      unfold fineIteration
      rw [eL, show S.L - 1 = l + 1 by omega]
      exact iteration_agree hS hc hw l 0 c.cyc it true (by omega) h.st, h.saved, h.conv, rfl, h.outs⟩
  unfold solveBody
  split_ifs
  · exact key.output
  · exact key

theorem solveLoop_agree (hS : S.WF) (hc : Copy S l) (hw : Without S S' l) (hl : 0 < l) (c : Ctl V N) (k : Nat) :
    ∀ (it : Nat) {s t : Run V N}, SameRun l s t →
      SameRun l (S.solveLoop c S.forwardSolve k it s) (S'.solveLoop c S'.forwardSolve k it t) := by
  induction k with
  | zero => exact fun _ _ _ h => h
  | succ k ih =>
    intro it s t h
    have hb := solveBody_agree hS hc hw hl c it h
    have e : stops c it (S.solveBody c S.forwardSolve it s) = stops c it (S'.solveBody c S'.forwardSolve it t) := by
      unfold stops; rw [hb.conv]
    simp only [solveLoop]
    rw [e]
    split_ifs
    · exact hb
    · exact ih _ hb

theorem setup_agree (hS : S.WF) (hc : Copy S l) (hw : Without S S' l) (hl : 0 < l) (c : Ctl V N) (s : Run V N) :
    SameRun l (S.setup c S.forwardSolve s) (S'.setup c S'.forwardSolve s) := by
  have h0 := after_agree hS hc hw hl true c.cyc s.st 0
  simp only [after, if_true] at h0
  have h1 : SameRun l (if c.nested then { s with st := S.nestedIteration S.forwardSolve s.st } else s)
      (if c.nested then { s with st := S'.nestedIteration S'.forwardSolve s.st } else s) := by
    split_ifs
    · exact ⟨h0, rfl, rfl, rfl, rfl⟩
    · exact ⟨Agree.refl _ _, rfl, rfl, rfl, rfl⟩
  unfold setup
  generalize (if c.nested then { s with st := S.nestedIteration S.forwardSolve s.st } else s) = a at h1 ⊢
  generalize (if c.nested then { s with st := S'.nestedIteration S'.forwardSolve s.st } else s) = b at h1 ⊢
  have h2 : SameRun l (if c.convCrit = 1 then { a with saved := a.st.u 0 } else a)
      (if c.convCrit = 1 then { b with saved := b.st.u 0 } else b) := by
    split_ifs
    · exact ⟨h1.st, (h1.st 0 (Nat.zero_le _)).1, h1.conv, h1.iter, h1.outs⟩
    · exact h1
  dsimp only
  split_ifs at h2 ⊢
  all_goals first
    | exact h2.output
    | exact h2

end loop

variable {V K T N : Type} [LinearOrder T] [Inhabited T] [AddCommGroup V] [SMul K V] [One K] [Sub K] [Zero N]

/-- The run on one process with and without the level. -/
theorem serial_agree {E : Cfg V K T N} (hv : Valid E.ts) {l : Nat} (hl : 0 < l) (hL : E.ts.length = l + 2)
    (hg : grid E.ts (l + 1) = grid E.ts l) (hR : ∀ x, E.R l x = x) (hI : ∀ x, E.I l x = x) (hs : E.step (l + 1) = E.step l) :
    SameRun l (serialRun E) (serialRun (cut E)) := by
  have hc := copy_sys E hL hg hR hI hs
  have hw := without_sys E hL
  have hS := sys_wf E hv
  have h1 := solveLoop_agree hS hc hw hl E.ctl E.ctl.maxIter 0
    (setup_agree hS hc hw hl E.ctl (Run.init (N := N) E.start E.zero E.guess))
  show SameRun l (E.sys.solve E.ctl _ _) ((cut E).sys.solve E.ctl _ _)
  unfold solve
  dsimp only
  split_ifs
  · exact h1.output
  · exact h1

/-- C140.  Constructor and `solve()`, every order of the communication: the number of iterations, the recorded convergence values, the
arguments of the output function in all its calls, and the values on all other levels are those of the solver without the repeated level.

Missing: more than one process, as for `C140_returned_partial`. -/
theorem C140_run_partial {E : Cfg V K T N} (h : E.Good) {l : Nat} (hl : 0 < l) (hL : E.ts.length = l + 2)
    (hg : grid E.ts (l + 1) = grid E.ts l) (hR : ∀ x, E.R l x = x) (hI : ∀ x, E.I l x = x) (hs : E.step (l + 1) = E.step l)
    {c : Conf E.P (Msg V N) (PState V N)} (h1 : Steps (startConf E) c) (hc : ∀ d, ¬ Step c d) (r : Fin E.P) :
    ∃ s, c.prog r = Prog.ret s ∧ s.solveIter = (serialRun (cut E)).iter ∧ s.conv = (serialRun (cut E)).conv ∧
      s.outs.length = (serialRun (cut E)).outs.length ∧
      (∀ (m : Nat) a b, s.outs[m]? = some a → (serialRun (cut E)).outs[m]? = some b → a.1 = b.1 ∧
        ∀ k i j : Nat, (E.info r 0).pts[k]? = some i → (E.info r 0).idx[k]? = some j → a.2 j = b.2 i) ∧
      ∀ q k i j : Nat, q ≤ l → (E.info r q).pts[k]? = some i → (E.info r q).idx[k]? = some j →
        s.u q j = (serialRun (cut E)).st.u q i := by
  obtain ⟨s, hr, hS⟩ := C20_same_as_serial_partial h h1 hc r
  have key := serial_agree h.valid hl hL hg hR hI hs
  refine ⟨s, hr, by rw [hS.iter, key.iter], funext fun x => by rw [hS.conv, key.conv], ?_, ?_, ?_⟩
  · rw [hS.outs.1, key.outs]
  · rw [← key.outs]
    exact hS.outs.2
  intro q k i j hq hi hj
  rw [hS.values q k i j (by omega) hi hj, (key.st q hq).1]

/-- The hypotheses hold for `thrice 1`, and the run is not trivial: one iteration, with a residual different from zero. -/
example : (thrice 1).Good ∧ 0 < 1 ∧ (thrice 1).ts.length = 1 + 2 ∧ grid (thrice 1).ts 2 = grid (thrice 1).ts 1 ∧
    (∀ x, (thrice 1).R 1 x = x) ∧ (∀ x, (thrice 1).I 1 x = x) ∧ (thrice 1).step 2 = (thrice 1).step 1 ∧
    (serialRun (cut (thrice 1))).iter = 1 ∧ (serialRun (cut (thrice 1))).conv 1 = 108 :=
  ⟨good_one (thrice_base 1 (by decide) (by decide)) rfl rfl, by decide, rfl, rfl, fun _ => rfl, fun _ => rfl, rfl, by decide +kernel,
    by decide +kernel⟩

end Pymgrit.Redundant
