import Verif.EndToEnd2

/-!
# Property C85: quantities that the norm does not see

`VectorMachine.norm` (vector_machine.py:102-110) takes the norm of the values only; joule losses, currents,
voltages and torque are part of the vector (they are added, subtracted, scaled, sent), but neither of its norm
nor of the input of `step` (C84).  Here `q` is the part of a vector that the norm and the step see.
-/

set_option linter.unusedSectionVars false

namespace Pymgrit
open Cfg Sys

variable {V K A : Type} [AddCommGroup V] [AddCommGroup A] [Ring K] [Module K V] {S : Sys V K}

theorem visible_fRelax (h : S.WF) (hL : 1 < S.L) (q : V → A)
    (hΦ : ∀ i x y, q x = q y → S.Φ 0 i x = S.Φ 0 i y) (s : GState V)
    (hs : ∀ i, 1 ≤ i → i < S.n 0 → q (s.u 0 i) = q (S.Φ 0 i (s.u 0 (i - 1)))) (i : Nat) (hi : i < S.n 0) :
    q ((S.fRelax 0 s).u 0 i) = q (s.u 0 i) := by
  have hl : 0 + 1 < S.L := by omega
  induction i with
  | zero => rw [h.fRelax_C hl s (h.zero_mem_C hl)]
  | succ i ih =>
    by_cases hC : i + 1 ∈ S.C 0
    · rw [h.fRelax_C hl s hC]
    · rw [h.fRelax_F hl s hi hC]
      show q (S.Φ 0 (i + 1) _) = _
      rw [Nat.add_sub_cancel, hΦ _ _ _ (ih (by omega)), hs (i + 1) (by omega) hi, Nat.add_sub_cancel]

theorem visible_cRelax (h : S.WF) (hL : 1 < S.L) (hw : S.w = 1) (q : V → A)
    (hΦ : ∀ i x y, q x = q y → S.Φ 0 i x = S.Φ 0 i y) (s : GState V)
    (hs : ∀ i, 1 ≤ i → i < S.n 0 → q (s.u 0 i) = q (S.Φ 0 i (s.u 0 (i - 1)))) (i : Nat) (hi : i < S.n 0) :
    q ((S.cRelax 0 s).u 0 i) = q (s.u 0 i) ∧
      (i ∈ S.C 0 → i ≠ 0 → (S.cRelax 0 s).u 0 i = S.Φ 0 i (s.u 0 (i - 1))) := by
  have hl : 0 + 1 < S.L := by omega
  induction i with
  | zero => exact ⟨by rw [cRelax_zero], fun _ h => absurd rfl h⟩
  | succ i ih =>
    by_cases hC : i + 1 ∈ S.C 0
    · have e : (S.cRelax 0 s).u 0 (i + 1) = S.Φ 0 (i + 1) (s.u 0 i) := by
        rw [h.cRelax_C hl s hC (by omega), hw, one_smul, sub_self, zero_smul, add_zero]
        exact hΦ _ _ _ (ih (by omega)).1
      exact ⟨by rw [e, hs (i + 1) (by omega) hi, Nat.add_sub_cancel], fun _ _ => e⟩
    · exact ⟨by rw [cRelax_not_C s hC], fun h => absurd h hC⟩

/-- C85.  If after an iteration the visible parts of all residuals vanish (the criterion is zero), then the
visible part is right at every point, and at every point that is not a C-point all quantities are. -/
theorem C85_values (h : S.WF) (hL : 1 < S.L) (q : V →+ A) (hΦ : ∀ i x y, q x = q y → S.Φ 0 i x = S.Φ 0 i y)
    (coarse : Nat → GState V → GState V) (cyc : Cycle) (m : Nat) (s : GState V)
    (hz : ∀ x ∈ S.residuals (iterates S coarse cyc (m + 1) s), q x = 0) (i : Nat) (hi : i < S.n 0) :
    q ((iterates S coarse cyc (m + 1) s).u 0 i)
      = q (seqSol (S.Φ 0) ((iterates S coarse cyc (m + 1) s).u 0 0) i) ∧
    (i ∉ S.C 0 → (iterates S coarse cyc (m + 1) s).u 0 i
      = seqSol (S.Φ 0) ((iterates S coarse cyc (m + 1) s).u 0 0) i) := by
  have hl : 0 + 1 < S.L := by omega
  have hF : FRelaxed S 0 (iterates S coarse cyc (m + 1) s) := h.fineIteration_relaxed coarse cyc m _ hL
  set s' := iterates S coarse cyc (m + 1) s
  induction i with
  | zero => exact ⟨rfl, fun hC => absurd (h.zero_mem_C hl) hC⟩
  | succ i ih =>
    have e : S.Φ 0 (i + 1) (s'.u 0 i) = seqSol (S.Φ 0) (s'.u 0 0) (i + 1) := hΦ _ _ _ (ih (by omega)).1
    by_cases hC : i + 1 ∈ S.C 0
    · refine ⟨?_, fun h => absurd hC h⟩
      have := hz (S.Φ 0 (i + 1) (s'.u 0 (i + 1 - 1)) - s'.u 0 (i + 1)) (by
        simp only [residuals, List.mem_map, List.mem_filter, decide_eq_true_eq]
        exact ⟨i + 1, ⟨hC, by omega⟩, rfl⟩)
      rw [map_sub, sub_eq_zero, Nat.add_sub_cancel, e] at this
      exact this.symm
    · have := hF (i + 1) hi hC
      rw [Nat.add_sub_cancel] at this
      rw [show S.prop s'.g 0 (i + 1) (s'.u 0 i) = S.Φ 0 (i + 1) (s'.u 0 i) from rfl, e] at this
      exact ⟨by rw [this], fun _ => this⟩

/-- C85.  Then one more iteration makes all quantities right at every point, if there is at least one
CF-relaxation on the finest level and the weight is one.  The statement one would like, that all quantities
are right already, is refuted by `C85_counterexample`. -/
theorem C85_next_iteration_partial (h : S.WF) (hL : 1 < S.L)
    (hR : ∀ l, l + 1 < S.L → S.R l 0 = 0) (hI : ∀ l, l + 1 < S.L → S.I l 0 = 0)
    (hcf : 1 ≤ S.cf 0) (hw : S.w = 1) (q : V →+ A) (hΦ : ∀ i x y, q x = q y → S.Φ 0 i x = S.Φ 0 i y)
    (cyc : Cycle) (m : Nat) (s : GState V)
    (hz : ∀ x ∈ S.residuals (iterates S S.forwardSolve cyc (m + 1) s), q x = 0) :
    Solved (S.Φ 0) (S.n 0) ((iterates S S.forwardSolve cyc (m + 2) s).u 0) := by
  have hl : 0 + 1 < S.L := by omega
  have hv := C85_values h hL q hΦ S.forwardSolve cyc m s hz
  show Solved _ _ ((S.fineIteration S.forwardSolve cyc (m + 1) (iterates S S.forwardSolve cyc (m + 1) s)).u 0)
  generalize iterates S S.forwardSolve cyc (m + 1) s = s' at hv
  have hs : ∀ i, 1 ≤ i → i < S.n 0 → q (s'.u 0 i) = q (S.Φ 0 i (s'.u 0 (i - 1))) := by
    intro i h1 hi
    obtain ⟨i, rfl⟩ : ∃ k, i = k + 1 := ⟨i - 1, by omega⟩
    rw [(hv (i + 1) hi).1, Nat.add_sub_cancel, hΦ _ _ _ (hv i (by omega)).1]
    rfl
  -- after the first CF-relaxation all points are exact
  have hex : Exact S 0 (S.fRelax 0 (S.cRelax 0 s')) (S.n 0) := by
    have hc := visible_cRelax h hL hw q hΦ s' hs
    have hcs : ∀ i, 1 ≤ i → i < S.n 0 →
        q ((S.cRelax 0 s').u 0 i) = q (S.Φ 0 i ((S.cRelax 0 s').u 0 (i - 1))) := by
      intro i h1 hi
      rw [(hc i hi).1, hs i h1 hi, hΦ _ _ _ (hc (i - 1) (by omega)).1]
    have hf := visible_fRelax h hL q hΦ (S.cRelax 0 s') hcs
    intro i h1 _ hi
    show _ = S.Φ 0 i _
    by_cases hC : i ∈ S.C 0
    · rw [h.fRelax_C hl _ hC, (hc i hi).2 hC (by omega)]
      exact hΦ _ _ _ (((hf (i - 1) (by omega)).trans (hc (i - 1) (by omega)).1).symm)
    · exact h.fRelax_F hl _ hi hC
  have hpt : ∀ k (s : GState V), Pres S 0 s (times (fun s => S.fRelax 0 (S.cRelax 0 s)) k s) := by
    intro k
    induction k with
    | zero => intro s; exact Pres.refl _ _
    | succ k ih => intro s; exact ((h.pres_cRelax hl s).trans (h.pres_fRelax hl _)).trans (ih _)
  obtain ⟨d, hd⟩ : ∃ d, S.L - 1 = d + 1 := ⟨S.L - 2, by omega⟩
  obtain ⟨c, hc⟩ : ∃ c, S.cf 0 = c + 1 := ⟨S.cf 0 - 1, by omega⟩
  refine (solved_iff_solvedTo _ _ _).2 ((exact_zero_iff S _ _).1 ?_)
  unfold fineIteration
  rw [hd]
  unfold iteration
  dsimp only
  rw [if_neg (by omega), if_neg (by omega), hc]
  have h1 := (hpt c (S.fRelax 0 (S.cRelax 0 s'))).exact hex
  have h2 := (h.pres_cgc hl (hR 0 hl) (hI 0 hl) _ (fun s => h.pres_iteration hR hI
    (fun s => pres_forwardSolve _ s) d 1 (m + 1) cyc true (by omega) s) _).exact h1
  exact (h.pres_fRelax hl _).exact h2

/-- C85 for what the processes return: if the last value of the residual criterion is zero, the visible part
of every returned vector is that of time stepping, and all quantities are at points that are not C-points. -/
theorem C85_distributed {T N : Type} [LinearOrder T] [Inhabited T] [Zero N] {E : Cfg V K T N} (h : E.Good)
    (hL : 1 < E.ts.length) (hmax : 0 < E.maxIter) (hcrit : E.convCrit = 0) (q : V →+ A)
    (hnorm : ∀ x, E.norm x = 0 → q x = 0) (htnorm : ∀ xs, E.tnorm xs = 0 → ∀ x ∈ xs, x = 0)
    (hstep : ∀ x y t t', q x = q y → E.step 0 x t t' = E.step 0 y t t')
    {c : Conf E.P (Msg V N) (PState V N)} (h1 : Steps (startConf E) c) (hc : ∀ d, ¬ Step c d)
    (r : Fin E.P) (s : PState V N) (hr : c.prog r = Prog.ret s) (hz : s.conv s.solveIter = 0)
    (k i j : Nat) (hi : (E.info r 0).pts[k]? = some i) (hj : (E.info r 0).idx[k]? = some j) :
    q (s.u 0 j) = q (timeStepping E i) ∧ (i ∉ allC E.ts 0 → s.u 0 j = timeStepping E i) := by
  obtain ⟨a1, -, -, a4, a5⟩ := returned h hmax h1 hc r s hr
  obtain ⟨b1, b2⟩ := a5 k i j hi hj
  obtain ⟨m, hm⟩ : ∃ m, s.solveIter = m + 1 := ⟨s.solveIter - 1, by omega⟩
  rw [hm] at a4 b2
  rw [hm] at hz
  rw [hz, Nat.add_sub_cancel] at a4
  unfold critValue at a4
  dsimp only at a4
  rw [if_pos (show E.ctl.convCrit = 0 from hcrit)] at a4
  have hn := htnorm _ a4.symm
  have := C85_values (E.sys_wf h.valid) hL q (fun i x y e => hstep x y _ _ e) E.sys.forwardSolve E.cyc m
    (afterConstructor E).st (by
      intro x hx
      simp only [residuals, List.mem_map] at hx
      obtain ⟨p, hp, rfl⟩ := hx
      exact hnorm _ (hn _ (List.mem_map.2 ⟨p, hp, rfl⟩))) i b1
  rw [start_value h] at this
  rw [b2]
  exact this

/-! ## Refutation -/

/-- Seven points and every second of them. -/
def exQtyGrid : List (List Nat) := [[0, 1, 2, 3, 4, 5, 6], [0, 2, 4, 6]]

/-- Values are doubled in each step; the second component, which the norm does not see, is the value at the
start of the step.  The coarse step has the right values. -/
def exQty : Cfg (Int × Int) Int Nat Int where
  ts := exQtyGrid
  step := fun l x _ _ => if l = 0 then (2 * x.1, x.1) else (4 * x.1, 0)
  R := fun _ x => x
  I := fun _ x => x
  cf := fun _ => 1
  w := 1
  start := fun _ => (1, 0)
  zero := fun _ => (0, 0)
  guess := fun _ => (7, 0)
  cyc := Sys.Cycle.V
  nested := false
  maxIter := 5
  convCrit := 0
  norm := fun x => |x.1|
  tnorm := fun xs => (xs.map fun x => |x|).sum
  ltTol := fun x => decide (x < 1)
  outLvl := 2
  ord := fun _ _ xs => xs
  P := 1
  instr := false

/-- C85 fails: the run ends after one iteration with criterion zero, the values are right at all points, but
the other quantity at the last point, 56, is not the one of time stepping, 32. -/
theorem C85_counterexample : (serialRun exQty).iter = 1 ∧ (serialRun exQty).conv 1 = 0 ∧
    (∀ i, i < 7 → ((serialRun exQty).st.u 0 i).1 = (timeStepping exQty i).1) ∧
    (serialRun exQty).st.u 0 6 = (64, 56) ∧ timeStepping exQty 6 = (64, 32) := by
  decide +kernel

theorem exQtyGrid_valid : Valid exQtyGrid where
  pos := by decide
  ne0 := by decide
  sorted := by
    intro l
    match l with
    | 0 => decide
    | 1 => decide
    | _ + 2 => exact List.Pairwise.nil
  nested := by
    intro l hl
    match l with
    | 0 => decide
    | _ + 1 => exact absurd hl (by simp [exQtyGrid])
  start := by
    intro l hl
    match l, hl with
    | 0, _ => decide
    | 1, _ => decide
    | k + 2, h => exact absurd h (by simp [exQtyGrid])

/-- The step of the example sees the first component only. -/
theorem exQty_step (i : Nat) (x y : Int × Int) (h : AddMonoidHom.fst Int Int x = AddMonoidHom.fst Int Int y) :
    exQty.sys.Φ 0 i x = exQty.sys.Φ 0 i y := by
  change x.1 = y.1 at h
  change (2 * x.1, x.1) = (2 * y.1, y.1)
  rw [h]

/-- `C85_values` and `C85_next_iteration_partial` for this run. -/
example : Solved (exQty.sys.Φ 0) 7
    ((iterates exQty.sys exQty.sys.forwardSolve Cycle.V 2 (afterConstructor exQty).st).u 0) :=
  C85_next_iteration_partial (S := exQty.sys) (exQty.sys_wf exQtyGrid_valid) (by decide) (fun _ _ => rfl)
    (fun _ _ => rfl) (by decide) rfl (AddMonoidHom.fst Int Int) exQty_step Cycle.V 0 (afterConstructor exQty).st
    (by
      have : ∀ x ∈ exQty.sys.residuals
        (iterates exQty.sys exQty.sys.forwardSolve Cycle.V (0 + 1) (afterConstructor exQty).st), x.1 = 0 := by
        decide +kernel
      exact this)

theorem exQty_good : ({ exQty with P := 2 } : Cfg (Int × Int) Int Nat Int).Good :=
  good_of_gap exQtyGrid_valid (show 0 < 2 by decide) (show 2 ≤ npts exQtyGrid 0 by decide)
    (fun r l hr hl => ordOK_id exQtyGrid_valid (show 2 ≤ npts exQtyGrid 0 by decide) hl hr) (Or.inl rfl) (by
      intro l i hl
      have hl' : l = 0 := by
        have : l + 1 < 2 := hl
        omega
      subst hl'
      have e : allC exQtyGrid 0 = [0, 2, 4, 6] := by decide
      show ¬ (i ∈ allC exQtyGrid 0 ∧ i + 1 ∈ allC exQtyGrid 0)
      rw [e]
      intro hh
      simp only [List.mem_cons, List.not_mem_nil, or_false] at hh
      omega)

/-- `C85_distributed` for the example on two processes. -/
example {c : Conf 2 (Msg (Int × Int) Int) (PState (Int × Int) Int)}
    (h1 : Steps (startConf { exQty with P := 2 }) c) (hc : ∀ d, ¬ Step c d) (r : Fin 2)
    (s : PState (Int × Int) Int) (hr : c.prog r = Prog.ret s) (hz : s.conv s.solveIter = 0) :=
  C85_distributed (E := { exQty with P := 2 }) exQty_good (by decide) (by decide) rfl (AddMonoidHom.fst Int Int)
    (fun x hx => abs_eq_zero.1 hx)
    (fun xs hx x hm => by
      have h0 : ∀ ys : List Int, 0 ≤ (ys.map fun y => |y|).sum := fun ys =>
        List.sum_nonneg fun y hy => by
          obtain ⟨z, -, rfl⟩ := List.mem_map.1 hy
          exact abs_nonneg z
      change (xs.map fun y => |y|).sum = 0 at hx
      clear h1 hc hr hz
      induction xs with
      | nil => simp at hm
      | cons y ys ih =>
        rw [List.map_cons, List.sum_cons] at hx
        have a1 := h0 ys
        have a2 := abs_nonneg y
        rcases List.mem_cons.1 hm with rfl | hm
        · exact abs_eq_zero.1 (by omega)
        · exact ih hm (by omega))
    (fun x y t t' e => by
      change x.1 = y.1 at e
      change (2 * x.1, x.1) = (2 * y.1, y.1)
      rw [e]) h1 hc r s hr hz

end Pymgrit
