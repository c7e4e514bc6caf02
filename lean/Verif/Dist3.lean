import Verif.Dist2
import Verif.Driver

/-! Residual, convergence test, solve loop and the complete run of the distributed program. -/

set_option linter.unusedSectionVars false

namespace Pymgrit

variable {V K T N : Type} [LinearOrder T] [Inhabited T]

namespace Cfg

/-- Control parameters of a configuration. -/
def ctl (E : Cfg V K T N) : Ctl V N where
  cyc := E.cyc
  nested := E.nested
  maxIter := E.maxIter
  convCrit := E.convCrit
  norm := E.norm
  tnorm := E.tnorm
  ltTol := E.ltTol
  outLvl := E.outLvl

variable {E : Cfg V K T N}

omit [LinearOrder T] [Inhabited T] in
theorem stops_iff {it : Nat} {R : Run V N} : Sys.stops E.ctl it R = true ↔
    (E.ltTol (R.conv (it + 1)) = true ∨ it + 1 = E.maxIter) := by
  unfold Sys.stops
  rw [Bool.or_eq_true, decide_eq_true_eq]
  exact Iff.rfl

/-! ### Collective operations -/

theorem collectP_runs' (hP : 0 < E.P) (tag : Nat) (x : Nat → Payload V N)
    (f : List (Payload V N) → Payload V N) :
    Runs E.P (fun r => E.collectP r tag (x r) f) (fun _ => f ((List.range E.P).map x)) := by
  refine (Runs.collect hP tag (tag + 1) (fun q => (⟨x q, false, 0, 8⟩ : Msg V N)) Msg.data f
    (fun d => ⟨d, false, 0, 8⟩) (fun _ => rfl)).congr (fun r hr => ?_) (fun _ _ => rfl)
  unfold collectP
  by_cases hr0 : r = 0
  · subst hr0; simp only [if_true]
  · simp only [hr0, if_false]

theorem collectP_runs (h : E.Good) (tag : Nat) (x : Nat → Payload V N)
    (f : List (Payload V N) → Payload V N) :
    Runs E.P (fun r => E.collectP r tag (x r) f) (fun _ => f ((List.range E.P).map x)) :=
  collectP_runs' h.Ppos tag x f

theorem barrierP_runs' (hP : 0 < E.P) : Runs E.P (fun r => E.barrierP r) (fun _ => ()) :=
  (collectP_runs' hP 2 (fun _ => .unit) fun _ => .unit).bind (g := fun _ _ => .ret ()) (Runs.ret _)

theorem barrierP_runs (h : E.Good) : Runs E.P (fun r => E.barrierP r) (fun _ => ()) :=
  barrierP_runs' h.Ppos

omit [LinearOrder T] [Inhabited T] in
theorem allNums_map (P : Nat) (v : Nat → List N) :
    allNums (V := V) ((List.range P).map fun q => .nums (v q)) = (List.range P).flatMap v := by
  unfold allNums
  rw [List.flatMap_map]

/-- The blocks of the processes make up the whole grid. -/
theorem blocks_flatMap (h : E.Good) {l : Nat} (hl : l < E.ts.length) (R : Nat) (hR : R ≤ E.P) :
    (List.range R).flatMap (fun r => List.range' (lo E.ts E.P l r)
      (lo E.ts E.P l (r + 1) - lo E.ts E.P l r)) = List.range (lo E.ts E.P l R) := by
  induction R with
  | zero => rw [h.lo_zero hl]; rfl
  | succ R ih =>
    rw [List.range_succ, List.flatMap_append, ih (by omega)]
    simp only [List.flatMap_cons, List.flatMap_nil, List.append_nil]
    have hm := h.lo_mono hl (show R ≤ R + 1 by omega) hR
    rw [List.range_eq_range', List.range_eq_range']
    have e : lo E.ts E.P l (R + 1)
        = lo E.ts E.P l R + (lo E.ts E.P l (R + 1) - lo E.ts E.P l R) := by omega
    have := List.range'_append_1 (s := 0) (m := lo E.ts E.P l R)
      (n := lo E.ts E.P l (R + 1) - lo E.ts E.P l R)
    rw [← e, Nat.zero_add] at this
    exact this

theorem allC_filter (h : E.Good) (l : Nat) :
    allC E.ts l = (List.range (npts E.ts l)).filter fun i => decide (i ∈ allC E.ts l) := by
  refine List.Perm.eq_of_pairwise' (r := (· < ·)) (allC_sorted h.valid l)
    (List.Pairwise.filter _ List.pairwise_lt_range) ?_
  refine (List.perm_ext_iff_of_nodup ((allC_sorted h.valid l).imp fun h => Nat.ne_of_lt h)
    (List.nodup_range.filter _)).2 ?_
  intro i
  simp only [List.mem_filter, List.mem_range, decide_eq_true_eq]
  exact ⟨fun hi => ⟨allC_lt hi, hi⟩, fun hi => hi.2⟩

/-- Concatenating a per-C-point quantity over the processes gives it over all C-points. -/
theorem flat_cpts (h : E.Good) {l : Nat} (hl : l < E.ts.length) {A : Type} (f : Nat → A) :
    (List.range E.P).flatMap (fun r => (((List.range' (lo E.ts E.P l r)
      (lo E.ts E.P l (r + 1) - lo E.ts E.P l r)).filter fun i => decide (i ∈ allC E.ts l)).filter
        (fun i => decide (i ≠ 0))).map f)
      = ((allC E.ts l).filter fun i => decide (i ≠ 0)).map f := by
  conv_rhs => rw [allC_filter h l]
  have : npts E.ts l = lo E.ts E.P l E.P := (h.valid.lo_last l).symm
  rw [this, ← blocks_flatMap h hl E.P (Nat.le_refl _), List.filter_flatMap, List.filter_flatMap,
    List.map_flatMap]

/-- The local C-points other than the initial point, in terms of global indices. -/
theorem idxC_filter (h : E.Good) {r : Nat} (hr : r < E.P) {A : Type} (f : Nat → A) (g : Nat → A)
    (hfg : ∀ i, lo E.ts E.P 0 r ≤ i → i < lo E.ts E.P 0 (r + 1) → i ∈ allC E.ts 0 → i ≠ 0 →
      f (i - off E.ts E.P 0 r) = g i) :
    (((E.info r 0).idxC.filter fun j => decide (r ≠ 0 ∨ j ≠ 0)).map f)
      = (((List.range' (lo E.ts E.P 0 r)
      (lo E.ts E.P 0 (r + 1) - lo E.ts E.P 0 r)).filter fun i => decide (i ∈ allC E.ts 0)).filter
        (fun i => decide (i ≠ 0))).map g := by
  have hl : 0 < E.ts.length := h.valid.pos
  have hs := h.spec hr hl
  have ho := h.off_add hl (Nat.le_of_lt hr)
  rw [hs.idxC, hs.cpts, hs.pts, List.filter_map, List.map_map]
  have hfil : (((List.range' (lo E.ts E.P 0 r)
      (lo E.ts E.P 0 (r + 1) - lo E.ts E.P 0 r)).filter fun i => decide (i ∈ allC E.ts 0)).filter
        ((fun j => decide (r ≠ 0 ∨ j ≠ 0)) ∘ fun x => x - off E.ts E.P 0 r))
      = (((List.range' (lo E.ts E.P 0 r)
      (lo E.ts E.P 0 (r + 1) - lo E.ts E.P 0 r)).filter fun i => decide (i ∈ allC E.ts 0)).filter
        (fun i => decide (i ≠ 0))) := by
    refine List.filter_congr ?_
    intro i hi
    have hi' := (List.mem_filter.1 hi).1
    rw [List.mem_range'_1] at hi'
    simp only [Function.comp, decide_eq_decide]
    by_cases hr0 : r = 0
    · subst hr0
      simp only [gh, if_true] at ho
      rw [h.lo_zero hl] at ho
      have : off E.ts E.P 0 0 = 0 := by omega
      rw [this]
      simp
    · have := h.lo_pos hl (Nat.le_of_lt hr) hr0
      simp only [hr0, ne_eq, not_false_iff, true_or, true_iff]
      omega
  rw [hfil]
  refine List.map_congr_left ?_
  intro i hi
  rw [List.mem_filter, List.mem_filter, List.mem_range'_1] at hi
  simp only [decide_eq_true_eq] at hi
  exact hfg i (by omega) (by omega) hi.1.2 hi.2

section ops
variable [Add V] [Sub V]

/-- `compute_residual` returns the norms at the own C-points. -/
theorem residual_runs (h : E.Good) {G : GState V} {s : Nat → PState V N} (hR : E.Rep G s)
    (hgh : E.ts.length = 1 → GhostOK E 0 G s) :
    ∃ s', E.Rep G s' ∧ (∀ r, r < E.P → Same (s r) (s' r)) ∧
      ∃ val : Nat → List N, (List.range E.P).flatMap val = (E.sys.residuals G).map E.norm ∧
      Runs E.P (fun r => E.residualP r (s r)) (fun r => (val r, s' r)) := by
  have hl0 : 0 < E.ts.length := h.valid.pos
  obtain ⟨s1, hR1, hS1, hu1, hvg1, hgh1, hrun1⟩ := ex_last h (op := 7) hl0 (by decide) hR
    (fun r hr hf => ((h.spec hr hl0).lastF.1 hf).1)
  refine ⟨s1, hR1, hS1, fun r => ((E.info r 0).idxC.filter fun j => decide (r ≠ 0 ∨ j ≠ 0)).map
    fun j => E.norm (E.stepAt r 0 j ((s1 r).u 0) - (s1 r).u 0 j), ?_, ?_⟩
  · unfold Sys.residuals
    rw [List.map_map]
    show _ = ((allC E.ts 0).filter fun i => decide (i ≠ 0)).map _
    rw [← flat_cpts h hl0]
    refine List.flatMap_congr ?_
    intro r hr
    rw [List.mem_range] at hr
    refine idxC_filter h hr _ _ ?_
    intro i a b hC hi0
    have hs := h.spec hr hl0
    have uprev : E.sys.Φ 0 i ((s1 r).u 0 (i - 1 - off E.ts E.P 0 r)) = E.sys.Φ 0 i (G.u 0 (i - 1)) := by
      by_cases hcc : i = lo E.ts E.P 0 r ∧ i - 1 ∈ allC E.ts 0 ∧ 0 + 1 < E.ts.length
      · exact h.cc hr hcc.2.2 hi0 (by have := h.lo_le 0 (r + 1); omega) hcc.1 hcc.2.1 hC _ _
      congr 1
      by_cases hlo : i = lo E.ts E.P 0 r
      · have hr0 : r ≠ 0 := by
          rintro rfl
          rw [h.lo_zero hl0] at hlo
          exact hi0 hlo
        have ho := h.off_add hl0 (Nat.le_of_lt hr)
        simp only [gh, hr0, if_false] at ho
        have hz : i - 1 - off E.ts E.P 0 r = 0 := by omega
        rw [hz]
        by_cases h1 : E.ts.length = 1
        · have hfalse : E.recvFlag 0 r 7 = false := by
            by_contra hc
            have hc' : (E.info r 0).firstC = true := Bool.not_eq_false _ ▸ hc
            have := hs.firstC.1 hc'
            exact this.2.2.2 ((mem_allC_last (by omega)).2 (by
              have := h.lo_le 0 r; omega))
          rw [hu1 r 0 0 hr (Or.inr (Or.inr hfalse)), hgh h1 r hr hr0 (by omega), hlo]
        · have hnC : i - 1 ∉ allC E.ts 0 := fun hc => hcc ⟨hlo, hc, by omega⟩
          rw [hgh1 r hr (hs.firstC.2 ⟨by omega, by omega, hlo ▸ hC, hlo ▸ hnC⟩), hlo]
      · rw [(hR1.loc r hr).u 0 _ hl0 (by omega) (by omega)]
    rw [stepAt_eq h hr hl0 a b hi0, uprev, (hR1.loc r hr).u 0 _ hl0 a b]
    rfl
  · have := hrun1.bind (g := fun r s => Prog.ret
      (((E.info r 0).idxC.filter fun j => decide (r ≠ 0 ∨ j ≠ 0)).map
        fun j => E.norm (E.stepAt r 0 j (s.u 0) - s.u 0 j), s)) (Runs.ret _)
    refine this.congr (fun r hr => ?_) (fun _ _ => rfl)
    unfold residualP exP
    simp only [Prog.bind_assoc]
    rfl

/-! ### Complete state of a run -/

/-- Local state of rank `r` against the state of the run on one process. -/
structure RLoc (E : Cfg V K T N) (R : Run V N) (r : Nat) (s : PState V N) : Prop where
  conv : s.conv = R.conv
  iter : s.solveIter = R.iter
  saved : ∀ i, lo E.ts E.P 0 r ≤ i → i < lo E.ts E.P 0 (r + 1) →
    s.saved (i - off E.ts E.P 0 r) = R.saved i
  outs : List.Forall₂ (fun a b => a.1 = b.1 ∧ ∀ i, lo E.ts E.P 0 r ≤ i →
    i < lo E.ts E.P 0 (r + 1) → a.2 (i - off E.ts E.P 0 r) = b.2 i) s.outs R.outs

/-- All processes against the run on one process. -/
structure RunRep (E : Cfg V K T N) (R : Run V N) (s : Nat → PState V N) : Prop where
  rep : E.Rep R.st s
  loc : ∀ r, r < E.P → RLoc E R r (s r)

theorem RLoc.same {R : Run V N} {r : Nat} {s s' : PState V N} (h : RLoc E R r s) (hs : Same s s') :
    RLoc E R r s' :=
  ⟨hs.conv.trans h.conv, hs.solveIter.trans h.iter, by rw [hs.saved]; exact h.saved,
    by rw [hs.outs]; exact h.outs⟩

theorem RLoc.st {R : Run V N} {r : Nat} {s : PState V N} (h : RLoc E R r s) (G : GState V) :
    RLoc E { R with st := G } r s := ⟨h.conv, h.iter, h.saved, h.outs⟩

/-- A change of the bookkeeping only. -/
theorem Rep.book {G : GState V} {s s' : Nat → PState V N} (hR : E.Rep G s) (h : E.Good)
    (hs : ∀ r, r < E.P → (s' r).u = (s r).u ∧ (s' r).v = (s r).v ∧ (s' r).g = (s r).g ∧
      (s' r).tagS = (s r).tagS ∧ (s' r).tagR = (s r).tagR ∧ (s' r).sf = (s r).sf) : E.Rep G s' := by
  constructor
  · intro r hr
    obtain ⟨a, b, c, d, e, f⟩ := hs r hr
    have hL := hR.loc r hr
    exact ⟨by rw [a]; exact hL.u, by rw [b]; exact hL.v, by rw [c]; exact hL.g,
      by rw [f]; exact hL.sf⟩
  · intro l op p q hl hp hn
    have hq := ((h.chain hl).up p q hp hn).2
    obtain ⟨_, _, _, d, _, _⟩ := hs p hp
    obtain ⟨_, _, _, _, e, _⟩ := hs q hq
    rw [d, e]
    exact hR.tags l op p q hl hp hn

theorem output_rep (h : E.Good) {R : Run V N} {s : Nat → PState V N} (hR : RunRep E R s) :
    RunRep E R.output (fun r => outputP (s r)) := by
  refine ⟨hR.rep.book h fun r hr => ⟨rfl, rfl, rfl, rfl, rfl, rfl⟩, ?_⟩
  intro r hr
  have hL := hR.loc r hr
  refine ⟨hL.conv, hL.iter, hL.saved, ?_⟩
  refine List.rel_append hL.outs (List.Forall₂.cons ⟨hL.iter, ?_⟩ List.Forall₂.nil)
  intro i a b
  exact (hR.rep.loc r hr).u 0 i h.valid.pos a b

theorem outputIf_rep (h : E.Good) {R : Run V N} {s : Nat → PState V N} (hR : RunRep E R s)
    (c : Prop) [Decidable c] :
    RunRep E (if c then R.output else R) (fun r => if c then outputP (s r) else s r) := by
  by_cases hc : c
  · simp only [hc, if_true]; exact output_rep h hR
  · simp only [hc, if_false]; exact hR

theorem convergence_runs (h : E.Good) (it : Nat) {R : Run V N} {s : Nat → PState V N}
    (hR : RunRep E R s) (hgh : E.ts.length = 1 → GhostOK E 0 R.st s) :
    ∃ s', RunRep E (E.sys.convergence E.ctl it R) s' ∧
      Runs E.P (fun r => E.convergenceP r it (s r)) s' := by
  have hglob := h.glob
  have hcc : E.convCrit = 0 ∨ E.convCrit = 1 := by
    have := h.glob
    simpa [global] using this
  by_cases hc0 : E.convCrit = 0
  · obtain ⟨s1, hR1, hS1, val, hval, hrun⟩ := residual_runs h hR.rep hgh
    set c1 : N := E.tnorm ((E.sys.residuals R.st).map E.norm) with hc1
    refine ⟨fun r => { s1 r with conv := Function.update (s1 r).conv it c1 }, ⟨?_, ?_⟩, ?_⟩
    · have : (E.sys.convergence E.ctl it R).st = R.st := by
        unfold Sys.convergence; split <;> rfl
      rw [this]
      exact hR1.book h fun r hr => ⟨rfl, rfl, rfl, rfl, rfl, rfl⟩
    · intro r hr
      have hL := (hR.loc r hr).same (hS1 r hr)
      have hc0' : E.ctl.convCrit = 0 := hc0
      unfold Sys.convergence
      rw [if_pos hc0']
      refine ⟨?_, hL.iter, hL.saved, hL.outs⟩
      show Function.update (s1 r).conv it _ = Function.update R.conv it _
      rw [hL.conv]; rfl
    · have r1 := hrun.bind (g := fun r (vs : List N × PState V N) =>
        (E.collectP r 0 (.nums vs.1) fun xs => .num (E.tnorm (allNums xs))).bind fun p =>
          match p with
          | .num x => .ret { vs.2 with conv := Function.update vs.2.conv it x }
          | _ => .fail "wrong data")
        ((collectP_runs h 0 (fun r => .nums (val r))
          fun xs => .num (E.tnorm (allNums xs))).bind (g := fun r p =>
            match p with
            | .num x => .ret { s1 r with conv := Function.update (s1 r).conv it x }
            | _ => .fail "wrong data") (Runs.ret _))
      refine r1.congr (fun r hr => ?_) (fun r hr => ?_)
      · unfold convergenceP
        rw [if_pos (Or.inl hc0)]
        simp only [hglob, if_true]
        rfl
      · rw [allNums_map, hval]
  · have hc1 : E.convCrit = 1 := by tauto
    set val : Nat → List N := fun r => (E.jumpP r (s r)).1 with hval
    have hflat : (List.range E.P).flatMap val = (E.sys.jumps R.saved R.st).map E.norm := by
      unfold Sys.jumps
      rw [List.map_map]
      show _ = ((allC E.ts 0).filter fun i => decide (i ≠ 0)).map _
      rw [← flat_cpts h h.valid.pos]
      refine List.flatMap_congr ?_
      intro r hr
      rw [List.mem_range] at hr
      refine idxC_filter h hr _ _ ?_
      intro i a b hC hi0
      rw [(hR.rep.loc r hr).u 0 _ h.valid.pos a b, (hR.loc r hr).saved i a b]
      rfl
    set c1 : N := E.tnorm ((E.sys.jumps R.saved R.st).map E.norm) with hc1d
    refine ⟨fun r => { s r with saved := (s r).u 0, conv := Function.update (s r).conv it c1 },
      ⟨?_, ?_⟩, ?_⟩
    · have : (E.sys.convergence E.ctl it R).st = R.st := by
        unfold Sys.convergence; split <;> rfl
      rw [this]
      exact hR.rep.book h fun r hr => ⟨rfl, rfl, rfl, rfl, rfl, rfl⟩
    · intro r hr
      have hL := hR.loc r hr
      have hc0' : ¬ E.ctl.convCrit = 0 := hc0
      unfold Sys.convergence
      rw [if_neg hc0']
      refine ⟨?_, hL.iter, ?_, hL.outs⟩
      · show Function.update (s r).conv it _ = Function.update R.conv it _
        rw [hL.conv]; rfl
      · intro i a b
        exact (hR.rep.loc r hr).u 0 i h.valid.pos a b
    · have r1 := ((collectP_runs h 0 (fun r => .nums (val r))
          fun xs => .num (E.tnorm (allNums xs))).bind (g := fun r p =>
            match p with
            | .num x => .ret { (E.jumpP r (s r)).2 with conv := Function.update (s r).conv it x }
            | _ => .fail "wrong data") (Runs.ret _))
      refine r1.congr (fun r hr => ?_) (fun r hr => ?_)
      · unfold convergenceP
        rw [if_neg (by omega)]
        simp only [hglob, if_true, Prog.ret_bind]
        rfl
      · rw [allNums_map, hflat]
        rfl

variable [SMul K V] [One K] [Sub K]

theorem cleanUp_runs (h : E.Good) (s : Nat → PState V N) :
    Runs E.P (fun r => E.cleanUpP r (s r)) s := by
  refine (Runs.wait (Runs.ret s)).congr (fun r hr => ?_) (fun _ _ => rfl)
  unfold cleanUpP
  rw [if_pos h.glob]

theorem solveLoop_runs (h : E.Good) (k it : Nat) {R : Run V N} {s : Nat → PState V N}
    (hR : RunRep E R s) :
    ∃ s', RunRep E (E.sys.solveLoop E.ctl E.sys.forwardSolve k it R) s' ∧
      Runs E.P (fun r => E.solveLoopP r k it (s r)) s' := by
  induction k generalizing it R s with
  | zero => exact ⟨s, hR, Runs.ret _⟩
  | succ k ih =>
    -- iteration
    have hR0 : E.Rep R.st (fun r => { s r with solveIter := it + 1 }) :=
      hR.rep.book h fun r hr => ⟨rfl, rfl, rfl, rfl, rfl, rfl⟩
    obtain ⟨s1, hR1, hS1, hg1, hrun1⟩ := fineIteration_ghost h it R.st _ hR0
    set G1 := E.sys.fineIteration E.sys.forwardSolve E.cyc it R.st with hG1
    have hRun1 : RunRep E { R with iter := it + 1, st := G1 } s1 := by
      refine ⟨hR1, fun r hr => ?_⟩
      have hL := hR.loc r hr
      have hs := hS1 r hr
      exact ⟨hs.conv.trans hL.conv, hs.solveIter, by rw [hs.saved]; exact hL.saved,
        by rw [hs.outs]; exact hL.outs⟩
    -- convergence
    obtain ⟨s2, hR2, hrun2⟩ := convergence_runs h (it + 1) hRun1 hg1
    -- output
    have hR3 := outputIf_rep h hR2 (E.outLvl = 2)
    set R3 := E.sys.solveBody E.ctl E.sys.forwardSolve it R with hR3def
    have hR3' : RunRep E R3 (fun r => if E.outLvl = 2 then outputP (s2 r) else s2 r) := hR3
    set s3 : Nat → PState V N := fun r => if E.outLvl = 2 then outputP (s2 r) else s2 r with hs3
    have hrun12 := hrun1.bind (g := fun r s => E.convergenceP r (it + 1) s) hrun2
    by_cases hst : Sys.stops E.ctl it R3 = true
    · refine ⟨s3, ?_, ?_⟩
      · show RunRep E (if Sys.stops E.ctl it R3 = true then R3 else _) s3
        rw [if_pos hst]; exact hR3'
      · have := hrun12.bind (g := fun r s => E.cleanUpP r (if E.outLvl = 2 then outputP s else s))
          (cleanUp_runs h s3)
        -- the stopping test has the same outcome everywhere
        refine Runs.congr (f := fun r => E.solveLoopP r (k + 1) it (s r)) ?_ (fun _ _ => rfl)
          (fun _ _ => rfl)
        have this' := hrun12.bind (g := fun r s =>
          (let s := if E.outLvl = 2 then outputP s else s
          if E.ltTol (s.conv (it + 1)) ∨ it + 1 = E.maxIter then
            if E.global then E.cleanUpP r s
            else if (s.fin && s.pre) ∨ it + 1 = E.maxIter then E.cleanUpP r s
            else E.solveLoopP r k (it + 1) s
          else E.solveLoopP r k (it + 1) s)) (b := s3)
          ((cleanUp_runs h s3).congr (fun r hr => by
            have hcv := (hR3'.loc r hr).conv
            have hcond : E.ltTol ((s3 r).conv (it + 1)) = true ∨ it + 1 = E.maxIter := by
              rw [hcv]
              exact stops_iff.1 hst
            show (if E.ltTol ((s3 r).conv (it + 1)) = true ∨ it + 1 = E.maxIter then _ else _) = _
            rw [if_pos hcond, if_pos h.glob]) (fun _ _ => rfl))
        refine this'.congr (fun r hr => ?_) (fun _ _ => rfl)
        simp only [Cfg.solveLoopP, Prog.bind_assoc]
    · obtain ⟨s4, hR4, hrun4⟩ := ih (it + 1) hR3'
      refine ⟨s4, ?_, ?_⟩
      · show RunRep E (if Sys.stops E.ctl it R3 = true then _ else
          E.sys.solveLoop E.ctl E.sys.forwardSolve k (it + 1) R3) s4
        rw [if_neg hst]; exact hR4
      · have this' := hrun12.bind (g := fun r s =>
          (let s := if E.outLvl = 2 then outputP s else s
          if E.ltTol (s.conv (it + 1)) ∨ it + 1 = E.maxIter then
            if E.global then E.cleanUpP r s
            else if (s.fin && s.pre) ∨ it + 1 = E.maxIter then E.cleanUpP r s
            else E.solveLoopP r k (it + 1) s
          else E.solveLoopP r k (it + 1) s)) (b := s4)
          (hrun4.congr (fun r hr => by
            have hcv := (hR3'.loc r hr).conv
            have hcond : ¬ (E.ltTol ((s3 r).conv (it + 1)) = true ∨ it + 1 = E.maxIter) := by
              rw [hcv]
              exact fun hc => hst (stops_iff.2 hc)
            show (if E.ltTol ((s3 r).conv (it + 1)) = true ∨ it + 1 = E.maxIter then _ else _) = _
            rw [if_neg hcond]) (fun _ _ => rfl))
        refine this'.congr (fun r hr => ?_) (fun _ _ => rfl)
        simp only [Cfg.solveLoopP, Prog.bind_assoc]

theorem solve_runs (h : E.Good) {R : Run V N} {s : Nat → PState V N} (hR : RunRep E R s) :
    ∃ s', RunRep E (E.sys.solve E.ctl E.sys.forwardSolve R) s' ∧
      Runs E.P (fun r => E.solveP r (s r)) s' := by
  obtain ⟨s1, hR1, hrun1⟩ := solveLoop_runs h E.maxIter 0 hR
  refine ⟨_, outputIf_rep h hR1 (E.outLvl = 1), ?_⟩
  exact hrun1.bind (g := fun r s => (E.barrierP r).bind fun _ =>
    .ret (if E.outLvl = 1 then outputP s else s))
    ((barrierP_runs h).bind (g := fun r _ => .ret (if E.outLvl = 1 then outputP (s1 r) else s1 r))
      (Runs.ret _))

theorem setup_runs (h : E.Good) {R : Run V N} {s : Nat → PState V N} (hR : RunRep E R s) :
    ∃ s', RunRep E (E.sys.setup E.ctl E.sys.forwardSolve R) s' ∧
      Runs E.P (fun r => E.setupP r (s r)) s' := by
  -- nested iteration
  have h1 : ∃ s1, RunRep E (if E.nested then
        { R with st := E.sys.nestedIteration E.sys.forwardSolve R.st } else R) s1 ∧
      Runs E.P (fun r => if E.nested then E.nestedIterationP r (s r) else .ret (s r)) s1 := by
    by_cases hn : E.nested = true
    · obtain ⟨s1, hR1, hS1, hrun1⟩ := nestedIteration_phase h R.st s hR.rep
      refine ⟨s1, ?_, ?_⟩
      · rw [if_pos hn]
        exact ⟨hR1, fun r hr => ((hR.loc r hr).same (hS1 r hr)).st _⟩
      · simp only [hn, if_true]; exact hrun1
    · refine ⟨s, ?_, ?_⟩
      · rw [if_neg hn]; exact hR
      · simp only [hn]; exact Runs.ret _
  obtain ⟨s1, hR1, hrun1⟩ := h1
  set R1 := (if E.nested then
        { R with st := E.sys.nestedIteration E.sys.forwardSolve R.st } else R) with hR1d
  have hcc : E.convCrit = 0 ∨ E.convCrit = 1 := by
    have := h.glob
    simpa [global] using this
  -- saved values
  have hR2 : RunRep E (if E.convCrit = 1 then { R1 with saved := R1.st.u 0 } else R1)
      (fun r => if E.convCrit = 1 ∨ E.convCrit = 3 then { s1 r with saved := (s1 r).u 0 }
        else s1 r) := by
    rcases hcc with hc | hc
    · simp only [hc]; exact hR1
    · simp only [hc, if_true, true_or]
      refine ⟨hR1.rep.book h fun r hr => ⟨rfl, rfl, rfl, rfl, rfl, rfl⟩, fun r hr => ?_⟩
      have hL := hR1.loc r hr
      exact ⟨hL.conv, hL.iter, fun i a b => (hR1.rep.loc r hr).u 0 i h.valid.pos a b, hL.outs⟩
  refine ⟨_, outputIf_rep h hR2 (E.outLvl = 2), ?_⟩
  have hb : Runs E.P (fun r => if E.maxIter = 0 then E.barrierP r else .ret ()) (fun _ => ()) := by
    by_cases hm : E.maxIter = 0
    · simp only [hm, if_true]; exact barrierP_runs h
    · simp only [hm, if_false]; exact Runs.ret _
  exact (barrierP_runs h).bind (g := fun r _ =>
    (if E.nested then E.nestedIterationP r (s r) else .ret (s r)).bind fun s =>
    let s := if E.convCrit = 1 ∨ E.convCrit = 3 then { s with saved := s.u 0 } else s
    (if E.maxIter = 0 then E.barrierP r else .ret ()).bind fun _ =>
    .ret (if E.outLvl = 2 then outputP s else s))
    (hrun1.bind (g := fun r s =>
      let s := if E.convCrit = 1 ∨ E.convCrit = 3 then { s with saved := s.u 0 } else s
      (if E.maxIter = 0 then E.barrierP r else .ret ()).bind fun _ =>
      .ret (if E.outLvl = 2 then outputP s else s))
      (hb.bind (g := fun r _ => .ret (if E.outLvl = 2 then
        outputP (if E.convCrit = 1 ∨ E.convCrit = 3 then { s1 r with saved := (s1 r).u 0 } else s1 r)
        else (if E.convCrit = 1 ∨ E.convCrit = 3 then { s1 r with saved := (s1 r).u 0 } else s1 r)))
        (Runs.ret _)))

theorem init_rep [Zero N] (h : E.Good) :
    RunRep E (Run.init E.start E.zero E.guess)
      (fun r => E.initState (fun r l => off E.ts E.P l r) r) := by
  refine ⟨⟨fun r hr => ⟨?_, fun _ _ _ _ _ => rfl, fun _ _ _ _ _ => rfl, fun _ _ => rfl⟩,
    fun _ _ _ _ _ _ _ => rfl⟩, fun r hr => ⟨rfl, rfl, fun _ _ _ => rfl, List.Forall₂.nil⟩⟩
  intro l i hl a b
  have ho := h.off_add hl (Nat.le_of_lt hr)
  have e : i - off E.ts E.P l r + off E.ts E.P l r = i := by omega
  show (if r = 0 ∧ i - off E.ts E.P l r = 0 then E.start l
      else if l = 0 then E.guess (i - off E.ts E.P l r + off E.ts E.P l r) else E.zero l)
    = if i = 0 then E.start l else if l = 0 then E.guess i else E.zero l
  rw [e]
  by_cases hr0 : r = 0
  · subst hr0
    simp only [gh, if_true] at ho
    rw [h.lo_zero hl] at ho
    have : off E.ts E.P l 0 = 0 := by omega
    simp [this]
  · have := h.lo_pos hl (Nat.le_of_lt hr) hr0
    have hi : i ≠ 0 := by omega
    simp [hr0, hi]

theorem main_runs (h : E.Good) {R : Run V N} {s : Nat → PState V N} (hR : RunRep E R s) :
    ∃ s', RunRep E (E.sys.solve E.ctl E.sys.forwardSolve
        (E.sys.setup E.ctl E.sys.forwardSolve R)) s' ∧
      Runs E.P (fun r => E.mainP r (s r)) s' := by
  obtain ⟨s1, hR1, hrun1⟩ := setup_runs h hR
  obtain ⟨s2, hR2, hrun2⟩ := solve_runs h hR1
  exact ⟨s2, hR2, hrun1.bind (g := fun r s => E.solveP r s) hrun2⟩

end ops
end Cfg
end Pymgrit
