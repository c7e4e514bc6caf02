import Verif.Raise

/-!
# Property C113: exceptions of NumPy inside `solve()`

`startX E inf` is `startConf E` with the exceptions of `np.linalg.norm` of an empty list (maximum norm,
`inf`) and of `np.max` of an empty list.
-/

set_option linter.unusedSectionVars false

namespace Pymgrit
open Cfg

variable {V K T N : Type} [LinearOrder T] [Inhabited T] {E : Cfg V K T N}

/-- Number of norms process `r` contributes to the criterion. -/
def nCrit (E : Cfg V K T N) (r : Nat) : Nat :=
  ((E.info r 0).idxC.filter fun j => decide (r ≠ 0 ∨ j ≠ 0)).length

theorem nCrit_zero_iff (h : E.Base) {r : Nat} (hr : r < E.P) :
    nCrit E r = 0 ↔ ∀ i ∈ (E.info r 0).pts, i ∈ allC E.ts 0 → i = 0 := by
  have hl : 0 < E.ts.length := h.valid.pos
  have hs := h.spec hr hl
  have ho := h.off_add hl (Nat.le_of_lt hr)
  unfold nCrit
  rw [List.length_eq_zero_iff, List.filter_eq_nil_iff, hs.idxC, hs.cpts, hs.pts]
  simp only [List.mem_map, List.mem_filter, List.mem_range'_1, decide_eq_true_eq]
  have hlt : ∀ i, lo E.ts E.P 0 r ≤ i → (r ≠ 0 ∨ i - off E.ts E.P 0 r ≠ 0 ↔ i ≠ 0) := by
    intro i hi
    by_cases hr0 : r = 0
    · subst hr0
      simp only [gh, if_true] at ho
      rw [h.lo_zero hl] at ho
      have : off E.ts E.P 0 0 = 0 := by omega
      rw [this]
      simp
    · have := h.lo_pos hl (Nat.le_of_lt hr) hr0
      simp only [hr0, ne_eq, not_false_iff, true_or, true_iff]
      omega
  constructor
  · intro hx i hi hC
    by_contra h0
    exact hx _ ⟨i, ⟨hi, hC⟩, rfl⟩ ((hlt i hi.1).2 h0)
  · rintro hx _ ⟨i, ⟨hi, hC⟩, rfl⟩ hne
    exact (hlt i hi.1).1 hne (hx i hi hC)

section ops
variable [Add V] [Sub V]

theorem residualP_post (r : Nat) (s : PState V N) :
    (E.residualP r s).Post fun vs => vs.1.length = nCrit E r := by
  unfold residualP
  refine Prog.Post.bind (.true _) fun s' _ => Prog.Post.bind (.true _) fun s'' _ => ?_
  show List.length (List.map _ _) = _
  rw [List.length_map]
  rfl

theorem crit_post (r : Nat) (s : PState V N) :
    (if E.convCrit = 0 ∨ E.convCrit = 2 then E.residualP r s else .ret (E.jumpP r s)).Post
      fun vs => vs.1.length = nCrit E r := by
  split
  · exact residualP_post r s
  · show List.length (List.map _ _) = _
    rw [List.length_map]
    rfl

theorem normRaises_false {xs : List N} {inf : Bool} (h : inf = false ∨ 0 < xs.length) :
    normRaises inf xs = false := by
  unfold normRaises
  rcases h with rfl | h
  · rfl
  · cases xs with
    | nil => exact absurd h (by simp)
    | cons x xs => simp

theorem collectX_false (r : Nat) (val : List N) :
    E.collectX false r val = E.collectP r 0 (.nums val) fun xs => .num (E.tnorm (allNums xs)) := rfl

/-- Without an empty list `convergence_criterion` raises nothing (other norms, or a local criterion). -/
theorem convergenceX_eq {inf : Bool} {r : Nat} (h : inf = false ∨ (E.global = false ∧ 0 < nCrit E r))
    (it : Nat) (s : PState V N) : E.convergenceX inf r it s = E.convergenceP r it s := by
  unfold convergenceX convergenceP
  refine Prog.Post.congr (crit_post r s) fun vs hv => ?_
  dsimp only
  by_cases hg : E.global = true
  · rcases h with rfl | h
    · rfl
    · rw [h.1] at hg; cases hg
  · rw [if_neg hg, if_neg hg, normRaises_false (h.imp id fun h => by rw [hv]; exact h.2)]
    rfl

variable [SMul K V] [One K] [Sub K]

theorem solveLoopX_eq {inf : Bool} {r : Nat} (h : inf = false ∨ (E.global = false ∧ 0 < nCrit E r)) :
    ∀ (k it : Nat) (s : PState V N), E.solveLoopX inf r k it s = E.solveLoopP r k it s
  | 0, _, _ => rfl
  | k + 1, it, s => by
    unfold solveLoopX solveLoopP
    simp only [convergenceX_eq h, solveLoopX_eq h k]

theorem mainX_eq {inf : Bool} {r : Nat} (h2 : 2 ≤ (grid E.ts 0).length)
    (h : inf = false ∨ (E.global = false ∧ 0 < nCrit E r)) (s : PState V N) :
    E.mainX inf r s = E.mainP r s := by
  unfold mainX mainP
  refine congrArg _ (funext fun s => ?_)
  unfold solveX solveP runInfoX
  simp only [solveLoopX_eq h, if_neg (show ¬ (grid E.ts 0).length < 2 by omega)]

end ops

variable [Add V] [Sub V] [SMul K V] [One K] [Sub K] [Zero N]

/-- C113.  With the one-norm or the two-norm (`t_norm` 1 or 2) and at least two time points nothing raises
an exception that the solver without exceptions would not: the programs are the same. -/
theorem C113_other_norms (h2 : 2 ≤ (grid E.ts 0).length) : startX E false = startConf E := by
  unfold startX startConf
  simp only [mainX_eq h2 (.inl rfl)]

/-- C113.  With a local criterion, the maximum norm and at least two time points the programs are the same
if every process owns a C-point of the finest level other than the initial point. -/
theorem C113_local_partial (h : E.Base) (hl : E.global = false) (h2 : 2 ≤ (grid E.ts 0).length)
    (hC : ∀ r, r < E.P → ∃ i ∈ (E.info r 0).pts, i ∈ allC E.ts 0 ∧ i ≠ 0) :
    startX E true = startConf E := by
  have : ∀ r : Fin E.P, ∀ s : PState V N, E.mainX true r s = E.mainP r s := fun r =>
    mainX_eq h2 (.inr ⟨hl, Nat.pos_of_ne_zero fun h0 => by
      obtain ⟨i, hi, hi2, hi3⟩ := hC r r.isLt
      exact hi3 ((nCrit_zero_iff h r.isLt).1 h0 i hi hi2)⟩)
  unfold startX startConf
  simp only [this]

/-! ### The exception -/

theorem convergenceX_noRet {r : Nat} (hl : E.global = false) (h0 : nCrit E r = 0) (it : Nat)
    (s : PState V N) : (E.convergenceX true r it s).NoRet := by
  unfold convergenceX
  refine Prog.Post.noRet (crit_post r s) fun vs hv => ?_
  dsimp only
  rw [if_neg (by rw [hl]; decide)]
  refine Prog.Post.noRet (.true _) fun s' _ => Prog.Post.noRet (.true _) fun s'' _ => ?_
  rw [h0, List.length_eq_zero_iff] at hv
  rw [hv, if_pos (by rfl)]
  trivial

theorem QS.convergenceX (inf : Bool) (r it : Nat) (s : PState V N) : QS 2 s (E.convergenceX inf r it s) := by
  intro h
  unfold Cfg.convergenceX
  refine Prog.Quiet.bind (Q := fun p => Tagged p.2) ?_ fun p hp => ?_
  · split
    · exact Quiet.residualP E h
    · exact h.of_eq rfl rfl
  · obtain ⟨val, s⟩ := p
    dsimp only
    split
    · refine Prog.Quiet.bind (Q := fun _ => True) ?_ fun p _ => ?_
      · unfold Cfg.collectX
        split
        · refine Prog.Quiet.bind (Q := fun _ => True) ?_ fun xs _ => ?_
          · generalize [Payload.nums val] = acc
            generalize List.range' 1 (E.P - 1) = qs
            induction qs generalizing acc with
            | nil => trivial
            | cons q qs ih => exact ⟨by decide, fun m => ih _⟩
          · split
            · trivial
            · refine Prog.Quiet.bind (Q := fun _ => True) ?_ fun _ _ => trivial
              generalize List.range' 1 (E.P - 1) = qs
              induction qs with
              | nil => trivial
              | cons q qs ih => exact ⟨by decide, ih⟩
        · exact ⟨by decide, by decide, fun m => trivial⟩
      · split
        · exact hp.of_eq rfl rfl
        · trivial
    · refine Prog.Quiet.bind (Q := Tagged) ?_ fun s' h' => ?_
      · split
        · refine (Quiet.recvP E hp).bind fun p hp => ?_
          split
          · exact hp.of_eq rfl rfl
          · trivial
        · exact hp
      · refine Prog.Quiet.bind (Q := Tagged) ?_ fun s'' h'' => ?_
        · refine QS.ite (.sendP E) (.ret id) ?_
          exact h'.of_eq rfl rfl
        · split
          · trivial
          · exact h''.of_eq rfl rfl

theorem QS.solveLoopX (inf : Bool) (r k it : Nat) (s : PState V N) : QS 2 s (E.solveLoopX inf r k it s) := by
  induction k generalizing it s with
  | zero => exact .ret id
  | succ k ih =>
    unfold Cfg.solveLoopX
    refine .bind (.from (s' := { s with solveIter := it + 1 }) (fun h => h.of_eq rfl rfl)
      (.iterationP E _ _ _ _ _ _)) fun s1 => .bind (QS.convergenceX _ _ _ _) fun s2 => ?_
    refine .from (s' := if E.outLvl = 2 then Cfg.outputP s2 else s2) (fun h => ?_) ?_
    · split
      · exact h.outputP
      · exact h
    · exact .ite (.ite (.cleanUpP E _) (.ite (.cleanUpP E _) (ih _ _))) (ih _ _)

theorem mainX_noRet_one {inf : Bool} (h1 : (grid E.ts 0).length < 2) (r : Nat) (s : PState V N) :
    (E.mainX inf r s).NoRet := by
  unfold mainX
  refine Prog.Post.noRet (.true _) fun s _ => ?_
  unfold solveX
  refine Prog.Post.noRet (.true _) fun s _ => Prog.Post.noRet (.true _) fun _ _ => ?_
  unfold runInfoX
  rw [if_pos h1]
  trivial

instance : Inhabited (Msg V N) := ⟨⟨.unit, false, 0, 0⟩⟩

/-- C113.  On a grid of one time point no process returns from `solve()`, whatever the schedule: the
overview printed at its end takes the maximum of the (missing) step sizes. -/
theorem C113_one_point (h1 : (grid E.ts 0).length < 2) (inf : Bool)
    {f : FConf E.P (Msg V N) (PState V N)} (hf : FSteps (startX E inf).alive f) (r : Fin E.P)
    (s : PState V N) : f.conf.prog r ≠ .ret s := by
  obtain ⟨q, hx, -⟩ := hf.sim
  intro hs
  have := hx.noRet (r := r) (mainX_noRet_one h1 _ _)
  rw [show (Conf.prog ⟨f.conf.prog, q⟩ r) = f.conf.prog r from rfl, hs] at this
  exact this

/-- C113 (the claim that `solve()` raises no exception is refuted).  With a local criterion and the maximum
norm: if some process owns no C-point of the finest level other than the initial point, its first
evaluation of the criterion raises an exception, and no process ever returns from `solve()`, in whatever
order the processes run. -/
theorem C113_local_raises (h : E.Base) (hl : E.global = false) (hm : 0 < E.maxIter) {q : Nat} (hq : q < E.P)
    (h0 : ∀ i ∈ (E.info q 0).pts, i ∈ allC E.ts 0 → i = 0) {f : FConf E.P (Msg V N) (PState V N)}
    (hf : FSteps (startX E true).alive f) (r : Fin E.P) (s : PState V N) : f.conf.prog r ≠ .ret s := by
  by_cases h1 : (grid E.ts 0).length < 2
  · exact C113_one_point h1 true hf r s
  intro hs
  obtain ⟨ch, hx, -⟩ := hf.sim
  have hn : ∀ s : PState V N, (E.solveX true q s).NoRet := by
    intro s
    unfold solveX
    refine Prog.NoRet.bind ?_ _
    obtain ⟨k, hk⟩ := Nat.exists_eq_add_of_lt hm
    rw [hk, show 0 + k + 1 = k + 1 by omega]
    unfold solveLoopX
    refine Prog.Post.noRet (.true _) fun s' _ => Prog.NoRet.bind ?_ _
    exact convergenceX_noRet hl ((nCrit_zero_iff h hq).2 h0) _ _
  have hq' := hx.noRet (r := ⟨q, hq⟩) (Prog.Post.noRet (.true _) fun s _ => hn s)
  obtain ⟨a, ha⟩ := all_or_none E hx rfl (fun r => by
    have := main_along_of E r (fun r l => off E.ts E.P l r) (QS.solveLoopX (E := E) true r E.maxIter 0)
      fun s => if E.outLvl = 1 then outputP s else s
    unfold startX mainX solveX runInfoX
    simpa only [if_neg h1] using this) hs ⟨q, hq⟩
  exact hq'.not_returns a ha

/-! ### Global criteria -/

/-- The messages gathered by process 0 have as many entries as expected. -/
def GatherOK (E : Cfg V K T N) (q t : Nat) (m : Msg V N) : Prop :=
  t = 0 → ∃ l : List N, m.data = .nums l ∧ l.length = nCrit E q

theorem gatherOK_of_ne (q t : Nat) (m : Msg V N) (h : t ≠ 0) : GatherOK E q t m := fun h0 => absurd h0 h

theorem barrier_noZero (E : Cfg V K T N) (r : Nat) : (E.barrierP r).NoZero fun _ => True := by
  unfold barrierP collectP
  have hb : ∀ {α β : Type} {p : Prog (Msg V N) α} {f : α → Prog (Msg V N) β}, p.NoZero (fun _ => True) →
      (∀ a, (f a).NoZero fun _ => True) → (p.bind f).NoZero fun _ => True := by
    intro α β p f hp hf
    induction p with
    | ret a => exact hf a
    | fail e => trivial
    | send d t m k ih => exact ⟨hp.1, ih hp.2⟩
    | recv s t k ih => exact fun m => ih m (hp m)
    | wait k ih => exact ih hp
  refine hb ?_ fun _ => trivial
  split
  · refine hb ?_ fun xs => hb ?_ fun _ => trivial
    · generalize [Payload.unit] = acc
      generalize List.range' 1 (E.P - 1) = qs
      induction qs generalizing acc with
      | nil => trivial
      | cons q qs ih => exact fun m => ih _
    · generalize List.range' 1 (E.P - 1) = qs
      induction qs with
      | nil => trivial
      | cons q qs ih => exact ⟨by decide, ih⟩
  · exact ⟨by decide, fun m => trivial⟩

theorem sum_range_pos (f : Nat → Nat) {n r : Nat} (hr : r < n) (h : 0 < f r) :
    0 < ((List.range n).map f).sum := by
  have := List.single_le_sum (l := (List.range n).map f) (fun x _ => Nat.zero_le x) (f r)
    (List.mem_map.2 ⟨r, List.mem_range.2 hr, rfl⟩)
  omega

/-- Receiving the lists of the other processes. -/
theorem gather_rel {α : Type} {f f' : List (Payload V N) → Prog (Msg V N) α} (n : Nat) :
    ∀ (a : Nat) (acc : List (Payload V N)),
    (allNums acc).length = ((List.range a).map (nCrit E)).sum →
    (∀ xs, (allNums xs).length = ((List.range (a + n)).map (nCrit E)).sum →
      (f xs).Rel (GatherOK E) 0 (f' xs)) →
    ((Prog.forIn' (List.range' a n) (fun acc q => Prog.recv q 0 fun m => .ret (acc ++ [m.data])) acc).bind
      f).Rel (GatherOK E) 0 ((Prog.forIn' (List.range' a n) (fun acc q =>
        Prog.recv q 0 fun m => .ret (acc ++ [m.data])) acc).bind f') := by
  induction n with
  | zero => exact fun a acc ha hf => hf acc ha
  | succ n ih =>
    intro a acc ha hf
    rw [List.range'_succ]
    refine .recv fun m hm => ?_
    obtain ⟨l, h1, h2⟩ := hm rfl
    refine ih (a + 1) _ ?_ fun xs hx => hf xs (by rw [hx]; congr 3; omega)
    rw [List.range_succ, List.map_append, List.sum_append, ← ha, h1]
    unfold allNums
    rw [List.flatMap_append, List.length_append]
    simp [h2]

theorem convergenceX_rel {inf : Bool} (hg : E.global = true) (hP : 0 < E.P) (hn : ∃ q, q < E.P ∧ 0 < nCrit E q)
    {r : Nat} (it : Nat) {s : PState V N} (hs : Tagged s)
    {f f' : PState V N → Prog (Msg V N) (PState V N)}
    (hf : ∀ s, Tagged s → (f s).Rel (GatherOK E) r (f' s)) :
    ((E.convergenceX inf r it s).bind f).Rel (GatherOK E) r ((E.convergenceP r it s).bind f') := by
  unfold convergenceX convergenceP
  rw [Prog.bind_assoc, Prog.bind_assoc]
  have hq : (if E.convCrit = 0 ∨ E.convCrit = 2 then E.residualP r s else .ret (E.jumpP r s)).Quiet 0
      fun p => Tagged p.2 := by
    split
    · exact Quiet.residualP E hs
    · exact hs.of_eq rfl rfl
  refine (hq.and (crit_post r s)).noZero.rel (gatherOK_of_ne (E := E)) fun vs hvs => ?_
  obtain ⟨hvs, hlen⟩ := hvs
  dsimp only
  rw [if_pos hg, if_pos hg, Prog.bind_assoc, Prog.bind_assoc]
  have hfin : ∀ p : Payload V N, ((match p with
      | .num x => Prog.ret { vs.2 with conv := Function.update vs.2.conv it x }
      | _ => .fail "wrong data" : Prog (Msg V N) (PState V N)).bind f).Rel (GatherOK E) r
      ((match p with
      | .num x => Prog.ret { vs.2 with conv := Function.update vs.2.conv it x }
      | _ => .fail "wrong data" : Prog (Msg V N) (PState V N)).bind f') := by
    intro p
    cases p with
    | num x => exact hf _ (hvs.of_eq rfl rfl)
    | _ => exact .fail _
  unfold collectX collectP
  by_cases hr : r = 0
  · subst hr
    rw [if_pos rfl, if_pos rfl, Prog.bind_assoc, Prog.bind_assoc]
    refine gather_rel (E.P - 1) 1 _ ?_ fun xs hx => ?_
    · show (vs.1 ++ []).length = _
      rw [List.append_nil, hlen]
      simp
    · obtain ⟨q, hq1, hq2⟩ := hn
      have hpos : 0 < (allNums xs).length := by
        rw [hx, show 1 + (E.P - 1) = E.P by omega]
        exact sum_range_pos _ hq1 hq2
      rw [normRaises_false (.inr hpos), if_neg (by decide), Prog.bind_assoc, Prog.bind_assoc]
      refine Prog.NoZero.rel (Q := fun _ => True) (gatherOK_of_ne (E := E)) ?_ fun _ _ =>
        hfin (.num (E.tnorm (allNums xs)))
      generalize List.range' 1 (E.P - 1) = qs
      induction qs with
      | nil => trivial
      | cons q qs ih => exact ⟨by decide, ih⟩
  · rw [if_neg hr, if_neg hr]
    exact .send (fun _ => ⟨_, rfl, hlen⟩) (.recv fun m _ => hfin _)

theorem solveLoopX_rel {inf : Bool} (hg : E.global = true) (hP : 0 < E.P) (hn : ∃ q, q < E.P ∧ 0 < nCrit E q)
    {r : Nat} {f f' : PState V N → Prog (Msg V N) (PState V N)}
    (hf : ∀ s, Tagged s → (f s).Rel (GatherOK E) r (f' s)) (k : Nat) :
    ∀ (it : Nat) (s : PState V N), Tagged s →
    ((E.solveLoopX inf r k it s).bind f).Rel (GatherOK E) r ((E.solveLoopP r k it s).bind f') := by
  induction k with
  | zero => exact fun it s hs => hf s hs
  | succ k ih =>
    intro it s hs
    unfold solveLoopX solveLoopP
    rw [Prog.bind_assoc, Prog.bind_assoc]
    have h1 : Tagged { s with solveIter := it + 1 } := hs.of_eq rfl rfl
    refine (QS.iterationP E _ _ _ _ _ _ h1).noZero.rel (gatherOK_of_ne (E := E)) fun s1 hs1 => ?_
    rw [Prog.bind_assoc, Prog.bind_assoc]
    refine convergenceX_rel hg hP hn _ hs1 fun s2 hs2 => ?_
    have h3 : Tagged (if E.outLvl = 2 then Cfg.outputP s2 else s2) := by
      split
      · exact hs2.outputP
      · exact hs2
    simp only [if_pos hg]
    generalize (if E.outLvl = 2 then Cfg.outputP s2 else s2) = s3 at h3
    by_cases hc : E.ltTol (s3.conv (it + 1)) = true ∨ it + 1 = E.maxIter
    · rw [if_pos hc, if_pos hc]
      exact (QS.cleanUpP E _ h3).noZero.rel (gatherOK_of_ne (E := E)) hf
    · rw [if_neg hc, if_neg hc]
      exact ih _ _ h3

theorem mainX_rel {inf : Bool} (hg : E.global = true) (hP : 0 < E.P) (h2 : 2 ≤ (grid E.ts 0).length)
    (hn : ∃ q, q < E.P ∧ 0 < nCrit E q) (r : Nat) (offs : Nat → Nat → Nat) :
    (E.mainX inf r (E.initState offs r) : Prog (Msg V N) (PState V N)).Rel (GatherOK E) r (E.mainP r (E.initState offs r)) := by
  have h0 : Tagged (E.initState offs r : PState V N) := fun l op =>
    ⟨by show 50000 ≤ 50000 * (op + 1); omega, by show 50000 ≤ 50000 * (op + 1); omega⟩
  unfold mainX mainP setupP
  rw [Prog.bind_assoc (E.barrierP r), Prog.bind_assoc (E.barrierP r)]
  refine (barrier_noZero E r).rel (gatherOK_of_ne (E := E)) fun _ _ => ?_
  rw [Prog.bind_assoc, Prog.bind_assoc]
  have hq : QS 0 (E.initState offs r)
      (if E.nested = true then E.nestedIterationP r (E.initState offs r) else Prog.ret (E.initState offs r)) :=
    QS.ite (QS.nestedIterationP E _) (QS.ret id)
  refine (hq h0).noZero.rel (gatherOK_of_ne (E := E)) fun s hs => ?_
  dsimp only
  rw [Prog.bind_assoc, Prog.bind_assoc]
  have hb : (if E.maxIter = 0 then E.barrierP r else Prog.ret ()).NoZero fun _ => True := by
    split
    · exact barrier_noZero E r
    · trivial
  refine hb.rel (gatherOK_of_ne (E := E)) fun _ _ => ?_
  simp only [Prog.ret_bind]
  unfold solveX solveP
  refine solveLoopX_rel hg hP hn (fun s _ => ?_) _ _ _ ?_
  · refine (barrier_noZero E r).rel (gatherOK_of_ne (E := E)) fun _ _ => ?_
    unfold runInfoX
    rw [if_neg (by omega)]
    exact .ret _
  · have hs' : Tagged (if E.convCrit = 1 ∨ E.convCrit = 3 then { s with saved := s.u 0 } else s) := by
      split
      · exact hs.of_eq rfl rfl
      · exact hs
    split
    · exact hs'.outputP
    · exact hs'

/-- A grid of at least two points has a C-point other than the initial one. -/
theorem exists_c_point (hv : Valid E.ts) (h2 : ∀ l, l < E.ts.length → 2 ≤ (grid E.ts l).length) :
    ∃ i ∈ allC E.ts 0, i ≠ 0 := by
  have hp := hv.pos
  have h0 := h2 0 hp
  by_cases h1 : 1 < E.ts.length
  · have h3 := h2 1 h1
    have hm : tAt (grid E.ts 1) 1 ∈ grid E.ts 0 :=
      hv.nested 0 h1 _ (mem_iff_tAt.2 ⟨1, by show 1 < (grid E.ts 1).length; omega, rfl⟩)
    obtain ⟨i, hi, e⟩ := mem_iff_tAt.1 hm
    refine ⟨i, (mem_allC_iff h1).2 ⟨hi, mem_iff_tAt.2 ⟨1, by show 1 < (grid E.ts 1).length; omega, e.symm⟩⟩, ?_⟩
    rintro rfl
    have hst := hv.start 1 h1
    have e0 : tAt (grid E.ts 1) 0 = tAt (grid E.ts 0) 0 := by
      rw [tAt_eq (by omega), tAt_eq (by omega)]
      rw [List.head?_eq_getElem?, List.head?_eq_getElem?, List.getElem?_eq_getElem (by omega),
        List.getElem?_eq_getElem (by omega)] at hst
      exact Option.some.inj hst
    rw [← e0] at e
    have := (tAt_inj (hv.sorted 1) (by omega) (by omega)).1 e
    omega
  · exact ⟨1, (mem_allC_last (by omega)).2 (by unfold npts; omega), by omega⟩

/-- C113.  With a global criterion, whatever the norm over time: on grids of at least two points the solver
with NumPy's exceptions has the same outcomes as the one without. -/
theorem C113_global (h : E.Good) (h2 : ∀ l, l < E.ts.length → 2 ≤ (grid E.ts l).length) (inf : Bool)
    (c : Conf E.P (Msg V N) (PState V N)) :
    (Steps (startX E inf) c ∧ ∀ d, ¬ Step c d) ↔ (Steps (startConf E) c ∧ ∀ d, ¬ Step c d) := by
  obtain ⟨i, hi, hi0⟩ := exists_c_point h.valid h2
  have hin : i < npts E.ts 0 := by
    by_cases h1 : 0 + 1 < E.ts.length
    · exact ((mem_allC_iff h1).1 hi).1
    · exact (mem_allC_last (by have := h.valid.pos; omega)).1 hi
  obtain ⟨q, hq, hq1, hq2⟩ := h.valid.exists_owner h.Ppos h.PN h.valid.pos hin
  have hn : ∃ q, q < E.P ∧ 0 < nCrit E q := by
    refine ⟨q, hq, Nat.pos_of_ne_zero fun hz => hi0 ((nCrit_zero_iff h.toBase hq).1 hz i ?_ hi)⟩
    have hs := h.spec hq h.valid.pos
    rw [hs.pts, List.mem_range'_1]
    omega
  have hrel : (startX E inf).Rel (GatherOK E) (startConf E) :=
    ⟨fun r => mainX_rel h.glob h.Ppos (h2 0 h.valid.pos) hn _ _, rfl, fun s d t m hm => by cases hm⟩
  obtain ⟨F, -, hF⟩ := exists_final h
  have hdone : Conf.Done (⟨fun r : Fin E.P => Prog.ret (F r), Chans.empty⟩ :
      Conf E.P (Msg V N) (PState V N)) := fun r => ⟨_, rfl⟩
  constructor
  · rintro ⟨hc, hst⟩
    obtain ⟨c', hc', hr⟩ := hrel.steps hc
    have hst' : ∀ d, ¬ Step c' d := fun d hd => by
      obtain ⟨d', hd', -⟩ := hr.symm.step hd
      exact hst d' hd'
    have e := C21_schedule_independent h hc' hF hst' fun d => hdone.not_step
    have := hr.eq_of_done (by rw [e]; exact hdone)
    rw [this]
    exact ⟨hc', hst'⟩
  · rintro ⟨hc, hst⟩
    have e := C21_schedule_independent h hc hF hst fun d => hdone.not_step
    obtain ⟨c', hc', hr⟩ := hrel.symm.steps hc
    have := hr.symm.eq_of_done (by rw [e]; exact hdone)
    rw [← this]
    exact ⟨hc', by rw [this]; exact hst⟩

/-! ### Examples -/

/-- Nine points coarsened by two on `P` processes, local residual criterion, maximum norm. -/
def exLocal (P : Nat) : Cfg Int Int Nat Int := { exCfg P with convCrit := 2, tnorm := maxNorm }

theorem exLocal_loc (P : Nat) (hP : 0 < P) (hP9 : P ≤ 9) : (exLocal P).Loc where
  valid := exGrid_valid
  Ppos := hP
  PN := hP9
  ord := (exCfg_good P hP hP9).ord
  crit := rfl
  cfpos := fun _ _ => Nat.le_refl 1
  norm := by
    intro xs _ hx
    have key : ∀ (xs : List Int) (a : Int), a < 1 → (∀ x ∈ xs, x < 1) → xs.foldl max a < 1 := by
      intro xs
      induction xs with
      | nil => exact fun a ha _ => ha
      | cons x xs ih =>
        intro a ha h
        exact ih _ (max_lt ha (h x List.mem_cons_self)) fun y hy => h y (List.mem_cons_of_mem _ hy)
    show decide (maxNorm xs < 1) = true
    refine decide_eq_true (key xs 0 (by decide) fun x hx' => ?_)
    exact of_decide_eq_true (List.all_eq_true.1 hx x hx')

/-- C113, C32: nine points on nine processes meet the requirements of the statements about local criteria
and those of the exception: process 1 owns the time point 1 only, which is no C-point. -/
example : (exLocal 9).Loc ∧ (exLocal 9).global = false ∧ 0 < (exLocal 9).maxIter ∧
    ∀ i ∈ ((exLocal 9).info 1 0).pts, i ∈ allC (exLocal 9).ts 0 → i = 0 :=
  ⟨exLocal_loc 9 (by decide) (by decide), rfl, by decide, by decide +kernel⟩

/-- C113: on four processes every process owns a C-point other than the initial one. -/
example : (exLocal 4).Base ∧ (exLocal 4).global = false ∧ 2 ≤ (grid (exLocal 4).ts 0).length ∧
    ∀ r, r < (exLocal 4).P → ∃ i ∈ ((exLocal 4).info r 0).pts, i ∈ allC (exLocal 4).ts 0 ∧ i ≠ 0 :=
  ⟨(exLocal_loc 4 (by decide) (by decide)).toBase, rfl, by decide, by decide +kernel⟩

/-- C113: global criterion, also with processes without C-points. -/
example : (exCfg 9).Good ∧ ∀ l, l < (exCfg 9).ts.length → 2 ≤ (grid (exCfg 9).ts l).length :=
  ⟨exCfg_good 9 (by decide) (by decide), by decide⟩

/-- C113: one time point. -/
example : (grid [[(0 : Nat)]] 0).length < 2 := by decide

end Pymgrit
