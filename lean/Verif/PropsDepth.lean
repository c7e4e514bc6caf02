import Verif.DepthProofs
import Verif.PropsBalance

/-!
# C138: Chains of calls of `step()` that depend on each other

With vectors that carry the length of the longest chain of calls of `step()` behind them (`Depth.tag`), the values at the end of
`solve()` tell how much of the work had to be done one call after the other, with any number of processes.  Time stepping on
the finest grid needs a chain of `i` calls for point `i`.  The chains of a multigrid run are bounded by the number of iterations
and the runs of F-points, plus the number of intervals of the coarsest grid, once.
-/

set_option linter.unusedSectionVars false

namespace Pymgrit
namespace Depth
open Sys Trace Cfg

variable {V K T N : Type} [LinearOrder T] [Inhabited T]

/-- Number of intervals of the coarsest grid that end at `t` or before. -/
def coarseIntervals (ts : List (List T)) (t : T) : Nat := ((grid ts (ts.length - 1)).filter fun x => decide (x ≤ t)).length - 1

/-- Every point of a level but the coarsest is at most `f l` points behind one that is on the next level, too. -/
def Runs (ts : List (List T)) (f : Nat → Nat) : Prop :=
  ∀ l, l + 1 < ts.length → ∀ i, i < npts ts l → ∃ c, c ≤ i ∧ i ≤ c + f l ∧ tAt (grid ts l) c ∈ grid ts (l + 1)

/-- Of two neighbouring points of a level, one is missing on the next level. -/
def Apart (ts : List (List T)) : Prop :=
  ∀ l, l + 1 < ts.length → ∀ i, i + 1 < npts ts l → tAt (grid ts l) i ∈ grid ts (l + 1) → tAt (grid ts l) (i + 1) ∉ grid ts (l + 1)

/-- Calls of `step()` in a chain through one iteration, without the coarsest level: `cf + 1` times a run of F-points and one
more step for the finest level, on the coarser levels in addition one run of F-points, for each visit. -/
def perIteration (cf f : Nat → Nat) (cyc : Cycle) (L : Nat) : Nat :=
  ((List.range (L - 1)).map fun l =>
    if l = 0 then (cf 0 + 1) * (f 0 + 1)
    else (if cyc = Cycle.F then l + 1 else 1) * ((cf l + 1) * (f l + 1) + f l)).sum

/-- The same for nested iteration, which visits level `l` `l` times. -/
def inConstructor (cf f : Nat → Nat) (L : Nat) : Nat :=
  ((List.range (L - 1)).map fun l => l * ((cf l + 1) * (f l + 1) + f l)).sum

section
variable {ts : List (List T)}

theorem le_iff_lt_count {g : List T} (hs : g.Pairwise (· < ·)) (a : T) {i : Nat}
    (hi : i < g.length) : tAt g i ≤ a ↔ i < (g.filter fun x => decide (x ≤ a)).length := by
  induction g generalizing i with
  | nil => simp at hi
  | cons x g ih =>
    have hs' := List.pairwise_cons.1 hs
    by_cases hx : x ≤ a
    · rw [List.filter_cons_of_pos (by simpa using hx), List.length_cons]
      cases i with
      | zero => simp [tAt, hx]
      | succ i =>
        have : tAt (x :: g) (i + 1) = tAt g i := by simp [tAt]
        rw [this, ih hs'.2 (by simpa using hi)]; omega
    · have hnil : g.filter (fun x => decide (x ≤ a)) = [] := by
        rw [List.filter_eq_nil_iff]
        intro y hy
        have := hs'.1 y hy
        simp only [decide_eq_true_eq]
        exact fun h => hx ((le_of_lt this).trans h)
      rw [List.filter_cons_of_neg (by simpa using hx), hnil]
      simp only [List.length_nil, Nat.not_lt_zero, iff_false]
      cases i with
      | zero => simpa [tAt] using hx
      | succ i =>
        intro h
        have hm : tAt (x :: g) (i + 1) ∈ g := by
          have : tAt (x :: g) (i + 1) = tAt g i := by simp [tAt]
          rw [this]
          exact tAt_mem (by simpa using hi)
        exact hx ((le_of_lt (hs'.1 _ hm)).trans h)

theorem coarse_mono {a b : T} (h : a ≤ b) : coarseIntervals ts a ≤ coarseIntervals ts b := by
  unfold coarseIntervals
  have : ((grid ts (ts.length - 1)).filter fun x => decide (x ≤ a)).Sublist
      ((grid ts (ts.length - 1)).filter fun x => decide (x ≤ b)) :=
    List.monotone_filter_right _ fun x hx => by
      simp only [decide_eq_true_eq] at hx ⊢
      exact hx.trans h
  have := this.length_le
  omega

theorem coarse_last (h : Valid ts) {i : Nat} (hi : i < npts ts (ts.length - 1)) :
    coarseIntervals ts (tAt (grid ts (ts.length - 1)) i) = i := by
  have hs := h.sorted (ts.length - 1)
  have h1 := (le_iff_lt_count hs (tAt (grid ts (ts.length - 1)) i) hi).1 le_rfl
  have h2 : ((grid ts (ts.length - 1)).filter fun x => decide (x ≤ tAt (grid ts (ts.length - 1)) i)).length ≤ i + 1 := by
    by_contra hc
    have hlen := List.length_filter_le (fun x => decide (x ≤ tAt (grid ts (ts.length - 1)) i)) (grid ts (ts.length - 1))
    have hi' : i + 1 < (grid ts (ts.length - 1)).length := by omega
    have := (le_iff_lt_count hs (tAt (grid ts (ts.length - 1)) i) hi').2 (by omega)
    rw [tAt_le_iff hs hi' hi] at this
    omega
  unfold coarseIntervals
  omega

theorem nested_all (h : Valid ts) {l l' : Nat} (hl : l ≤ l') (hl' : l' < ts.length) {x : T} (hx : x ∈ grid ts l') :
    x ∈ grid ts l := by
  induction l' with
  | zero => obtain rfl : l = 0 := by omega
            exact hx
  | succ k ih =>
    rcases Nat.lt_or_eq_of_le hl with h1 | rfl
    · exact ih (by omega) (by omega) (h.nested k hl' x hx)
    · exact hx

theorem coarse_F (h : Valid ts) {l i : Nat} (hl : l + 1 < ts.length) (hi : i + 1 < npts ts l)
    (hF : tAt (grid ts l) (i + 1) ∉ grid ts (l + 1)) :
    coarseIntervals ts (tAt (grid ts l) (i + 1)) = coarseIntervals ts (tAt (grid ts l) i) := by
  unfold coarseIntervals
  congr 2
  refine List.filter_congr fun x hx => ?_
  rw [decide_eq_decide]
  obtain ⟨j, hj, rfl⟩ := mem_iff_tAt.1 (nested_all h (show l ≤ ts.length - 1 by omega) (by omega) hx)
  have hne : j ≠ i + 1 := by
    rintro rfl
    exact hF (nested_all h (show l + 1 ≤ ts.length - 1 by omega) (by omega) hx)
  rw [tAt_le_iff (h.sorted l) hj hi, tAt_le_iff (h.sorted l) hj (show i < npts ts l by omega)]
  omega

end

section
variable [Add V] [Sub V] [SMul K V] [One K] [Sub K]

theorem tag_counts (E : Cfg V K T N) : Counts (tag E).sys DV.dep where
  add := fun _ _ => rfl
  sub := fun _ _ => rfl
  smul := fun _ _ => rfl
  step := fun _ _ _ => rfl
  R := fun _ _ => rfl
  I := fun _ _ => rfl

/-- Position of a point: intervals of the coarsest grid. -/
def position (ts : List (List T)) (l i : Nat) : Nat := coarseIntervals ts (tAt (grid ts l) i)

theorem tag_pos {E : Cfg V K T N} (h : Valid E.ts) : Pos (tag E).sys (position E.ts) where
  mono := fun l i _ hi => coarse_mono (by
    rw [tAt_le_iff (h.sorted l) (show i < npts E.ts l from Nat.lt_of_succ_lt hi) hi]
    exact Nat.le_succ i)
  cpt := fun l k hl hk => congrArg (coarseIntervals E.ts) (tAt_cpt h hl hk)

theorem zero_pos {E : Cfg V K T N} : Pos (tag E).sys fun _ _ => 0 where
  mono := fun _ _ _ _ => le_rfl
  cpt := fun _ _ _ _ => rfl

theorem tag_runs {E : Cfg V K T N} {f : Nat → Nat} (hf : Runs E.ts f) :
    ∀ l, l + 1 < (tag E).sys.L → ∀ i, i < (tag E).sys.n l → ∃ c ∈ (tag E).sys.C l, c ≤ i ∧ i < c + (f l + 1) := by
  intro l hl i hi
  obtain ⟨c, h1, h2, h3⟩ := hf l hl i hi
  exact ⟨c, (mem_allC_iff hl).2 ⟨Nat.lt_of_le_of_lt h1 hi, h3⟩, h1, by omega⟩

theorem tag_apart {E : Cfg V K T N} (ha : Apart E.ts) :
    ∀ l, l + 1 < (tag E).sys.L → ∀ i, i ∈ (tag E).sys.C l → i + 1 ∉ (tag E).sys.C l := by
  intro l hl i hi hi'
  obtain ⟨a, b⟩ := (mem_allC_iff hl).1 hi
  obtain ⟨a', b'⟩ := (mem_allC_iff hl).1 hi'
  exact ha l hl i a' b b'

theorem good_of_apart {E : Cfg V K T N} (h : E.Base) (hg : E.global = true) (ha : Apart E.ts) : E.Good where
  toBase := h
  glob := hg
  noCC := fun r l _ hl h0 hn hC => by
    obtain ⟨-, b⟩ := (mem_allC_iff hl).1 hC.1
    obtain ⟨a', b'⟩ := (mem_allC_iff hl).1 hC.2
    have e : lo E.ts E.P l r - 1 + 1 = lo E.ts E.P l r := by omega
    exact absurd b' (e ▸ ha l hl (lo E.ts E.P l r - 1) (by rw [e]; exact a') b)

theorem tag_good {E : Cfg V K T N} (h : E.Base) (hg : E.global = true) (ha : Apart E.ts) : (tag E).Good :=
  good_of_apart (E := tag E) ⟨h.valid, h.Ppos, h.PN, h.ord⟩ hg ha

theorem perIteration_eq (cf f : Nat → Nat) (cyc : Cycle) (L : Nat) :
    iterCost cf (fun l => f l + 1) cyc (L - 1) = perIteration cf f cyc L := by
  unfold iterCost perIteration visits visitCost baseCost
  simp only [Nat.add_sub_cancel]

/-- Bound of the state after the constructor and `k` iterations, for any solver of the coarsest level that adds `κ`. -/
theorem iterates_below {E : Cfg V K T N} (h : Valid E.ts) {f : Nat → Nat} (hf : Runs E.ts f) (ha : Apart E.ts)
    {pos : Nat → Nat → Nat} (hp : Pos (tag E).sys pos) {κ : Nat} {coarse : Nat → GState (DV V) → GState (DV V)}
    (hco : ∀ A s, Below (tag E).sys DV.dep pos A s →
      Below (tag E).sys DV.dep pos (A + κ) (coarse ((tag E).sys.L - 1) s)) {A : Nat} {s : GState (DV V)}
    (hs : Below (tag E).sys DV.dep pos A s) (k : Nat) :
    Below (tag E).sys DV.dep pos (A + f 0 + k * (perIteration E.cf f E.cyc E.ts.length
        + (if E.cyc = Cycle.F then max 1 (E.ts.length - 1) else 1) * κ))
      (iterates (tag E).sys coarse E.cyc k s) ∧
    (k = 0 → Below (tag E).sys DV.dep pos A (iterates (tag E).sys coarse E.cyc k s)) := by
  have hL := h.pos
  have step : ∀ k A' s', Below (tag E).sys DV.dep pos A' s' →
      Below (tag E).sys DV.dep pos (A' + ((if k = 0 then f 0 else 0) + perIteration E.cf f E.cyc E.ts.length
        + (if E.cyc = Cycle.F then max 1 (E.ts.length - 1) else 1) * κ))
        ((tag E).sys.fineIteration coarse E.cyc k s') := by
    intro k A' s' hs'
    unfold Sys.fineIteration
    rw [iteration_log, log_eq]
    refine (runLog_below (sys_wf (E := tag E) h) (tag_counts E) hp (m := fun l => f l + 1) (tag_runs hf) (tag_apart ha) hco _
      (ops_ok _ _ _ _ _ _ _ (by show 0 + (E.ts.length - 1) + 1 = E.ts.length; omega)) hs').mono ?_
    have := ops_cost E.cf (fun l => f l + 1) κ (E.ts.length - 1) E.cyc k
    rw [perIteration_eq] at this
    exact Nat.add_le_add_left this A'
  induction k with
  | zero => exact ⟨hs.mono (by omega), fun _ => hs⟩
  | succ k ih =>
    refine ⟨?_, fun h0 => absurd h0 (by omega)⟩
    rw [iterates]
    by_cases h0 : k = 0
    · refine (step k _ _ (ih.2 h0)).mono ?_
      rw [if_pos h0, h0]
      omega
    · refine (step k _ _ ih.1).mono ?_
      rw [if_neg h0, Nat.succ_mul]
      omega

theorem init_below [Zero N] (E : Cfg V K T N) (pos : Nat → Nat → Nat) :
    Below (tag E).sys DV.dep pos 0 (Run.init (N := N) (tag E).start (tag E).zero (tag E).guess).st := by
  intro l i _ _
  have hu : ((Run.init (N := N) (tag E).start (tag E).zero (tag E).guess).st.u l i).dep = 0 := by
    unfold Run.init
    dsimp only
    split
    · rfl
    · split <;> rfl
  rw [hu]
  refine ⟨Nat.zero_le _, Nat.zero_le _, Nat.zero_le _⟩

/-- Bound of the state after the constructor. -/
theorem setup_below [Zero N] {E : Cfg V K T N} (h : Valid E.ts) {f : Nat → Nat} (hf : Runs E.ts f) (ha : Apart E.ts)
    {pos : Nat → Nat → Nat} (hp : Pos (tag E).sys pos) {κ : Nat} {coarse : Nat → GState (DV V) → GState (DV V)}
    (hco : ∀ A s, Below (tag E).sys DV.dep pos A s →
      Below (tag E).sys DV.dep pos (A + κ) (coarse ((tag E).sys.L - 1) s)) :
    Below (tag E).sys DV.dep pos (if E.nested then inConstructor E.cf f E.ts.length + max 1 (E.ts.length - 1) * κ else 0)
      ((tag E).sys.setup (tag E).ctl coarse (Run.init (tag E).start (tag E).zero (tag E).guess)).st := by
  have hL := h.pos
  rw [setup_st]
  by_cases hn : E.nested = true
  · rw [if_pos hn, if_pos (show (tag E).ctl.nested = true from hn), nested_log, nestedLog_eq]
    refine (runLog_below (sys_wf (E := tag E) h) (tag_counts E) hp (m := fun l => f l + 1) (tag_runs hf) (tag_apart ha) hco _
      ?_ (init_below E pos)).mono ?_
    · intro x hx
      rcases List.mem_cons.1 hx with rfl | hx
      · exact Or.inr ⟨by show E.ts.length - 1 + 1 = E.ts.length; omega, rfl⟩
      · exact nops_ok _ _ _ (by show E.ts.length - 1 < E.ts.length; omega) x hx
    · have h1 := nops_cost E.cf (fun l => f l + 1) κ E.ts.length (E.ts.length - 1) (by omega)
      have e : ((List.range (E.ts.length - 1)).map fun j => min j (E.ts.length - 1 - 1) * visitCost E.cf (fun l => f l + 1) j).sum
          = inConstructor E.cf f E.ts.length := by
        unfold inConstructor visitCost baseCost
        congr 1
        refine List.map_congr_left fun j hj => ?_
        rw [List.mem_range] at hj
        rw [show min j (E.ts.length - 1 - 1) = j by omega]
        simp only [Nat.add_sub_cancel]
      rw [e] at h1
      have h2 : logCost (fun l => f l + 1) κ ((OpKind.solve, (tag E).sys.L - 1) :: nops (tag E).sys.L (tag E).sys.cf ((tag E).sys.L - 1))
          = κ + logCost (fun l => f l + 1) κ (nops E.ts.length E.cf (E.ts.length - 1)) := by
        simp only [logCost, List.map_cons, List.sum_cons]
        rfl
      rw [h2]
      have e3 : max 1 (E.ts.length - 1) * κ = (E.ts.length - 1 - 1) * κ + κ := by
        rw [← Nat.succ_mul]
        congr 1
        omega
      omega
  · rw [if_neg hn, if_neg (show ¬ (tag E).ctl.nested = true from hn)]
    exact init_below E pos

theorem forward_le {E : Cfg V K T N} (h : Valid E.ts) (A : Nat) (s : GState (DV V))
    (hs : Below (tag E).sys DV.dep (position E.ts) A s) :
    Below (tag E).sys DV.dep (position E.ts) (A + 0) ((tag E).sys.forwardSolve ((tag E).sys.L - 1) s) := by
  refine forward_below (sys_wf (E := tag E) h) (tag_counts E) (fun i hi => ?_) hs
  have e1 := coarse_last h (show i < npts E.ts (E.ts.length - 1) from Nat.lt_of_succ_lt hi)
  have e2 := coarse_last h (show i + 1 < npts E.ts (E.ts.length - 1) from hi)
  exact Nat.le_of_eq ((congrArg (· + 1) e1).trans e2.symm)

end

section
variable [Add V] [Sub V] [SMul K V] [One K] [Sub K] [Zero N]

/-- C138.  The numbers do not change the run: it returns the same vectors, the same values of the criterion and the same number
of iterations with and without them. -/
theorem C138_values (E : Cfg V K T N) (h : E.Base) (hg : E.global = true) (ha : Apart E.ts)
    {c : Conf E.P (Msg (DV V) N) (PState (DV V) N)} (h1 : Steps (startConf (tag E)) c) (hc : ∀ d, ¬ Step c d)
    {c' : Conf E.P (Msg V N) (PState V N)} (h1' : Steps (startConf E) c') (hc' : ∀ d, ¬ Step c' d) (r : Fin E.P) :
    ∃ s s', c.prog r = Prog.ret s ∧ c'.prog r = Prog.ret s' ∧ s.solveIter = s'.solveIter ∧ s.conv = s'.conv ∧
      ∀ k i j : Nat, (E.info r 0).pts[k]? = some i → (E.info r 0).idx[k]? = some j → (s.u 0 j).val = s'.u 0 j := by
  obtain ⟨s, e, hS⟩ := C20_same_as_serial_partial (E := tag E) (tag_good h hg ha) h1 hc r
  obtain ⟨s', e', hS'⟩ := C20_same_as_serial_partial (good_of_apart h hg ha) h1' hc' r
  have key : forgetR (serialRun (tag E)) = serialRun E := by
    show forgetR ((tag E).sys.solve (tag E).ctl (tag E).sys.forwardSolve
      ((tag E).sys.setup (tag E).ctl (tag E).sys.forwardSolve (Run.init (tag E).start (tag E).zero (tag E).guess))) = _
    rw [solve_val, setup_val, init_val]
    rfl
  refine ⟨s, s', e, e', ?_, ?_, fun k i j hi hj => ?_⟩
  · rw [hS.iter, hS'.iter, ← key]; rfl
  · funext n
    rw [hS.conv, hS'.conv, ← key]; rfl
  · rw [hS.values 0 k i j h.valid.pos hi hj, hS'.values 0 k i j h.valid.pos hi hj, ← key]; rfl

/-- C138.  Upper bound, on any number of processes and for every interleaving: each iteration prolongs the chains by an amount
that does not depend on the number of time points, only on the runs of F-points; the sequential solves on the coarsest level
count once, not once per iteration, with the number of intervals of the coarsest grid up to the point. -/
theorem C138_chain (E : Cfg V K T N) (h : E.Base) (hg : E.global = true) (hmax : 0 < E.maxIter) {f : Nat → Nat}
    (hf : Runs E.ts f) (ha : Apart E.ts)
    {c : Conf E.P (Msg (DV V) N) (PState (DV V) N)} (h1 : Steps (startConf (tag E)) c) (hc : ∀ d, ¬ Step c d)
    (r : Fin E.P) (s : PState (DV V) N) (hr : c.prog r = Prog.ret s) (k i j : Nat)
    (hi : (E.info r 0).pts[k]? = some i) (hj : (E.info r 0).idx[k]? = some j) :
    (s.u 0 j).dep ≤ (if E.nested then inConstructor E.cf f E.ts.length else 0) + f 0
      + s.solveIter * perIteration E.cf f E.cyc E.ts.length + coarseIntervals E.ts (tAt (grid E.ts 0) i) := by
  obtain ⟨-, -, -, -, hv⟩ := returned (E := tag E) (tag_good h hg ha) hmax h1 hc r s hr
  obtain ⟨hin, e⟩ := hv k i j hi hj
  have hp := tag_pos h.valid
  have h0 := setup_below h.valid hf ha hp (forward_le h.valid)
  have h2 := (iterates_below h.valid hf ha hp (forward_le h.valid) h0 s.solveIter).1 0 i h.valid.pos hin
  rw [e]
  refine le_trans h2.1 ?_
  simp only [Nat.mul_zero, Nat.add_zero]
  exact le_rfl

/-- C138.  Lower bound: the intervals of the coarsest grid cannot be avoided. -/
theorem C138_sequential_part (E : Cfg V K T N) (h : E.Base) (hg : E.global = true) (hmax : 0 < E.maxIter) (ha : Apart E.ts)
    {c : Conf E.P (Msg (DV V) N) (PState (DV V) N)} (h1 : Steps (startConf (tag E)) c) (hc : ∀ d, ¬ Step c d)
    (r : Fin E.P) (s : PState (DV V) N) (hr : c.prog r = Prog.ret s) (k i j : Nat)
    (hi : (E.info r 0).pts[k]? = some i) (hj : (E.info r 0).idx[k]? = some j) :
    coarseIntervals E.ts (tAt (grid E.ts 0) i) ≤ (s.u 0 j).dep := by
  obtain ⟨hit, -, -, -, hv⟩ := returned (E := tag E) (tag_good h hg ha) hmax h1 hc r s hr
  obtain ⟨hin, e⟩ := hv k i j hi hj
  rw [e]
  obtain ⟨m, hm⟩ : ∃ m, s.solveIter = m + 1 := ⟨s.solveIter - 1, by omega⟩
  have hL := h.valid.pos
  rw [hm, iterates]
  refine iteration_above (pos := position E.ts) (sys_wf (E := tag E) h.valid) (tag_counts E) (tag_pos h.valid) ?_ ?_ ?_ _ _ _ _ _ ?_ _ i hin
  · intro l hl
    show coarseIntervals E.ts _ = 0
    have hl' : l < E.ts.length := hl
    rw [h.valid.tAt_zero hl', ← h.valid.tAt_zero (show E.ts.length - 1 < E.ts.length by omega)]
    exact coarse_last h.valid (h.valid.npos (by omega))
  · intro l i hl hi hC
    show coarseIntervals E.ts _ ≤ coarseIntervals E.ts _ + 1
    rw [coarse_F h.valid hl hi fun hm => hC ((mem_allC_iff hl).2 ⟨hi, hm⟩)]
    exact Nat.le_succ _
  · intro i hi
    show coarseIntervals E.ts _ ≤ coarseIntervals E.ts _ + 1
    have e1 := coarse_last h.valid (show i < npts E.ts (E.ts.length - 1) from Nat.lt_of_succ_lt hi)
    have e2 := coarse_last h.valid (show i + 1 < npts E.ts (E.ts.length - 1) from hi)
    exact Nat.le_of_eq (e2.trans (congrArg (· + 1) e1.symm))
  · show 0 + (E.ts.length - 1) + 1 = E.ts.length
    omega

/-- C138.  One level: the run is sequential time stepping, the chain for point `i` has length `i` whatever the number of
iterations and processes. -/
theorem C138_one_level (E : Cfg V K T N) (h : E.Base) (hg : E.global = true) (hmax : 0 < E.maxIter) (h1L : E.ts.length = 1)
    {c : Conf E.P (Msg (DV V) N) (PState (DV V) N)} (h1 : Steps (startConf (tag E)) c) (hc : ∀ d, ¬ Step c d)
    (r : Fin E.P) (s : PState (DV V) N) (hr : c.prog r = Prog.ret s) (k i j : Nat)
    (hi : (E.info r 0).pts[k]? = some i) (hj : (E.info r 0).idx[k]? = some j) : (s.u 0 j).dep = i := by
  have ha : Apart E.ts := fun l hl => absurd hl (by omega)
  have hf : Runs E.ts fun _ => 0 := fun l hl => absurd hl (by omega)
  have hin := ((returned (E := tag E) (tag_good h hg ha) hmax h1 hc r s hr).2.2.2.2 k i j hi hj).1
  have hup := C138_chain E h hg hmax hf ha h1 hc r s hr k i j hi hj
  have hlo := C138_sequential_part E h hg hmax ha h1 hc r s hr k i j hi hj
  have e : coarseIntervals E.ts (tAt (grid E.ts 0) i) = i := by
    have := coarse_last h.valid (i := i) (by rw [h1L]; exact hin)
    rwa [h1L] at this
  rw [e] at hup hlo
  have e1 : perIteration E.cf (fun _ => 0) E.cyc E.ts.length = 0 := by rw [h1L]; rfl
  have e2 : inConstructor E.cf (fun _ => 0) E.ts.length = 0 := by rw [h1L]; rfl
  rw [e1, e2] at hup
  have : (if E.nested = true then 0 else 0) = 0 := by split <;> rfl
  rw [this] at hup
  omega

/-- C138.  AT-MGRIT with distance `k` (one process, at least two levels): the coarsest level adds `k - 1` for each of its
solves, and no term depends on the number of time points of any level. -/
theorem C138_at (E : Cfg V K T N) (h : Valid E.ts) (hL : 2 ≤ E.ts.length) {f : Nat → Nat} (hf : Runs E.ts f)
    (ha : Apart E.ts) {k : Nat} (hk : 1 ≤ k) (it i : Nat) (hi : i < npts E.ts 0) :
    ((iterates (tag E).sys ((tag E).sys.atForward k) E.cyc it
      ((tag E).sys.setup (tag E).ctl ((tag E).sys.atForward k) (Run.init (tag E).start (tag E).zero (tag E).guess)).st).u 0 i).dep
    ≤ (if E.nested then inConstructor E.cf f E.ts.length + (E.ts.length - 1) * (k - 1) else 0) + f 0
      + it * (perIteration E.cf f E.cyc E.ts.length + (if E.cyc = Cycle.F then E.ts.length - 1 else 1) * (k - 1)) := by
  have hco : ∀ A s, Below (tag E).sys DV.dep (fun _ _ => 0) A s →
      Below (tag E).sys DV.dep (fun _ _ => 0) (A + (k - 1)) ((tag E).sys.atForward k ((tag E).sys.L - 1) s) :=
    fun A s hs => at_below (tag_counts E) zero_pos (show E.ts.length ≠ 1 by omega) hk hs
  have h0 := setup_below h hf ha zero_pos hco
  have h2 := ((iterates_below h hf ha zero_pos hco h0 it).1 0 i h.pos hi).1
  rw [show max 1 (E.ts.length - 1) = E.ts.length - 1 by omega] at h2
  exact h2

/-! ### Uniform coarsening -/

theorem runs_of_every {ts : List (List T)} {m : Nat → Nat} (hm : ∀ l, l + 1 < ts.length → 1 ≤ m l)
    (he : ∀ l, l + 1 < ts.length → IsEvery (m l) (grid ts l) (grid ts (l + 1))) : Runs ts fun l => m l - 1 := by
  intro l hl i hi
  have h1 := hm l hl
  have h3 := Nat.div_add_mod i (m l)
  have h4 := Nat.mod_lt i (show 0 < m l by omega)
  have h5 : m l * (i / m l) = i / m l * m l := Nat.mul_comm _ _
  refine ⟨i / m l * m l, by omega, by dsimp only; omega, ?_⟩
  have h2 := he l hl (i / m l)
  have hlt : i / m l * m l < (grid ts l).length := Nat.lt_of_le_of_lt (by omega) hi
  rw [List.getElem?_eq_getElem hlt] at h2
  rw [tAt_eq hlt]
  exact List.mem_of_getElem? h2

theorem apart_of_every {ts : List (List T)} (h : Valid ts) {m : Nat → Nat} (hm : ∀ l, l + 1 < ts.length → 2 ≤ m l)
    (he : ∀ l, l + 1 < ts.length → IsEvery (m l) (grid ts l) (grid ts (l + 1))) : Apart ts := by
  intro l hl i hi h1 h2
  have key : ∀ i, i < npts ts l → tAt (grid ts l) i ∈ grid ts (l + 1) → m l ∣ i := by
    intro i hi hx
    obtain ⟨k, hk, e⟩ := mem_iff_tAt.1 hx
    obtain ⟨h3, h4⟩ := every_tAt (he l hl) hk
    rw [h4] at e
    exact ⟨k, by rw [(tAt_inj (h.sorted l) hi h3).1 e, Nat.mul_comm]⟩
  have := (Nat.dvd_add_right (key i (by omega) h1)).1 (key (i + 1) hi h2)
  have := Nat.le_of_dvd (by omega) this
  have := hm l hl
  omega

/-- C138.  Coarsening with factors `m l ≥ 2`: without nested iteration, `k` V-cycles give chains of at most
`m₀ - 1 + k · ((cf₀ + 1) · m₀ + Σ_{0 < l < L - 1} ((cf_l + 1) · m_l + m_l - 1))` calls, plus one per interval of the coarsest
grid. -/
theorem C138_coarsening (E : Cfg V K T N) (h : E.Base) (hg : E.global = true) (hmax : 0 < E.maxIter) (hn : E.nested = false)
    (hV : E.cyc = Cycle.V) {m : Nat → Nat} (hm : ∀ l, l + 1 < E.ts.length → 2 ≤ m l) (hL : 2 ≤ E.ts.length)
    (he : ∀ l, l + 1 < E.ts.length → IsEvery (m l) (grid E.ts l) (grid E.ts (l + 1)))
    {c : Conf E.P (Msg (DV V) N) (PState (DV V) N)} (h1 : Steps (startConf (tag E)) c) (hc : ∀ d, ¬ Step c d)
    (r : Fin E.P) (s : PState (DV V) N) (hr : c.prog r = Prog.ret s) (k i j : Nat)
    (hi : (E.info r 0).pts[k]? = some i) (hj : (E.info r 0).idx[k]? = some j) :
    (s.u 0 j).dep ≤ m 0 - 1 + s.solveIter * ((E.cf 0 + 1) * m 0
        + ((List.range' 1 (E.ts.length - 2)).map fun l => (E.cf l + 1) * m l + (m l - 1)).sum)
      + coarseIntervals E.ts (tAt (grid E.ts 0) i) := by
  have h2 := C138_chain E h hg hmax (runs_of_every (fun l hl => Nat.le_of_succ_le (hm l hl)) he) (apart_of_every h.valid hm he)
    h1 hc r s hr k i j hi hj
  rw [hn, hV, if_neg Bool.false_ne_true, Nat.zero_add] at h2
  have e : perIteration E.cf (fun l => m l - 1) Cycle.V E.ts.length = (E.cf 0 + 1) * m 0
      + ((List.range' 1 (E.ts.length - 2)).map fun l => (E.cf l + 1) * m l + (m l - 1)).sum := by
    unfold perIteration
    obtain ⟨d, hd⟩ : ∃ d, E.ts.length = d + 2 := ⟨E.ts.length - 2, by omega⟩
    rw [hd, show d + 2 - 1 = d + 1 by omega, Nat.add_sub_cancel, List.range_eq_range', List.range'_succ, List.map_cons,
      List.sum_cons, if_pos rfl]
    have h0 := hm 0 (by omega)
    rw [show m 0 - 1 + 1 = m 0 by omega]
    congr 2
    refine List.map_congr_left fun l hl => ?_
    rw [List.mem_range'_1] at hl
    have h3 := hm l (by omega)
    rw [if_neg (by omega), if_neg nofun, Nat.one_mul, show m l - 1 + 1 = m l by omega]
  rw [e] at h2
  exact h2

end

/-! ### The hypotheses are met -/

theorem exTwo_every : ∀ l, l + 1 < exTwoGrid.length → IsEvery 4 (grid exTwoGrid l) (grid exTwoGrid (l + 1)) := by
  intro l hl k
  obtain rfl : l = 0 := by
    have : l + 1 < 2 := hl
    omega
  by_cases hk : k < 3
  · rcases (show k = 0 ∨ k = 1 ∨ k = 2 by omega) with rfl | rfl | rfl <;> rfl
  · rw [List.getElem?_eq_none (show 3 ≤ k by omega), List.getElem?_eq_none (show 9 ≤ k * 4 by omega)]

/-- Three processes, F-cycles, nested iteration: at the last point at most `3 + 12 k + 2` calls in a chain after `k`
iterations. -/
example {c : Conf 3 (Msg (DV ℝ) ℝ) (PState (DV ℝ) ℝ)} (h1 : Steps (startConf (tag { exTwo with P := 3, nested := true })) c)
    (hc : ∀ d, ¬ Step c d) (r : Fin 3) (s : PState (DV ℝ) ℝ) (hr : c.prog r = Prog.ret s) (k j : Nat)
    (hi : (({ exTwo with P := 3, nested := true } : Cfg ℝ ℝ Nat ℝ).info r 0).pts[k]? = some 8)
    (hj : (({ exTwo with P := 3, nested := true } : Cfg ℝ ℝ Nat ℝ).info r 0).idx[k]? = some j) :
    (s.u 0 j).dep ≤ 3 + s.solveIter * 12 + 2 ∧ 2 ≤ (s.u 0 j).dep := by
  have hf := runs_of_every (m := fun _ => 4) (fun _ _ => by omega) exTwo_every
  have ha := apart_of_every exTwoGrid_valid (m := fun _ => 4) (fun _ _ => by omega) exTwo_every
  have hb := (exTwo_good true).toBase
  refine ⟨?_, ?_⟩
  · refine le_trans (C138_chain _ hb rfl (show 0 < 5 by decide) hf ha h1 hc r s hr k 8 j hi hj) (Nat.le_of_eq ?_)
    show 0 + 3 + s.solveIter * 12 + 2 = _
    omega
  · exact C138_sequential_part _ hb rfl (show 0 < 5 by decide) ha h1 hc r s hr k 8 j hi hj

/-- AT-MGRIT with distance 2 on the same problem. -/
example (it i : Nat) (hi : i < 9) :=
  C138_at exTwo exTwoGrid_valid (by decide) (runs_of_every (m := fun _ => 4) (fun _ _ => by omega) exTwo_every)
    (apart_of_every exTwoGrid_valid (m := fun _ => 4) (fun _ _ => by omega) exTwo_every) (k := 2) (by omega) it i hi

end Depth
end Pymgrit
