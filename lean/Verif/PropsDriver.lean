import Verif.DriverFacts
import Verif.PropsSweep
import Mathlib.Analysis.Real.Sqrt

/-!
# Properties C10, C11, C16-C19, C39, C56: constructor, solve loop, history, output

About `Sys.setup` (second half of the constructor) and `Sys.solve`, on one time process with a
global criterion; `Verif.PropsDist` transfers the results to any number of processes.
-/

set_option linter.unusedSectionVars false

namespace Pymgrit
open Sys

variable {V K N : Type} {S : Sys V K}

/-! ## C17 -/

/-- C17.  `solve` performs `m` iterations, `1 ≤ m ≤ max_iter`; none of the first `m-1` recorded
values is below the tolerance; the `m`-th is, or `m = max_iter`.  The final state is that after `m`
iterations, `solve_iter` is `m`, and entry `j` of the convergence array is the value of iteration `j`
for `1 ≤ j ≤ m` and untouched otherwise. -/
theorem C17_stopping_rule [Add V] [Sub V] [SMul K V] [One K] [Sub K] (c : Ctl V N)
    (coarse : Nat → GState V → GState V) (s : Run V N) (hmax : 0 < c.maxIter) :
    ∃ m, 1 ≤ m ∧ m ≤ c.maxIter ∧ (S.solve c coarse s).iter = m ∧
      (S.solve c coarse s).st = iterates S coarse c.cyc m s.st ∧
      (∀ j, 1 ≤ j → j < m → c.ltTol ((S.solve c coarse s).conv j) = false) ∧
      (c.ltTol ((S.solve c coarse s).conv m) = true ∨ m = c.maxIter) ∧
      (∀ j, 1 ≤ j → j ≤ m → (S.solve c coarse s).conv j = S.critValue c coarse s (j - 1)) ∧
      (∀ j, j = 0 ∨ m < j → (S.solve c coarse s).conv j = s.conv j) := by
  obtain ⟨m, h1, h2, h3, h4, h5⟩ := S.solve_spec c coarse s hmax
  have hst : (S.solve c coarse s).st = (S.bodies c coarse m s).st := by
    rw [h3]; split <;> rfl
  have hit : (S.solve c coarse s).iter = (S.bodies c coarse m s).iter := by
    rw [h3]; split <;> rfl
  have hcv : (S.solve c coarse s).conv = (S.bodies c coarse m s).conv := by
    rw [h3]; split <;> rfl
  have hconv : ∀ j, 1 ≤ j → j ≤ m →
      (S.solve c coarse s).conv j = S.critValue c coarse s (j - 1) := by
    intro j hj1 hj2
    obtain ⟨j, rfl⟩ : ∃ j', j = j' + 1 := ⟨j - 1, by omega⟩
    rw [hcv, bodies_conv S c coarse m s (by omega)]; rfl
  refine ⟨m, h1, h2, ?_, ?_, ?_, ?_, hconv, ?_⟩
  · rw [hit]
    obtain ⟨m, rfl⟩ : ∃ m', m = m' + 1 := ⟨m - 1, by omega⟩
    exact bodies_iter S c coarse m s
  · rw [hst, bodies_st]
  · intro j hj1 hj2
    rw [hconv j hj1 (by omega)]
    exact h4 (j - 1) (by omega)
  · rw [hconv m h1 (Nat.le_refl m)]; exact h5
  · intro j hj
    rw [hcv, bodies_conv_out S c coarse m s hj]

/-- C17.  With `max_iter = 0` nothing is done. -/
theorem C17_no_iterations [Add V] [Sub V] [SMul K V] [One K] [Sub K] (c : Ctl V N)
    (coarse : Nat → GState V → GState V) (s : Run V N) (hmax : c.maxIter = 0) :
    (S.solve c coarse s).st = s.st ∧ (S.solve c coarse s).conv = s.conv := by
  unfold solve; rw [hmax]; unfold solveLoop; split <;> exact ⟨rfl, rfl⟩

/-- After the constructor, the jump criterion compares consecutive iterates. -/
theorem C17_jump_value [Add V] [Sub V] [SMul K V] [One K] [Sub K] (c : Ctl V N)
    (coarse : Nat → GState V → GState V) (s : Run V N) (hc : c.convCrit = 1) (j : Nat) :
    S.critValue c coarse (S.setup c coarse s) j =
      c.tnorm (((S.C 0).filter (· ≠ 0)).map fun i =>
        c.norm ((iterates S coarse c.cyc (j + 1) (S.setup c coarse s).st).u 0 i -
          (iterates S coarse c.cyc j (S.setup c coarse s).st).u 0 i)) := by
  have hs : (S.setup c coarse s).saved = (S.setup c coarse s).st.u 0 := by
    unfold setup Run.output
    simp only [hc, if_true]
    split <;> rfl
  unfold critValue
  dsimp only
  rw [if_neg (by omega)]
  cases j with
  | zero => simp only [savedAt, hs]; rfl
  | succ j => rfl

/-! ## C11 -/

section
variable [Add V] [Sub V] [SMul K V] [One K] [Sub K]

theorem keeps_iterates (h : S.WF) (cyc : Cycle) (k : Nat) (s : GState V) :
    Keeps 0 s (iterates S S.forwardSolve cyc k s) := by
  induction k with
  | zero => exact Keeps.refl 0 s
  | succ k ih =>
    exact ih.trans (h.fineIteration_keeps (fun s => keeps_forwardSolve (S := S) s) cyc k _)

/-- Nested iteration keeps the initial value of every level and the right-hand side of level 0. -/
theorem keeps_nestedLoop (h : S.WF) (m : Nat) (hm : m < S.L) (s : GState V) :
    (S.nestedLoop S.forwardSolve m s).u 0 0 = s.u 0 0 ∧
      (S.nestedLoop S.forwardSolve m s).g 0 = s.g 0 := by
  induction m generalizing s with
  | zero => exact ⟨rfl, rfl⟩
  | succ m ih =>
    simp only [nestedLoop]
    have hk : Keeps 0 s (S.interpolate m s) := by
      refine ⟨fun l' hl' => absurd hl' (by omega), fun _ _ => rfl, fun _ _ => rfl, ?_⟩
      by_cases h0 : m = 0
      · subst h0; exact h.interpolate_not (by omega) s (Or.inr rfl)
      · rw [interpolate_u_ne s (by omega)]
    have hk2 : Keeps 0 (S.interpolate m s) (if 0 < m then
        S.iteration S.forwardSolve (S.L - 1 - m) m Cycle.V 0 true (S.interpolate m s)
        else S.interpolate m s) := by
      split
      · have := h.keeps_iteration (fun s => keeps_forwardSolve (S := S) s) (S.L - 1 - m) m 0 Cycle.V true
          (by omega) (S.interpolate m s)
        exact ⟨fun l' hl' => absurd hl' (by omega), fun l' hl' => this.v_le l' (by omega),
          fun l' hl' => this.g_le l' (by omega), by rw [this.u_lt 0 (by omega)]⟩
      · exact Keeps.refl 0 _
    have hk3 := hk.trans hk2
    obtain ⟨e1, e2⟩ := ih (by omega) _
    exact ⟨e1.trans hk3.zero, e2.trans (hk3.g_le 0 (Nat.le_refl 0))⟩

theorem keeps_nestedIteration (h : S.WF) (s : GState V) :
    (S.nestedIteration S.forwardSolve s).u 0 0 = s.u 0 0 ∧
      (S.nestedIteration S.forwardSolve s).g 0 = s.g 0 := by
  have hL := h.Lpos
  unfold nestedIteration
  obtain ⟨e1, e2⟩ := keeps_nestedLoop h (S.L - 1) (by omega) (S.forwardSolve (S.L - 1) s)
  refine ⟨e1.trans ?_, e2⟩
  by_cases h0 : S.L - 1 = 0
  · rw [h0]; exact forwardSolve_zero 0 s
  · rw [forwardSolve_u_ne s (by omega)]

theorem setup_st (c : Ctl V N) (coarse : Nat → GState V → GState V) (s : Run V N) :
    (S.setup c coarse s).st = if c.nested then S.nestedIteration coarse s.st else s.st := by
  unfold setup Run.output
  split <;> split <;> split <;> rfl

theorem setup_zero (h : S.WF) (c : Ctl V N) (s : Run V N) :
    (S.setup c S.forwardSolve s).st.u 0 0 = s.st.u 0 0 := by
  rw [setup_st]
  split
  · exact (keeps_nestedIteration h s.st).1
  · rfl

/-- C11.  The value at the first fine point is `vector_t_start` after the constructor (with or
without nested iteration), after any number of iterations and after `solve`, and in everything
passed to the output function. -/
theorem C11_initial_value [Zero N] (h : S.WF) (c : Ctl V N) (start zero guess : Nat → V) :
    let s0 : Run V N := Run.init start zero guess
    let s1 := S.setup c S.forwardSolve s0
    s1.st.u 0 0 = start 0 ∧
    (∀ k, (iterates S S.forwardSolve c.cyc k s1.st).u 0 0 = start 0) ∧
    (S.solve c S.forwardSolve s1).st.u 0 0 = start 0 ∧
    (S.solve c S.forwardSolve (S.solve c S.forwardSolve s1)).st.u 0 0 = start 0 := by
  intro s0 s1
  have h1 : s1.st.u 0 0 = start 0 := setup_zero h c s0
  have hsolve : ∀ s : Run V N, (S.solve c S.forwardSolve s).st.u 0 0 = s.st.u 0 0 := by
    intro s
    by_cases hmax : c.maxIter = 0
    · rw [(C17_no_iterations c S.forwardSolve s hmax).1]
    · obtain ⟨m, -, -, -, e, -⟩ := C17_stopping_rule (S := S) c S.forwardSolve s (by omega)
      rw [e, (keeps_iterates h c.cyc m s.st).zero]
  exact ⟨h1, fun k => (keeps_iterates h c.cyc k s1.st).zero.trans h1, (hsolve _).trans h1,
    (hsolve _).trans ((hsolve _).trans h1)⟩

end

/-! ## C10 -/

/-- C10.  With a single level and `max_iter ≥ 1` (or nested iteration) the result of constructor and
`solve` is sequential time stepping from `vector_t_start`; every recorded residual is zero and the
returned history is empty, although at least one iteration was performed. -/
theorem C10_one_level [AddCommGroup V] [SMul K V] [One K] [Sub K] [Zero N] [DecidableEq N]
    (h : S.WF) (hL : S.L = 1) (c : Ctl V N) (hmax : 0 < c.maxIter) (hcrit : c.convCrit = 0)
    (hnorm : c.norm 0 = 0) (htnorm : ∀ k, c.tnorm (List.replicate k 0) = 0)
    (start zero guess : Nat → V) :
    let s := S.solve c S.forwardSolve (S.setup c S.forwardSolve (Run.init start zero guess))
    (∀ i, i < S.n 0 → s.st.u 0 i = seqSol (S.Φ 0) (start 0) i) ∧
    (∀ j, s.conv j = 0) ∧ 1 ≤ s.iter ∧ s.history c = [] := by
  intro s
  set s1 := S.setup c S.forwardSolve (Run.init start zero guess) with hs1
  have hz : s.st.u 0 0 = start 0 := (C11_initial_value h c start zero guess).2.2.1
  have hfi : ∀ it s, S.fineIteration S.forwardSolve c.cyc it s = S.forwardSolve 0 s := by
    intro it s; unfold fineIteration; rw [hL]; rfl
  obtain ⟨m, hm1, hm2, hit, hst, -, -, hcv, hcv'⟩ :=
    C17_stopping_rule (S := S) c S.forwardSolve s1 hmax
  have hit' : ∀ j s, Solved (S.Φ 0) (S.n 0) ((iterates S S.forwardSolve c.cyc (j + 1) s).u 0) := by
    intro j s
    show Solved _ _ ((S.fineIteration S.forwardSolve c.cyc j _).u 0)
    rw [hfi]; exact C09_level0 _
  have hsol : Solved (S.Φ 0) (S.n 0) (s.st.u 0) := by
    show Solved _ _ ((S.solve c S.forwardSolve s1).st.u 0)
    rw [hst]
    obtain ⟨m, rfl⟩ : ∃ m', m = m' + 1 := ⟨m - 1, by omega⟩
    exact hit' m _
  have hconv : ∀ j, s.conv j = 0 := by
    intro j
    by_cases hj : 1 ≤ j ∧ j ≤ m
    · show (S.solve c S.forwardSolve s1).conv j = 0
      rw [hcv j hj.1 hj.2]
      unfold critValue
      dsimp only
      rw [if_pos hcrit]
      have : ∀ st : GState V, Solved (S.Φ 0) (S.n 0) (st.u 0) → c.tnorm ((S.residuals st).map c.norm) = 0 := by
        intro st hsol
        have : (S.residuals st).map c.norm = List.replicate (S.residuals st).length 0 := by
          rw [List.eq_replicate_iff]
          refine ⟨by simp, ?_⟩
          intro x hx
          simp only [residuals, List.mem_map, List.mem_filter, decide_eq_true_eq] at hx
          obtain ⟨y, ⟨i, ⟨hiC, hi0⟩, rfl⟩, rfl⟩ := hx
          have e := h.C_last
          rw [hL] at e
          have hin : i < S.n 0 := by
            have e' : S.C 0 = List.range (S.n 0) := e
            rw [e'] at hiC
            exact List.mem_range.1 hiC
          rw [← (solved_iff _ _ _).1 hsol i (by omega) hin, sub_self, hnorm]
        rw [this, htnorm]
      have e := this _ (hit' (j - 1) s1.st)
      rw [residuals, List.map_map] at e
      exact e
    · show (S.solve c S.forwardSolve s1).conv j = 0
      rw [hcv' j (by omega)]
      show (S.setup c S.forwardSolve (Run.init start zero guess)).conv j = 0
      unfold setup Run.output Run.init
      split <;> split <;> split <;> rfl
  refine ⟨fun i hi => by rw [hsol i hi, hz], hconv, by
    show 1 ≤ (S.solve c S.forwardSolve s1).iter; rw [hit]; exact hm1, ?_⟩
  unfold Run.history
  rw [List.filter_eq_nil_iff]
  intro x hx
  obtain ⟨j, -, rfl⟩ := List.mem_map.1 hx
  simp [hconv j]

/-- C10.  With nested iteration a single-level problem is solved already after the constructor. -/
theorem C10_after_constructor [AddCommGroup V] [SMul K V] [One K] [Sub K] [Zero N]
    (h : S.WF) (hL : S.L = 1) (c : Ctl V N) (hn : c.nested = true) (start zero guess : Nat → V) :
    let s : Run V N := S.setup c S.forwardSolve (Run.init start zero guess)
    ∀ i, i < S.n 0 → s.st.u 0 i = seqSol (S.Φ 0) (start 0) i := by
  intro s i hi
  have e : s.st = S.forwardSolve 0 (Run.init (N := N) start zero guess).st := by
    show (S.setup c S.forwardSolve (Run.init start zero guess)).st = _
    rw [setup_st, if_pos hn, nestedIteration, hL]; rfl
  rw [e, C09_level0 (S := S) _ i hi, forwardSolve_zero]
  rfl

/-! ## C16 -/

/-- Spatial residuals `step(u[i-1]) - u[i]` at *all* fine points after the first. -/
def fullResidual [Sub V] (S : Sys V K) (s : GState V) : List V :=
  (List.range' 1 (S.n 0 - 1)).map fun i => S.Φ 0 i (s.u 0 (i - 1)) - s.u 0 i

/-- `np.linalg.norm(x, 1)`. -/
noncomputable def norm1 (xs : List ℝ) : ℝ := (xs.map fun x => |x|).sum
/-- `np.linalg.norm(x, None)`: the Euclidean norm. -/
noncomputable def norm2 (xs : List ℝ) : ℝ := Real.sqrt (xs.map fun x => x ^ 2).sum
/-- `np.linalg.norm(x, np.inf)` (raises an error for an empty array, here 0). -/
noncomputable def normInf (xs : List ℝ) : ℝ := (xs.map fun x => |x|).foldr max 0

/-- Dropping zeros does not change the value. -/
def IgnoresZeros {N : Type} [Zero N] (tnorm : List N → N) : Prop :=
  ∀ (ι : Type) (idx : List ι) (p : ι → Bool) (f : ι → N),
    (∀ i, i ∈ idx → p i = false → f i = 0) → tnorm ((idx.filter p).map f) = tnorm (idx.map f)

theorem norm1_ignores : IgnoresZeros norm1 := by
  intro ι idx p f hz
  unfold norm1
  induction idx with
  | nil => rfl
  | cons a idx ih =>
    have ih' := ih fun i hi => hz i (by simp [hi])
    by_cases hp : p a = true
    · rw [List.filter_cons_of_pos hp]; simp [ih'] at ih' ⊢; exact ih'
    · rw [List.filter_cons_of_neg hp, ih', List.map_cons, List.map_cons, List.sum_cons,
        hz a (by simp) (by simpa using hp)]; simp

theorem norm2_ignores : IgnoresZeros norm2 := by
  intro ι idx p f hz
  unfold norm2
  congr 1
  induction idx with
  | nil => rfl
  | cons a idx ih =>
    have ih' := ih fun i hi => hz i (by simp [hi])
    by_cases hp : p a = true
    · rw [List.filter_cons_of_pos hp]; simp [ih'] at ih' ⊢; exact ih'
    · rw [List.filter_cons_of_neg hp, ih', List.map_cons, List.map_cons, List.sum_cons,
        hz a (by simp) (by simpa using hp)]; simp

theorem foldr_max_nonneg (xs : List ℝ) : 0 ≤ xs.foldr max 0 := by
  induction xs with
  | nil => exact le_refl 0
  | cons a xs ih => exact le_trans ih (le_max_right _ _)

theorem normInf_ignores : IgnoresZeros normInf := by
  intro ι idx p f hz
  unfold normInf
  induction idx with
  | nil => rfl
  | cons a idx ih =>
    have ih' := ih fun i hi => hz i (by simp [hi])
    by_cases hp : p a = true
    · rw [List.filter_cons_of_pos hp, List.map_cons, List.map_cons, List.foldr_cons, ih']
      rw [List.map_cons, List.map_cons, List.foldr_cons]
    · rw [List.filter_cons_of_neg hp, ih', List.map_cons, List.map_cons, List.foldr_cons,
        hz a (by simp) (by simpa using hp), abs_zero, max_eq_right (foldr_max_nonneg _)]

/-- C16.  The value recorded after iteration `it + 1` under the residual criterion is the time norm of
the spatial residual norms at all points after the first, for each of the three time norms of the
solver (and any other that ignores zeros). -/
theorem C16_full_residual [AddCommGroup V] [SMul K V] [One K] [Sub K] [Zero N] (h : S.WF)
    (c : Ctl V N) (hcrit : c.convCrit = 0) (hnorm : c.norm 0 = 0) (ht : IgnoresZeros c.tnorm)
    (coarse : Nat → GState V → GState V) (it : Nat) (s : Run V N) :
    (S.solveBody c coarse it s).conv (it + 1) =
      c.tnorm ((fullResidual S (S.solveBody c coarse it s).st).map c.norm) := by
  have hL := h.Lpos
  rw [solveBody_conv, if_pos hcrit, solveBody_st]
  set st := S.fineIteration coarse c.cyc it s.st
  have hCn : ∀ i, i ∈ S.C 0 → i < S.n 0 := by
    intro i hi
    by_cases hl : 0 + 1 < S.L
    · exact h.C_lt 0 hl i hi
    · have e : S.L - 1 = 0 := by omega
      have := h.C_last
      rw [e] at this
      rw [this] at hi
      exact List.mem_range.1 hi
  have hCs : (S.C 0).Pairwise (· < ·) := by
    by_cases hl : 0 + 1 < S.L
    · exact h.C_sorted 0 hl
    · have e : S.L - 1 = 0 := by omega
      have := h.C_last
      rw [e] at this
      rw [this]; exact List.pairwise_lt_range
  have hidx : (S.C 0).filter (fun i => decide (i ≠ 0)) =
      (List.range' 1 (S.n 0 - 1)).filter fun i => decide (i ∈ S.C 0) := by
    have hs1 : ((S.C 0).filter (fun i => decide (i ≠ 0))).Pairwise (· < ·) := hCs.filter _
    have hs2 : ((List.range' 1 (S.n 0 - 1)).filter fun i => decide (i ∈ S.C 0)).Pairwise (· < ·) :=
      List.Pairwise.filter _ List.pairwise_lt_range'
    refine List.Perm.eq_of_pairwise (le := (· < ·))
      (fun x y _ _ hxy hyx => absurd hxy (by omega)) hs1 hs2 ?_
    rw [List.perm_ext_iff_of_nodup (hs1.imp fun h => Nat.ne_of_lt h)
      (hs2.imp fun h => Nat.ne_of_lt h)]
    intro i
    simp only [List.mem_filter, List.mem_range'_1, decide_eq_true_eq]
    constructor
    · rintro ⟨h1, h2⟩; have := hCn i h1; exact ⟨by omega, h1⟩
    · rintro ⟨h1, h2⟩; exact ⟨h2, by omega⟩
  unfold residuals fullResidual
  rw [hidx, List.map_map, List.map_map]
  refine ht Nat _ _ _ ?_
  intro i hi hp
  have hiC : i ∉ S.C 0 := by simpa using hp
  rw [List.mem_range'_1] at hi
  have hL1 : 1 < S.L := by
    by_contra hc
    have e : S.L - 1 = 0 := by omega
    have := h.C_last
    rw [e] at this
    exact hiC (by rw [this]; exact List.mem_range.2 (by omega))
  have := h.fineIteration_relaxed coarse c.cyc it s.st hL1 i (by omega) hiC
  have e : st.u 0 i = S.Φ 0 i (st.u 0 (i - 1)) := by simpa [prop] using this
  show c.norm (_ - _) = 0
  rw [← e, sub_self, hnorm]

/-- C16 for the three norms of the solver. -/
theorem C16_three_norms [AddCommGroup V] [SMul K V] [One K] [Sub K] (h : S.WF)
    (c : Ctl V ℝ) (hcrit : c.convCrit = 0) (hnorm : c.norm 0 = 0)
    (ht : c.tnorm = norm1 ∨ c.tnorm = norm2 ∨ c.tnorm = normInf)
    (coarse : Nat → GState V → GState V) (it : Nat) (s : Run V ℝ) :
    (S.solveBody c coarse it s).conv (it + 1) =
      c.tnorm ((fullResidual S (S.solveBody c coarse it s).st).map c.norm) := by
  refine C16_full_residual h c hcrit hnorm ?_ coarse it s
  rcases ht with e | e | e <;> rw [e]
  · exact norm1_ignores
  · exact norm2_ignores
  · exact normInf_ignores

/-! ## C18 -/

section
variable [Add V] [Sub V] [SMul K V] [One K] [Sub K]

theorem setup_conv (c : Ctl V N) (coarse : Nat → GState V → GState V) (s : Run V N) (j : Nat) :
    (S.setup c coarse s).conv j = s.conv j := by
  unfold setup Run.output
  split <;> split <;> split <;> rfl

theorem setup_outs (c : Ctl V N) (coarse : Nat → GState V → GState V) (s : Run V N) :
    (S.setup c coarse s).outs = s.outs ++
      if c.outLvl = 2 then [(s.iter, (S.setup c coarse s).st.u 0)] else [] := by
  unfold setup Run.output
  split <;> split <;> split <;> simp

/-- C18.  After the first `solve` the returned history lists, in order, the recorded values of the
performed iterations **except those that are exactly zero**. -/
theorem C18_history_partial [Zero N] [DecidableEq N] (c : Ctl V N)
    (coarse : Nat → GState V → GState V) (start zero guess : Nat → V) (hmax : 0 < c.maxIter) :
    let s1 : Run V N := S.setup c coarse (Run.init start zero guess)
    let r := S.solve c coarse s1
    r.history c = ((List.range r.iter).map fun j => S.critValue c coarse s1 j).filter
      fun x => decide (x ≠ 0) := by
  intro s1 r
  obtain ⟨m, hm1, hm2, hit, -, -, -, hcv, hcv'⟩ := C17_stopping_rule (S := S) c coarse s1 hmax
  have hit' : r.iter = m := hit
  unfold Run.history
  rw [hit']
  have e : c.maxIter + 1 = (m + 1) + (c.maxIter - m) := by omega
  rw [e, List.range_add, List.map_append, List.filter_append, List.map_map]
  have h2 : (((List.range (c.maxIter - m)).map (r.conv ∘ fun x => m + 1 + x)).filter
      fun x => decide (x ≠ 0)) = [] := by
    rw [List.filter_eq_nil_iff]
    intro x hx
    obtain ⟨j, -, rfl⟩ := List.mem_map.1 hx
    show ¬ (decide (r.conv (m + 1 + j) ≠ 0) = true)
    rw [show r.conv (m + 1 + j) = s1.conv (m + 1 + j) from hcv' _ (Or.inr (by omega))]
    rw [show s1.conv (m + 1 + j) = 0 from setup_conv c coarse _ _]
    simp
  rw [h2, List.append_nil, List.range_succ_eq_map, List.map_cons, List.map_map]
  have h0 : r.conv 0 = 0 := by
    rw [show r.conv 0 = s1.conv 0 from hcv' 0 (Or.inl rfl)]
    exact setup_conv c coarse _ _
  rw [List.filter_cons_of_neg (by simp [h0])]
  congr 1
  apply List.map_congr_left
  intro j hj
  have := List.mem_range.1 hj
  exact hcv (j + 1) (by omega) (by omega)

/-- C18.  If no recorded value is exactly zero, the history has one entry per iteration, in order. -/
theorem C18_history_nonzero [Zero N] [DecidableEq N] (c : Ctl V N)
    (coarse : Nat → GState V → GState V) (start zero guess : Nat → V) (hmax : 0 < c.maxIter)
    (hnz : ∀ j, j < (S.solve c coarse (S.setup c coarse (Run.init start zero guess))).iter →
      S.critValue c coarse (S.setup c coarse (Run.init (N := N) start zero guess)) j ≠ 0) :
    let s1 : Run V N := S.setup c coarse (Run.init start zero guess)
    let r := S.solve c coarse s1
    r.history c = (List.range r.iter).map fun j => S.critValue c coarse s1 j := by
  intro s1 r
  rw [C18_history_partial c coarse start zero guess hmax]
  rw [List.filter_eq_self]
  intro x hx
  obtain ⟨j, hj, rfl⟩ := List.mem_map.1 hx
  exact decide_eq_true (hnz j (List.mem_range.1 hj))

/-! ## C19 -/

/-- C19.  Calls of the output function during constructor and `solve` of `m = solve_iter`
iterations, each with the iteration number and the fine-level values it sees. -/
theorem C19_output_schedule [Zero N] (c : Ctl V N)
    (coarse : Nat → GState V → GState V) (start zero guess : Nat → V) (hmax : 0 < c.maxIter) :
    let s1 : Run V N := S.setup c coarse (Run.init start zero guess)
    let r := S.solve c coarse s1
    let u := fun j => (iterates S coarse c.cyc j s1.st).u 0
    (c.outLvl = 0 → r.outs = []) ∧
    (c.outLvl = 1 → r.outs = [(r.iter, u r.iter)]) ∧
    (c.outLvl = 2 → r.outs = (List.range (r.iter + 1)).map fun j => (j, u j)) := by
  intro s1 r u
  obtain ⟨m, h1, h2, h3, -, -⟩ := S.solve_spec c coarse s1 hmax
  have hit : r.iter = m := by
    have : (S.solve c coarse s1).iter = (S.bodies c coarse m s1).iter := by rw [h3]; split <;> rfl
    rw [show r.iter = _ from this]
    obtain ⟨m, rfl⟩ : ∃ m', m = m' + 1 := ⟨m - 1, by omega⟩
    exact bodies_iter S c coarse m s1
  have hbo := S.bodies_outs c coarse m s1
  have hs1 : s1.outs = [] ++ if c.outLvl = 2 then [(0, s1.st.u 0)] else [] :=
    setup_outs (S := S) c coarse (Run.init (N := N) start zero guess)
  refine ⟨?_, ?_, ?_⟩
  · intro h0
    show (S.solve c coarse s1).outs = []
    rw [h3, if_neg (by omega), hbo, hs1]; simp [h0]
  · intro h0
    show (S.solve c coarse s1).outs = _
    rw [h3, if_pos h0, hit]
    unfold Run.output
    simp only [hbo, hs1, h0]
    have : (S.bodies c coarse m s1).iter = m := by
      obtain ⟨m, rfl⟩ : ∃ m', m = m' + 1 := ⟨m - 1, by omega⟩
      exact bodies_iter S c coarse m s1
    rw [this, bodies_st]; simp [u]
  · intro h0
    show (S.solve c coarse s1).outs = _
    rw [h3, if_neg (by omega), hbo, hs1, hit, List.range_succ_eq_map, List.map_cons, List.map_map]
    simp only [h0, if_true, List.nil_append, List.singleton_append]
    rfl

/-! ## C56 -/

theorem iterates_add (h : S.WF) (coarse : Nat → GState V → GState V) (cyc : Cycle) (a b : Nat)
    (ha : 1 ≤ a) (s : GState V) :
    iterates S coarse cyc b (iterates S coarse cyc a s) = iterates S coarse cyc (a + b) s := by
  induction b with
  | zero => rfl
  | succ b ih =>
    show S.fineIteration coarse cyc b _ = S.fineIteration coarse cyc (a + b) _
    rw [ih]
    refine h.fineIteration_it coarse cyc b (a + b) fun hL => ?_
    obtain ⟨k, hk⟩ : ∃ k, a + b = k + 1 := ⟨a + b - 1, by omega⟩
    rw [hk]
    exact h.fineIteration_relaxed coarse cyc k _ hL

/-- C56.  A second `solve` continues from the current iterate: after `m` and `m'` iterations the
state is that of `m + m'` consecutive iterations. -/
theorem C56_resume (h : S.WF) (c : Ctl V N) (coarse : Nat → GState V → GState V) (s : Run V N)
    (hmax : 0 < c.maxIter) :
    let r := S.solve c coarse s
    let r' := S.solve c coarse r
    r'.st = iterates S coarse c.cyc (r.iter + r'.iter) s.st := by
  intro r r'
  obtain ⟨m, hm1, -, hit, hst, -⟩ := C17_stopping_rule (S := S) c coarse s hmax
  obtain ⟨m', hm1', -, hit', hst', -⟩ := C17_stopping_rule (S := S) c coarse r hmax
  rw [show r'.st = _ from hst', show r.st = _ from hst, iterates_add h coarse c.cyc m m' hm1,
    show r.iter = m from hit, show r'.iter = m' from hit']

end

/-- C56.  A second `solve` keeps an exact solution. -/
theorem C56_keeps_exact [AddCommGroup V] [Ring K] [Module K V] (h : S.WF)
    (hR : ∀ l, l + 1 < S.L → S.R l 0 = 0) (hI : ∀ l, l + 1 < S.L → S.I l 0 = 0)
    (c : Ctl V N) (s : Run V N) (hs : Solved (S.Φ 0) (S.n 0) (s.st.u 0)) :
    ∀ i, i < S.n 0 → (S.solve c S.forwardSolve s).st.u 0 i = s.st.u 0 i := by
  have key : ∀ k, Solved (S.Φ 0) (S.n 0) ((iterates S S.forwardSolve c.cyc k s.st).u 0) ∧
      ∀ i, i < S.n 0 → (iterates S S.forwardSolve c.cyc k s.st).u 0 i = s.st.u 0 i := by
    intro k
    induction k with
    | zero => exact ⟨hs, fun _ _ => rfl⟩
    | succ k ih =>
      obtain ⟨h1, h2, -⟩ := C12_fixed_point h hR hI c.cyc k _ ih.1
      exact ⟨h2, fun i hi => (h1 i hi).trans (ih.2 i hi)⟩
  by_cases hmax : c.maxIter = 0
  · rw [(C17_no_iterations c S.forwardSolve s hmax).1]; exact fun _ _ => rfl
  · obtain ⟨m, -, -, -, e, -⟩ := C17_stopping_rule (S := S) c S.forwardSolve s (by omega)
    rw [e]; exact (key m).2

/-- C56.  What a further `solve` returns: its own recorded values, followed by what was left in the
convergence array beyond its last iteration, zeros dropped.  So it reports only its own iterations
if the array is zero there, e.g. if it performs at least as many iterations as all calls before. -/
theorem C56_history_partial [Add V] [Sub V] [SMul K V] [One K] [Sub K] [Zero N] [DecidableEq N]
    (c : Ctl V N) (coarse : Nat → GState V → GState V) (s : Run V N) (hmax : 0 < c.maxIter)
    (h0 : s.conv 0 = 0) :
    let r := S.solve c coarse s
    r.history c = (((List.range r.iter).map fun j => S.critValue c coarse s j) ++
      ((List.range (c.maxIter - r.iter)).map fun j => s.conv (r.iter + 1 + j))).filter
        fun x => decide (x ≠ 0) := by
  intro r
  obtain ⟨m, hm1, hm2, hit, -, -, -, hcv, hcv'⟩ := C17_stopping_rule (S := S) c coarse s hmax
  have hit' : r.iter = m := hit
  unfold Run.history
  rw [hit']
  have e : c.maxIter + 1 = (m + 1) + (c.maxIter - m) := by omega
  rw [e, List.range_add, List.map_append, List.filter_append, List.filter_append, List.map_map]
  congr 1
  · rw [List.range_succ_eq_map, List.map_cons, List.map_map,
      List.filter_cons_of_neg (by rw [show r.conv 0 = s.conv 0 from hcv' 0 (Or.inl rfl)]; simp [h0])]
    congr 1
    apply List.map_congr_left
    intro j hj
    have := List.mem_range.1 hj
    exact hcv (j + 1) (by omega) (by omega)
  · congr 1
    apply List.map_congr_left
    intro j _
    exact hcv' (m + 1 + j) (Or.inr (by omega))

/-! ## C39 -/

/-- C39.  Two levels: after nested iteration the C-points of the fine grid hold the interpolated
sequential solution of the coarse problem, started at the coarse `vector_t_start`; the initial point
keeps the fine `vector_t_start`; F-points keep the initial guess. -/
theorem C39_two_levels [AddCommGroup V] [SMul K V] [One K] [Sub K] [Zero N]
    (h : S.WF) (hL : S.L = 2) (c : Ctl V N) (hn : c.nested = true) (start zero guess : Nat → V)
    (hzero : zero 1 = 0) :
    let s : Run V N := S.setup c S.forwardSolve (Run.init start zero guess)
    (∀ k, 1 ≤ k → k < S.n 1 → ∀ i, (S.C 0)[k]? = some i →
      s.st.u 0 i = S.I 0 (seqSol (S.Φ 1) (start 1) k)) ∧
    s.st.u 0 0 = start 0 ∧ (∀ i, i ≠ 0 → i ∉ S.C 0 → s.st.u 0 i = guess i) := by
  intro s
  set s0 : GState V := (Run.init (N := N) start zero guess).st with hs0
  have e : s.st = S.interpolate 0 (S.forwardSolve 1 s0) := by
    show (S.setup c S.forwardSolve (Run.init start zero guess)).st = _
    rw [setup_st, if_pos hn, nestedIteration, hL]; rfl
  have hl : 0 + 1 < S.L := by omega
  have hcs : ∀ k, k < S.n 1 → (S.forwardSolve 1 s0).u 1 k = seqSol (S.Φ 1) (start 1) k := by
    intro k hk
    rw [C09_unique (S := S) 1 s0 (seqSol (S.Φ 1) (start 1)) rfl ?_ k hk]
    intro i h1 _
    obtain ⟨i, rfl⟩ : ∃ j, i = j + 1 := ⟨i - 1, by omega⟩
    simp only [Nat.add_sub_cancel]
    rw [if_neg (by omega)]
    have hg : s0.g 1 (i + 1) = 0 := hzero
    rw [hg, zero_add]; rfl
  refine ⟨?_, ?_, ?_⟩
  · intro k h1 hk i hi
    have hlen := h.C_len 0 hl
    have : i = S.cpt 0 k := by
      rw [cpt_eq (by rw [hlen]; exact hk)]
      obtain ⟨_, e⟩ := List.getElem?_eq_some_iff.1 hi
      exact e.symm
    rw [e, this, h.interpolate_C hl _ hk (by omega), hcs k hk]
  · rw [e, h.interpolate_not hl _ (Or.inr rfl), forwardSolve_u_ne _ (by omega)]; rfl
  · intro i h0 hi
    rw [e, h.interpolate_not hl _ (Or.inl hi), forwardSolve_u_ne _ (by omega)]
    show (Run.init (N := N) start zero guess).st.u 0 i = guess i
    simp [Run.init, h0]

/-- C39.  For any number of levels nested iteration keeps the initial value and the fine right-hand
side. -/
theorem C39_keeps [Add V] [Sub V] [SMul K V] [One K] [Sub K] (h : S.WF) (s : GState V) :
    (S.nestedIteration S.forwardSolve s).u 0 0 = s.u 0 0 ∧
      (S.nestedIteration S.forwardSolve s).g 0 = s.g 0 := keeps_nestedIteration h s

/-! ### Witnesses -/

/-- Control data of the example, with the absolute value as norm and the 1-norm in time. -/
def exCtl (lvl : Nat) (tol : Int) (maxIter : Nat) : Ctl Int Int :=
  ⟨Cycle.V, true, maxIter, 0, fun x => |x|, fun xs => (xs.map fun x => |x|).sum,
    fun x => decide (x < tol), lvl⟩

/-- C18 fails for exact zeros: two iterations are performed, the second has residual zero, and the
returned history has one entry only. -/
theorem C18_zero_dropped :
    let r := (exCfg 1).sys.solve (exCtl 0 1 5) (exCfg 1).sys.forwardSolve
      ((exCfg 1).sys.setup (exCtl 0 1 5) (exCfg 1).sys.forwardSolve
        (Run.init (fun _ => 1) (fun _ => 0) (fun _ => 0)))
    r.iter = 2 ∧ (r.history (exCtl 0 1 5)).length = 1 := by
  decide +kernel

/-- Two levels, times `0..6`, F-relaxation only. -/
def exCfg2 : Cfg Int Int Nat Int :=
  { exCfg 1 with
    ts := [[0, 1, 2, 3, 4, 5, 6], [0, 2, 4, 6]]
    cf := fun _ => 0
    step := fun l x t0 t1 => (2 + l) * x + (t1 : Int) - (t0 : Int) }

/-- C56 fails for the returned history: the second `solve` performs a single iteration with residual
zero, but returns one entry, which is a value recorded by the *first* call. -/
theorem C56_stale_history :
    let S := exCfg2.sys
    let c := exCtl 0 1 5
    let r := S.solve c S.forwardSolve
      (S.setup c S.forwardSolve (Run.init (fun _ => 1) (fun _ => 0) (fun _ => 0)))
    let r' := S.solve c S.forwardSolve r
    r.iter = 3 ∧ r'.iter = 1 ∧ r'.conv 1 = 0 ∧ (r.history c).length = 2 ∧
      r'.history c = (r.history c).drop 1 ∧ (r'.history c).length = 1 := by
  decide +kernel

/-- Hypotheses of C10 with one level. -/
example : ∃ S : Sys Int Int, S.WF ∧ S.L = 1 ∧ S.n 0 = 9 :=
  ⟨({ exCfg 1 with ts := [[0, 1, 2, 3, 4, 5, 6, 7, 8]] } : Cfg Int Int Nat Int).sys,
   Cfg.sys_wf _ ⟨by decide, by decide, by
      intro l
      match l with
      | 0 => decide
      | _ + 1 => exact List.Pairwise.nil, by
      intro l hl; simp at hl, by
      intro l hl
      match l with
      | 0 => rfl
      | _ + 1 => simp at hl⟩, rfl, rfl⟩

end Pymgrit
