import Verif.PropsDist
import Verif.PropsGrid

/-!
# Property C78: arguments of the user's functions

On every level `step` is called for intervals between neighbouring points of that level's grid only, and
`restriction`/`interpolation` for existing pairs of levels only.  Stated through behaviour: two
configurations whose functions agree there run the same programs.
-/

set_option linter.unusedSectionVars false

namespace Pymgrit
open Cfg

variable {V K T N : Type} [LinearOrder T] [Inhabited T]
variable [Add V] [Sub V] [SMul K V] [One K] [Sub K] [Zero N]

/-- The configuration with other user functions. -/
def Cfg.withFns (E : Cfg V K T N) (step : Nat → V → T → T → V) (R I : Nat → V → V) : Cfg V K T N :=
  { E with step := step, R := R, I := I }

theorem forIn'_congr {M α ι : Type} {f g : α → ι → Prog M α} :
    ∀ (xs : List ι) (s : α), (∀ i ∈ xs, ∀ s, f s i = g s i) → Prog.forIn' xs f s = Prog.forIn' xs g s
  | [], _, _ => rfl
  | x :: xs, s, h => by
    show (f s x).bind (Prog.forIn' xs f) = (g s x).bind (Prog.forIn' xs g)
    rw [h x List.mem_cons_self]
    congr 1
    funext s
    exact forIn'_congr xs s fun i hi => h i (List.mem_cons_of_mem _ hi)

theorem foldl_congr_mem {α ι : Type} {f g : α → ι → α} :
    ∀ (xs : List ι) (s : α), (∀ i ∈ xs, ∀ s, f s i = g s i) → xs.foldl f s = xs.foldl g s
  | [], _, _ => rfl
  | x :: xs, s, h => by
    show xs.foldl f (f s x) = xs.foldl g (g s x)
    rw [h x List.mem_cons_self]
    exact foldl_congr_mem xs _ fun i hi => h i (List.mem_cons_of_mem _ hi)

/-- Agreement of the user's functions where the solver may call them. -/
structure SameCalls (E : Cfg V K T N) (step : Nat → V → T → T → V) (R I : Nat → V → V) : Prop where
  step : ∀ l i x, l < E.ts.length → i + 1 < npts E.ts l →
    step l x (tAt (grid E.ts l) i) (tAt (grid E.ts l) (i + 1)) =
      E.step l x (tAt (grid E.ts l) i) (tAt (grid E.ts l) (i + 1))
  R : ∀ l x, l + 1 < E.ts.length → R l x = E.R l x
  I : ∀ l x, l + 1 < E.ts.length → I l x = E.I l x

section
variable {E : Cfg V K T N} {step : Nat → V → T → T → V} {R I : Nat → V → V}
  (hv : Valid E.ts) (hP : E.P ≤ npts E.ts 0) (ho : ∀ r l xs, (E.ord r l xs).Perm xs)
  (hs : SameCalls E step R I) {r l : Nat} (hr : r < E.P) (hl : l < E.ts.length)

include hv hP ho hs hr hl

theorem stepAt_same {j : Nat} (hj : j ∈ (E.info r l).idx) (hj0 : ¬ (r = 0 ∧ j = 0)) (u : Nat → V) :
    (E.withFns step R I).stepAt r l j u = E.stepAt r l j u := by
  obtain ⟨-, -, h3, h4, -⟩ := C55_index_ranges hv hP ho hr hl
  have h1 : 1 ≤ j := (h3 j hj).2 hj0
  obtain ⟨i, hi, e1, e2⟩ := h4 j hj h1
  have hp : pyPrev (E.len r l) j = j - 1 := by unfold pyPrev; rw [if_neg (by omega)]
  show step l (u (pyPrev (E.len r l) j)) (tAt (E.info r l).t (pyPrev (E.len r l) j)) (tAt (E.info r l).t j) =
    E.step l (u (pyPrev (E.len r l) j)) (tAt (E.info r l).t (pyPrev (E.len r l) j)) (tAt (E.info r l).t j)
  rw [hp, show tAt (E.info r l).t (j - 1) = _ from e1, show tAt (E.info r l).t j = _ from e2]
  exact hs.step l i _ hl hi

theorem propAt_same {j : Nat} (hj : j ∈ (E.info r l).idx) (hj0 : ¬ (r = 0 ∧ j = 0)) (s : PState V N) :
    (E.withFns step R I).propAt r l j s = E.propAt r l j s := by
  unfold propAt
  rw [stepAt_same hv hP ho hs hr hl hj hj0]

theorem memC {j : Nat} (hj : j ∈ (E.info r l).idxC) : j ∈ (E.info r l).idx :=
  (C05_partition hv hP ho hr hl).1.mem_iff.1 (List.mem_append.2 (.inl hj))

theorem memF {j : Nat} (hj : j ∈ (E.info r l).idxF) : j ∈ (E.info r l).idx ∧ ¬ (r = 0 ∧ j = 0) := by
  have h1 := (C05_partition hv hP ho hr hl).1.mem_iff.1 (List.mem_append.2 (.inr hj))
  obtain ⟨-, h2, h3, -, -⟩ := C55_index_ranges hv hP ho hr hl
  exact ⟨h1, (h3 j h1).1 (h2 j hj)⟩

theorem fRelaxP_same (s : PState V N) : (E.withFns step R I).fRelaxP r l s = E.fRelaxP r l s := by
  have : ∀ s, Prog.forIn' (E.info r l).idxF ((E.withFns step R I).fBody r l) s =
      Prog.forIn' (E.info r l).idxF (E.fBody r l) s := by
    intro s
    refine forIn'_congr _ _ fun j hj s => ?_
    obtain ⟨h1, h2⟩ := memF hv hP ho hs hr hl hj
    unfold fBody
    simp only [propAt_same hv hP ho hs hr hl h1 h2]
    rfl
  show Prog.bind _ (fun s => Prog.bind _ (fun s => Prog.forIn' (E.info r l).idxF ((E.withFns step R I).fBody r l) s)) = _
  simp only [this]
  rfl

theorem cRelaxP_same (s : PState V N) : (E.withFns step R I).cRelaxP r l s = E.cRelaxP r l s := by
  have : ∀ s, (E.withFns step R I).cLoop r l s = E.cLoop r l s := by
    intro s
    refine foldl_congr_mem _ _ fun j hj s => ?_
    by_cases h : j ≠ 0 ∨ r ≠ 0
    · rw [if_pos h, if_pos h, propAt_same hv hP ho hs hr hl (memC hv hP ho hs hr hl hj) (by omega)]
      rfl
    · rw [if_neg h, if_neg h]
  unfold cRelaxP
  simp only [this]
  rfl

theorem forwardSolveP_same (s : PState V N) :
    (E.withFns step R I).forwardSolveP r l s = E.forwardSolveP r l s := by
  have hsp : LSpec0 E.ts E.P r l (E.info r l) := spec0 hv hP ho hr hl
  have : ∀ s : PState V N, (List.range' 1 (E.len r l - 1)).foldl (fun s j =>
        s.setU l j ((E.withFns step R I).propAt r l j s)) s =
      (List.range' 1 (E.len r l - 1)).foldl (fun s j => s.setU l j (E.propAt r l j s)) s := by
    intro s
    refine foldl_congr_mem _ _ fun j hj s => ?_
    rw [List.mem_range'_1] at hj
    have hlen : E.len r l = _ := hsp.t_len
    rw [propAt_same hv hP ho hs hr hl _ (by omega)]
    rw [hsp.idx, List.mem_range'_1]
    split at hlen
    · have hg : off E.ts E.P l r + gh r = lo E.ts E.P l r := by
        unfold off gh
        by_cases hr0 : r = 0
        · simp [hr0]
        · have := hv.lo_pos hP hl (show r ≤ E.P by omega) (by omega)
          simp [hr0]; omega
      have : gh r ≤ 1 := by unfold gh; split <;> omega
      omega
    · omega
  unfold forwardSolveP
  show Prog.bind _ (fun s => _) = _
  simp only [show (E.withFns step R I).len r l = E.len r l from rfl, this]
  rfl

theorem residualP_same (hl0 : l = 0) (s : PState V N) :
    (E.withFns step R I).residualP r s = E.residualP r s := by
  subst hl0
  have : ∀ s : PState V N, (((E.info r 0).idxC.filter fun j => decide (r ≠ 0 ∨ j ≠ 0)).map fun j =>
        E.norm ((E.withFns step R I).stepAt r 0 j (s.u 0) - s.u 0 j)) =
      ((E.info r 0).idxC.filter fun j => decide (r ≠ 0 ∨ j ≠ 0)).map fun j =>
        E.norm (E.stepAt r 0 j (s.u 0) - s.u 0 j) := by
    intro s
    refine List.map_congr_left fun j hj => ?_
    rw [List.mem_filter] at hj
    have h2 : r ≠ 0 ∨ j ≠ 0 := of_decide_eq_true hj.2
    rw [stepAt_same hv hP ho hs hr hl (memC hv hP ho hs hr hl hj.1) (by omega)]
  unfold residualP
  show Prog.bind _ (fun s => Prog.bind _ fun s : PState V N => Prog.ret
    (((E.info r 0).idxC.filter fun j => decide (r ≠ 0 ∨ j ≠ 0)).map fun j =>
        E.norm ((E.withFns step R I).stepAt r 0 j (s.u 0) - s.u 0 j), s)) = _
  simp only [this]
  rfl

end

section
variable {E : Cfg V K T N} {step : Nat → V → T → T → V} {R I : Nat → V → V}
  (hv : Valid E.ts) (hP : E.P ≤ npts E.ts 0) (ho : ∀ r l xs, (E.ord r l xs).Perm xs)
  (hs : SameCalls E step R I) {r : Nat} (hr : r < E.P)
include hv hP ho hs hr

theorem fasResidualP_same {l : Nat} (hl : l + 1 < E.ts.length) (s : PState V N) :
    (E.withFns step R I).fasResidualP r l s = E.fasResidualP r l s := by
  have hR : ∀ x, (E.withFns step R I).R l x = E.R l x := fun x => hs.R l x hl
  have h1 : ∀ s, (E.withFns step R I).restrictLoop r l s = E.restrictLoop r l s := by
    intro s
    refine foldl_congr_mem _ _ fun ci _ s => ?_
    rw [hR]
  have h2 : ∀ s, (E.withFns step R I).fasLoop r l s = E.fasLoop r l s := by
    intro s
    refine foldl_congr_mem _ _ fun ci hci s => ?_
    by_cases h : ci.2 ≠ 0 ∨ r ≠ 0
    · rw [if_pos h, if_pos h]
      obtain ⟨hlen, hpair⟩ := C05_pairing hv hP ho hr hl
      obtain ⟨hk, he⟩ := List.mem_zipIdx' hci
      have hC : ci.1 ∈ (E.info r l).idxC := by rw [he]; exact List.getElem_mem hk
      have hk' : ci.2 < (E.info r (l + 1)).idx.length := by
        rw [show (E.info r (l + 1)).idx.length = _ from hlen.symm]; exact hk
      have hsp : LSpec0 E.ts E.P r (l + 1) (E.info r (l + 1)) := spec0 hv hP ho hr hl
      have hgd : (E.info r (l + 1)).idx.getD ci.2 0 = gh r + ci.2 := by
        rw [List.getD_eq_getElem?_getD, List.getElem?_eq_getElem hk', Option.getD_some]
        simp only [hsp.idx]
        rw [List.getElem_range']
        omega
      have hmem : (E.info r (l + 1)).idx.getD ci.2 0 ∈ (E.info r (l + 1)).idx := by
        rw [List.getD_eq_getElem?_getD, List.getElem?_eq_getElem hk', Option.getD_some]
        exact List.getElem_mem hk'
      have hgr : r ≠ 0 → gh r = 1 := fun h => by unfold gh; rw [if_neg h]
      have e1 := stepAt_same hv hP ho hs hr hl hmem (by rw [hgd]; rintro ⟨a, b⟩; omega) (s.v (l + 1))
      have hC0 : ¬ (r = 0 ∧ ci.1 = 0) := by
        rintro ⟨rfl, hz⟩
        obtain ⟨-, -, hsort, -⟩ := C05_partition hv hP ho hr (show l < E.ts.length by omega)
        have h0 : 0 < ci.2 := by omega
        have hk0 : ci.2 < (E.info 0 l).idxC.length := hk
        have := List.pairwise_iff_getElem.1 hsort 0 ci.2 (Nat.lt_trans h0 hk0) hk0 h0
        have h7 : ci.1 = (setupLevel E.ts E.P (E.ord 0 l) 0 l).idxC[ci.2] := he
        rw [← h7, hz] at this
        omega
      have e2 := stepAt_same hv hP ho hs hr (show l < E.ts.length by omega)
        (memC hv hP ho hs hr (by omega) hC) hC0 (s.u l)
      have ei : ∀ l, (E.withFns step R I).info r l = E.info r l := fun _ => rfl
      simp only [ei, e1, e2, hR]
    · rw [if_neg h, if_neg h]
  unfold fasResidualP
  simp only [h1, h2]
  rfl

theorem errorCorrectionP_same {l : Nat} (hl : l + 1 < E.ts.length) (s : PState V N) :
    (E.withFns step R I).errorCorrectionP r l s = E.errorCorrectionP r l s := by
  refine foldl_congr_mem _ _ fun ci _ s => ?_
  have hI : ∀ x, (E.withFns step R I).I l x = E.I l x := fun x => hs.I l x hl
  simp only [hI]
  rfl

theorem interpolateP_same {l : Nat} (hl : l + 1 < E.ts.length) (s : PState V N) :
    (E.withFns step R I).interpolateP r l s = E.interpolateP r l s := by
  refine foldl_congr_mem _ _ fun ci _ s => ?_
  have hI : ∀ x, (E.withFns step R I).I l x = E.I l x := fun x => hs.I l x hl
  simp only [hI]
  rfl

theorem vcycP_same (d l it : Nat) (ff : Bool) (hl : l + d < E.ts.length) (s : PState V N) :
    (E.withFns step R I).vcycP r d l it ff s = E.vcycP r d l it ff s := by
  induction d generalizing l ff s with
  | zero => exact forwardSolveP_same hv hP ho hs hr (by omega) s
  | succ d ih =>
    have hF := fun s => fRelaxP_same hv hP ho hs hr (show l < E.ts.length by omega) s
    have hC := fun s => cRelaxP_same hv hP ho hs hr (show l < E.ts.length by omega) s
    have hG := fun s => fasResidualP_same hv hP ho hs hr (l := l) (by omega) s
    have hE := fun s => errorCorrectionP_same hv hP ho hs hr (l := l) (by omega) s
    have hV := fun s => ih (l + 1) true (by omega) s
    unfold vcycP
    simp only [funext hF, hF, hC, hG, hE, hV]
    rfl

theorem iterationP_same (d l : Nat) (cyc : Sys.Cycle) (it : Nat) (ff : Bool) (hl : l + d < E.ts.length)
    (s : PState V N) :
    (E.withFns step R I).iterationP r d l cyc it ff s = E.iterationP r d l cyc it ff s := by
  induction d generalizing l ff s with
  | zero => exact forwardSolveP_same hv hP ho hs hr (by omega) s
  | succ d ih =>
    have hF := fun s => fRelaxP_same hv hP ho hs hr (show l < E.ts.length by omega) s
    have hC := fun s => cRelaxP_same hv hP ho hs hr (show l < E.ts.length by omega) s
    have hG := fun s => fasResidualP_same hv hP ho hs hr (l := l) (by omega) s
    have hE := fun s => errorCorrectionP_same hv hP ho hs hr (l := l) (by omega) s
    have hV := fun s => ih (l + 1) true (by omega) s
    have hW := fun ff s => vcycP_same hv hP ho hs hr (d + 1) l it ff (by omega) s
    unfold iterationP
    simp only [funext hF, hF, hC, hG, hE, hV, hW]
    rfl

theorem nestedLoopP_same (l : Nat) (hl : l < E.ts.length) (s : PState V N) :
    (E.withFns step R I).nestedLoopP r l s = E.nestedLoopP r l s := by
  induction l generalizing s with
  | zero => rfl
  | succ l ih =>
    have hN := fun s => interpolateP_same hv hP ho hs hr (l := l) (by omega) s
    have hV := fun s => iterationP_same hv hP ho hs hr (E.L - 1 - l) l .V 0 true
      (by unfold Cfg.L; omega) s
    have hS := fun s => ih (by omega) s
    unfold nestedLoopP
    simp only [hN, show (E.withFns step R I).L = E.L from rfl, hV, funext hS]

theorem nestedIterationP_same (s : PState V N) :
    (E.withFns step R I).nestedIterationP r s = E.nestedIterationP r s := by
  have hpos := hv.pos
  have h1 := fun s => forwardSolveP_same hv hP ho hs hr (l := E.L - 1) (by unfold Cfg.L; omega) s
  have h2 := fun s => nestedLoopP_same hv hP ho hs hr (E.L - 1) (by unfold Cfg.L; omega) s
  unfold nestedIterationP
  rw [show (E.withFns step R I).L = E.L from rfl, h1, funext h2]

theorem convergenceP_same (it : Nat) (s : PState V N) :
    (E.withFns step R I).convergenceP r it s = E.convergenceP r it s := by
  have h1 := fun s => residualP_same hv hP ho hs hr hv.pos rfl s
  unfold convergenceP
  simp only [h1]
  rfl

theorem solveLoopP_same (k it : Nat) (s : PState V N) :
    (E.withFns step R I).solveLoopP r k it s = E.solveLoopP r k it s := by
  have hpos := hv.pos
  induction k generalizing it s with
  | zero => rfl
  | succ k ih =>
    have h1 := fun s => iterationP_same hv hP ho hs hr (E.L - 1) 0 E.cyc it true
      (by unfold Cfg.L; omega) s
    have h2 := fun s => convergenceP_same hv hP ho hs hr (it + 1) s
    have h3 := fun s => ih (it + 1) s
    unfold solveLoopP
    simp only [show (E.withFns step R I).L = E.L from rfl, show (E.withFns step R I).cyc = E.cyc from rfl,
      h1, h2, h3]
    rfl

theorem mainP_same (s : PState V N) : (E.withFns step R I).mainP r s = E.mainP r s := by
  have h1 := fun s => nestedIterationP_same hv hP ho hs hr s
  have h2 := fun s => solveLoopP_same hv hP ho hs hr E.maxIter 0 s
  have h3 : ∀ s, (E.withFns step R I).solveP r s = E.solveP r s := by
    intro s
    unfold solveP
    simp only [show (E.withFns step R I).maxIter = E.maxIter from rfl, h2]
    rfl
  have h4 : (E.withFns step R I).setupP r s = E.setupP r s := by
    unfold setupP
    simp only [h1]
    rfl
  unfold mainP
  rw [h4, funext h3]

end

/-- C78.  Values of `step` on other intervals than those between neighbouring points of the level's grid,
and transfers between levels that do not exist, have no influence on a run, on any number of processes and
with any criterion: the solver never calls them. -/
theorem C78_calls (E : Cfg V K T N) (hv : Valid E.ts) (hP : E.P ≤ npts E.ts 0)
    (ho : ∀ r l xs, (E.ord r l xs).Perm xs) {step : Nat → V → T → T → V} {R I : Nat → V → V}
    (hs : ∀ l i x, l < E.ts.length → i + 1 < npts E.ts l →
      step l x (tAt (grid E.ts l) i) (tAt (grid E.ts l) (i + 1)) =
        E.step l x (tAt (grid E.ts l) i) (tAt (grid E.ts l) (i + 1)))
    (hR : ∀ l x, l + 1 < E.ts.length → R l x = E.R l x)
    (hI : ∀ l x, l + 1 < E.ts.length → I l x = E.I l x) :
    startConf { E with step := step, R := R, I := I } = startConf E := by
  show (⟨_, _⟩ : Conf E.P _ _) = ⟨_, _⟩
  congr 1
  funext r
  exact mainP_same (step := step) (R := R) (I := I) hv hP ho ⟨hs, hR, hI⟩ r.isLt _

/-- C78.  In particular `step` is only called with `t_start < t_stop`. -/
theorem C78_forward_in_time (E : Cfg V K T N) (hv : Valid E.ts) (hP : E.P ≤ npts E.ts 0)
    (ho : ∀ r l xs, (E.ord r l xs).Perm xs) {step : Nat → V → T → T → V}
    (hs : ∀ l x t t', t < t' → step l x t t' = E.step l x t t') :
    startConf { E with step := step } = startConf E := by
  refine C78_calls E hv hP ho (R := E.R) (I := E.I) (fun l i x _ hi => hs _ _ _ _ ?_)
    (fun _ _ _ => rfl) fun _ _ _ => rfl
  have hi' : i + 1 < (grid E.ts l).length := hi
  exact (tAt_lt_iff (hv.sorted l) (by omega) hi').2 (by omega)

/-- A step function that differs outside the grid. -/
example : startConf { exCfg 3 with step := fun l x t0 t1 =>
      if t1 ≤ t0 then 7 else x * x + (t1 : Int) - (t0 : Int) + l } = startConf (exCfg 3) :=
  C78_forward_in_time (exCfg 3) exGrid_valid (by decide) (fun _ _ _ => .refl _) fun _ _ _ _ h => by
    rw [if_neg (by omega)]
    rfl

end Pymgrit
