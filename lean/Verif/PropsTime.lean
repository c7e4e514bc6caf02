import Verif.PropsCalls
import Mathlib.Order.Monotone.Basic
import Mathlib.Algebra.Order.Field.Basic
import Mathlib.Tactic.IntervalCases
import Mathlib.Tactic.Ring

/-!
# Property C110: the values of the times do not matter

The solver compares times and hands them to `step`, nothing else.  If all grids are transformed by a map that
is strictly increasing on the points of the finest grid (another unit, another origin, any change of the time
variable) and the step functions take the transformed times, then all processes run the same programs.
-/

set_option linter.unusedSectionVars false

namespace Pymgrit
open Cfg

variable {V K T T' N : Type} [LinearOrder T] [Inhabited T] [LinearOrder T'] [Inhabited T']
variable [Add V] [Sub V] [SMul K V] [One K] [Sub K] [Zero N]

/-- The configuration with other grids and step functions, over another type of times. -/
def Cfg.withTimes (E : Cfg V K T N) (ts : List (List T')) (step : Nat → V → T' → T' → V) : Cfg V K T' N :=
  { ts := ts, step := step, R := E.R, I := E.I, cf := E.cf, w := E.w, start := E.start, zero := E.zero, guess := E.guess,
    cyc := E.cyc, nested := E.nested, maxIter := E.maxIter, convCrit := E.convCrit, norm := E.norm, tnorm := E.tnorm,
    ltTol := E.ltTol, outLvl := E.outLvl, ord := E.ord, P := E.P, instr := E.instr }

/-! ## The grids -/

section grids
variable {ts : List (List T)} {τ : T → T'}

theorem grid_map (l : Nat) : grid (ts.map (List.map τ)) l = (grid ts l).map τ := by
  unfold grid
  simp only [List.getD_eq_getElem?_getD, List.getElem?_map]
  cases ts[l]? <;> rfl

theorem npts_map (l : Nat) : npts (ts.map (List.map τ)) l = npts ts l := by
  unfold npts
  rw [grid_map, List.length_map]

theorem tAt_map {g : List T} {i : Nat} (h : i < g.length) : tAt (g.map τ) i = τ (tAt g i) := by
  unfold tAt
  simp [List.getD_eq_getElem?_getD, h]

variable (hv : Valid ts) (hτ : StrictMonoOn τ {x | x ∈ grid ts 0})
include hv hτ

theorem valid_map : Valid (ts.map (List.map τ)) where
  pos := by rw [List.length_map]; exact hv.pos
  ne0 := by
    rw [grid_map]
    intro h
    exact hv.ne0 (List.map_eq_nil_iff.1 h)
  sorted := by
    intro l
    rw [grid_map, List.pairwise_map]
    by_cases hl : l < ts.length
    · refine (hv.sorted l).imp_of_mem fun ha hb hab => ?_
      exact hτ (hv.sub_fine hl _ ha) (hv.sub_fine hl _ hb) hab
    · have : grid ts l = [] := by
        unfold grid
        rw [List.getD_eq_getElem?_getD, List.getElem?_eq_none (by omega)]
        rfl
      rw [this]
      exact List.Pairwise.nil
  nested := by
    intro l hl x hx
    rw [List.length_map] at hl
    rw [grid_map, List.mem_map] at hx ⊢
    obtain ⟨y, hy, rfl⟩ := hx
    exact ⟨y, hv.nested l hl y hy, rfl⟩
  start := by
    intro l hl
    rw [List.length_map] at hl
    rw [grid_map, grid_map, List.head?_map, List.head?_map, hv.start l hl]

theorem allC_shift {l : Nat} (hl : l < ts.length) : allC (ts.map (List.map τ)) l = allC ts l := by
  unfold allC
  rw [List.length_map, npts_map]
  split
  · refine List.filter_congr fun i hi => ?_
    rw [List.mem_range] at hi
    rw [grid_map, grid_map, tAt_map hi]
    congr 1
    apply propext
    rw [List.mem_map]
    constructor
    · rintro ⟨y, hy, e⟩
      have := hτ.injOn (hv.sub_fine (by omega) _ hy) (hv.sub_fine hl _ (tAt_mem hi)) e
      rwa [← this]
    · exact fun h => ⟨_, h, rfl⟩
  · rfl

theorem lo_map {P l r : Nat} (hP : P ≤ npts ts 0) (hl : l < ts.length) :
    lo (ts.map (List.map τ)) P l r = lo ts P l r := by
  unfold lo
  split
  · rename_i hr
    have hf : firstPt (npts ts 0) P r < (grid ts 0).length := by
      have h1 := firstPt_strictMono (n := npts ts 0) hP hr (Nat.le_refl P)
      rw [firstPt_last (by omega)] at h1
      exact h1
    rw [npts_map, grid_map, grid_map, tAt_map hf, List.filter_map, List.length_map]
    congr 1
    refine List.filter_congr fun x hx => ?_
    show decide (τ x < _) = _
    simp only [hτ.lt_iff_lt (hv.sub_fine hl _ hx) (tAt_mem hf)]
  · exact npts_map l

end grids

/-! ## The programs -/

section
variable {E : Cfg V K T N} {τ : T → T'} {step : Nat → V → T' → T' → V}

/-- The step functions agree on the intervals between neighbouring points. -/
def SameSteps (E : Cfg V K T N) (τ : T → T') (step : Nat → V → T' → T' → V) : Prop :=
  ∀ l i x, l < E.ts.length → i + 1 < npts E.ts l →
    step l x (τ (tAt (grid E.ts l) i)) (τ (tAt (grid E.ts l) (i + 1))) =
      E.step l x (tAt (grid E.ts l) i) (tAt (grid E.ts l) (i + 1))

/-- The transformed configuration. -/
abbrev Cfg.shifted (E : Cfg V K T N) (τ : T → T') (step : Nat → V → T' → T' → V) : Cfg V K T' N :=
  E.withTimes (E.ts.map (List.map τ)) step

variable (hv : Valid E.ts) (hτ : StrictMonoOn τ {x | x ∈ grid E.ts 0}) (hP : E.P ≤ npts E.ts 0)
  (ho : ∀ r l xs, (E.ord r l xs).Perm xs) (hs : SameSteps E τ step) {r l : Nat} (hr : r < E.P) (hl : l < E.ts.length)

include hv hτ hP ho hr hl in
/-- The stored information is the same, with transformed times. -/
theorem info_mono : (E.shifted τ step).info r l = { E.info r l with t := (E.info r l).t.map τ } := by
  have hl' : l < (E.ts.map (List.map τ)).length := by rw [List.length_map]; exact hl
  have hP' : E.P ≤ npts (E.ts.map (List.map τ)) 0 := by rw [npts_map]; exact hP
  have s' : LSpec0 (E.ts.map (List.map τ)) E.P r l ((E.shifted τ step).info r l) :=
    spec0 (valid_map hv hτ) hP' ho hr hl'
  have s : LSpec0 E.ts E.P r l (E.info r l) := spec0 hv hP ho hr hl
  have elo : ∀ q, lo (E.ts.map (List.map τ)) E.P l q = lo E.ts E.P l q := fun q => lo_map hv hτ hP hl
  have eoff : off (E.ts.map (List.map τ)) E.P l r = off E.ts E.P l r := by unfold off; rw [elo]
  have eC := allC_shift hv hτ hl
  have en := npts_map (ts := E.ts) (τ := τ) l
  have eAdj : ∀ a b, Adj (E.ts.map (List.map τ)) E.P l a b ↔ Adj E.ts E.P l a b := by
    intro a b; unfold Adj; simp only [elo]
  have epts : ((E.shifted τ step).info r l).pts = (E.info r l).pts := by rw [s'.pts, s.pts, elo, elo]
  have ecpts : ((E.shifted τ step).info r l).cpts = (E.info r l).cpts := by rw [s'.cpts, s.cpts, epts, eC]
  have eF : ((E.shifted τ step).info r l).idxF = (E.info r l).idxF := by
    have e1 : localPts (E.ts.map (List.map τ)) E.P r l = localPts E.ts E.P r l := epts
    have e2 : allF (E.ts.map (List.map τ)) l = allF E.ts l := by unfold allF; rw [eC, en]
    show (setupLevel (E.ts.map (List.map τ)) E.P (E.ord r l) r l).idxF = (setupLevel E.ts E.P (E.ord r l) r l).idxF
    simp only [setupLevel, mkLevel, e1, e2]
  have et : ((E.shifted τ step).info r l).t = (E.info r l).t.map τ := by
    have elen : ((E.shifted τ step).info r l).t.length = (E.info r l).t.length := by
      rw [s'.t_len, s.t_len, elo, elo, eoff]
    refine List.ext_getElem (by rw [elen, List.length_map]) fun j h1 h2 => ?_
    rw [List.length_map] at h2
    have hlen := s.t_len
    split at hlen
    · rename_i hlt
      have a1 := s'.t_at (by rw [elo, elo]; exact hlt) (j + off E.ts E.P l r) (by rw [eoff]; omega) (by rw [elo]; omega)
      have a2 := s.t_at hlt (j + off E.ts E.P l r) (by omega) (by omega)
      have hle := hv.lo_le E.P l (r + 1)
      rw [eoff, Nat.add_sub_cancel, tAt_eq h1, grid_map,
        tAt_map (show j + off E.ts E.P l r < (grid E.ts l).length by unfold npts at hle; omega)] at a1
      rw [Nat.add_sub_cancel, tAt_eq h2] at a2
      rw [a1, List.getElem_map, a2]
    · omega
  have hb : ∀ {a b : Bool} {p q : Prop}, (a = true ↔ p) → (b = true ↔ q) → (p ↔ q) → a = b := by
    intro a b p q h1 h2 h3
    exact Bool.eq_iff_iff.2 (h1.trans (h3.trans h2.symm))
  have ho' : ∀ {a b : Option Nat} {p q : Nat → Prop}, (∀ x, a = some x ↔ p x) → (∀ x, b = some x ↔ q x) →
      (∀ x, p x ↔ q x) → a = b := by
    intro a b p q h1 h2 h3
    exact Option.ext fun x => (h1 x).trans ((h3 x).trans (h2 x).symm)
  generalize (E.shifted τ step).info r l = J' at *
  generalize E.info r l = J at *
  obtain ⟨⟩ := J'
  obtain ⟨⟩ := J
  simp only [LvlInfo.mk.injEq]
  refine ⟨epts, ecpts, et, hb s'.commFront s.commFront ?_, hb s'.commBack s.commBack ?_, ?_, ?_, eF,
    hb s'.firstC s.firstC ?_, hb s'.firstF s.firstF ?_, hb s'.lastC s.lastC ?_, hb s'.lastF s.lastF ?_,
    ho' s'.sendTo s.sendTo fun q => eAdj r q, ho' s'.getFrom s.getFrom fun q => eAdj q r⟩
  · simp only [elo, eC]
  · simp only [elo, eC, en]
  · exact s'.idx.trans (by rw [elo, elo]; exact s.idx.symm)
  · refine s'.idxC.trans (Eq.trans ?_ s.idxC.symm)
    simp only at ecpts
    rw [ecpts, eoff]
  · simp only [elo, eC]
  · simp only [elo, eC]
  · simp only [elo, eC, en]
  · simp only [elo, eC, en]

end

section
variable {E : Cfg V K T N} {τ : T → T'} {step : Nat → V → T' → T' → V}

/-- All processes store the same information for the transformed grids, with transformed times. -/
def SameInfo (E : Cfg V K T N) (τ : T → T') : Prop :=
  ∀ r l, r < E.P → l < E.ts.length → setupLevel (E.ts.map (List.map τ)) E.P (E.ord r l) r l =
    { E.info r l with t := (E.info r l).t.map τ }

variable (hv : Valid E.ts) (hI : SameInfo E τ) (hP : E.P ≤ npts E.ts 0)
  (ho : ∀ r l xs, (E.ord r l xs).Perm xs) (hs : SameSteps E τ step) {r l : Nat} (hr : r < E.P) (hl : l < E.ts.length)

include hv hI hP ho hr hl in
theorem info_shifted : (E.shifted τ step).info r l = { E.info r l with t := (E.info r l).t.map τ } := hI r l hr hl

include hv hI hP ho hr hl in
theorem len_shifted : (E.shifted τ step).len r l = E.len r l := by
  unfold Cfg.len
  rw [info_shifted hv hI hP ho hr hl]
  exact List.length_map _

include hv hI hP ho hs hr hl

theorem stepAt_shifted {j : Nat} (hj : j ∈ (E.info r l).idx) (hj0 : ¬ (r = 0 ∧ j = 0)) (u : Nat → V) :
    (E.shifted τ step).stepAt r l j u = E.stepAt r l j u := by
  obtain ⟨h2, -, h3, h4, -⟩ := C55_index_ranges hv hP ho hr hl
  have h1 : 1 ≤ j := (h3 j hj).2 hj0
  obtain ⟨i, hi, e1, e2⟩ := h4 j hj h1
  have hlt : j < (E.info r l).t.length := h2 j (.inl hj)
  have hp : pyPrev (E.len r l) j = j - 1 := by unfold pyPrev; rw [if_neg (by omega)]
  unfold stepAt
  rw [len_shifted hv hI hP ho hr hl, info_shifted hv hI hP ho hr hl, hp, tAt_map hlt, tAt_map (by omega),
    show tAt (E.info r l).t (j - 1) = _ from e1, show tAt (E.info r l).t j = _ from e2]
  exact hs l i _ hl hi

theorem propAt_shifted {j : Nat} (hj : j ∈ (E.info r l).idx) (hj0 : ¬ (r = 0 ∧ j = 0)) (s : PState V N) :
    (E.shifted τ step).propAt r l j s = E.propAt r l j s := by
  unfold propAt
  rw [stepAt_shifted hv hI hP ho hs hr hl hj hj0]

theorem memC' {j : Nat} (hj : j ∈ (E.info r l).idxC) : j ∈ (E.info r l).idx :=
  (C05_partition hv hP ho hr hl).1.mem_iff.1 (List.mem_append.2 (.inl hj))

theorem memF' {j : Nat} (hj : j ∈ (E.info r l).idxF) : j ∈ (E.info r l).idx ∧ ¬ (r = 0 ∧ j = 0) := by
  have h1 := (C05_partition hv hP ho hr hl).1.mem_iff.1 (List.mem_append.2 (.inr hj))
  obtain ⟨-, h2, h3, -, -⟩ := C55_index_ranges hv hP ho hr hl
  exact ⟨h1, (h3 j h1).1 (h2 j hj)⟩

theorem fRelaxP_shifted (s : PState V N) : (E.shifted τ step).fRelaxP r l s = E.fRelaxP r l s := by
  have hi := info_shifted (step := step) hv hI hP ho hr hl
  have hn := len_shifted (step := step) hv hI hP ho hr hl
  have : ∀ s, Prog.forIn' (E.info r l).idxF ((E.shifted τ step).fBody r l) s =
      Prog.forIn' (E.info r l).idxF (E.fBody r l) s := by
    intro s
    refine forIn'_congr _ _ fun j hj s => ?_
    obtain ⟨h1, h2⟩ := memF' hv hI hP ho hs hr hl hj
    unfold fBody
    simp only [propAt_shifted hv hI hP ho hs hr hl h1 h2, hi]
    rfl
  unfold fRelaxP
  simp only [hi, hn, this]
  rfl

theorem cRelaxP_shifted (s : PState V N) : (E.shifted τ step).cRelaxP r l s = E.cRelaxP r l s := by
  have hi := info_shifted (step := step) hv hI hP ho hr hl
  have hn := len_shifted (step := step) hv hI hP ho hr hl
  have : ∀ s, (E.shifted τ step).cLoop r l s = E.cLoop r l s := by
    intro s
    unfold cLoop
    simp only [hi]
    refine foldl_congr_mem _ _ fun j hj s => ?_
    by_cases h : j ≠ 0 ∨ r ≠ 0
    · rw [if_pos h, if_pos h, propAt_shifted hv hI hP ho hs hr hl (memC' hv hI hP ho hs hr hl hj) (by omega)]
      rfl
    · rw [if_neg h, if_neg h]
  unfold cRelaxP
  simp only [hi, hn, this]
  rfl

theorem forwardSolveP_shifted (s : PState V N) :
    (E.shifted τ step).forwardSolveP r l s = E.forwardSolveP r l s := by
  have hi := info_shifted (step := step) hv hI hP ho hr hl
  have hn := len_shifted (step := step) hv hI hP ho hr hl
  have hsp : LSpec0 E.ts E.P r l (E.info r l) := spec0 hv hP ho hr hl
  have : ∀ s : PState V N, (List.range' 1 (E.len r l - 1)).foldl (fun s j =>
        s.setU l j ((E.shifted τ step).propAt r l j s)) s =
      (List.range' 1 (E.len r l - 1)).foldl (fun s j => s.setU l j (E.propAt r l j s)) s := by
    intro s
    refine foldl_congr_mem _ _ fun j hj s => ?_
    rw [List.mem_range'_1] at hj
    have hlen : E.len r l = _ := hsp.t_len
    rw [propAt_shifted hv hI hP ho hs hr hl _ (by omega)]
    rw [hsp.idx, List.mem_range'_1]
    split at hlen
    · have hg : off E.ts E.P l r + gh r = lo E.ts E.P l r := by
        unfold off gh
        by_cases hr0 : r = 0
        · simp [hr0]
        · have := hv.lo_pos hP hl (show r ≤ E.P by omega) (by omega)
          simp [hr0]; omega
      have : gh r ≤ 1 := by unfold gh; split <;> omega
      omega
    · omega
  unfold forwardSolveP
  simp only [hi, hn, this]
  rfl

theorem residualP_shifted (hl0 : l = 0) (s : PState V N) :
    (E.shifted τ step).residualP r s = E.residualP r s := by
  subst hl0
  have hi := info_shifted (step := step) hv hI hP ho hr hl
  have hn := len_shifted (step := step) hv hI hP ho hr hl
  have : ∀ s : PState V N, (((E.info r 0).idxC.filter fun j => decide (r ≠ 0 ∨ j ≠ 0)).map fun j =>
        E.norm ((E.shifted τ step).stepAt r 0 j (s.u 0) - s.u 0 j)) =
      ((E.info r 0).idxC.filter fun j => decide (r ≠ 0 ∨ j ≠ 0)).map fun j =>
        E.norm (E.stepAt r 0 j (s.u 0) - s.u 0 j) := by
    intro s
    refine List.map_congr_left fun j hj => ?_
    rw [List.mem_filter] at hj
    have h2 : r ≠ 0 ∨ j ≠ 0 := of_decide_eq_true hj.2
    rw [stepAt_shifted hv hI hP ho hs hr hl (memC' hv hI hP ho hs hr hl hj.1) (by omega)]
  unfold residualP
  simp only [hi, hn]
  show Prog.bind _ (fun s => Prog.bind _ fun s : PState V N => Prog.ret
    (((E.info r 0).idxC.filter fun j => decide (r ≠ 0 ∨ j ≠ 0)).map fun j =>
        E.norm ((E.shifted τ step).stepAt r 0 j (s.u 0) - s.u 0 j), s)) = _
  simp only [this]
  rfl

end

section
variable {E : Cfg V K T N} {τ : T → T'} {step : Nat → V → T' → T' → V}
  (hv : Valid E.ts) (hI : SameInfo E τ) (hP : E.P ≤ npts E.ts 0)
  (ho : ∀ r l xs, (E.ord r l xs).Perm xs) (hs : SameSteps E τ step) {r : Nat} (hr : r < E.P)
include hv hI hP ho hs hr

theorem fasResidualP_shifted {l : Nat} (hl : l + 1 < E.ts.length) (s : PState V N) :
    (E.shifted τ step).fasResidualP r l s = E.fasResidualP r l s := by
  have hi0 := info_shifted (step := step) hv hI hP ho hr (show l < E.ts.length by omega)
  have hi1 := info_shifted (step := step) hv hI hP ho hr hl
  have hn := len_shifted (step := step) hv hI hP ho hr (show l < E.ts.length by omega)
  have h1 : ∀ s, (E.shifted τ step).restrictLoop r l s = E.restrictLoop r l s := by
    intro s
    unfold restrictLoop
    simp only [hi0]
    rfl
  have h2 : ∀ s, (E.shifted τ step).fasLoop r l s = E.fasLoop r l s := by
    intro s
    unfold fasLoop
    simp only [hi0, hi1]
    refine foldl_congr_mem _ _ fun ci hci s => ?_
    by_cases h : ci.2 ≠ 0 ∨ r ≠ 0
    · rw [if_pos h, if_pos h]
      obtain ⟨hlen, hpair⟩ := C05_pairing hv hP ho hr hl
      obtain ⟨hk, he⟩ := List.mem_zipIdx' hci
      have hC : ci.1 ∈ (E.info r l).idxC := by rw [he]; exact List.getElem_mem hk
      have hk' : ci.2 < (E.info r (l + 1)).idx.length := by
        rw [show (E.info r (l + 1)).idx.length = _ from hlen.symm]; exact hk
      have hsp : LSpec0 E.ts E.P r (l + 1) (E.info r (l + 1)) := spec0 hv hP ho hr hl
      have hgd : (E.info r (l + 1)).idx.getD ci.2 0 = gh r + ci.2 := by
        rw [List.getD_eq_getElem?_getD, List.getElem?_eq_getElem hk', Option.getD_some]
        simp only [hsp.idx]
        rw [List.getElem_range']
        omega
      have hmem : (E.info r (l + 1)).idx.getD ci.2 0 ∈ (E.info r (l + 1)).idx := by
        rw [List.getD_eq_getElem?_getD, List.getElem?_eq_getElem hk', Option.getD_some]
        exact List.getElem_mem hk'
      have hgr : r ≠ 0 → gh r = 1 := fun h => by unfold gh; rw [if_neg h]
      have e1 := stepAt_shifted hv hI hP ho hs hr hl hmem (by rw [hgd]; rintro ⟨a, b⟩; omega) (s.v (l + 1))
      have hC0 : ¬ (r = 0 ∧ ci.1 = 0) := by
        rintro ⟨rfl, hz⟩
        obtain ⟨-, -, hsort, -⟩ := C05_partition hv hP ho hr (show l < E.ts.length by omega)
        have h0 : 0 < ci.2 := by omega
        have hk0 : ci.2 < (E.info 0 l).idxC.length := hk
        have := List.pairwise_iff_getElem.1 hsort 0 ci.2 (Nat.lt_trans h0 hk0) hk0 h0
        have h7 : ci.1 = (setupLevel E.ts E.P (E.ord 0 l) 0 l).idxC[ci.2] := he
        rw [← h7, hz] at this
        omega
      have e2 := stepAt_shifted hv hI hP ho hs hr (show l < E.ts.length by omega)
        (memC' hv hI hP ho hs hr (by omega) hC) hC0 (s.u l)
      simp only [e1, e2]
      rfl
    · rw [if_neg h, if_neg h]
  unfold fasResidualP
  simp only [h1, h2, hi0, hi1, hn]
  rfl

theorem errorCorrectionP_shifted {l : Nat} (hl : l + 1 < E.ts.length) (s : PState V N) :
    (E.shifted τ step).errorCorrectionP r l s = E.errorCorrectionP r l s := by
  unfold errorCorrectionP
  simp only [info_shifted (step := step) hv hI hP ho hr (show l < E.ts.length by omega)]
  rfl

theorem interpolateP_shifted {l : Nat} (hl : l + 1 < E.ts.length) (s : PState V N) :
    (E.shifted τ step).interpolateP r l s = E.interpolateP r l s := by
  unfold interpolateP
  simp only [info_shifted (step := step) hv hI hP ho hr (show l < E.ts.length by omega),
    info_shifted (step := step) hv hI hP ho hr hl]
  rfl

theorem L_shifted : (E.shifted τ step).L = E.L := List.length_map _

theorem vcycP_shifted (d l it : Nat) (ff : Bool) (hl : l + d < E.ts.length) (s : PState V N) :
    (E.shifted τ step).vcycP r d l it ff s = E.vcycP r d l it ff s := by
  induction d generalizing l ff s with
  | zero => exact forwardSolveP_shifted hv hI hP ho hs hr (by omega) s
  | succ d ih =>
    have hF := fun s => fRelaxP_shifted hv hI hP ho hs hr (show l < E.ts.length by omega) s
    have hC := fun s => cRelaxP_shifted hv hI hP ho hs hr (show l < E.ts.length by omega) s
    have hG := fun s => fasResidualP_shifted hv hI hP ho hs hr (l := l) (by omega) s
    have hE := fun s => errorCorrectionP_shifted hv hI hP ho hs hr (l := l) (by omega) s
    have hV := fun s => ih (l + 1) true (by omega) s
    unfold vcycP
    simp only [funext hF, hF, hC, hG, hE, hV]
    rfl

theorem iterationP_shifted (d l : Nat) (cyc : Sys.Cycle) (it : Nat) (ff : Bool) (hl : l + d < E.ts.length)
    (s : PState V N) :
    (E.shifted τ step).iterationP r d l cyc it ff s = E.iterationP r d l cyc it ff s := by
  induction d generalizing l ff s with
  | zero => exact forwardSolveP_shifted hv hI hP ho hs hr (by omega) s
  | succ d ih =>
    have hF := fun s => fRelaxP_shifted hv hI hP ho hs hr (show l < E.ts.length by omega) s
    have hC := fun s => cRelaxP_shifted hv hI hP ho hs hr (show l < E.ts.length by omega) s
    have hG := fun s => fasResidualP_shifted hv hI hP ho hs hr (l := l) (by omega) s
    have hE := fun s => errorCorrectionP_shifted hv hI hP ho hs hr (l := l) (by omega) s
    have hV := fun s => ih (l + 1) true (by omega) s
    have hW := fun ff s => vcycP_shifted hv hI hP ho hs hr (d + 1) l it ff (by omega) s
    unfold iterationP
    simp only [funext hF, hF, hC, hG, hE, hV, hW]
    rfl

theorem nestedLoopP_shifted (l : Nat) (hl : l < E.ts.length) (s : PState V N) :
    (E.shifted τ step).nestedLoopP r l s = E.nestedLoopP r l s := by
  induction l generalizing s with
  | zero => rfl
  | succ l ih =>
    have hN := fun s => interpolateP_shifted hv hI hP ho hs hr (l := l) (by omega) s
    have hV := fun s => iterationP_shifted hv hI hP ho hs hr (E.L - 1 - l) l .V 0 true
      (by unfold Cfg.L; omega) s
    have hS := fun s => ih (by omega) s
    unfold nestedLoopP
    simp only [hN, L_shifted hv hI hP ho hs hr, hV, funext hS]

theorem nestedIterationP_shifted (s : PState V N) :
    (E.shifted τ step).nestedIterationP r s = E.nestedIterationP r s := by
  have hpos := hv.pos
  have h1 := fun s => forwardSolveP_shifted hv hI hP ho hs hr (l := E.L - 1) (by unfold Cfg.L; omega) s
  have h2 := fun s => nestedLoopP_shifted hv hI hP ho hs hr (E.L - 1) (by unfold Cfg.L; omega) s
  unfold nestedIterationP
  rw [L_shifted hv hI hP ho hs hr, h1, funext h2]

theorem convergenceP_shifted (it : Nat) (s : PState V N) :
    (E.shifted τ step).convergenceP r it s = E.convergenceP r it s := by
  have h1 := fun s => residualP_shifted hv hI hP ho hs hr hv.pos rfl s
  have h2 : ∀ s, (E.shifted τ step).jumpP r s = E.jumpP r s := by
    intro s
    unfold jumpP
    simp only [info_shifted (step := step) hv hI hP ho hr hv.pos]
    rfl
  unfold convergenceP
  simp only [h1, h2]
  rfl

theorem cleanUpP_shifted (s : PState V N) : (E.shifted τ step).cleanUpP r s = E.cleanUpP r s := by
  have hpos := hv.pos
  have hL := L_shifted hv hI hP ho hs hr
  have h1 : ∀ s, Prog.forIn' (List.range (E.L - 1)) ((E.shifted τ step).cleanSend r) s =
      Prog.forIn' (List.range (E.L - 1)) (E.cleanSend r) s := by
    intro s
    refine forIn'_congr _ _ fun l hl s => ?_
    rw [List.mem_range] at hl
    unfold Cfg.L at hl
    unfold cleanSend
    simp only [info_shifted (step := step) hv hI hP ho hr (show l < E.ts.length by omega),
      info_shifted (step := step) hv hI hP ho hr (show l + 1 < E.ts.length by omega),
      len_shifted (step := step) hv hI hP ho hr (show l < E.ts.length by omega)]
    rfl
  have h2 : ∀ s, Prog.forIn' (List.range (E.L - 1)) ((E.shifted τ step).cleanRecv r) s =
      Prog.forIn' (List.range (E.L - 1)) (E.cleanRecv r) s := by
    intro s
    refine forIn'_congr _ _ fun l hl s => ?_
    rw [List.mem_range] at hl
    unfold Cfg.L at hl
    unfold cleanRecv
    simp only [info_shifted (step := step) hv hI hP ho hr (show l < E.ts.length by omega),
      info_shifted (step := step) hv hI hP ho hr (show l + 1 < E.ts.length by omega)]
    rfl
  unfold cleanUpP
  simp only [hL, h1, h2, info_shifted (step := step) hv hI hP ho hr hpos, len_shifted (step := step) hv hI hP ho hr hpos,
    info_shifted (step := step) hv hI hP ho hr (show E.L - 1 < E.ts.length by unfold Cfg.L; omega)]
  rfl

theorem solveLoopP_shifted (k it : Nat) (s : PState V N) :
    (E.shifted τ step).solveLoopP r k it s = E.solveLoopP r k it s := by
  have hpos := hv.pos
  induction k generalizing it s with
  | zero => rfl
  | succ k ih =>
    have h1 := fun s => iterationP_shifted hv hI hP ho hs hr (E.L - 1) 0 E.cyc it true
      (by unfold Cfg.L; omega) s
    have h2 := fun s => convergenceP_shifted hv hI hP ho hs hr (it + 1) s
    have h3 := fun s => ih (it + 1) s
    have h4 := fun s => cleanUpP_shifted hv hI hP ho hs hr s
    unfold solveLoopP
    simp only [L_shifted hv hI hP ho hs hr, show (E.shifted τ step).cyc = E.cyc from rfl, h1, h2, h3, h4]
    rfl

theorem mainP_shifted (s : PState V N) : (E.shifted τ step).mainP r s = E.mainP r s := by
  have h1 := fun s => nestedIterationP_shifted hv hI hP ho hs hr s
  have h2 := fun s => solveLoopP_shifted hv hI hP ho hs hr E.maxIter 0 s
  have h3 : ∀ s, (E.shifted τ step).solveP r s = E.solveP r s := by
    intro s
    unfold solveP
    simp only [show (E.shifted τ step).maxIter = E.maxIter from rfl, h2]
    rfl
  have h4 : (E.shifted τ step).setupP r s = E.setupP r s := by
    unfold setupP
    simp only [h1]
    rfl
  unfold mainP
  rw [h4, funext h3]

end

/-- The programs are the same. -/
theorem startConf_shifted {E : Cfg V K T N} {τ : T → T'} {step : Nat → V → T' → T' → V} (hv : Valid E.ts)
    (hI : SameInfo E τ) (hP : E.P ≤ npts E.ts 0) (ho : ∀ r l xs, (E.ord r l xs).Perm xs) (hs : SameSteps E τ step)
    (hoff : ∀ r j, r < E.P → E.guess (j + off (E.ts.map (List.map τ)) E.P 0 r) = E.guess (j + off E.ts E.P 0 r)) :
    startConf (E.withTimes (E.ts.map (List.map τ)) step) = startConf E := by
  show (⟨_, _⟩ : Conf E.P _ _) = ⟨_, _⟩
  congr 1
  funext r
  rw [mainP_shifted hv hI hP ho hs r.isLt]
  congr 1
  unfold initState
  congr 1
  funext l j
  by_cases hl : l = 0
  · subst hl
    show (if _ then _ else if 0 = 0 then E.guess (j + off (E.ts.map (List.map τ)) E.P 0 r) else _) = _
    rw [hoff r j r.isLt]
    rfl
  · simp only [if_neg hl]
    rfl

/-! ## The property -/

/-- C110.  All grids transformed by a map that is strictly increasing on the points of the finest grid, and step functions
that give the same values on the transformed intervals: constructor and `solve()` are the same programs on all processes, so
every execution gives the same values, convergence history, number of iterations, messages and outputs. -/
theorem C110_change_of_time (E : Cfg V K T N) (hv : Valid E.ts) (hP : E.P ≤ npts E.ts 0)
    (ho : ∀ r l xs, (E.ord r l xs).Perm xs) (τ : T → T') (hτ : ∀ x ∈ grid E.ts 0, ∀ y ∈ grid E.ts 0, x < y → τ x < τ y)
    (step : Nat → V → T' → T' → V)
    (hs : ∀ l i x, l < E.ts.length → i + 1 < npts E.ts l →
      step l x (τ (tAt (grid E.ts l) i)) (τ (tAt (grid E.ts l) (i + 1))) =
        E.step l x (tAt (grid E.ts l) i) (tAt (grid E.ts l) (i + 1))) :
    startConf (E.withTimes (E.ts.map (List.map τ)) step) = startConf E := by
  have hτ' : StrictMonoOn τ {x | x ∈ grid E.ts 0} := fun x hx y hy h => hτ x hx y hy h
  refine startConf_shifted hv (fun r l hr hl => info_mono (step := step) hv hτ' hP ho hr hl) hP ho hs fun r _ _ => ?_
  unfold off
  rw [lo_map hv hτ' hP hv.pos]

/-- C110.  Another unit and another origin of time, for steps that take the old times from the new ones. -/
theorem C110_unit_and_origin {F : Type} [Field F] [LinearOrder F] [IsStrictOrderedRing F] [Inhabited F] (E : Cfg V K F N) (hv : Valid E.ts)
    (hP : E.P ≤ npts E.ts 0) (ho : ∀ r l xs, (E.ord r l xs).Perm xs) (a b : F) (ha : 0 < a) :
    startConf (E.withTimes (E.ts.map (List.map fun t => a * t + b))
      fun l x t0 t1 => E.step l x ((t0 - b) / a) ((t1 - b) / a)) = startConf E := by
  refine C110_change_of_time E hv hP ho _ (fun x _ y _ h => ?_) _ fun l i x _ _ => ?_
  · have := mul_lt_mul_of_pos_left h ha
    simpa using this
  · have h : ∀ t : F, (a * t + b - b) / a = t := fun t => by
      rw [add_sub_cancel_right, mul_div_cancel_left₀ _ ha.ne']
    rw [h, h]

/-- C110.  Autonomous problems (`step` depends on the length of the interval only): the origin of time does not matter. -/
theorem C110_autonomous {F : Type} [Field F] [LinearOrder F] [IsStrictOrderedRing F] [Inhabited F] (E : Cfg V K F N) (hv : Valid E.ts)
    (hP : E.P ≤ npts E.ts 0) (ho : ∀ r l xs, (E.ord r l xs).Perm xs) (φ : Nat → V → F → V)
    (hE : E.step = fun l x t0 t1 => φ l x (t1 - t0)) (b : F) :
    startConf { E with ts := E.ts.map (List.map fun t => t + b) } = startConf E := by
  refine C110_change_of_time E hv hP ho (fun t => t + b) (fun x _ y _ h => by simpa using h) E.step fun l i x _ _ => ?_
  rw [hE]
  simp

/-- C110.  Only the positions of the points matter: two hierarchies, possibly over different types of times, with the same
number of levels and points whose coarse points are at the same positions of the next finer grid, and steps with the same
values from point to point, give the same programs. -/
theorem C110_positions (E : Cfg V K T N) (ts : List (List T')) (step : Nat → V → T' → T' → V) (hv : Valid E.ts) (hv' : Valid ts)
    (hP : E.P ≤ npts E.ts 0) (ho : ∀ r l xs, (E.ord r l xs).Perm xs) (hL : ts.length = E.ts.length)
    (hn : npts ts 0 = npts E.ts 0)
    (hC : ∀ l i, l + 1 < E.ts.length → i < npts E.ts l →
      (tAt (grid ts l) i ∈ grid ts (l + 1) ↔ tAt (grid E.ts l) i ∈ grid E.ts (l + 1)))
    (hs : ∀ l i x, l < E.ts.length → i + 1 < npts E.ts l →
      step l x (tAt (grid ts l) i) (tAt (grid ts l) (i + 1)) =
        E.step l x (tAt (grid E.ts l) i) (tAt (grid E.ts l) (i + 1))) :
    startConf (E.withTimes ts step) = startConf E := by
  let τ : T → T' := fun x => tAt (grid ts 0) ((grid E.ts 0).idxOf x)
  have hτ0 : ∀ i, i < npts E.ts 0 → τ (tAt (grid E.ts 0) i) = tAt (grid ts 0) i := by
    intro i hi
    show tAt (grid ts 0) ((grid E.ts 0).idxOf (tAt (grid E.ts 0) i)) = _
    rw [tAt_eq hi, List.Nodup.idxOf_getElem ((hv.sorted 0).imp fun h => ne_of_lt h) i hi]
  have hg : ∀ l, l < E.ts.length → grid ts l = (grid E.ts l).map τ := by
    intro l
    induction l with
    | zero =>
      intro _
      refine List.ext_getElem (by rw [List.length_map]; exact hn) fun i h1 h2 => ?_
      rw [List.length_map] at h2
      have := hτ0 i h2
      rw [tAt_eq h1, tAt_eq h2] at this
      rw [List.getElem_map, this]
    | succ l ih =>
      intro hl
      have hg := ih (by omega)
      have hnl : npts ts l = npts E.ts l := by unfold npts; rw [hg, List.length_map]
      have hc : allC ts l = allC E.ts l := by
        unfold allC
        rw [hL, hnl]
        split
        · refine List.filter_congr fun i hi => ?_
          rw [List.mem_range] at hi
          simp only [hC l i hl hi]
        · rfl
      rw [← allC_map hv' (l := l) (by omega), ← allC_map hv (l := l) hl, hc, List.map_map]
      refine List.map_congr_left fun i hi => ?_
      rw [hg]
      exact tAt_map (allC_lt hi)
  have hts : ts = E.ts.map (List.map τ) := by
    refine List.ext_getElem (by rw [List.length_map]; exact hL) fun l h1 h2 => ?_
    rw [List.length_map] at h2
    have := hg l h2
    unfold grid at this
    rw [List.getD_eq_getElem?_getD, List.getD_eq_getElem?_getD, List.getElem?_eq_getElem h1,
      List.getElem?_eq_getElem h2] at this
    rw [List.getElem_map]
    exact this
  rw [hts]
  refine C110_change_of_time E hv hP ho τ ?_ step fun l i x hl hi => ?_
  · intro x hx y hy hxy
    obtain ⟨i, hi, rfl⟩ := mem_iff_tAt.1 hx
    obtain ⟨j, hj, rfl⟩ := mem_iff_tAt.1 hy
    have := (tAt_lt_iff (hv.sorted 0) hi hj).1 hxy
    rw [hτ0 i hi, hτ0 j hj]
    exact (tAt_lt_iff (hv'.sorted 0) (by unfold npts at hn; omega) (by unfold npts at hn; omega)).2 this
  · have := hs l i x hl hi
    have hlt : i + 1 < (grid E.ts l).length := hi
    rwa [hg l hl, tAt_map (by omega), tAt_map hlt] at this

/-- The example grid of six points in another unit of time, on three processes. -/
example : startConf ((exCfg 3).withTimes (exGrid.map (List.map fun t => 10 * t + 5))
    fun l x t0 t1 => x * x + (((t1 - 5) / 10 : Nat) : Int) - (((t0 - 5) / 10 : Nat) : Int) + l) = startConf (exCfg 3) := by
  refine C110_change_of_time (exCfg 3) exGrid_valid (by decide) (fun _ _ _ => .refl _) _ (fun x _ y _ h => by omega) _
    fun l i x _ _ => ?_
  rw [show ∀ t, (10 * t + 5 - 5) / 10 = t by intro t; omega, show ∀ t, (10 * t + 5 - 5) / 10 = t by intro t; omega]
  rfl

/-- The same points counted from the middle of the interval, as integers. -/
def exGridInt : List (List Int) := [[-4, -3, -2, -1, 0, 1, 2, 3, 4], [-4, -2, 0, 2, 4], [-4, 0, 4]]

theorem exGridInt_valid : Valid exGridInt where
  pos := by decide
  ne0 := by decide
  sorted := by
    intro l
    match l with
    | 0 => decide
    | 1 => decide
    | 2 => decide
    | _ + 3 => exact List.Pairwise.nil
  nested := by
    intro l hl
    match l with
    | 0 => decide
    | 1 => decide
    | _ + 2 => exact absurd hl (by simp [exGridInt])
  start := by
    intro l hl
    match l with
    | 0 => rfl
    | 1 => rfl
    | 2 => rfl
    | _ + 3 => exact absurd hl (by simp [exGridInt])

example : startConf ((exCfg 3).withTimes exGridInt fun l x t0 t1 => x * x + t1 - t0 + l) = startConf (exCfg 3) := by
  refine C110_positions (exCfg 3) exGridInt _ exGrid_valid exGridInt_valid (by decide) (fun _ _ _ => .refl _) rfl rfl
    (fun l i hl hi => ?_) fun l i x hl hi => ?_
  · have hl' : l + 1 < 3 := hl
    match l with
    | 0 => have : i < 9 := hi; interval_cases i <;> decide
    | 1 => have : i < 5 := hi; interval_cases i <;> decide
    | _ + 2 => omega
  · have hl' : l < 3 := hl
    match l with
    | 0 => have : i + 1 < 9 := hi; have h : i < 8 := by omega
           interval_cases i <;> simp [exGridInt, exCfg, exGrid, grid, tAt] <;> ring
    | 1 => have : i + 1 < 5 := hi; have h : i < 4 := by omega
           interval_cases i <;> simp [exGridInt, exCfg, exGrid, grid, tAt] <;> ring
    | 2 => have : i + 1 < 3 := hi; have h : i < 2 := by omega
           interval_cases i <;> simp [exGridInt, exCfg, exGrid, grid, tAt] <;> ring
    | _ + 3 => omega

end Pymgrit
