import Verif.PlotsLemmas
import Verif.PropsGrid
import Verif.PropsConstruct
import Verif.EndToEnd2
import Verif.Examples

/-!
# Property C105: the plots show what the solver does

The letters of a plotted cycle are compared with the log of the operations of the cycle (`Verif.Trace`), the boxes and
ticks of the distribution plot with the points of the processes (`Verif.Grid`), the points of the convergence plot with
the values of the stopping criterion.
-/

set_option linter.unusedSectionVars false

namespace Pymgrit
namespace Plot
open Sys Trace

/-! ## The cycle plot -/

/-- C105 fails for the cycle plot: for every accepted set of arguments, on the process that plots, `plot_cycle` raises
`TypeError` as soon as there is anything to draw, because `cf_iter` is a list after the constructor. -/
theorem C105_cycle_counterexample {T : Type} [LinearOrder T] [Inhabited T] (a : Args T) (p : Params)
    (_h : construct a = .ok p) (nes : Bool) (iterations : Nat) (hd : nes = true ∨ 0 < iterations) :
    plotCycle 0 false a.ts.length p.cyc nes (.list p.cf) iterations = .error .typeError := by
  have hm : ∀ res, mask (.list p.cf) res = .error .typeError := fun _ => rfl
  unfold plotCycle plot cycleFig
  cases nes with
  | true => simp [partNes, hm, bind, Except.bind, Except.map]
  | false =>
    have hi : 0 < iterations := by simpa using hd
    obtain ⟨n, rfl⟩ : ∃ n, iterations = n + 1 := ⟨iterations - 1, by omega⟩
    rw [List.range_succ_eq_map]
    simp [parts, partIter, hm, bind, Except.bind, Except.map]

example : ∃ p, construct (⟨exGrid, none, "V", 1, 2, 0, .int 1, 10, 3, 0⟩ : Args Nat) = .ok p ∧ p.cf = [1, 1, 1] := ⟨_, rfl, rfl⟩

/-- The parts of the figure if `cf_iter` were an integer. -/
theorem parts_int (k : Int) (lenNes : Nat) (result : List Int) (is : List Nat) :
    parts (.int k) lenNes result is = .ok (is.map fun i => place (i * result.length + lenNes) result
      (if i ≠ 0 then dropFirst (result.map (label (downText k.toNat))) else result.map (label (downText k.toNat)))) := by
  induction is with
  | nil => rfl
  | cons i is ih => simp only [parts, ih]; rfl

theorem txt_dropFirst (L k : Nat) (r : Int) (hr : r < 0) (rs : List Int) :
    lab L k (r :: rs) = (L - 1 - r.natAbs, 'F') :: txt L (r :: rs) (dropFirst ((r :: rs).map (label (downText k)))) := by
  rw [← txt_map]
  simp [txt, dropFirst, label, hr, downText]

theorem txt_clearLast (L k : Nat) (xs : List Int) (x : Int) :
    txt L (xs ++ [x]) (clearLast ((xs ++ [x]).map (label (downText k)))) = lab L k xs := by
  unfold clearLast
  rw [List.map_append, List.map_singleton, List.dropLast_concat, ← txt_map]
  unfold txt
  rw [List.zip_append (by simp)]
  simp

/-- Below the finest level the number of the iteration does not matter. -/
theorem vops_it {cf : Nat → Nat} (d l it it' : Nat) (ff : Bool) (hl : 0 < l) :
    vops cf d l it ff = vops cf d l it' ff := by
  induction d generalizing l ff with
  | zero => rfl
  | succ d ih => simp only [vops, hl, true_or, ih (l + 1) true (by omega)]

theorem ops_it {cf : Nat → Nat} (d l it it' : Nat) (cyc : Cycle) (ff : Bool) (hl : 0 < l) :
    ops cf d l cyc it ff = ops cf d l cyc it' ff := by
  induction d generalizing l ff with
  | zero => rfl
  | succ d ih => simp only [ops, hl, true_or, ih (l + 1) true (by omega), vops_it (d + 1) l it it' false hl]

/-- The first iteration has one more F-relaxation, at its start. -/
theorem letters_first {cf : Nat → Nat} (d it : Nat) (cyc : Cycle) (hit : it ≠ 0) :
    letters (ops cf (d + 1) 0 cyc 0 true) = (0, 'F') :: letters (ops cf (d + 1) 0 cyc it true) := by
  simp only [ops, letters_append, ops_it d 1 0 it cyc true (by omega), Nat.zero_add]
  simp [hit, letters_pre]
  rfl

theorem resultIter_head (d : Nat) (cyc : Cycle) : ∃ rs, resultIter (d + 2) cyc = (-((d + 1 : Nat) : Int)) :: rs := by
  cases cyc with
  | V => exact ⟨_, by rw [resultIter, show d + 2 - 1 = d + 1 by omega, lins_succ, List.cons_append]⟩
  | F => exact ⟨_, by rw [resultIter, desc_succ, List.cons_append]⟩

theorem vops_false_it {cf : Nat → Nat} (d it : Nat) : vops cf d 0 it false = vops cf d 0 0 false := by
  cases d with
  | zero => rfl
  | succ d => simp only [vops, vops_it d 1 it 0 true (by omega), Nat.zero_add, Bool.false_eq_true, and_false, if_false]

theorem length_dropFirst (ss : List (List Char)) : (dropFirst ss).length = ss.length := by
  cases ss <;> rfl

theorem count_cf (l k n : Nat) : (cfLetters l k).count (n, 'S') = 0 := by
  rw [List.count_eq_zero]
  intro h
  simp [cfLetters] at h

/-- A V-cycle has one coarsest solve. -/
theorem count_lins (L k d : Nat) : (lab L k (lins d)).count (L - 1, 'S') = 1 := by
  induction d with
  | zero => simp [lins_zero, lab, label]
  | succ d ih =>
    rw [lab_lins_succ, List.count_append, List.count_append, ih, List.count_cons, count_cf]
    simp

theorem xs_place (x0 : Nat) (result : List Int) (strings : List (List Char)) (h : strings.length = result.length) :
    (place x0 result strings).map Node.x = List.range' x0 result.length := by
  apply List.ext_getElem
  · simp [place, h]
  · intro i h1 h2
    simp [place]

/-- C105, the part that holds, for the cycle plot with the number of CF-relaxations as an integer `k ≥ 0` (what the plot
function is written for) that is the same on all levels, and at least two levels.  For a V-cycle the letters of the
plot, read from left to right with the level they are drawn at, are the operations of nested iteration (`F`
F-relaxation, `C` C-relaxation, `S` coarsest solve) and of every iteration, in their order; the first F-relaxation is
only shown where it is done.  Texts are drawn at positions `0, 1, 2, …`.  Missing: `cf_iter` is a list (see
`C105_cycle_counterexample`), and the F-cycle (see `C105_fcycle_counterexample`). -/
theorem C105_cycle_partial {cf : Nat → Nat} {L k : Nat} (hcf : ∀ l, l + 1 < L → cf l = k) (hL : 2 ≤ L) (nes : Bool)
    (iterations : Nat) :
    ∃ nodes ps, plotCycle 0 false L .V nes (.int k) iterations = .ok (some (nodes, ps)) ∧
      drawn L nodes = (if nes then letters (nestedLog L cf) else []) ∧ ps.length = iterations ∧
      (∀ i (hi : i < ps.length), drawn L ps[i] = letters (Trace.log cf (L - 1) 0 .V i true)) ∧
      ∃ m, (nodes ++ ps.flatten).map Node.x = List.range m := by
  obtain ⟨d, rfl⟩ : ∃ d, L = d + 2 := ⟨L - 2, by omega⟩
  set nodes := if nes then place 0 (resultNes (d + 2)) (clearLast ((resultNes (d + 2)).map (label (downText k)))) else []
    with hnodes
  set R := resultIter (d + 2) .V with hR
  set ln := if nes then (resultNes (d + 2)).length else 0 with hln
  have hnl : nodes.map Node.x = List.range ln := by
    rw [hnodes, hln]
    cases nes with
    | false => rfl
    | true =>
      simp only [if_true]
      rw [xs_place _ _ _ (by simp [clearLast, resultNes]), List.range_eq_range']
  refine ⟨nodes, (List.range iterations).map fun i => place (i * R.length + ln) R
    (if i ≠ 0 then dropFirst (R.map (label (downText k))) else R.map (label (downText k))), ?_, ?_, by simp, ?_, ?_⟩
  · unfold plotCycle plot cycleFig
    rw [parts_int]
    cases nes <;> rfl
  · rw [hnodes]
    cases nes with
    | false => rfl
    | true =>
      simp only [if_true]
      rw [drawn_place, resultNes, txt_clearLast, nestedLog_eq, show ∀ (o : OpKind × Nat) xs, o :: xs = [o] ++ xs from
        fun _ _ => rfl, letters_append, ← letters_nops hcf (d + 1) (by omega) (by omega)]
      congr 1
      rw [show d + 2 - (d + 1) = 1 by omega]
      rfl
  · intro i hi
    simp only [List.getElem_map, List.getElem_range]
    rw [drawn_place, log_eq, show d + 2 - 1 = d + 1 by omega]
    have h0 : lab (d + 2) k R = letters (ops cf (d + 1) 0 .V 0 true) := by
      rw [ops_V, letters_vops hcf (d + 1) 0 0 (by omega) (by omega), hR, resultIter, show d + 2 - 1 = d + 1 by omega]
    by_cases hi0 : i = 0
    · subst hi0
      simp only [ne_eq, not_true_eq_false, if_false]
      rw [txt_map, h0]
    · simp only [ne_eq, hi0, not_false_eq_true, if_true]
      rw [letters_first d i .V hi0] at h0
      obtain ⟨rs, hrs⟩ := resultIter_head d .V
      rw [hR, hrs, txt_dropFirst _ _ _ (by omega)] at h0
      rw [hR, hrs]
      exact (List.cons.inj h0).2
  · refine ⟨ln + iterations * R.length, ?_⟩
    rw [List.map_append, hnl]
    induction iterations with
    | zero => simp
    | succ n ih =>
      rw [List.range_succ, List.map_append, List.flatten_append, List.map_append, ← List.append_assoc, ih]
      simp only [List.map_cons, List.map_nil, List.flatten_cons, List.flatten_nil, List.append_nil]
      rw [xs_place _ _ _ (by split <;> simp [length_dropFirst]), List.range_eq_range', List.range_eq_range',
        show n * R.length + ln = 0 + (ln + n * R.length) by ring, List.range'_append_1]
      congr 1; ring

/-- C105 fails for the plot of the F-cycle, with an integer number of CF-relaxations that is the same on all levels: the
plotted iteration is the iteration of the solver, followed by a V-cycle on the finest level the solver does not do.  The
plot shows one more coarsest solve. -/
theorem C105_fcycle_counterexample {cf : Nat → Nat} {L k : Nat} (hcf : ∀ l, l + 1 < L → cf l = k) (hL : 2 ≤ L)
    (iterations : Nat) (hi : 0 < iterations) :
    ∃ p ps, plotCycle 0 false L .F false (.int k) iterations = .ok (some ([], p :: ps)) ∧
      drawn L p = letters (Trace.log cf (L - 1) 0 .F 0 true) ++ letters (Trace.vcyc cf record (L - 1) 0 0 false []) ∧
      (drawn L p).count (L - 1, 'S') = (letters (Trace.log cf (L - 1) 0 .F 0 true)).count (L - 1, 'S') + 1 := by
  obtain ⟨n, rfl⟩ : ∃ n, iterations = n + 1 := ⟨iterations - 1, by omega⟩
  have hp : ∃ ps, plotCycle 0 false L .F false (.int k) (n + 1) =
      .ok (some ([], place 0 (resultIter L .F) ((resultIter L .F).map (label (downText k))) :: ps)) := by
    unfold plotCycle plot cycleFig
    rw [parts_int, List.range_succ_eq_map, List.map_cons]
    exact ⟨_, by simp only [Nat.zero_mul, Nat.zero_add]; rfl⟩
  obtain ⟨ps, hps⟩ := hp
  refine ⟨_, ps, hps, ?_, ?_⟩
  · rw [drawn_place, txt_map, lab_F hcf hL, log_eq, vlog_eq]
  · rw [drawn_place, txt_map, lab_F hcf hL, log_eq, List.count_append]
    congr 1
    obtain ⟨d, rfl⟩ : ∃ d, L = d + 2 := ⟨L - 2, by omega⟩
    have h1 := count_lins (d + 2) k (d + 1)
    rw [letters_vops_tail hcf d 0 0 (by omega) false (by simp), List.count_cons] at h1
    simpa using h1

/-- Both theorems on a three-level cycle with one CF-relaxation. -/
example : ∀ l, l + 1 < 3 → (fun _ : Nat => 1) l = 1 := fun _ _ => rfl

#guard letters (Trace.log (fun _ => 1) 2 0 .F 1 true) = [(0, 'C'), (0, 'F'), (1, 'F'), (1, 'C'), (1, 'F'), (2, 'S'), (1, 'F'),
  (1, 'C'), (1, 'F'), (2, 'S'), (1, 'F'), (0, 'F')]

/-- With spatial parallelism no process plots anything. -/
theorem C105_spatial_counterexample {α : Type} (timeRank : Nat) (f : Except Err α) : plot timeRank true f = .ok none := by
  unfold plot; split <;> rfl

/-- C105, the part that holds without spatial parallelism: of all processes that call a plot function exactly one draws,
process 0, and it draws what the function builds. -/
theorem C105_one_process_partial {α : Type} (timeRank : Nat) (x y : α) :
    plot timeRank false (.ok x : Except Err α) = .ok (some y) ↔ timeRank = 0 ∧ y = x := by
  unfold plot
  split <;> rename_i h
  · simp only [h, true_and, Bool.false_eq_true, if_false, Except.map]
    constructor
    · intro h'
      cases h'
      rfl
    · rintro rfl
      rfl
  · simp [h]

/-! ## The distribution plot -/

/-- A fine index lies in the interval of a box from `a - 1/4` with width `m - 1/4` if and only if it is one of
`a, …, a + m - 1`. -/
theorem in_box (a m j : Nat) :
    ((a : ℚ) - 1 / 4 ≤ j ∧ (j : ℚ) ≤ (a : ℚ) - 1 / 4 + ((m : ℚ) - 1 / 4)) ↔ a ≤ j ∧ j < a + m := by
  constructor
  · rintro ⟨h1, h2⟩
    constructor
    · by_contra h
      have : (j : ℚ) + 1 ≤ a := by exact_mod_cast Nat.lt_of_not_le h
      linarith
    · by_contra h
      have : ((a + m : ℕ) : ℚ) ≤ j := by exact_mod_cast Nat.le_of_not_lt h
      push_cast at this
      linarith
  · rintro ⟨h1, h2⟩
    have e1 : (a : ℚ) ≤ j := by exact_mod_cast h1
    have e2 : ((j + 1 : ℕ) : ℚ) ≤ ((a + m : ℕ) : ℚ) := by exact_mod_cast h2
    push_cast at e2
    constructor <;> linarith

theorem mem_boxes {n P L : Nat} (hP : 0 < P) (b : Box) : b ∈ boxes n P L ↔
    (∃ i j, 0 < i ∧ i < L ∧ j < P ∧
      b = ⟨(firstPt n P j : ℚ) - 1 / 4, ((splitInto n P).getD j 0 : ℚ) - 1 / 4, i, j⟩) ∨
    (0 < L ∧ b = ⟨(0 : ℚ) - 1 / 4, (n : ℚ) - 1 / 4, 0, 0⟩) := by
  have hlen := splitInto_length (n := n) hP
  have hsum : (splitInto n P).sum = n := by
    have := firstPt_last (n := n) hP
    rwa [firstPt, List.take_of_length_le (by omega)] at this
  unfold boxes
  simp only [List.mem_flatMap, List.mem_range]
  constructor
  · rintro ⟨i, hi, hb⟩
    by_cases h0 : i = 0
    · subst h0
      right
      rw [if_neg (by simp), if_neg (by omega), List.mem_singleton] at hb
      exact ⟨hi, by rw [hb, hsum]; simp⟩
    · left
      rw [if_pos h0, List.mem_map] at hb
      obtain ⟨j, hj, rfl⟩ := hb
      rw [List.mem_range, hlen] at hj
      exact ⟨i, j, by omega, hi, hj, rfl⟩
  · rintro (⟨i, j, h1, h2, h3, rfl⟩ | ⟨h1, rfl⟩)
    · refine ⟨i, h2, ?_⟩
      rw [if_pos (by omega), List.mem_map]
      exact ⟨j, by rw [List.mem_range, hlen]; exact h3, rfl⟩
    · refine ⟨0, h1, ?_⟩
      rw [if_neg (by simp), if_neg (by omega), List.mem_singleton, hsum]
      simp

section
variable {T : Type} [LinearOrder T] [Inhabited T]

theorem mem_inFine {ts : List (List T)} {i j : Nat} :
    j ∈ inFine ts i ↔ j < npts ts 0 ∧ tAt (grid ts 0) j ∈ grid ts i := by
  simp [inFine]

theorem mem_levelTicks {ts : List (List T)} {coarse fine : List Nat} {i : Nat} (t : Tick) :
    t ∈ levelTicks ts coarse fine i ↔ t.x < npts ts 0 ∧ t.row = ts.length - 1 - i ∧
      ((t.long = true ∧ t.x ∈ coarse) ∨ (t.long = false ∧ t.x ∉ coarse ∧ t.x ∈ fine)) := by
  unfold levelTicks
  rw [List.mem_filterMap]
  constructor
  · rintro ⟨j, hj, h⟩
    rw [List.mem_range] at hj
    by_cases h1 : j ∈ coarse
    · rw [if_pos h1] at h; cases h
      exact ⟨hj, rfl, Or.inl ⟨rfl, h1⟩⟩
    · rw [if_neg h1] at h
      by_cases h2 : j ∈ fine
      · rw [if_pos h2] at h; cases h
        exact ⟨hj, rfl, Or.inr ⟨rfl, h1, h2⟩⟩
      · rw [if_neg h2] at h; cases h
  · rintro ⟨hj, hr, h⟩
    obtain ⟨x, row, long⟩ := t
    simp only at hj hr h
    refine ⟨x, List.mem_range.2 hj, ?_⟩
    rcases h with ⟨rfl, h1⟩ | ⟨rfl, h1, h2⟩
    · rw [if_pos h1, hr]
    · rw [if_neg h1, if_pos h2, hr]

/-- The variable `tmp_coarse` when level `i` is drawn. -/
def coarseOf (ts : List (List T)) (i : Nat) : List Nat := inFine ts (min (i + 1) (ts.length - 1))

theorem tickLoop_eq {ts : List (List T)} (hL : 2 ≤ ts.length) (m a : Nat) (c : Option (List Nat)) (hm : a + m = ts.length)
    (hc : 0 < a → c = some (coarseOf ts (a - 1))) :
    tickLoop ts c (List.range' a m) =
      .ok ((List.range' a m).flatMap fun i => levelTicks ts (coarseOf ts i) (inFine ts i) i) := by
  induction m generalizing a c with
  | zero => rfl
  | succ m ih =>
    have hcc : (if a ≠ ts.length - 1 then some (inFine ts (a + 1)) else c) = some (coarseOf ts a) := by
      by_cases ha : a = ts.length - 1
      · rw [if_neg (by simpa using ha), hc (by omega)]
        unfold coarseOf
        congr 2
        omega
      · rw [if_pos ha]
        unfold coarseOf
        congr 2
        omega
    rw [List.range'_succ, tickLoop]
    simp only [hcc]
    rw [ih (a + 1) _ (by omega) (fun _ => by simp)]
    rfl

/-- C105, the part that holds for the distribution plot: for a hierarchy with at least two levels and at most as many
processes as points the figure can be drawn.  In the row of a level there is a tick at a fine index exactly if its time
is on that level, and it is long exactly if the point is also a C-point of the level; in the row of a level other than
the coarsest the tick of a point is in the box of process `r` exactly if `r` owns the point, and no other box contains
it.  Missing: the coarsest level (`C105_coarsest_counterexample`) and one level (`C105_one_level_counterexample`). -/
theorem C105_distribution_partial {ts : List (List T)} {P : Nat} {ord : Nat → Nat → List Nat → List Nat} (h : Valid ts)
    (hL : 2 ≤ ts.length) (hP : 0 < P) (hPn : P ≤ npts ts 0) (hord : ∀ r l xs, (ord r l xs).Perm xs) :
    ∃ bs ticks, distFig ts P = .ok (bs, ticks) ∧ ∀ l, l < ts.length →
      (∀ j, (∃ long, ⟨j, ts.length - 1 - l, long⟩ ∈ ticks) ↔ j < npts ts 0 ∧ tAt (grid ts 0) j ∈ grid ts l) ∧
      (∀ j i, i < npts ts l → tAt (grid ts l) i = tAt (grid ts 0) j → j < npts ts 0 →
        (⟨j, ts.length - 1 - l, true⟩ ∈ ticks ↔ i ∈ allC ts l)) ∧
      (l + 1 < ts.length → ∀ j i r, j < npts ts 0 → i < npts ts l → tAt (grid ts l) i = tAt (grid ts 0) j → r < P →
        (i ∈ (setupLevel ts P (ord r l) r l).pts ↔
          ∃ b ∈ bs, b.row = ts.length - 1 - l ∧ b.proc = r ∧ b.left ≤ j ∧ (j : ℚ) ≤ b.left + b.width)) := by
  have ht : tickLoop ts none (List.range ts.length) =
      .ok ((List.range ts.length).flatMap fun i => levelTicks ts (coarseOf ts i) (inFine ts i) i) := by
    rw [List.range_eq_range']
    exact tickLoop_eq hL ts.length 0 none (by omega) (by omega)
  refine ⟨boxes (npts ts 0) P ts.length, _, by unfold distFig; rw [ht]; rfl, ?_⟩
  intro l hl
  have hmem : ∀ j long, (⟨j, ts.length - 1 - l, long⟩ : Tick) ∈
      ((List.range ts.length).flatMap fun i => levelTicks ts (coarseOf ts i) (inFine ts i) i) ↔
      j < npts ts 0 ∧ ((long = true ∧ j ∈ coarseOf ts l) ∨ (long = false ∧ j ∉ coarseOf ts l ∧ j ∈ inFine ts l)) := by
    intro j long
    simp only [List.mem_flatMap, List.mem_range, mem_levelTicks]
    constructor
    · rintro ⟨i, hi, h1, h2, h3⟩
      have : i = l := by omega
      subst this
      exact ⟨h1, h3⟩
    · rintro ⟨h1, h2⟩
      exact ⟨l, hl, h1, rfl, h2⟩
  have hsub : ∀ j, j ∈ coarseOf ts l → j ∈ inFine ts l := by
    intro j hj
    unfold coarseOf at hj
    rw [mem_inFine] at hj ⊢
    by_cases hl1 : l + 1 < ts.length
    · rw [Nat.min_eq_left (by omega)] at hj
      exact ⟨hj.1, h.nested l hl1 _ hj.2⟩
    · rw [Nat.min_eq_right (by omega), show ts.length - 1 = l by omega] at hj
      exact hj
  refine ⟨?_, ?_, ?_⟩
  · intro j
    simp only [hmem]
    rw [← mem_inFine (i := l)]
    constructor
    · rintro ⟨_, h1, ⟨-, h2⟩ | ⟨-, -, h2⟩⟩
      · exact hsub j h2
      · exact h2
    · intro hj
      by_cases hc : j ∈ coarseOf ts l
      · exact ⟨true, (mem_inFine.1 hj).1, Or.inl ⟨rfl, hc⟩⟩
      · exact ⟨false, (mem_inFine.1 hj).1, Or.inr ⟨rfl, hc, hj⟩⟩
  · intro j i hi hij hj
    rw [hmem]
    simp only [true_and, Bool.true_eq_false, false_and, or_false]
    unfold coarseOf allC
    by_cases hl1 : l + 1 < ts.length
    · rw [Nat.min_eq_left (by omega), if_pos (by omega), mem_inFine, ← hij]
      simp [hi, hj]
    · rw [Nat.min_eq_right (by omega), show ts.length - 1 = l by omega, if_neg (by omega), mem_inFine, ← hij]
      simp [hi, hj, tAt_mem hi]
  · intro hl1 j i r hj hi hij hr
    rw [(C02_owner_of_time h hPn hord hr hl).2 i, splitPoints_eq hPn hr]
    have hlt := firstPt_lt hPn hr
    have hsz : (splitInto (npts ts 0) P).getD r 0 = firstPt (npts ts 0) P (r + 1) - firstPt (npts ts 0) P r := by
      have := firstPt_succ (n := npts ts 0) hr; omega
    have hbd : firstPt (npts ts 0) P (r + 1) ≤ npts ts 0 := by
      have := firstPt_mono hPn (show r + 1 ≤ P by omega) (Nat.le_refl P)
      rwa [firstPt_last hP] at this
    constructor
    · rintro ⟨-, j', h1, h2, h3⟩
      simp only at h1 h2
      have : j' = j := (tAt_inj (h.sorted 0) (by show _ < npts ts 0; omega) hj).1 (by rw [← h3, hij])
      subst this
      refine ⟨_, (mem_boxes hP _).2 (Or.inl ⟨ts.length - 1 - l, r, by omega, by omega, hr, rfl⟩), rfl, rfl, ?_⟩
      exact (in_box _ _ _).2 ⟨h1, by rw [hsz]; exact h2⟩
    · rintro ⟨b, hb, h1, h2, h3⟩
      rcases (mem_boxes hP b).1 hb with ⟨i', r', -, -, -, rfl⟩ | ⟨-, rfl⟩
      · simp only at h1 h2 h3
        subst h2
        have := (in_box _ _ _).1 h3
        rw [hsz] at this
        exact ⟨hi, j, this.1, this.2, hij⟩
      · simp only at h1
        omega

/-- C105 fails in the row of the coarsest level: its only box is labelled with process 0, also if other processes own
points of that level. -/
theorem C105_coarsest_counterexample {n P L : Nat} (hP : 0 < P) (b : Box) (hb : b ∈ boxes n P L) (h0 : b.row = 0) :
    b.proc = 0 ∧ ∀ j : Nat, j < n → b.left ≤ j ∧ (j : ℚ) ≤ b.left + b.width := by
  rcases (mem_boxes hP b).1 hb with ⟨i, j, h1, -, -, rfl⟩ | ⟨-, rfl⟩
  · simp only at h0; omega
  · refine ⟨rfl, fun j hj => ?_⟩
    have := (in_box 0 n j).2 ⟨by omega, by omega⟩
    simpa using this

/-- Process 2 owns the last point of the coarsest level of the example. -/
example : 2 ∈ (setupLevel exGrid 3 id 2 2).pts := by decide

/-- C105 fails for one level: the plot raises `UnboundLocalError`. -/
theorem C105_one_level_counterexample (t : List T) (ht : t ≠ []) (P : Nat) : distFig [t] P = .error .unbound := by
  have hn : npts [t] 0 ≠ 0 := by
    show t.length ≠ 0
    exact fun e => ht (List.length_eq_zero_iff.1 e)
  unfold distFig
  simp [tickLoop, hn, bind, Except.bind, List.range_succ]

example : Valid exGrid ∧ 2 ≤ exGrid.length ∧ 3 ≤ npts exGrid 0 := ⟨exGrid_valid, by decide, by decide⟩

end

/-! ## The convergence plot -/

section
variable {V K T N : Type} [LinearOrder T] [Inhabited T] [Add V] [Sub V] [SMul K V] [One K] [Sub K] [Zero N] [DecidableEq N]

/-- C105 for the convergence plot, the part that holds: if no value of the stopping criterion is zero, the curve drawn
from the returned state of any process has exactly the points `(j, value after iteration j)` for
`j = 1, …, number of iterations`.  Missing: values that are zero are left out (`C105_convergence_counterexample`). -/
theorem C105_convergence_partial {E : Cfg V K T N} (h : E.Good) (hmax : 0 < E.maxIter)
    {c : Conf E.P (Msg V N) (PState V N)} (h1 : Steps (startConf E) c) (hc : ∀ d, ¬ Step c d)
    (r : Fin E.P) (s : PState V N) (hr : c.prog r = Prog.ret s)
    (hnz : ∀ j, j < s.solveIter → E.sys.critValue E.ctl E.sys.forwardSolve (afterConstructor E) j ≠ 0) :
    convPoints ((List.range (E.maxIter + 1)).map s.conv) = (List.range s.solveIter).map fun j =>
      (j + 1, E.sys.critValue E.ctl E.sys.forwardSolve (afterConstructor E) j) := by
  have hh := C18_distributed_partial h hmax h1 hc r s hr
  rw [List.filter_eq_self.2 (by
    intro x hx
    obtain ⟨j, hj, rfl⟩ := List.mem_map.1 hx
    exact decide_eq_true (hnz j (List.mem_range.1 hj)))] at hh
  have e : ((List.range (E.maxIter + 1)).map s.conv).filter (fun x => decide (x ≠ 0)) = E.convHistory s := rfl
  unfold convPoints
  rw [e, hh]
  apply List.ext_getElem
  · simp
  · intro i h2 h3
    simp [Nat.add_comm]

end

/-- The hypotheses of `C105_convergence_partial` on four processes: a run is completed, and the first value is not zero. -/
example : (exCfg 4).Good ∧ 0 < (exCfg 4).maxIter ∧
    (exCfg 1).sys.critValue (exCfg 1).ctl (exCfg 1).sys.forwardSolve (afterConstructor (exCfg 1)) 0 ≠ 0 :=
  ⟨exCfg_good 4 (by decide) (by decide), by decide, by decide +kernel⟩

/-- C105 fails for values that are zero: after two iterations the curve has one point. -/
theorem C105_convergence_counterexample :
    let r := (exCfg 1).sys.solve (exCtl 0 1 5) (exCfg 1).sys.forwardSolve
      ((exCfg 1).sys.setup (exCtl 0 1 5) (exCfg 1).sys.forwardSolve
        (Run.init (fun _ => 1) (fun _ => 0) (fun _ => 0)))
    r.iter = 2 ∧ (convPoints ((List.range 6).map r.conv)).length = 1 := by
  decide +kernel

end Plot
end Pymgrit
