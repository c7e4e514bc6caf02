import Verif.JlSolver
import Verif.PropsGrid
import Verif.SeqLemmas
import Verif.Spec
import Verif.Examples
import Mathlib.Tactic.Linarith
import Mathlib.Tactic.Ring
import Mathlib.Tactic.FieldSimp

/-!
# Property C107: the solvers of the induction machine
-/

set_option linter.unusedSectionVars false

namespace Pymgrit
namespace Jl
open Sys

section nested
variable {V K : Type} [Add V] (S : (Nat → Int) → Sys V K) (L : Nat) (pwm : Nat → Int) (s : MState V)

/-- C107 fails with two or more levels: nested iteration (called by the constructor) raises `AttributeError`, and the
problem objects are left with the sinusoidal source on every level. -/
theorem C107_nested_counterexample (hL : 2 ≤ L) (hpwm : pwm 0 ≠ 0) :
    (nested S L pwm s).2 = some .attributeError ∧ ∀ l, l < L → (nested S L pwm s).1.flag l = 0 := by
  simp only [nested, if_pos hL, toSine, if_pos hpwm, true_and]
  intro l hl
  simp [hl]

/-- C107, the state at that exception: the coarsest values have been transferred to all points that the two coarsest levels share,
including the initial one; the F-points are unchanged. -/
theorem C107_nested_state (hL : 2 ≤ L) (hS : ∀ fl, (S fl).WF ∧ (S fl).L = L) : ∃ fl : Nat → Int,
    (∀ k, k < (S fl).n (L - 1) → (nested S L pwm s).1.st.u (L - 2) ((S fl).cpt (L - 2) k)
      = (S fl).I (L - 2) ((nested S L pwm s).1.st.u (L - 1) k)) ∧
    (∀ i, i ∉ (S fl).C (L - 2) → (nested S L pwm s).1.st.u (L - 2) i = s.st.u (L - 2) i) ∧
    (nested S L pwm s).1.st.u (L - 1) = ((S fl).forwardSolve (L - 1) s.st).u (L - 1) ∧ (pwm 0 ≠ 0 → ∀ l, l < L → fl l = 0) := by
  refine ⟨(toSine L pwm s).flag, ?_, ?_, ?_, ?_⟩
  · intro k hk
    obtain ⟨hw, hSL⟩ := hS (toSine L pwm s).flag
    have hl : L - 2 + 1 < (S (toSine L pwm s).flag).L := by omega
    have hk' : k < ((S (toSine L pwm s).flag).C (L - 2)).length := by
      rw [hw.C_len _ hl, show L - 2 + 1 = L - 1 by omega]; exact hk
    simp only [nested, if_pos hL, interpAll, GState.setU_u_same, GState.setU_u_ne _ _ (show L - 1 ≠ L - 2 by omega)]
    rw [cpt_eq hk', show L - 2 + 1 = L - 1 by omega]
    exact foldl_update_mem ((S (toSine L pwm s).flag).C (L - 2)).zipIdx Prod.fst
      (fun ck _ => (S (toSine L pwm s).flag).I (L - 2)
        (((S (toSine L pwm s).flag).forwardSolve (L - 1) (toSine L pwm s).st).u (L - 1) ck.2)) _
      (zipIdx_map_fst_nodup (hw.C_nodup hl)) (mem_zipIdx_get hk')
  · intro i hi
    simp only [nested, if_pos hL, interpAll, GState.setU_u_same]
    rw [foldl_update_not_mem ((S (toSine L pwm s).flag).C (L - 2)).zipIdx Prod.fst (fun ck _ => _) _
      (by rw [List.zipIdx_map_fst]; exact hi)]
    unfold forwardSolve
    rw [GState.setU_u_ne _ _ (show L - 2 ≠ L - 1 by omega)]
    unfold toSine
    split <;> rfl
  · simp only [nested, if_pos hL, interpAll, GState.setU_u_ne _ _ (show L - 1 ≠ L - 2 by omega)]
    have : (toSine L pwm s).st = s.st := by unfold toSine; split <;> rfl
    rw [this]
  · intro hp l hl
    unfold toSine
    rw [if_pos hp]
    exact if_pos hl

/-- C107, the part that holds for nested iteration: on one level, with the flag given to the constructor, it raises
nothing; the values are those of sequential time stepping with the sinusoidal source, and the source is the given one
afterwards. -/
theorem C107_nested_partial (hflag : s.flag 0 = pwm 0) :
    (nested S 1 pwm s).2 = none ∧ (nested S 1 pwm s).1.flag = s.flag ∧
    ∃ fl : Nat → Int, fl 0 = 0 ∧ (nested S 1 pwm s).1.st.u 0 0 = s.st.u 0 0 ∧
      Solved ((S fl).Φ 0) ((S fl).n 0) ((nested S 1 pwm s).1.st.u 0) := by
  have e1 : ∀ l : Nat, l < 1 ↔ l = 0 := fun l => by omega
  have hsolved : ∀ fl : Nat → Int, Solved ((S fl).Φ 0) ((S fl).n 0) (((S fl).forwardSolve 0 s.st).u 0) := by
    intro fl i
    induction i with
    | zero => intro _; rfl
    | succ i ih =>
      intro hi
      rw [forwardSolve_pos s.st (by omega) hi, Nat.add_sub_cancel, ih (by omega)]
      simp [prop, seqSol]
  by_cases hp : pwm 0 = 0
  · refine ⟨?_, ?_, s.flag, by rw [hflag, hp], ?_, ?_⟩
    · simp [nested]
    · simp [nested, toSine, toPwm, hp]
    · simp [nested, toSine, toPwm, hp, forwardSolve_zero]
    · simpa [nested, toSine, toPwm, hp] using hsolved s.flag
  · refine ⟨?_, ?_, fun l => if l < 1 then 0 else s.flag l, by simp, ?_, ?_⟩
    · simp [nested]
    · funext l
      simp only [nested, toSine, toPwm, if_pos hp, if_neg (show ¬ 2 ≤ 1 by omega)]
      by_cases hl : l = 0
      · subst hl; simp [hflag]
      · simp [hl]
    · simp [nested, toSine, toPwm, hp, forwardSolve_zero]
    · simpa [nested, toSine, toPwm, hp] using hsolved (fun l => if l < 1 then 0 else s.flag l)

/-- A machine whose steps depend on the flag of the source. -/
example : ∃ (S : (Nat → Int) → Sys Int Int) (s : MState Int), s.flag 0 = (fun _ => 1 : Nat → Int) 0 ∧
    (nested S 1 (fun _ => 1) s).1.st.u 0 2 = 3 ∧ ((S s.flag).forwardSolve 0 s.st).u 0 2 = 5 := by
  refine ⟨fun fl => ⟨1, fun _ => 3, fun _ => [0, 1, 2], fun _ => [], fun l i x => x + 1 + fl l, fun _ x => x,
    fun _ x => x, fun _ => 1, 1⟩, ⟨⟨fun _ _ => 1, fun _ _ => 0, fun _ _ => 0⟩, fun _ => 1⟩, rfl, rfl, rfl⟩

end nested

section solve
variable {V K N : Type} [Add V] [Sub V] [SMul K V] [One K] [Sub K] (S : Sys V K)

/-- C107 fails for the solver with the joule loss criterion on two or more levels, whatever the arguments: the first
iteration raises `AttributeError`; no output is made and no value of a criterion recorded. -/
theorem C107_solve_counterexample (hL : 2 ≤ S.L) (c : Ctl V N) (hasOut fAfter : Bool) (s : Run V N) :
    (solve S c hasOut fAfter s).2 = some .attributeError ∧ (solve S c hasOut fAfter s).1.outs = s.outs ∧
      (solve S c hasOut fAfter s).1.conv = s.conv := by
  obtain ⟨d, hd⟩ : ∃ d, S.L - 1 = d + 1 := ⟨S.L - 2, by omega⟩
  unfold solve
  rw [hd]
  simp [iteration]

/-- Run of the base class, on one process (`Driver`). -/
theorem solveLoop_outLvl (c : Ctl V N) (coarse : Nat → GState V → GState V) (k it : Nat) (s : Run V N) :
    let a := S.solveLoop { c with outLvl := 0 } coarse k it s
    let b := S.solveLoop c coarse k it s
    a.st = b.st ∧ a.conv = b.conv ∧ a.iter = b.iter ∧ a.saved = b.saved ∧ a.outs = s.outs := by
  have key : ∀ (k it : Nat) (s t : Run V N), s.st = t.st → s.conv = t.conv → s.iter = t.iter → s.saved = t.saved →
      let a := S.solveLoop { c with outLvl := 0 } coarse k it s
      let b := S.solveLoop c coarse k it t
      a.st = b.st ∧ a.conv = b.conv ∧ a.iter = b.iter ∧ a.saved = b.saved ∧ a.outs = s.outs := by
    intro k
    induction k with
    | zero => intro it s t h1 h2 h3 h4; exact ⟨h1, h2, h3, h4, rfl⟩
    | succ k ih =>
      intro it s t h1 h2 h3 h4
      have hb : let a := S.solveBody { c with outLvl := 0 } coarse it s
          let b := S.solveBody c coarse it t
          a.st = b.st ∧ a.conv = b.conv ∧ a.iter = b.iter ∧ a.saved = b.saved ∧ a.outs = s.outs := by
        simp only [solveBody, convergence, h1, h2, h4]
        by_cases hc : c.convCrit = 0 <;> by_cases ho : c.outLvl = 2 <;> simp [hc, ho, Run.output]
      obtain ⟨b1, b2, b3, b4, b5⟩ := hb
      have hs : stops { c with outLvl := 0 } it (S.solveBody { c with outLvl := 0 } coarse it s) =
          stops c it (S.solveBody c coarse it t) := by
        simp [stops, b2]
      simp only [solveLoop, hs]
      split
      · exact ⟨b1, b2, b3, b4, b5⟩
      · have := ih (it + 1) _ _ b1 b2 b3 b4
        refine ⟨this.1, this.2.1, this.2.2.1, this.2.2.2.1, this.2.2.2.2.trans b5⟩
  exact key k it s s rfl rfl rfl rfl

/-- C107, the part that holds for the solver with the joule loss criterion: on one level (no F-points) it ends without
exception with the values, the number of iterations and the recorded values of the base class, and calls the output
function exactly once, at the end.  The values recorded are those of the base class: the joule losses are not looked at
during `solve()`. -/
theorem C107_solve_partial (hL : S.L = 1) (hF : S.F 0 = []) (c : Ctl V N) (hasOut fAfter : Bool) (s : Run V N) :
    let r := solve S c hasOut fAfter s
    let b := S.solve c S.forwardSolve s
    r.2 = none ∧ r.1.st = b.st ∧ r.1.iter = b.iter ∧ r.1.conv = b.conv ∧
      r.1.outs = s.outs ++ (if hasOut then [(b.iter, b.st.u 0)] else []) := by
  have hb := solveLoop_outLvl S c S.forwardSolve c.maxIter 0 s
  simp only at hb
  obtain ⟨b1, b2, b3, b4, b5⟩ := hb
  have hf : ∀ st : GState V, S.fRelax 0 st = st := by
    intro st
    unfold fRelax
    rw [hF]
    simp [sweep, GState.setU]
  have hout : ∀ t : Run V N, (if c.outLvl = 1 then t.output else t).st = t.st ∧
      (if c.outLvl = 1 then t.output else t).iter = t.iter ∧ (if c.outLvl = 1 then t.output else t).conv = t.conv := by
    intro t
    split <;> simp [Run.output]
  simp only [solve, hL, Nat.sub_self, Sys.solve]
  obtain ⟨o1, o2, o3⟩ := hout (S.solveLoop c S.forwardSolve c.maxIter 0 s)
  simp only [o1, o2, o3, hf]
  cases hasOut <;> cases fAfter <;> simp [Run.output, b1, b2, b3, b5]

end solve

section criterion
variable {F : Type} [Field F] [LinearOrder F] [IsStrictOrderedRing F]

theorem npMax_lt (xs : List F) (tol : F) : npMax xs < tol ↔ 0 < tol ∧ ∀ x ∈ xs, x < tol := by
  have : ∀ (xs : List F) (m : F), xs.foldl max m < tol ↔ m < tol ∧ ∀ x ∈ xs, x < tol := by
    intro xs
    induction xs with
    | nil => intro m; simp
    | cons x xs ih =>
      intro m
      rw [List.foldl_cons, ih, max_lt_iff]
      simp [and_assoc]
  exact this xs 0

theorem npMax_nonneg (xs : List F) : 0 ≤ npMax xs := by
  by_contra h
  exact lt_irrefl _ ((npMax_lt xs 0).1 (not_le.1 h)).1

theorem le_npMax {xs : List F} {x : F} (hx : x ∈ xs) : x ≤ npMax xs := by
  by_contra h
  have h' := not_le.1 h
  exact lt_irrefl _ (((npMax_lt xs x).1 h').2 x hx)

theorem npMax_le {xs : List F} {m : F} (hm : 0 ≤ m) (h : ∀ x ∈ xs, x ≤ m) : npMax xs ≤ m := by
  by_contra hc
  have hc' := not_le.1 hc
  exact lt_irrefl _ ((npMax_lt xs (npMax xs)).2 ⟨lt_of_le_of_lt hm hc', fun x hx => lt_of_le_of_lt (h x hx) hc'⟩)

theorem relChange_lt (last new tol : F) (ht : 0 < tol) :
    100 * |relChange last new| < tol ↔ (new ≠ 0 → 100 * |new - last| < tol * |new|) := by
  unfold relChange
  by_cases h : new = 0
  · simp [h, ht]
  · have hp : 0 < |new| := abs_pos.2 h
    simp only [ne_eq, h, not_false_eq_true, if_true, forall_const]
    rw [abs_div, ← mul_div_assoc, div_lt_iff₀ hp]

theorem jlLocal_lt (ls ns : List F) (hl : ls.length = ns.length) (tol : F) (ht : 0 < tol) :
    |jlLocal ls ns| < tol ↔ ∀ p ∈ List.zip ls ns, p.2 ≠ 0 → 100 * |p.2 - p.1| < tol * |p.2| := by
  unfold jlLocal
  simp only [hl, ne_eq, not_true_eq_false, if_false]
  by_cases hn : 0 < ns.length
  · rw [if_pos hn, abs_of_nonneg (mul_nonneg (by norm_num) (npMax_nonneg _)), ← lt_div_iff₀' (by norm_num), npMax_lt]
    rw [← List.map_uncurry_zip_eq_zipWith]
    simp only [List.mem_map, forall_exists_index, and_imp]
    constructor
    · rintro ⟨-, h⟩ p hp
      refine (relChange_lt p.1 p.2 tol ht).1 ?_
      rw [← lt_div_iff₀' (by norm_num)]
      exact h _ _ _ hp rfl rfl
    · intro h
      refine ⟨by positivity, ?_⟩
      rintro _ _ p hp rfl rfl
      rw [lt_div_iff₀' (by norm_num)]
      exact (relChange_lt p.1 p.2 tol ht).2 (h p hp)
  · have : ns = [] := List.length_eq_zero_iff.1 (by omega)
    subst this
    simp [ht]

variable {T : Type} [LinearOrder T] [Inhabited T] {ts : List (List T)} {P : Nat} {ord : Nat → Nat → List Nat → List Nat}

/-- The times of the C-points of the finest level, over all processes. -/
theorem mem_times (h : Valid ts) (hP : 0 < P) (hPn : P ≤ npts ts 0) (hord : ∀ r l xs, (ord r l xs).Perm xs) (t : T) :
    (∃ r, r < P ∧ ∃ j ∈ (setupLevel ts P (ord r 0) r 0).idxC, tAt (setupLevel ts P (ord r 0) r 0).t j = t) ↔
      ∃ i, i ∈ allC ts 0 ∧ tAt (grid ts 0) i = t := by
  have hl := h.pos
  constructor
  · rintro ⟨r, hr, j, hj, rfl⟩
    have s := spec0 h hPn hord hr hl
    rw [s.idxC, s.cpts] at hj
    obtain ⟨i, hi, rfl⟩ := List.mem_map.1 hj
    obtain ⟨hi1, hi2⟩ := List.mem_filter.1 hi
    have hi3 := (mem_pts h hPn hord hr hl i).1 hi1
    refine ⟨i, by simpa using hi2, ?_⟩
    rw [s.t_at (by omega) i (by unfold off; omega) hi3.2]
  · rintro ⟨i, hi, rfl⟩
    obtain ⟨r, hr, h1, h2⟩ := h.exists_owner hP hPn hl (allC_lt hi)
    have s := spec0 h hPn hord hr hl
    refine ⟨r, hr, i - off ts P 0 r, ?_, s.t_at (by omega) i (by unfold off; omega) h2⟩
    rw [s.idxC, s.cpts]
    exact List.mem_map.2 ⟨i, List.mem_filter.2 ⟨(mem_pts h hPn hord hr hl i).2 ⟨h1, h2⟩, by simpa using hi⟩, rfl⟩

/-- C107, the joule loss criterion: on any number of processes its value is below the tolerance (in percent) if and only
if at every C-point of the finest level with nonzero losses the losses changed by less than this percentage of the new
value. -/
theorem C107_criterion_partial (h : Valid ts) (hP : 0 < P) (hPn : P ≤ npts ts 0) (hord : ∀ r l xs, (ord r l xs).Perm xs)
    (last new : T → F) (tol : F) (ht : 0 < tol) :
    jlValue P (fun r => jlPoints ts P (ord r 0) last r) (fun r => jlPoints ts P (ord r 0) new r) < tol ↔
      ∀ i, i ∈ allC ts 0 → new (tAt (grid ts 0) i) ≠ 0 →
        100 * |new (tAt (grid ts 0) i) - last (tAt (grid ts 0) i)| < tol * |new (tAt (grid ts 0) i)| := by
  unfold jlValue
  rw [npMax_lt]
  simp only [ht, true_and, List.mem_map, List.mem_range, forall_exists_index, and_imp]
  have hloc : ∀ r, (|jlLocal (jlPoints ts P (ord r 0) last r) (jlPoints ts P (ord r 0) new r)| < tol ↔
      ∀ j ∈ (setupLevel ts P (ord r 0) r 0).idxC, new (tAt (setupLevel ts P (ord r 0) r 0).t j) ≠ 0 →
        100 * |new (tAt (setupLevel ts P (ord r 0) r 0).t j) - last (tAt (setupLevel ts P (ord r 0) r 0).t j)| <
          tol * |new (tAt (setupLevel ts P (ord r 0) r 0).t j)|) := by
    intro r
    rw [jlLocal_lt _ _ (by simp [jlPoints]) tol ht]
    unfold jlPoints
    simp only [List.zip_map', List.mem_map, forall_exists_index, and_imp]
    constructor
    · intro H j hj
      exact H _ j hj rfl
    · rintro H _ j hj rfl
      exact H j hj
  constructor
  · intro H i hi
    obtain ⟨r, hr, j, hj, e⟩ := (mem_times h hP hPn hord (tAt (grid ts 0) i)).2 ⟨i, hi, rfl⟩
    have := (hloc r).1 (H _ r hr rfl) j hj
    rwa [e] at this
  · rintro H _ r hr rfl
    refine (hloc r).2 fun j hj => ?_
    obtain ⟨i, hi, e⟩ := (mem_times h hP hPn hord _).1 ⟨r, hr, j, hj, rfl⟩
    rw [← e]
    exact H i hi

/-- C107, the value of the joule loss criterion does not depend on the number of processes. -/
theorem C107_processes {P' : Nat} {ord' : Nat → Nat → List Nat → List Nat} (h : Valid ts) (hP : 0 < P) (hPn : P ≤ npts ts 0)
    (hord : ∀ r l xs, (ord r l xs).Perm xs) (hP' : 0 < P') (hPn' : P' ≤ npts ts 0)
    (hord' : ∀ r l xs, (ord' r l xs).Perm xs) (last new : T → F) :
    jlValue P (fun r => jlPoints ts P (ord r 0) last r) (fun r => jlPoints ts P (ord r 0) new r) =
    jlValue P' (fun r => jlPoints ts P' (ord' r 0) last r) (fun r => jlPoints ts P' (ord' r 0) new r) := by
  have key : ∀ tol : F, 0 < tol →
      (jlValue P (fun r => jlPoints ts P (ord r 0) last r) (fun r => jlPoints ts P (ord r 0) new r) < tol ↔
      jlValue P' (fun r => jlPoints ts P' (ord' r 0) last r) (fun r => jlPoints ts P' (ord' r 0) new r) < tol) :=
    fun tol ht => by rw [C107_criterion_partial h hP hPn hord last new tol ht,
      C107_criterion_partial h hP' hPn' hord' last new tol ht]
  rcases lt_trichotomy (jlValue P (fun r => jlPoints ts P (ord r 0) last r) (fun r => jlPoints ts P (ord r 0) new r))
    (jlValue P' (fun r => jlPoints ts P' (ord' r 0) last r) (fun r => jlPoints ts P' (ord' r 0) new r)) with hlt | he | hlt
  · exact absurd ((key _ (lt_of_le_of_lt (npMax_nonneg _) hlt)).1 hlt) (lt_irrefl _)
  · exact he
  · exact absurd ((key _ (lt_of_le_of_lt (npMax_nonneg _) hlt)).2 hlt) (lt_irrefl _)

/-- C107 fails for losses that become zero: the value is zero, whatever the losses were before. -/
theorem C107_zero_counterexample (last : Nat → List F) (n : Nat → Nat) (P : Nat) :
    jlValue P last (fun r => List.replicate (n r) 0) = 0 := by
  refine le_antisymm (npMax_le le_rfl fun x hx => ?_) (npMax_nonneg _)
  obtain ⟨r, -, rfl⟩ := List.mem_map.1 hx
  have hz : ∀ ls : List F, npMax ((List.zipWith relChange ls (List.replicate (n r) 0)).map fun x => |x|) = 0 := by
    intro ls
    refine le_antisymm (npMax_le le_rfl fun x hx => ?_) (npMax_nonneg _)
    obtain ⟨y, hy, rfl⟩ := List.mem_map.1 hx
    rw [← List.map_uncurry_zip_eq_zipWith] at hy
    obtain ⟨p, hp, rfl⟩ := List.mem_map.1 hy
    have : p.2 = 0 := List.eq_of_mem_replicate (List.of_mem_zip hp).2
    simp [Function.uncurry, relChange, this]
  unfold jlLocal
  simp only [hz, mul_zero, ite_self, abs_zero, le_refl]

/-- The value of the joule loss criterion computed by the constructor, for which the previous losses are zeros, is `100`
as soon as the losses at some C-point are not zero. -/
theorem C107_first_value (P : Nat) (new : Nat → List F) (r : Nat) (hr : r < P) (x : F) (hx : x ∈ new r) (h0 : x ≠ 0) :
    jlValue P (fun _ => []) new = 100 := by
  have hloc : ∀ q, jlLocal [] (new q) = if ∃ y ∈ new q, y ≠ 0 then 100 else 0 := by
    intro q
    by_cases hn : new q = []
    · simp [jlLocal, hn]
    have hl : ¬ ([] : List F).length = (new q).length := by
      intro e; exact hn (List.length_eq_zero_iff.1 (by simpa using e.symm))
    have hpos : 0 < (new q).length := List.length_pos_iff.2 hn
    have hm : (List.zipWith relChange (List.replicate (new q).length 0) (new q)).map (fun x => |x|) =
        (new q).map fun y => if y ≠ 0 then 1 else 0 := by
      refine List.ext_getElem (by simp) fun k h1 h2 => ?_
      simp only [List.getElem_map, List.getElem_zipWith, List.getElem_replicate, relChange, sub_zero]
      split
      · rename_i hy; rw [div_self hy, abs_one]
      · simp
    simp only [jlLocal, ne_eq, hl, not_false_eq_true, if_true, if_pos hpos]
    rw [hm]
    by_cases hy : ∃ y ∈ new q, y ≠ 0
    · rw [if_pos hy]
      obtain ⟨y, hy1, hy2⟩ := hy
      have : npMax ((new q).map fun y => if y ≠ 0 then (1 : F) else 0) = 1 := by
        refine le_antisymm (npMax_le zero_le_one fun x hx => ?_) (le_npMax ?_)
        · obtain ⟨z, -, rfl⟩ := List.mem_map.1 hx
          split <;> simp
        · exact List.mem_map.2 ⟨y, hy1, if_pos hy2⟩
      rw [this, mul_one]
    · rw [if_neg hy]
      have : npMax ((new q).map fun y => if y ≠ 0 then (1 : F) else 0) = 0 := by
        refine le_antisymm (npMax_le le_rfl fun x hx => ?_) (npMax_nonneg _)
        obtain ⟨z, hz, rfl⟩ := List.mem_map.1 hx
        rw [if_neg fun h => hy ⟨z, hz, h⟩]
      rw [this, mul_zero]
  have h100 : (0 : F) ≤ 100 := by norm_num
  unfold jlValue
  refine le_antisymm (npMax_le h100 fun y hy => ?_) (le_npMax ?_)
  · obtain ⟨q, -, rfl⟩ := List.mem_map.1 hy
    rw [hloc]
    split
    · exact (abs_of_nonneg h100).le
    · simp
  · refine List.mem_map.2 ⟨r, List.mem_range.2 hr, ?_⟩
    rw [hloc, if_pos ⟨x, hx, h0⟩, abs_of_nonneg h100]

theorem solveLoop_conv_zero {V K N : Type} [Add V] [Sub V] [SMul K V] [One K] [Sub K] (S : Sys V K) (c : Ctl V N)
    (coarse : Nat → GState V → GState V) (k it : Nat) (s : Run V N) :
    (S.solveLoop c coarse k it s).conv 0 = s.conv 0 := by
  induction k generalizing it s with
  | zero => rfl
  | succ k ih =>
    have hb : (S.solveBody c coarse it s).conv 0 = s.conv 0 := by
      simp only [solveBody, convergence]
      by_cases hc : c.convCrit = 0 <;> by_cases ho : c.outLvl = 2 <;> simp [hc, ho, Run.output]
    simp only [solveLoop]
    split
    · exact hb
    · rw [ih, hb]

/-- C107 fails for the returned history: its first entry is the value `100` of the constructor if the losses at some
C-point are not zero there, so entry `j` is not the value of iteration `j + 1`. -/
theorem C107_history_counterexample {V K : Type} [Add V] [Sub V] [SMul K V] [One K] [Sub K] (S : Sys V K) (hL : S.L = 1)
    (c : Ctl V F) (hasOut fAfter : Bool) (s : Run V F) (P : Nat) (new : Nat → List F) (r : Nat) (hr : r < P) (x : F)
    (hx : x ∈ new r) (h0 : x ≠ 0) (hs : s.conv 0 = jlValue P (fun _ => []) new) :
    ∃ rest, (solve S c hasOut fAfter s).1.history c = 100 :: rest := by
  have hc : (solve S c hasOut fAfter s).1.conv 0 = 100 := by
    rw [← C107_first_value P new r hr x hx h0, ← hs,
      ← solveLoop_conv_zero S { c with outLvl := 0 } S.forwardSolve c.maxIter 0 s]
    simp only [solve, hL, Nat.sub_self, Sys.solve]
    cases hasOut <;> cases fAfter <;> simp [Run.output]
  unfold Run.history
  rw [List.range_succ_eq_map, List.map_cons, List.filter_cons_of_pos (by rw [hc]; norm_num), hc]
  exact ⟨_, rfl⟩

example : Valid exGrid ∧ 0 < 3 ∧ 3 ≤ npts exGrid 0 ∧ 2 ∈ allC exGrid 0 := ⟨exGrid_valid, by decide, by decide, by decide⟩

#guard jlValue (F := ℚ) 3 (fun r => jlPoints exGrid 3 id (fun t => (t : ℚ)) r)
  (fun r => jlPoints exGrid 3 id (fun t => (t : ℚ) + 1) r) = 100
#guard jlValue (F := ℚ) 3 (fun r => jlPoints exGrid 3 id (fun t => (t : ℚ) + 4) r)
  (fun r => jlPoints exGrid 3 id (fun t => (t : ℚ) + 5) r) = 20

end criterion

end Jl
end Pymgrit
