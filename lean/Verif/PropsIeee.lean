import Verif.IeeeProofs
import Verif.EndToEnd2
import Verif.PropsLocal2

/-!
# Values that are not numbers never count as convergence (C131)
-/

set_option linter.unusedSectionVars false

namespace Pymgrit.Ieee
open Dbl

/-! ## Norms -/

/-- C131.  If the norm of a vector of doubles, computed in any order, compares below the tolerance, then all entries are numbers
below the tolerance - for the Euclidean norm up to one rounding, and for tolerances that are not smaller than `2^-500`. -/
theorem C131_norm {o : TNorm} {xs : List Dbl} {v : Dbl} {tol : ℚ} (h : IsNorm o xs v) (hok : ∀ x ∈ xs, Ok x)
    (htol : rnd64 tol = tol) (ho : o = .two → 2 ^ (-500 : ℤ) ≤ tol) (hlt : Dbl.lt v (fin tol) = true) :
    ∀ x ∈ xs, ∃ y, x = fin y ∧ |y| < o.slack * tol := by
  obtain ⟨q, rfl, hq⟩ := lt_num hlt (isNorm_ne_neg h)
  intro x hx
  obtain ⟨y, rfl, hy⟩ := isNorm_num h hok x hx
  refine ⟨y, rfl, ?_⟩
  cases o with
  | one => rw [show TNorm.one.slack = 1 from rfl, one_mul]; exact lt_of_le_of_lt hy hq
  | sup => rw [show TNorm.sup.slack = 1 from rfl, one_mul]; exact lt_of_le_of_lt hy hq
  | two =>
    rw [show TNorm.two.slack = 1 + 1 / 2 ^ 53 from rfl]
    obtain ⟨s, hs, hr⟩ := hy
    have ht := ho rfl
    have ht0 : 0 < tol := (Double.two_zpow_pos _).trans_le ht
    cases hr with
    | fin a1 a2 a3 a4 =>
      have hst : s < tol * tol := by
        by_contra hle
        have := a3 tol ht0.le htol (not_lt.1 hle)
        linarith
      by_contra hge
      have hge : (1 + 1 / 2 ^ 53) * tol ≤ |y| := not_lt.1 hge
      have hsq : ((1 + 1 / 2 ^ 53) * tol) * ((1 + 1 / 2 ^ 53) * tol) ≤ y * y := by
        rw [← abs_mul_abs_self y]
        exact mul_le_mul hge hge (by positivity) (abs_nonneg y)
      have htt : (2 : ℚ) ^ (-1022 : ℤ) ≤ tol * tol := by
        refine le_trans ?_ (mul_le_mul ht ht (Double.two_zpow_pos _).le ht0.le)
        rw [← zpow_add₀ (by norm_num)]
        exact zpow_le (by norm_num)
      have hpos : 0 < tol * tol := mul_pos ht0 ht0
      generalize hz : (2 : ℚ) ^ (-1022 : ℤ) = z at htt
      have h1 : (1 + 1 / 2 ^ 53) * (1 + 1 / 2 ^ 53) * (tol * tol) ≤ y * y := by
        calc _ = ((1 + 1 / 2 ^ 53) * tol) * ((1 + 1 / 2 ^ 53) * tol) := by ring
          _ ≤ _ := hsq
      have h2 := rnd64_lower (x := y * y) (by rw [hz]; norm_num at h1; linarith)
      norm_num at h1 h2
      linarith

/-- C131.  A NaN or an infinity among the entries gives a norm that does not compare below any tolerance. -/
theorem C131_not_a_number {o : TNorm} {xs : List Dbl} {v : Dbl} (h : IsNorm o xs v) (hok : ∀ x ∈ xs, Ok x)
    {x : Dbl} (hx : x ∈ xs) (hn : ¬ IsNum x) (tol : ℚ) : Dbl.lt v (fin tol) = false := by
  by_contra hlt
  obtain ⟨q, rfl, -⟩ := lt_num (by simpa using hlt) (isNorm_ne_neg h)
  obtain ⟨y, e, -⟩ := isNorm_num h hok x hx
  exact hn ⟨y, e⟩

theorem root_zero : Root (fin 0) (fin 0) :=
  .fin le_rfl rnd64_zero (fun t h0 _ ht => by nlinarith) (fun t h0 _ _ => h0)

/-- C131.  Below `2^-537` the squares vanish: the Euclidean norm of the vector with the only entry `2^-600` is zero, which
compares below the tolerance `2^-700` although the entry does not. -/
theorem C131_underflow : ∃ x tol : ℚ, 0 < tol ∧ tol < x ∧ rnd64 x = x ∧ rnd64 tol = tol ∧
    IsNorm .two [fin x] (fin 0) ∧ Dbl.lt (fin 0) (fin tol) = true := by
  have h : (fin (2 ^ (-600 : ℤ)) * fin (2 ^ (-600 : ℤ)) : Dbl) = fin 0 := by decide +kernel
  refine ⟨2 ^ (-600 : ℤ), 2 ^ (-700 : ℤ), Double.two_zpow_pos _, ?_, by decide +kernel, by decide +kernel,
    ⟨fin 0, h ▸ .one _, root_zero⟩, by decide +kernel⟩
  exact zpow_lt_zpow_right₀ (by norm_num) (by norm_num)

/-! ## Runs -/

section
variable {V K T : Type} [LinearOrder T] [Inhabited T] [Add V] [Sub V] [SMul K V] [One K] [Sub K]

/-- The vectors of the application and the norms in the sense of this section: `fine x` says that all entries of `x` are
numbers; differences and norms involve all entries; the norm in time is NumPy's; `tol` is the tolerance. -/
structure Checks (E : Cfg V K T Dbl) (fine : V → Prop) (o : TNorm) (tol : ℚ) : Prop where
  sub : ∀ x y, fine (x - y) → fine x ∧ fine y
  norm : ∀ x, IsNum (E.norm x) → fine x
  ok : ∀ x, Ok (E.norm x)
  tnorm : ∀ xs, xs ≠ [] → IsNorm o xs (E.tnorm xs)
  rep : rnd64 tol = tol
  large : o = .two → 2 ^ (-500 : ℤ) ≤ tol
  lt : ∀ x, E.ltTol x = Dbl.lt x (fin tol)

/-- A time step from a value that is not a number does not give a number again. -/
def Strict (E : Cfg V K T Dbl) (fine : V → Prop) : Prop :=
  ∀ x t t', fine (E.step 0 x t t') → fine x

variable {E : Cfg V K T Dbl} {fine : V → Prop} {o : TNorm} {tol : ℚ}

theorem crit_entries (hC : Checks E fine o tol) {xs : List Dbl} (hok : ∀ x ∈ xs, Ok x)
    (h : E.ltTol (E.tnorm xs) = true) : ∀ x ∈ xs, ∃ y, x = fin y ∧ |y| < o.slack * tol := by
  intro x hx
  rw [hC.lt] at h
  exact C131_norm (hC.tnorm xs (List.ne_nil_of_mem hx)) hok hC.rep hC.large h x hx

/-- C131.  Global residual criterion, any number of processes and any interleaving: if `solve()` stops before `max_iter` or
records a last value below the tolerance, the norm of the residual is a number below the tolerance at every C-point (but the
first time), and the F-points continue the C-points; `X` is the returned solution, put together from all processes. -/
theorem C131_residuals (hC : Checks E fine o tol) (h : E.Good) (hmax : 0 < E.maxIter) (hcrit : E.convCrit = 0)
    {c : Conf E.P (Msg V Dbl) (PState V Dbl)} (h1 : Steps (startConf E) c) (hc : ∀ d, ¬ Step c d)
    (r : Fin E.P) (s : PState V Dbl) (hr : c.prog r = Prog.ret s)
    (hs : s.solveIter < E.maxIter ∨ E.ltTol (s.conv s.solveIter) = true) :
    ∃ X : Nat → V, (∀ (r : Fin E.P) (s : PState V Dbl), c.prog r = Prog.ret s →
        ∀ k i j : Nat, (E.info r 0).pts[k]? = some i → (E.info r 0).idx[k]? = some j → s.u 0 j = X i) ∧
      (∀ i, i < npts E.ts 0 → i ∉ allC E.ts 0 →
        X i = E.step 0 (X (i - 1)) (tAt (grid E.ts 0) (i - 1)) (tAt (grid E.ts 0) i)) ∧
      ∀ i ∈ allC E.ts 0, i ≠ 0 →
        ∃ y, E.norm (E.step 0 (X (i - 1)) (tAt (grid E.ts 0) (i - 1)) (tAt (grid E.ts 0) i) - X i) = fin y ∧
          |y| < o.slack * tol := by
  obtain ⟨a1, a2, a3, a4, -⟩ := returned h hmax h1 hc r s hr
  obtain ⟨m, hm⟩ : ∃ m, s.solveIter = m + 1 := ⟨s.solveIter - 1, by omega⟩
  refine ⟨(iterates E.sys E.sys.forwardSolve E.cyc (m + 1) (afterConstructor E).st).u 0, ?_, ?_, ?_⟩
  · intro r' s' hr' k i j hi hj
    obtain ⟨-, -, -, -, b5⟩ := returned h hmax h1 hc r' s' hr'
    obtain ⟨s1, e1, S1⟩ := C20_same_as_serial_partial h h1 hc r
    obtain ⟨s2, e2, S2⟩ := C20_same_as_serial_partial h h1 hc r'
    rw [hr] at e1
    rw [hr'] at e2
    cases e1
    cases e2
    have e : s'.solveIter = m + 1 := by rw [S2.iter, ← S1.iter, hm]
    rw [e] at b5
    exact (b5 k i j hi hj).2
  · intro i hi hiC
    have hwf := E.sys_wf h.valid
    by_cases hL : 1 < E.sys.L
    · have := hwf.fineIteration_relaxed E.sys.forwardSolve E.cyc m
        (iterates E.sys E.sys.forwardSolve E.cyc m (afterConstructor E).st) hL i hi hiC
      exact this
    · exfalso
      have hp := hwf.Lpos
      have hl := hwf.C_last
      rw [show E.sys.L - 1 = 0 by omega] at hl
      exact hiC (by
        have : i ∈ E.sys.C 0 := by rw [hl]; exact List.mem_range.2 hi
        exact this)
  · have hv : E.ltTol (s.conv s.solveIter) = true := hs.elim (fun hs => a3.resolve_right (by omega)) id
    rw [a4, hm, Nat.add_sub_cancel] at hv
    unfold Sys.critValue at hv
    dsimp only at hv
    rw [if_pos (show E.ctl.convCrit = 0 from hcrit)] at hv
    intro i hi hi0
    refine crit_entries hC ?_ hv _ (List.mem_map.2 ⟨i, List.mem_filter.2 ⟨hi, by simpa using hi0⟩, rfl⟩)
    intro x hx
    obtain ⟨i, -, rfl⟩ := List.mem_map.1 hx
    exact hC.ok _

/-- C131, restricted to the times up to the last C-point.  Global residual criterion, any number of processes and any
interleaving: if `solve()` stops before `max_iter` (or records a last value below the tolerance) and time steps do not turn NaN or infinities into numbers, all returned
values up to the last C-point consist of numbers. -/
theorem C131_values_partial (hC : Checks E fine o tol) (h : E.Good) (hmax : 0 < E.maxIter) (hcrit : E.convCrit = 0)
    (hS : Strict E fine)
    {c : Conf E.P (Msg V Dbl) (PState V Dbl)} (h1 : Steps (startConf E) c) (hc : ∀ d, ¬ Step c d)
    (r : Fin E.P) (s : PState V Dbl) (hr : c.prog r = Prog.ret s)
    (hs : s.solveIter < E.maxIter ∨ E.ltTol (s.conv s.solveIter) = true)
    {d : Nat} (hd : d ∈ allC E.ts 0) (hd0 : d ≠ 0)
    {k i j : Nat} (hi : (E.info r 0).pts[k]? = some i) (hj : (E.info r 0).idx[k]? = some j) (hid : i ≤ d) :
    fine (s.u 0 j) := by
  obtain ⟨X, hX, hF, hR⟩ := C131_residuals hC h hmax hcrit h1 hc r s hr hs
  rw [hX r s hr k i j hi hj]
  have hdn : d < npts E.ts 0 := allC_lt hd
  have atC : ∀ e ∈ allC E.ts 0, e ≠ 0 → fine (X e) ∧ fine (X (e - 1)) := by
    intro e he he0
    obtain ⟨y, hy, -⟩ := hR e he he0
    obtain ⟨b1, b2⟩ := hC.sub _ _ (hC.norm _ ⟨y, hy⟩)
    exact ⟨b2, hS _ _ _ b1⟩
  have key : ∀ n i, i + n = d → fine (X i) := by
    intro n
    induction n with
    | zero => intro i hi; rw [show i = d by omega]; exact (atC d hd hd0).1
    | succ n ih =>
      intro i hi
      by_cases hc : i + 1 ∈ allC E.ts 0
      · exact (atC (i + 1) hc (by omega)).2
      · have := hF (i + 1) (by omega) hc
        have h2 := ih (i + 1) (by omega)
        rw [this] at h2
        exact hS _ _ _ h2
  exact key (d - i) i (by omega)

/-- C131.  The same read the other way: a returned value up to the last C-point that is not a number means that the run used
all `max_iter` iterations, and the value recorded for the last of them is not below the tolerance. -/
theorem C131_runs_on_partial (hC : Checks E fine o tol) (h : E.Good) (hmax : 0 < E.maxIter) (hcrit : E.convCrit = 0)
    (hS : Strict E fine)
    {c : Conf E.P (Msg V Dbl) (PState V Dbl)} (h1 : Steps (startConf E) c) (hc : ∀ d, ¬ Step c d)
    (r : Fin E.P) (s : PState V Dbl) (hr : c.prog r = Prog.ret s)
    {d : Nat} (hd : d ∈ allC E.ts 0) (hd0 : d ≠ 0)
    {k i j : Nat} (hi : (E.info r 0).pts[k]? = some i) (hj : (E.info r 0).idx[k]? = some j) (hid : i ≤ d)
    (hbad : ¬ fine (s.u 0 j)) : s.solveIter = E.maxIter ∧ E.ltTol (s.conv s.solveIter) = false := by
  obtain ⟨-, a2, -, -, -⟩ := returned h hmax h1 hc r s hr
  have key := fun hs => hbad (C131_values_partial hC h hmax hcrit hS h1 hc r s hr hs hd hd0 hi hj hid)
  refine ⟨?_, ?_⟩
  · by_contra hne
    exact key (Or.inl (by omega))
  · by_contra hne
    exact key (Or.inr (by simpa using hne))

/-- C131.  Global jump criterion: if `solve()` stops before `max_iter`, the returned values at all C-points (but the first
time) consist of numbers, and the norms of the last changes are numbers below the tolerance. -/
theorem C131_jump_partial (hC : Checks E fine o tol) (h : E.Good) (hcrit : E.convCrit = 1)
    {c : Conf E.P (Msg V Dbl) (PState V Dbl)} (h1 : Steps (startConf E) c) (hc : ∀ d, ¬ Step c d)
    (r : Fin E.P) (s : PState V Dbl) (hr : c.prog r = Prog.ret s) (hs : s.solveIter < E.maxIter)
    {k i j : Nat} (hi : (E.info r 0).pts[k]? = some i) (hj : (E.info r 0).idx[k]? = some j)
    (hiC : i ∈ allC E.ts 0) (hi0 : i ≠ 0) :
    fine (s.u 0 j) ∧ ∃ y, |y| < o.slack * tol ∧
      E.norm (s.u 0 j - (iterates E.sys E.sys.forwardSolve E.cyc (s.solveIter - 1) (afterConstructor E).st).u 0 i) = fin y := by
  have hmax : 0 < E.maxIter := by omega
  obtain ⟨a1, a2, a3, a4, a5⟩ := returned h hmax h1 hc r s hr
  obtain ⟨m, hm⟩ : ∃ m, s.solveIter = m + 1 := ⟨s.solveIter - 1, by omega⟩
  have hv : E.ltTol (s.conv s.solveIter) = true := a3.resolve_right (by omega)
  rw [a4, hm, Nat.add_sub_cancel] at hv
  have hj' := C17_jump_value (S := E.sys) E.ctl E.sys.forwardSolve (Run.init E.start E.zero E.guess) hcrit m
  rw [show E.sys.critValue E.ctl E.sys.forwardSolve (afterConstructor E) m = _ from hj'] at hv
  obtain ⟨y, hy, hyt⟩ := crit_entries hC (by
    intro x hx
    obtain ⟨i, -, rfl⟩ := List.mem_map.1 hx
    exact hC.ok _) hv _ (List.mem_map.2 ⟨i, List.mem_filter.2 ⟨hiC, by simpa using hi0⟩, rfl⟩)
  rw [hm] at a5 ⊢
  obtain ⟨-, e⟩ := a5 k i j hi hj
  rw [e, Nat.add_sub_cancel]
  exact ⟨(hC.sub _ _ (hC.norm _ ⟨y, hy⟩)).1, y, hyt, hy⟩

/-- C131.  Local residual criterion (conditions as in `C64_tolerance`): at every C-point of a process that stopped before
`max_iter`, the norm of the residual is a number below the tolerance, and the values there and at the time before consist of
numbers. -/
theorem C131_local_partial (hC : Checks E fine o tol) (h : E.Loc) (hS : Strict E fine)
    (hneg : ∀ x, E.norm x ≠ inf true)
    (hcc : ∀ r, r < E.P → 0 < lo E.ts E.P 0 r →
      ¬ (lo E.ts E.P 0 r - 1 ∈ allC E.ts 0 ∧ lo E.ts E.P 0 r ∈ allC E.ts 0))
    {c : Conf E.P (Msg V Dbl) (PState V Dbl)} (h1 : Steps (startConf E) c) (hst : ∀ d, ¬ Step c d) :
    ∃ F : Nat → PState V Dbl, (∀ r : Fin E.P, c.prog r = Prog.ret (F r)) ∧
      ∀ X, Assembled E F X → ∀ r, r < E.P → (F r).solveIter < E.maxIter → ∀ i ∈ (E.info r 0).cpts, i ≠ 0 →
        (∃ y, y < tol ∧
          E.norm (E.step 0 (X (i - 1)) (tAt (grid E.ts 0) (i - 1)) (tAt (grid E.ts 0) i) - X i) = fin y) ∧
        fine (X i) ∧ fine (X (i - 1)) := by
  obtain ⟨F, hF, hT⟩ := C64_tolerance h hcc h1 hst
  refine ⟨F, hF, fun X hX r hr hlt i hi hi0 => ?_⟩
  have := hT X hX r hr hlt i hi hi0
  rw [hC.lt] at this
  obtain ⟨y, hy, hyt⟩ := lt_num this (hneg _)
  obtain ⟨b1, b2⟩ := hC.sub _ _ (hC.norm _ ⟨y, hy⟩)
  exact ⟨⟨y, hyt, hy⟩, b2, hS _ _ _ b1⟩

end

/-! ## Arrays of doubles -/

/-- Vectors whose values are one array (all applications of the library on one variable): entrywise arithmetic. -/
theorem array_checks {n : Nat} {K T : Type} [LinearOrder T] [Inhabited T] {E : Cfg (Fin n → Dbl) K T Dbl} {o : TNorm} {tol : ℚ}
    (hnorm : ∀ x, IsNorm .two (List.ofFn x) (E.norm x)) (htnorm : ∀ xs, xs ≠ [] → IsNorm o xs (E.tnorm xs))
    (htol : rnd64 tol = tol) (ho : o = .two → 2 ^ (-500 : ℤ) ≤ tol) (hlt : ∀ x, E.ltTol x = Dbl.lt x (fin tol)) :
    Checks E (fun x => ∀ i, IsNum (x i)) o tol where
  sub x y h := by
    refine ⟨fun i => ?_, fun i => ?_⟩ <;>
    · obtain ⟨q, hq⟩ := h i
      obtain ⟨a, b, e1, e2, -⟩ := sub_num (x := x i) (y := y i) hq
      first | exact ⟨a, e1⟩ | exact ⟨b, e2⟩
  norm x h i := by
    obtain ⟨q, hq⟩ := h
    obtain ⟨s, hs, hr⟩ := hnorm x
    rw [hq] at hr
    cases hr with
    | fin a1 a2 a3 a4 =>
      obtain ⟨y, hy, -⟩ := (squares_num hs _ rfl).2.2 (x i) (by rw [List.mem_ofFn]; exact ⟨i, rfl⟩)
      exact ⟨y, hy⟩
  ok x q hq := by
    obtain ⟨s, hs, hr⟩ := hnorm x
    rw [hq] at hr
    cases hr with
    | fin a1 a2 a3 a4 => exact a2
  tnorm := htnorm
  rep := htol
  large := ho
  lt := hlt

/-! ## Beyond the last C-point -/

/-- The hierarchy of times 0, 1, 2, 3 and 0, 2; a time step adds the step size, and gives NaN if started above 3/2.  (The
norm adds zero so that its value is a double for every `Dbl`.) -/
def exNan (P crit : Nat) : Cfg Dbl Dbl Nat Dbl where
  ts := [[0, 1, 2, 3], [0, 2]]
  step := fun _ x t t' => if Dbl.lt (fin (3 / 2)) x then nan else x + fin ((t' : ℚ) - t)
  R := fun _ x => x
  I := fun _ x => x
  cf := fun _ => 1
  w := 1
  start := fun _ => 0
  zero := fun _ => 0
  guess := fun _ => 0
  cyc := .V
  nested := false
  maxIter := 10
  convCrit := crit
  norm := fun x => Dbl.abs (x + 0)
  tnorm := fun xs => maxOf (xs.map Dbl.abs)
  ltTol := fun x => Dbl.lt x (fin (1 / 1024))
  outLvl := 0
  ord := fun _ _ xs => xs
  P := P
  instr := false

theorem exNan_valid : Valid [[0, 1, 2, 3], [0, 2]] := by
  refine ⟨by decide, by decide, ?_, ?_, ?_⟩
  · intro l
    match l with
    | 0 => decide
    | 1 => decide
    | _ + 2 => exact List.Pairwise.nil
  · intro l hl
    match l with
    | 0 => decide
    | l + 1 => exact absurd hl (by simp)
  · intro l hl
    match l with
    | 0 => rfl
    | 1 => rfl
    | l + 2 => exact absurd hl (by simp)

theorem exNan_good {P crit : Nat} (h0 : 0 < P) (h1 : P ≤ 4) (hc : crit = 0 ∨ crit = 1) : (exNan P crit).Good := by
  refine good_of_gap exNan_valid h0 h1 (fun r l hr hl => ordOK_id exNan_valid h1 hl hr) hc ?_
  intro l i hl
  have e0 : allC [[0, 1, 2, 3], [0, 2]] 0 = [0, 2] := by decide +kernel
  match l with
  | 0 =>
    change ¬ (i ∈ allC [[0, 1, 2, 3], [0, 2]] 0 ∧ i + 1 ∈ allC [[0, 1, 2, 3], [0, 2]] 0)
    rw [e0]
    simp
    omega
  | l + 1 => exact absurd hl (by simp [exNan])

theorem exNan_checks (P crit : Nat) : Checks (exNan P crit) IsNum .sup (1 / 1024) where
  sub x y h := by
    obtain ⟨q, hq⟩ := h
    obtain ⟨a, b, e1, e2, -⟩ := sub_num hq
    exact ⟨⟨a, e1⟩, ⟨b, e2⟩⟩
  norm x h := by
    obtain ⟨q, hq⟩ := h
    obtain ⟨y, e, -⟩ := abs_num hq
    obtain ⟨a, b, e, -, -⟩ := add_num e
    exact ⟨a, e⟩
  ok x := by
    refine (abs_ok fun q hq => ?_).1
    obtain ⟨a, b, -, -, rfl⟩ := add_num hq
    exact rnd64_idem _
  tnorm xs _ := rfl
  rep := by decide +kernel
  large h := by cases h
  lt x := rfl

theorem exNan_strict (P crit : Nat) : Strict (exNan P crit) IsNum := by
  rintro x t t' ⟨q, hq⟩
  change (if _ then _ else _) = _ at hq
  split at hq
  · cases hq
  · obtain ⟨a, b, e, -, -⟩ := add_num hq
    exact ⟨a, e⟩

theorem foldl_max_lt (t : Dbl) (xs : List Dbl) : ∀ x, Dbl.lt x t = true → (∀ y ∈ xs, Dbl.lt y t = true) →
    Dbl.lt (xs.foldl Dbl.max x) t = true := by
  induction xs with
  | nil => intro x hx _; exact hx
  | cons a xs ih =>
    intro x hx hxs
    refine ih _ ?_ fun y hy => hxs y (List.mem_cons_of_mem _ hy)
    have ha := hxs a (by simp)
    cases x with
    | nan => simp [Dbl.lt] at hx
    | inf b =>
      cases a with
      | nan => simp [Dbl.lt] at ha
      | _ => simp only [Dbl.max]; split <;> assumption
    | fin q =>
      cases a with
      | nan => simp [Dbl.lt] at ha
      | _ => simp only [Dbl.max]; split <;> assumption

/-- The maximum norm meets the condition of the statements about the local criterion. -/
theorem exNan_loc {P : Nat} (h0 : 0 < P) (h1 : P ≤ 4) : (exNan P 2).Loc where
  valid := exNan_valid
  Ppos := h0
  PN := h1
  ord := fun r l hr hl => ordOK_id exNan_valid h1 hl hr
  crit := rfl
  cfpos := fun _ _ => le_rfl
  norm := by
    intro xs hn hx
    have e : xs.map Dbl.abs = xs := by
      conv_rhs => rw [← List.map_id xs]
      refine List.map_congr_left fun x hx => ?_
      obtain ⟨v, rfl⟩ := hn x hx
      show Dbl.abs (Dbl.abs (v + 0)) = Dbl.abs (v + 0)
      cases v + 0 <;> simp [Dbl.abs]
    show Dbl.lt (maxOf (xs.map Dbl.abs)) _ = true
    rw [e]
    have hx' : ∀ y ∈ xs, Dbl.lt y (fin (1 / 1024)) = true := fun y hy => List.all_eq_true.1 hx y hy
    cases xs with
    | nil => decide +kernel
    | cons x xs => exact foldl_max_lt _ _ _ (hx' x (by simp)) fun y hy => hx' y (List.mem_cons_of_mem _ hy)

example : (exNan 2 2).Loc ∧ Checks (exNan 2 2) IsNum .sup (1 / 1024) ∧ Strict (exNan 2 2) IsNum ∧
    ∀ x, (exNan 2 2).norm x ≠ inf true :=
  ⟨exNan_loc (by decide) (by decide), exNan_checks 2 2, exNan_strict 2 2, fun x => abs_ne_neg _⟩

/-- C131 fails after the last C-point, for both global criteria: on any number of processes every run stops after two of ten
iterations with a recorded value below the tolerance, and yet the value at the last time is NaN. -/
theorem C131_counterexample {P crit : Nat} (h0 : 0 < P) (h1 : P ≤ 4) (hc : crit = 0 ∨ crit = 1)
    {c : Conf P (Msg Dbl Dbl) (PState Dbl Dbl)} (hr : Steps (startConf (exNan P crit)) c) (hst : ∀ d, ¬ Step c d) :
    Checks (exNan P crit) IsNum .sup (1 / 1024) ∧ Strict (exNan P crit) IsNum ∧
    ∀ (r : Fin P) (s : PState Dbl Dbl), c.prog r = Prog.ret s → s.solveIter ≤ 2 ∧
      (exNan P crit).ltTol (s.conv s.solveIter) = true ∧
      ∀ k j : Nat, ((exNan P crit).info r 0).pts[k]? = some 3 → ((exNan P crit).info r 0).idx[k]? = some j →
        s.u 0 j = nan := by
  refine ⟨exNan_checks P crit, exNan_strict P crit, fun r s hs => ?_⟩
  obtain ⟨s', e, S⟩ := C20_same_as_serial_partial (exNan_good h0 h1 hc) hr hst r
  rw [hs] at e
  cases e
  have hser : serialRun (exNan P crit) = serialRun (exNan 1 crit) := rfl
  have hv : ((serialRun (exNan 1 crit)).iter ≤ 2 ∧ (exNan 1 crit).ltTol ((serialRun (exNan 1 crit)).conv (serialRun (exNan 1 crit)).iter) = true) ∧
      (serialRun (exNan 1 crit)).st.u 0 3 = nan := by
    rcases hc with rfl | rfl <;> decide +kernel
  refine ⟨?_, ?_, fun k j hk hj => ?_⟩
  · rw [S.iter, hser]; exact hv.1.1
  · rw [S.iter, S.conv, hser]; exact hv.1.2
  · rw [S.values 0 k 3 j (show 0 < 2 by decide) hk hj, hser]; exact hv.2

/-- The conditions of the theorems on runs hold, and the norms of the theorems on norms exist. -/
example : (exNan 2 0).Good ∧ Checks (exNan 2 0) IsNum .sup (1 / 1024) ∧ Strict (exNan 2 0) IsNum :=
  ⟨exNan_good (by decide) (by decide) (Or.inl rfl), exNan_checks 2 0, exNan_strict 2 0⟩

example : IsNorm .one [fin 1, fin (-2)] (fin 3) ∧ IsNorm .sup [fin 1, fin (-2)] (fin 2) ∧ IsNorm .two [fin 3, fin 4] (fin 5) ∧
    IsNorm .two [fin 3, nan] nan ∧ Ok (fin 1) ∧ Ok nan := by
  have h3 : (fin 1 + fin 2 : Dbl) = fin 3 := by decide +kernel
  have h25 : (fin 3 * fin 3 + fin 4 * fin 4 : Dbl) = fin 25 := by decide +kernel
  have hn : (fin 3 * fin 3 + nan * nan : Dbl) = nan := by decide +kernel
  refine ⟨?_, ?_, ?_, ?_, ?_, ?_⟩
  · have := Summed.add (Summed.one (fin 1)) (Summed.one (fin 2)) (List.Perm.refl _)
    rw [h3] at this
    exact this
  · show fin 2 = maxOf _
    decide +kernel
  · refine ⟨fin 25, h25 ▸ .add (.one (fin 3)) (.one (fin 4)) (List.Perm.refl _), .fin (by norm_num) (by decide +kernel) ?_ ?_⟩
    · intro t h0 _ ht; nlinarith
    · intro t h0 _ ht; nlinarith
  · have := SquaresSummed.add (.one (fin 3)) (.one nan) (List.Perm.refl _)
    rw [hn] at this
    exact ⟨nan, this, .nan⟩
  · rintro q ⟨⟩
    decide +kernel
  · rintro q ⟨⟩

end Pymgrit.Ieee
