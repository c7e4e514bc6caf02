import Verif.PropsParam
import Verif.EndToEnd2
import Verif.Examples

/-!
# Property C92: superposition, and C73 on any number of processes

If the problem is linear (or affine), the returned values depend linearly on the data.  The runs compared may
use different numbers of processes; they are compared after the same number of iterations, which is part of the
hypotheses (`solveIter`), because the stopping rule looks at norms.
-/

set_option linter.unusedSectionVars false

namespace Pymgrit
open Sys Cfg

variable {V V' K K' T N : Type} [LinearOrder T] [Inhabited T]

/-- C73 on any numbers of processes: if additive maps `M l` carry the problem `E` to `E'` (steps, transfers,
weights, start values, initial guess), then `M 0` carries the returned values to the returned values. -/
theorem C73_distributed [AddCommGroup V] [SMul K V] [One K] [Sub K] [AddCommGroup V'] [SMul K' V'] [One K'] [Sub K']
    [Zero N] {E : Cfg V K T N} {E' : Cfg V' K' T N} (h : E.Good) (h' : E'.Good) (hmax : 0 < E.maxIter)
    (hmax' : 0 < E'.maxIter) {M : Nat → V →+ V'}
    (hts : E'.ts = E.ts) (hcf : E'.cf = E.cf) (hcyc : E'.cyc = E.cyc)
    (step : ∀ l x t t', l < E.ts.length → M l (E.step l x t t') = E'.step l (M l x) t t')
    (relax : ∀ l x y, M l (E.w • x + (1 - E.w) • y) = E'.w • M l x + (1 - E'.w) • M l y)
    (restrict : ∀ l x, l + 1 < E.ts.length → M (l + 1) (E.R l x) = E'.R l (M l x))
    (interp : ∀ l x, l + 1 < E.ts.length → M l (E.I l x) = E'.I l (M (l + 1) x))
    (start : ∀ l, l < E.ts.length → E'.start l = M l (E.start l))
    (hnest : E'.nested = E.nested)
    (guess : E.nested = false → ∀ i, i ∈ allC E.ts 0 → i ≠ 0 → E'.guess i = M 0 (E.guess i))
    (zero : E.nested = true → ∀ l, E.zero l = 0 ∧ E'.zero l = 0)
    {c : Conf E.P (Msg V N) (PState V N)} (h1 : Steps (startConf E) c) (hc : ∀ d, ¬ Step c d)
    {c' : Conf E'.P (Msg V' N) (PState V' N)} (h1' : Steps (startConf E') c') (hc' : ∀ d, ¬ Step c' d)
    (r : Fin E.P) (s : PState V N) (hr : c.prog r = Prog.ret s)
    (r' : Fin E'.P) (s' : PState V' N) (hr' : c'.prog r' = Prog.ret s') (hm : s'.solveIter = s.solveIter)
    (k k' i j j' : Nat) (hi : (E.info r 0).pts[k]? = some i) (hj : (E.info r 0).idx[k]? = some j)
    (hi' : (E'.info r' 0).pts[k']? = some i) (hj' : (E'.info r' 0).idx[k']? = some j') :
    s'.u 0 j' = M 0 (s.u 0 j) := by
  have hT : Intertwines E.sys E'.sys M :=
    { L := congrArg List.length hts
      n := congrArg npts hts
      C := congrArg allC hts
      F := congrArg allF hts
      cf := hcf
      step := fun l i x hl _ _ => by
        show M l (E.step l x _ _) = E'.step l (M l x) _ _
        rw [hts]; exact step l x _ _ hl
      relax := fun l x y _ => relax l x y
      restrict := restrict
      interp := interp }
  obtain ⟨a1, -, -, -, a5⟩ := returned h hmax h1 hc r s hr
  obtain ⟨-, -, -, -, a5'⟩ := returned h' hmax' h1' hc' r' s' hr'
  obtain ⟨b1, b2⟩ := a5 k i j hi hj
  obtain ⟨-, b2'⟩ := a5' k' i j' hi' hj'
  obtain ⟨m, hm1⟩ : ∃ m, s.solveIter = m + 1 := ⟨s.solveIter - 1, by omega⟩
  rw [b2, b2', hm, hm1, hcyc]
  have hwf := E.sys_wf h.valid
  by_cases hn : E.nested = true
  · rw [constructor_nested hn, constructor_nested (hnest.trans hn)]
    exact C73_equivariant_nested hwf hT E.cyc m _ _
      (fun l hl => start l hl)
      (fun l _ => (zero hn l).1) (fun l _ => (zero hn l).2) i b1
  · have hn : E.nested = false := by simpa using hn
    refine C73_equivariant hwf hT E.cyc m _ _ (fun i hi => ?_) i b1
    rw [constructor_value hn, constructor_value (hnest.trans hn)]
    by_cases h0 : i = 0
    · rw [if_pos h0, if_pos h0]; exact start 0 h.valid.pos
    · rw [if_neg h0, if_neg h0, if_pos rfl, if_pos rfl]; exact guess hn i hi h0

/-! ## C92 -/

section
variable [AddCommGroup V] [Ring K] [Module K V]

/-- Two problems on the same grids side by side. -/
def Sys.pair (S S' : Sys V K) : Sys (V × V) K where
  L := S.L
  n := S.n
  C := S.C
  F := S.F
  Φ := fun l i x => (S.Φ l i x.1, S'.Φ l i x.2)
  R := fun l x => (S.R l x.1, S'.R l x.2)
  I := fun l x => (S.I l x.1, S'.I l x.2)
  cf := S.cf
  w := S.w

theorem Sys.pair_wf {S S' : Sys V K} (h : S.WF) : (S.pair S').WF where
  Lpos := h.Lpos
  npos := h.npos
  C_sorted := h.C_sorted
  C_zero := h.C_zero
  C_len := h.C_len
  C_lt := h.C_lt
  C_last := h.C_last
  F_mem := h.F_mem
  F_compat := h.F_compat

variable [Zero N]

/-- The problem `E3` is the sum of `E1` and `E2`: same grids and parameters, and the sum of start vectors, sources
and initial guesses.  For a linear problem `step l x t t' = A x + b` this is `b3 = b1 + b2` with the same `A`. -/
structure SumOf (E1 E2 E3 : Cfg V K T N) : Prop where
  ts2 : E2.ts = E1.ts
  ts3 : E3.ts = E1.ts
  cf2 : E2.cf = E1.cf
  cf3 : E3.cf = E1.cf
  w2 : E2.w = E1.w
  w3 : E3.w = E1.w
  cyc2 : E2.cyc = E1.cyc
  cyc3 : E3.cyc = E1.cyc
  nest2 : E2.nested = E1.nested
  nest3 : E3.nested = E1.nested
  step : ∀ l x y t t', E3.step l (x + y) t t' = E1.step l x t t' + E2.step l y t t'
  R : ∀ l x y, E3.R l (x + y) = E1.R l x + E2.R l y
  I : ∀ l x y, E3.I l (x + y) = E1.I l x + E2.I l y
  start : ∀ l, E3.start l = E1.start l + E2.start l
  guess : E1.nested = false → ∀ i, E3.guess i = E1.guess i + E2.guess i
  zero : E1.nested = true → ∀ l, E1.zero l = 0 ∧ E2.zero l = 0 ∧ E3.zero l = 0

theorem sum_iterates {E1 E2 E3 : Cfg V K T N} (hE : SumOf E1 E2 E3) (hv : Valid E1.ts) (m i : Nat)
    (n1 : i < E1.sys.n 0) :
    (iterates E3.sys E3.sys.forwardSolve E1.cyc (m + 1) (afterConstructor E3).st).u 0 i
      = (iterates E1.sys E1.sys.forwardSolve E1.cyc (m + 1) (afterConstructor E1).st).u 0 i
        + (iterates E2.sys E2.sys.forwardSolve E1.cyc (m + 1) (afterConstructor E2).st).u 0 i := by
  set S := E1.sys.pair E2.sys with hS
  have hwf : S.WF := Sys.pair_wf (E1.sys_wf hv)
  have T1 : Intertwines S E1.sys (fun _ => AddMonoidHom.fst V V) :=
    { L := rfl, n := rfl, C := rfl, F := rfl, cf := rfl
      step := fun _ _ _ _ _ _ => rfl, relax := fun _ _ _ _ => rfl
      restrict := fun _ _ _ => rfl, interp := fun _ _ _ => rfl }
  have T2 : Intertwines S E2.sys (fun _ => AddMonoidHom.snd V V) :=
    { L := congrArg List.length hE.ts2, n := congrArg npts hE.ts2, C := congrArg allC hE.ts2
      F := congrArg allF hE.ts2, cf := hE.cf2
      step := fun _ _ _ _ _ _ => rfl
      relax := fun _ x y _ => by
        show E1.w • x.2 + (1 - E1.w) • y.2 = E2.w • x.2 + (1 - E2.w) • y.2
        rw [hE.w2]
      restrict := fun _ _ _ => rfl, interp := fun _ _ _ => rfl }
  have T3 : Intertwines S E3.sys (fun _ => AddMonoidHom.fst V V + AddMonoidHom.snd V V) :=
    { L := congrArg List.length hE.ts3, n := congrArg npts hE.ts3, C := congrArg allC hE.ts3
      F := congrArg allF hE.ts3, cf := hE.cf3
      step := fun l i x _ _ _ => by
        show E1.step l x.1 _ _ + E2.step l x.2 _ _ = E3.step l (x.1 + x.2) _ _
        rw [hE.step, hE.ts2, hE.ts3]
      relax := fun _ x y _ => by
        show (E1.w • x.1 + (1 - E1.w) • y.1) + (E1.w • x.2 + (1 - E1.w) • y.2)
          = E3.w • (x.1 + x.2) + (1 - E3.w) • (y.1 + y.2)
        rw [hE.w3, smul_add, smul_add]
        abel
      restrict := fun l x _ => (hE.R l x.1 x.2).symm
      interp := fun l x _ => (hE.I l x.1 x.2).symm }
  by_cases hn : E1.nested = true
  · rw [constructor_nested hn, constructor_nested (hE.nest2.trans hn), constructor_nested (hE.nest3.trans hn)]
    let s0 : GState (V × V) :=
      (Run.init (N := N) (fun l => (E1.start l, E2.start l)) (fun _ => 0) (fun _ => 0)).st
    have x1 := C73_equivariant_nested hwf T1 E1.cyc m s0 (Run.init (N := N) E1.start E1.zero E1.guess).st
      (fun _ _ => rfl) (fun _ _ => rfl) (fun l _ => (hE.zero hn l).1) i n1
    have x2 := C73_equivariant_nested hwf T2 E1.cyc m s0 (Run.init (N := N) E2.start E2.zero E2.guess).st
      (fun _ _ => rfl) (fun _ _ => rfl) (fun l _ => (hE.zero hn l).2.1) i n1
    have x3 := C73_equivariant_nested hwf T3 E1.cyc m s0 (Run.init (N := N) E3.start E3.zero E3.guess).st
      (fun l _ => hE.start l) (fun _ _ => rfl) (fun l _ => (hE.zero hn l).2.2) i n1
    rw [x1, x2, x3]
    rfl
  · have hn : E1.nested = false := by simpa using hn
    let s0 : GState (V × V) :=
      (Run.init (N := N) (fun l => (E1.start l, E2.start l)) (fun _ => 0) (fun i => (E1.guess i, E2.guess i))).st
    have hs0 : ∀ i, s0.u 0 i = if i = 0 then (E1.start 0, E2.start 0) else (E1.guess i, E2.guess i) := by
      intro i
      show (if i = 0 then _ else if 0 = 0 then _ else _) = _
      rw [if_pos (rfl : 0 = 0)]
    have x1 := C73_equivariant hwf T1 E1.cyc m s0 (afterConstructor E1).st (fun i _ => by
      rw [constructor_value hn, hs0, if_pos rfl]
      split <;> rfl) i n1
    have x2 := C73_equivariant hwf T2 E1.cyc m s0 (afterConstructor E2).st (fun i _ => by
      rw [constructor_value (hE.nest2.trans hn), hs0, if_pos rfl]
      split <;> rfl) i n1
    have x3 := C73_equivariant hwf T3 E1.cyc m s0 (afterConstructor E3).st (fun i _ => by
      rw [constructor_value (hE.nest3.trans hn), hs0, if_pos rfl]
      split
      · exact hE.start 0
      · exact hE.guess hn _) i n1
    rw [x1, x2, x3]
    rfl

/-- C92.  Superposition: after the same number of iterations the values returned for the sum of two problems are
the sums of the returned values, whatever the numbers of processes of the three runs. -/
theorem C92_superposition {E1 E2 E3 : Cfg V K T N} (hE : SumOf E1 E2 E3)
    (g1 : E1.Good) (g2 : E2.Good) (g3 : E3.Good)
    (m1 : 0 < E1.maxIter) (m2 : 0 < E2.maxIter) (m3 : 0 < E3.maxIter)
    {c1 : Conf E1.P (Msg V N) (PState V N)} (p1 : Steps (startConf E1) c1) (q1 : ∀ d, ¬ Step c1 d)
    {c2 : Conf E2.P (Msg V N) (PState V N)} (p2 : Steps (startConf E2) c2) (q2 : ∀ d, ¬ Step c2 d)
    {c3 : Conf E3.P (Msg V N) (PState V N)} (p3 : Steps (startConf E3) c3) (q3 : ∀ d, ¬ Step c3 d)
    (r1 : Fin E1.P) (s1 : PState V N) (e1 : c1.prog r1 = Prog.ret s1)
    (r2 : Fin E2.P) (s2 : PState V N) (e2 : c2.prog r2 = Prog.ret s2)
    (r3 : Fin E3.P) (s3 : PState V N) (e3 : c3.prog r3 = Prog.ret s3)
    (i12 : s2.solveIter = s1.solveIter) (i13 : s3.solveIter = s1.solveIter)
    (i k1 j1 k2 j2 k3 j3 : Nat)
    (a1 : (E1.info r1 0).pts[k1]? = some i) (b1 : (E1.info r1 0).idx[k1]? = some j1)
    (a2 : (E2.info r2 0).pts[k2]? = some i) (b2 : (E2.info r2 0).idx[k2]? = some j2)
    (a3 : (E3.info r3 0).pts[k3]? = some i) (b3 : (E3.info r3 0).idx[k3]? = some j3) :
    s3.u 0 j3 = s1.u 0 j1 + s2.u 0 j2 := by
  obtain ⟨f1, -, -, -, f5⟩ := returned g1 m1 p1 q1 r1 s1 e1
  obtain ⟨-, -, -, -, f6⟩ := returned g2 m2 p2 q2 r2 s2 e2
  obtain ⟨-, -, -, -, f7⟩ := returned g3 m3 p3 q3 r3 s3 e3
  obtain ⟨n1, v1⟩ := f5 k1 i j1 a1 b1
  obtain ⟨-, v2⟩ := f6 k2 i j2 a2 b2
  obtain ⟨-, v3⟩ := f7 k3 i j3 a3 b3
  obtain ⟨m, hm⟩ : ∃ m, s1.solveIter = m + 1 := ⟨s1.solveIter - 1, by omega⟩
  rw [v1, v2, v3, i12, i13, hm, hE.cyc2, hE.cyc3]
  exact sum_iterates hE g1.valid m i n1

/-- C92.  For an affine problem the error after any number of iterations is the result of the homogeneous problem
(start vector zero, no source) with the error of the initial guess as initial guess: it does not depend on the
source or the start vector. -/
theorem C92_error {E E0 : Cfg V K T N} (g : E.Good) (g0 : E0.Good) (hm : 0 < E.maxIter) (hm0 : 0 < E0.maxIter)
    (ts : E0.ts = E.ts) (cf : E0.cf = E.cf) (w : E0.w = E.w) (cyc : E0.cyc = E.cyc)
    (nest : E.nested = false) (nest0 : E0.nested = false)
    (step : ∀ l x y t t', E.step l (x + y) t t' = E.step l x t t' + E0.step l y t t')
    (eR : E0.R = E.R) (eI : E0.I = E.I) (R : ∀ l x y, E.R l (x + y) = E.R l x + E.R l y)
    (I : ∀ l x y, E.I l (x + y) = E.I l x + E.I l y)
    (start : ∀ l, E0.start l = 0) (guess : ∀ i, E0.guess i = E.guess i - timeStepping E i)
    {c : Conf E.P (Msg V N) (PState V N)} (p : Steps (startConf E) c) (q : ∀ d, ¬ Step c d)
    {c0 : Conf E0.P (Msg V N) (PState V N)} (p0 : Steps (startConf E0) c0) (q0 : ∀ d, ¬ Step c0 d)
    (r : Fin E.P) (s : PState V N) (e : c.prog r = Prog.ret s)
    (r0 : Fin E0.P) (s0 : PState V N) (e0 : c0.prog r0 = Prog.ret s0) (hit : s0.solveIter = s.solveIter)
    (i k j k0 j0 : Nat)
    (a : (E.info r 0).pts[k]? = some i) (b : (E.info r 0).idx[k]? = some j)
    (a0 : (E0.info r0 0).pts[k0]? = some i) (b0 : (E0.info r0 0).idx[k0]? = some j0) :
    s.u 0 j - timeStepping E i = s0.u 0 j0 := by
  obtain ⟨f1, -, -, -, f5⟩ := returned g hm p q r s e
  obtain ⟨-, -, -, -, f6⟩ := returned g0 hm0 p0 q0 r0 s0 e0
  obtain ⟨n1, v1⟩ := f5 k i j a b
  obtain ⟨-, v2⟩ := f6 k0 i j0 a0 b0
  obtain ⟨m, hm⟩ : ∃ m, s.solveIter = m + 1 := ⟨s.solveIter - 1, by omega⟩
  let E1 : Cfg V K T N := { E with guess := timeStepping E }
  have hE : SumOf E1 E0 E :=
    { ts2 := ts, ts3 := rfl, cf2 := cf, cf3 := rfl, w2 := w, w3 := rfl, cyc2 := cyc, cyc3 := rfl
      nest2 := nest0.trans nest.symm, nest3 := rfl, step := step
      R := fun l x y => by rw [eR]; exact R l x y
      I := fun l x y => by rw [eI]; exact I l x y
      start := fun l => by rw [start, add_zero]
      guess := fun _ i => by
        show E.guess i = timeStepping E i + E0.guess i
        rw [guess]; abel
      zero := fun h => absurd (h.symm.trans nest) (by decide) }
  have hR0 : ∀ l, E.R l 0 = 0 := fun l => by
    have := R l 0 0
    rw [add_zero] at this
    exact left_eq_add.1 this
  have hI0 : ∀ l, E.I l 0 = 0 := fun l => by
    have := I l 0 0
    rw [add_zero] at this
    exact left_eq_add.1 this
  have hfix : ∀ m i, i < E1.sys.n 0 →
      (iterates E1.sys E1.sys.forwardSolve E.cyc m (afterConstructor E1).st).u 0 i = timeStepping E i := by
    have hwf := E1.sys_wf g.valid
    have h0 : ∀ i, (afterConstructor E1).st.u 0 i = timeStepping E i := by
      intro i
      rw [constructor_value (E := E1) nest, if_pos rfl]
      split
      · next h => subst h; rfl
      · rfl
    intro m
    have key : Solved (E1.sys.Φ 0) (E1.sys.n 0)
        ((iterates E1.sys E1.sys.forwardSolve E.cyc m (afterConstructor E1).st).u 0) ∧
        ∀ i, i < E1.sys.n 0 →
          (iterates E1.sys E1.sys.forwardSolve E.cyc m (afterConstructor E1).st).u 0 i = timeStepping E i := by
      induction m with
      | zero =>
        refine ⟨fun i hi => ?_, fun i _ => h0 i⟩
        show (afterConstructor E1).st.u 0 i = seqSol _ ((afterConstructor E1).st.u 0 0) i
        rw [h0, h0]
        rfl
      | succ m ih =>
        obtain ⟨x1, x2, -⟩ := C12_fixed_point hwf (fun l _ => hR0 l) (fun l _ => hI0 l) E.cyc m _ ih.1
        exact ⟨x2, fun i hi => (x1 i hi).trans (ih.2 i hi)⟩
    exact key.2
  rw [v1, v2, hit, hm, cyc, sum_iterates hE g.valid m i n1]
  have := hfix (m + 1) i n1
  rw [show (iterates E1.sys E1.sys.forwardSolve E1.cyc (m + 1) (afterConstructor E1).st).u 0 i = timeStepping E i
    from this]
  exact add_sub_cancel_left _ _

end
/-! ## Examples -/

/-- A problem with affine steps on the three-level grid of `Verif.Examples`. -/
def exLin (P : Nat) (a b g : Int) : Cfg Int Int Nat Int :=
  { exCfg P with
    step := fun l x t0 t1 => 2 * x + b * ((t1 : Int) - (t0 : Int) + l)
    start := fun _ => a
    guess := fun i => g * i }

theorem exLin_good (P : Nat) (h0 : 0 < P) (h1 : P ≤ npts exGrid 0) (a b g : Int) : (exLin P a b g).Good :=
  have hg := exCfg_good P h0 h1
  good_of_gap hg.valid hg.Ppos hg.PN hg.ord (Or.inl rfl) exGrid_gap

/-- The sum of two such problems, on 4, 2 and 1 processes. -/
theorem exLin_sum : SumOf (exLin 4 1 2 3) (exLin 2 4 5 6) (exLin 1 5 7 9) where
  ts2 := rfl
  ts3 := rfl
  cf2 := rfl
  cf3 := rfl
  w2 := rfl
  w3 := rfl
  cyc2 := rfl
  cyc3 := rfl
  nest2 := rfl
  nest3 := rfl
  step := fun l x y t t' => by simp only [exLin]; ring
  R := fun _ _ _ => rfl
  I := fun _ _ _ => rfl
  start := fun _ => rfl
  guess := fun h => absurd h (by decide)
  zero := fun _ _ => ⟨rfl, rfl, rfl⟩

/-- `C92_superposition` for it. -/
example {c1 : Conf 4 (Msg Int Int) (PState Int Int)} (p1 : Steps (startConf (exLin 4 1 2 3)) c1)
    (q1 : ∀ d, ¬ Step c1 d) {c2 : Conf 2 (Msg Int Int) (PState Int Int)}
    (p2 : Steps (startConf (exLin 2 4 5 6)) c2) (q2 : ∀ d, ¬ Step c2 d)
    {c3 : Conf 1 (Msg Int Int) (PState Int Int)} (p3 : Steps (startConf (exLin 1 5 7 9)) c3)
    (q3 : ∀ d, ¬ Step c3 d) :=
  C92_superposition exLin_sum (exLin_good 4 (by decide) (by decide) 1 2 3)
    (exLin_good 2 (by decide) (by decide) 4 5 6) (exLin_good 1 (by decide) (by decide) 5 7 9)
    (by decide) (by decide) (by decide) p1 q1 p2 q2 p3 q3

/-- `C73_distributed` for multiplication by five. -/
example {c : Conf 4 (Msg Int Int) (PState Int Int)} (p1 : Steps (startConf (exLin 4 1 2 3)) c)
    (q1 : ∀ d, ¬ Step c d) {c' : Conf 2 (Msg Int Int) (PState Int Int)}
    (p2 : Steps (startConf (exLin 2 5 10 3)) c') (q2 : ∀ d, ¬ Step c' d) :=
  C73_distributed (E := exLin 4 1 2 3) (E' := exLin 2 5 10 3) (exLin_good 4 (by decide) (by decide) 1 2 3)
    (exLin_good 2 (by decide) (by decide) 5 10 3) (by decide) (by decide)
    (M := fun _ => AddMonoidHom.mulLeft 5) rfl rfl rfl
    (fun l x t t' _ => by simp only [exLin, AddMonoidHom.coe_mulLeft]; ring)
    (fun l x y => by simp only [exLin, exCfg, AddMonoidHom.coe_mulLeft, smul_eq_mul]; ring)
    (fun _ _ _ => rfl) (fun _ _ _ => rfl) (fun _ _ => rfl) rfl (fun h => absurd h (by decide))
    (fun _ _ => ⟨rfl, rfl⟩) p1 q1 p2 q2

/-- `C92_error`: the homogeneous problem on one process. -/
example {c : Conf 4 (Msg Int Int) (PState Int Int)}
    (p : Steps (startConf { exLin 4 1 2 3 with nested := false }) c) (q : ∀ d, ¬ Step c d)
    {c0 : Conf 1 (Msg Int Int) (PState Int Int)}
    (p0 : Steps (startConf { exLin 1 0 0 0 with
      nested := false, guess := fun i => 3 * i - timeStepping { exLin 4 1 2 3 with nested := false } i }) c0)
    (q0 : ∀ d, ¬ Step c0 d) :=
  have h4 := exLin_good 4 (by decide) (by decide) 1 2 3
  have h1 := exLin_good 1 (by decide) (by decide) 0 0 0
  C92_error (E := { exLin 4 1 2 3 with nested := false })
    (E0 := { exLin 1 0 0 0 with
      nested := false, guess := fun i => 3 * i - timeStepping { exLin 4 1 2 3 with nested := false } i })
    { valid := h4.valid, Ppos := h4.Ppos, PN := h4.PN, ord := h4.ord, glob := rfl, noCC := h4.noCC }
    { valid := h1.valid, Ppos := h1.Ppos, PN := h1.PN, ord := h1.ord, glob := rfl, noCC := h1.noCC }
    (by decide) (by decide) rfl rfl rfl rfl rfl rfl
    (fun l x y t t' => by simp only [exLin]; ring) rfl rfl (fun _ _ _ => rfl) (fun _ _ _ => rfl)
    (fun _ => rfl) (fun _ => rfl) p q p0 q0

end Pymgrit
