import Verif.PropsDist

/-!
# C20 for arrays of IEEE doubles

The theorems that compare executions assume no law of arithmetic.  Here they are stated for vectors of floating-point
numbers with Lean's `Float` operations (IEEE 754 doubles, like numpy's `float64`): the results agree in every bit.
-/

set_option linter.unusedSectionVars false

namespace Pymgrit
open Cfg

/-- C20.  Vectors of `d` doubles with entrywise addition, subtraction and multiplication by the weight, as in the shipped
applications: two runs on different numbers of processes return the same doubles at every point. -/
theorem C20_float_partial {T : Type} [LinearOrder T] [Inhabited T] {d : Nat} {E : Cfg (Fin d → Float) Float T Float}
    (P' : Nat) (ord' : Nat → Nat → List Nat → List Nat) (h : E.Good)
    (h' : ({ E with P := P', ord := ord' } : Cfg (Fin d → Float) Float T Float).Good)
    {c : Conf E.P (Msg (Fin d → Float) Float) (PState (Fin d → Float) Float)}
    (h1 : Steps (startConf E) c) (hc : ∀ d, ¬ Step c d)
    {c' : Conf P' (Msg (Fin d → Float) Float) (PState (Fin d → Float) Float)}
    (h1' : Steps (startConf { E with P := P', ord := ord' }) c') (hc' : ∀ d, ¬ Step c' d) (r : Fin E.P) (r' : Fin P') :
    ∃ s s', c.prog r = Prog.ret s ∧ c'.prog r' = Prog.ret s' ∧
      (∀ j, s.conv j = s'.conv j) ∧ s.solveIter = s'.solveIter ∧
      ∀ l k i j k' j' : Nat, l < E.ts.length →
        (E.info r l).pts[k]? = some i → (E.info r l).idx[k]? = some j →
        (setupLevel E.ts P' (ord' r' l) r' l).pts[k']? = some i →
        (setupLevel E.ts P' (ord' r' l) r' l).idx[k']? = some j' →
        ∀ x, (s.u l j x).toBits = (s'.u l j' x).toBits := by
  obtain ⟨s, s', e, e', hcv, hit, hu⟩ := C20_process_count_partial P' ord' E.instr h h' h1 hc h1' hc' r r'
  exact ⟨s, s', e, e', hcv, hit, fun l k i j k' j' hl a b a' b' x => by rw [hu l k i j k' j' hl a b a' b']⟩

/-- Three doubles per point, a nonlinear step with rounding, weight `1.3`, five iterations at most. -/
def exFloatCfg (P : Nat) : Cfg (Fin 3 → Float) Float Nat Float where
  ts := exGrid
  step := fun l x t0 t1 i => x i / (1.0 + (Float.ofNat (t1 - t0)) * 0.1) + Float.sin (x 0) * 0.3 + Float.ofNat l
  R := fun _ x => x
  I := fun _ x => x
  cf := fun _ => 1
  w := 1.3
  start := fun _ i => 1.0 / Float.ofNat (i.val + 3)
  zero := fun _ _ => 0
  guess := fun i _ => Float.ofNat i
  cyc := Sys.Cycle.F
  nested := true
  maxIter := 5
  convCrit := 0
  norm := fun x => Float.sqrt (x 0 * x 0 + x 1 * x 1 + x 2 * x 2)
  tnorm := fun xs => Float.sqrt ((xs.map fun x => x * x).foldl (· + ·) 0)
  ltTol := fun x => x < 1e-7
  outLvl := 2
  ord := fun _ _ xs => xs
  P := P
  instr := false

theorem exFloatCfg_good (P : Nat) (hP : 0 < P) (hP9 : P ≤ 9) : (exFloatCfg P).Good :=
  good_of_gap exGrid_valid hP hP9
    (fun r l hr hl => ordOK_id exGrid_valid hP9 hl hr) (Or.inl rfl) (by
      intro l i hl
      have e0 : allC exGrid 0 = [0, 2, 4, 6, 8] := by decide +kernel
      have e1 : allC exGrid 1 = [0, 2, 4] := by decide +kernel
      match l with
      | 0 => show ¬ (i ∈ allC exGrid 0 ∧ i + 1 ∈ allC exGrid 0); rw [e0]; simp; omega
      | 1 => show ¬ (i ∈ allC exGrid 1 ∧ i + 1 ∈ allC exGrid 1); rw [e1]; simp; omega
      | l + 2 => exact absurd hl (by simp [exFloatCfg, exGrid]))

/-- Two against seven processes. -/
example {c c'} (h1 : Steps (startConf (exFloatCfg 2)) c) (hc : ∀ d, ¬ Step c d)
    (h1' : Steps (startConf (exFloatCfg 7)) c') (hc' : ∀ d, ¬ Step c' d) (r : Fin 2) (r' : Fin 7) :=
  C20_float_partial (E := exFloatCfg 2) 7 (fun _ _ xs => xs) (exFloatCfg_good 2 (by decide) (by decide))
    (exFloatCfg_good 7 (by decide) (by decide)) h1 hc h1' hc' r r'

end Pymgrit
