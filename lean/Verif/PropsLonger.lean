import Verif.EndToEnd2

/-!
# Property C111: longer runs continue shorter ones, observers change nothing

A run with a smaller tolerance or more iterations passes through the result of the shorter run: same convergence values,
same iterate after as many iterations.  The output level does not change any value.
-/

set_option linter.unusedSectionVars false

namespace Pymgrit
open Sys Cfg

variable {V K T N : Type} [LinearOrder T] [Inhabited T]
variable [Add V] [Sub V] [SMul K V] [One K] [Sub K]

section serial
variable {S : Sys V K} {c : Ctl V N} {coarse : Nat → GState V → GState V}

/-- The control parameters with another iteration limit, tolerance and output level. -/
def Ctl.longer (c : Ctl V N) (maxIter : Nat) (ltTol : N → Bool) (outLvl : Nat) : Ctl V N :=
  { c with maxIter := maxIter, ltTol := ltTol, outLvl := outLvl }

theorem setup_same (M : Nat) (lt : N → Bool) (o : Nat) (s : Run V N) :
    (S.setup (c.longer M lt o) coarse s).st = (S.setup c coarse s).st ∧
      (S.setup (c.longer M lt o) coarse s).saved = (S.setup c coarse s).saved ∧
      (S.setup (c.longer M lt o) coarse s).conv = (S.setup c coarse s).conv := by
  have h : ∀ (b b' : Prop) [Decidable b] [Decidable b'] (x : Run V N),
      (if b then x.output else x).st = (if b' then x.output else x).st ∧
        (if b then x.output else x).saved = (if b' then x.output else x).saved ∧
        (if b then x.output else x).conv = (if b' then x.output else x).conv := by
    intro b b' _ _ x
    split <;> split <;> exact ⟨rfl, rfl, rfl⟩
  exact h _ _ _

theorem critValue_same (M : Nat) (lt : N → Bool) (o : Nat) {s s' : Run V N} (h1 : s'.st = s.st) (h2 : s'.saved = s.saved)
    (j : Nat) : S.critValue (c.longer M lt o) coarse s' j = S.critValue c coarse s j := by
  have h : S.savedAt (c.longer M lt o) coarse s' j = S.savedAt c coarse s j := by
    cases j with
    | zero => exact h2
    | succ j => show (iterates S coarse c.cyc (j + 1) s'.st).u 0 = _; rw [h1]; rfl
  unfold critValue
  rw [h, h1]
  rfl

/-- C111, for the run on one process with any coarsest-level solver: with an iteration limit that is not smaller and a
tolerance that is not larger, the run makes at least as many iterations, records the same values in the iterations of the
shorter run, returns a history that starts with the history of the shorter run, and with output level 2 the output function
is called with the result of the shorter run in the iteration in which that run stopped. -/
theorem C111_longer_run [Zero N] [DecidableEq N] (S : Sys V K) (c : Ctl V N) (coarse : Nat → GState V → GState V)
    (start zero guess : Nat → V) (hmax : 0 < c.maxIter) (M : Nat) (hM : c.maxIter ≤ M) (lt : N → Bool)
    (hlt : ∀ x, lt x = true → c.ltTol x = true) (o : Nat) :
    let c' : Ctl V N := { c with maxIter := M, ltTol := lt, outLvl := o }
    let r : Run V N := S.solve c coarse (S.setup c coarse (Run.init start zero guess))
    let r' : Run V N := S.solve c' coarse (S.setup c' coarse (Run.init start zero guess))
    r.iter ≤ r'.iter ∧ (∀ j, j ≤ r.iter → r'.conv j = r.conv j) ∧ r.history c <+: r'.history c' ∧
      (o = 2 → r'.outs[r.iter]? = some (r.iter, r.st.u 0)) := by
  intro c' r r'
  obtain ⟨e1, e2, e3⟩ := setup_same (S := S) (c := c) (coarse := coarse) M lt o (Run.init start zero guess)
  obtain ⟨m, a1, a2, a3, a4, a5, a6, a7, a8⟩ :=
    C17_stopping_rule (S := S) c coarse (S.setup c coarse (Run.init start zero guess)) hmax
  obtain ⟨m', b1, b2, b3, b4, b5, b6, b7, b8⟩ :=
    C17_stopping_rule (S := S) c' coarse (S.setup c' coarse (Run.init start zero guess))
      (show 0 < c'.maxIter from Nat.lt_of_lt_of_le hmax hM)
  have ecrit : ∀ j, S.critValue c' coarse (S.setup c' coarse (Run.init start zero guess)) j =
      S.critValue c coarse (S.setup c coarse (Run.init start zero guess)) j :=
    critValue_same (S := S) (c := c) (coarse := coarse) M lt o e1 e2
  have e1' : (S.setup c' coarse (Run.init (N := N) start zero guess)).st =
    (S.setup c coarse (Run.init start zero guess)).st := e1
  have hmm : m ≤ m' := by
    by_contra hlt'
    rcases b6 with h | h
    · have h1 := hlt _ h
      rw [b7 m' b1 (Nat.le_refl _)] at h1
      have h2 := a5 m' b1 (by omega)
      rw [a7 m' b1 (by omega)] at h2
      have h3 : S.critValue c' coarse (S.setup c' coarse (Run.init start zero guess)) (m' - 1) =
        S.critValue c coarse (S.setup c coarse (Run.init start zero guess)) (m' - 1) := ecrit _
      rw [h3, h2] at h1
      exact Bool.false_ne_true h1
    · have : m' = M := h
      omega
  have hr : r.iter = m := a3
  have hr' : r'.iter = m' := b3
  refine ⟨by omega, ?_, ?_, ?_⟩
  · intro j hj
    rcases Nat.eq_zero_or_pos j with h0 | h0
    · exact (b8 j (.inl h0)).trans ((congrFun e3 j).trans (a8 j (.inl h0)).symm)
    · exact (b7 j h0 (by omega)).trans ((ecrit _).trans (a7 j h0 (by omega)).symm)
  · have h1 := C18_history_partial (S := S) c coarse start zero guess hmax
    have h2 := C18_history_partial (S := S) c' coarse start zero guess (Nat.lt_of_lt_of_le hmax hM)
    have h1' : r.history c = ((List.range r.iter).map fun j =>
      S.critValue c coarse (S.setup c coarse (Run.init start zero guess)) j).filter fun x => decide (x ≠ 0) := h1
    have h2' : r'.history c' = ((List.range r'.iter).map fun j =>
      S.critValue c' coarse (S.setup c' coarse (Run.init start zero guess)) j).filter fun x => decide (x ≠ 0) := h2
    simp only [ecrit] at h2'
    rw [h1', h2', hr, hr']
    obtain ⟨k, rfl⟩ : ∃ k, m' = m + k := ⟨m' - m, by omega⟩
    rw [List.range_add, List.map_append, List.filter_append]
    exact List.prefix_append _ _
  · intro ho
    have h3 := (C19_output_schedule (S := S) c' coarse start zero guess (Nat.lt_of_lt_of_le hmax hM)).2.2 ho
    have h3' : r'.outs = (List.range (r'.iter + 1)).map fun j =>
      (j, (iterates S coarse c.cyc j (S.setup c' coarse (Run.init (N := N) start zero guess)).st).u 0) := h3
    rw [h3', List.getElem?_map, List.getElem?_range (by omega), Option.map_some, e1']
    have h4 : r.st = iterates S coarse c.cyc m (S.setup c coarse (Run.init start zero guess)).st := a4
    rw [h4, hr]

/-- C111.  The output level changes neither values nor convergence values nor the number of iterations. -/
theorem C111_observers (S : Sys V K) (c : Ctl V N) (coarse : Nat → GState V → GState V) (s s' : Run V N) (o : Nat)
    (h1 : s'.st = s.st) (h2 : s'.saved = s.saved) (h3 : s'.conv = s.conv) (h4 : s'.iter = s.iter) :
    let c' : Ctl V N := { c with outLvl := o }
    let r := S.solve c coarse (S.setup c coarse s)
    let r' := S.solve c' coarse (S.setup c' coarse s')
    r'.st = r.st ∧ r'.conv = r.conv ∧ r'.iter = r.iter ∧ r'.saved = r.saved := by
  have hout : ∀ (b b' : Prop) [Decidable b] [Decidable b'] (x x' : Run V N),
      (x'.st = x.st ∧ x'.conv = x.conv ∧ x'.iter = x.iter ∧ x'.saved = x.saved) →
      (if b' then x'.output else x').st = (if b then x.output else x).st ∧
        (if b' then x'.output else x').conv = (if b then x.output else x).conv ∧
        (if b' then x'.output else x').iter = (if b then x.output else x).iter ∧
        (if b' then x'.output else x').saved = (if b then x.output else x).saved := by
    intro b b' _ _ x x' h
    split <;> split <;> exact h
  intro c' r r'
  have hbody : ∀ it (x x' : Run V N), (x'.st = x.st ∧ x'.conv = x.conv ∧ x'.iter = x.iter ∧ x'.saved = x.saved) →
      (S.solveBody c' coarse it x').st = (S.solveBody c coarse it x).st ∧
        (S.solveBody c' coarse it x').conv = (S.solveBody c coarse it x).conv ∧
        (S.solveBody c' coarse it x').iter = (S.solveBody c coarse it x).iter ∧
        (S.solveBody c' coarse it x').saved = (S.solveBody c coarse it x).saved := by
    rintro it x x' ⟨g1, g2, g3, g4⟩
    unfold solveBody
    refine hout _ _ _ _ ?_
    unfold convergence
    rw [g1, show c'.convCrit = c.convCrit from rfl]
    split
    · exact ⟨rfl, by dsimp only; rw [g2], rfl, g4⟩
    · exact ⟨rfl, by dsimp only; rw [g2, g4], rfl, rfl⟩
  have hloop : ∀ k it (x x' : Run V N), (x'.st = x.st ∧ x'.conv = x.conv ∧ x'.iter = x.iter ∧ x'.saved = x.saved) →
      (S.solveLoop c' coarse k it x').st = (S.solveLoop c coarse k it x).st ∧
        (S.solveLoop c' coarse k it x').conv = (S.solveLoop c coarse k it x).conv ∧
        (S.solveLoop c' coarse k it x').iter = (S.solveLoop c coarse k it x).iter ∧
        (S.solveLoop c' coarse k it x').saved = (S.solveLoop c coarse k it x).saved := by
    intro k
    induction k with
    | zero => exact fun it x x' h => h
    | succ k ih =>
      intro it x x' h
      have hb := hbody it x x' h
      unfold solveLoop
      have hst : stops c' it (S.solveBody c' coarse it x') = stops c it (S.solveBody c coarse it x) := by
        unfold stops
        rw [hb.2.1]
      simp only [hst]
      split
      · exact hb
      · exact ih _ _ _ hb
  refine hout _ _ _ _ (hloop _ _ _ _ ?_)
  unfold setup
  refine hout _ _ _ _ ?_
  show _ ∧ _ ∧ _ ∧ _
  rw [show c'.nested = c.nested from rfl, show c'.convCrit = c.convCrit from rfl]
  split <;> split <;> simp only [h1, h2, h3, h4, and_self]

end serial

section distributed
variable [Zero N] [DecidableEq N]

/-- C111 on any numbers of processes: a run of `E` on `E.P` processes and a longer run on `P'` processes.  Every process of the
longer run records the values of the shorter run first, its history starts with the history of the shorter run, and with
output level 2 its output function gets, in the iteration in which the shorter run stopped, the values of that run. -/
theorem C111_processes {E : Cfg V K T N} (hmax : 0 < E.maxIter) (M : Nat) (hM : E.maxIter ≤ M) (lt : N → Bool)
    (hlt : ∀ x, lt x = true → E.ltTol x = true) (o P' : Nat) (ord' : Nat → Nat → List Nat → List Nat) (instr' : Bool)
    (h : E.Good)
    (h' : ({ E with maxIter := M, ltTol := lt, outLvl := o, P := P', ord := ord', instr := instr' } : Cfg V K T N).Good)
    {c : Conf E.P (Msg V N) (PState V N)} (h1 : Steps (startConf E) c) (hc : ∀ d, ¬ Step c d)
    {c' : Conf P' (Msg V N) (PState V N)}
    (h1' : Steps (startConf { E with maxIter := M, ltTol := lt, outLvl := o, P := P', ord := ord', instr := instr' }) c')
    (hc' : ∀ d, ¬ Step c' d) (r : Fin E.P) (r' : Fin P') :
    ∃ s s', c.prog r = Prog.ret s ∧ c'.prog r' = Prog.ret s' ∧ s.solveIter ≤ s'.solveIter ∧
      (∀ j, j ≤ s.solveIter → s'.conv j = s.conv j) ∧
      E.convHistory s <+:
        ({ E with maxIter := M, ltTol := lt, outLvl := o, P := P', ord := ord', instr := instr' } : Cfg V K T N).convHistory s' ∧
      (o = 2 → ∃ a, s'.outs[s.solveIter]? = some (s.solveIter, a) ∧ ∀ k i j k' j' : Nat,
        (E.info r 0).pts[k]? = some i → (E.info r 0).idx[k]? = some j →
        (setupLevel E.ts P' (ord' r' 0) r' 0).pts[k']? = some i →
        (setupLevel E.ts P' (ord' r' 0) r' 0).idx[k']? = some j' → a j' = s.u 0 j) := by
  obtain ⟨s, e, hs⟩ := C20_same_as_serial_partial h h1 hc r
  obtain ⟨s', e', hs'⟩ := C20_same_as_serial_partial h' h1' hc' r'
  obtain ⟨k1, k2, k3, k4⟩ := C111_longer_run E.sys E.ctl E.sys.forwardSolve E.start E.zero E.guess hmax M hM lt hlt o
  refine ⟨s, s', e, e', ?_, ?_, ?_, ?_⟩
  · rw [hs.iter, hs'.iter]
    exact k1
  · intro j hj
    rw [hs.conv, hs'.conv]
    exact k2 j (le_trans hj (le_of_eq hs.iter))
  · have e1 : E.convHistory s = (serialRun E).history E.ctl := by
      unfold Cfg.convHistory Run.history
      exact congrArg (List.filter _) (List.map_congr_left fun j _ => hs.conv j)
    have e2 : ({ E with maxIter := M, ltTol := lt, outLvl := o, P := P', ord := ord', instr := instr' } :
        Cfg V K T N).convHistory s' = (serialRun
          { E with maxIter := M, ltTol := lt, outLvl := o, P := P', ord := ord', instr := instr' }).history { E.ctl with maxIter := M, ltTol := lt, outLvl := o } := by
      unfold Cfg.convHistory Run.history
      exact congrArg (List.filter _) (List.map_congr_left fun j _ => hs'.conv j)
    rw [e1, e2]
    exact k3
  · intro ho
    have k5 := k4 ho
    have e3 : s.solveIter = (serialRun E).iter := hs.iter
    obtain ⟨g1, g2⟩ := hs'.outs
    have hlen : s.solveIter < s'.outs.length := by
      rw [g1, e3]
      exact (List.getElem?_eq_some_iff.1 k5).1
    obtain ⟨g3, g4⟩ := g2 s.solveIter s'.outs[s.solveIter] ((serialRun E).iter, (serialRun E).st.u 0)
      (List.getElem?_eq_getElem hlen) (by rw [e3]; exact k5)
    refine ⟨s'.outs[s.solveIter].2, ?_, ?_⟩
    · rw [List.getElem?_eq_getElem hlen]
      congr 1
      exact Prod.ext (g3.trans e3.symm) rfl
    · intro k i j k' j' hk hj hk' hj'
      rw [g4 k' i j' hk' hj']
      exact (hs.values 0 k i j h.valid.pos hk hj).symm

/-- C111 on any numbers of processes: the output level changes no value. -/
theorem C111_observers_processes {E : Cfg V K T N} (o P' : Nat) (ord' : Nat → Nat → List Nat → List Nat) (instr' : Bool)
    (h : E.Good) (h' : ({ E with outLvl := o, P := P', ord := ord', instr := instr' } : Cfg V K T N).Good)
    {c : Conf E.P (Msg V N) (PState V N)} (h1 : Steps (startConf E) c) (hc : ∀ d, ¬ Step c d)
    {c' : Conf P' (Msg V N) (PState V N)}
    (h1' : Steps (startConf { E with outLvl := o, P := P', ord := ord', instr := instr' }) c')
    (hc' : ∀ d, ¬ Step c' d) (r : Fin E.P) (r' : Fin P') :
    ∃ s s', c.prog r = Prog.ret s ∧ c'.prog r' = Prog.ret s' ∧ s'.solveIter = s.solveIter ∧ (∀ j, s'.conv j = s.conv j) ∧
      ∀ l k i j k' j' : Nat, l < E.ts.length →
        (E.info r l).pts[k]? = some i → (E.info r l).idx[k]? = some j →
        (setupLevel E.ts P' (ord' r' l) r' l).pts[k']? = some i →
        (setupLevel E.ts P' (ord' r' l) r' l).idx[k']? = some j' → s'.u l j' = s.u l j := by
  obtain ⟨s, e, hs⟩ := C20_same_as_serial_partial h h1 hc r
  obtain ⟨s', e', hs'⟩ := C20_same_as_serial_partial h' h1' hc' r'
  obtain ⟨k1, k2, k3, -⟩ := C111_observers E.sys E.ctl E.sys.forwardSolve (Run.init E.start E.zero E.guess)
    (Run.init E.start E.zero E.guess) o rfl rfl rfl rfl
  refine ⟨s, s', e, e', ?_, ?_, ?_⟩
  · rw [hs.iter, hs'.iter]
    exact k3
  · intro j
    rw [hs.conv, hs'.conv]
    exact congrFun k2 j
  · intro l k i j k' j' hl hk hj hk' hj'
    rw [hs.values l k i j hl hk hj, hs'.values l k' i j' hl hk' hj']
    exact congrFun (congrFun (congrArg GState.u k1) l) i

end distributed

/-- Hypotheses of `C111_processes`: the example on three processes with at most five iterations and tolerance 1, and on four
processes with at most nine iterations and tolerance 0 (never reached). -/
example : 0 < (exCfg 3).maxIter ∧ (exCfg 3).maxIter ≤ 9 ∧ (∀ x : Int, decide (x < 0) = true → (exCfg 3).ltTol x = true) ∧
    (exCfg 3).Good ∧ ({ exCfg 3 with maxIter := 9, ltTol := fun x => decide (x < 0), outLvl := 2, P := 4 } :
      Cfg Int Int Nat Int).Good := by
  have h := exCfg_good 4 (by decide) (by decide)
  refine ⟨by decide, by decide, fun x hx => ?_, exCfg_good 3 (by decide) (by decide), ?_⟩
  · have hx : x < 0 := of_decide_eq_true hx
    exact decide_eq_true (show x < 1 by omega)
  · exact { valid := h.valid, Ppos := h.Ppos, PN := h.PN, ord := h.ord, glob := h.glob, noCC := h.noCC }

end Pymgrit
