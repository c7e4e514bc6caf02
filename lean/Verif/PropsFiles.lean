import Verif.Files
import Verif.EndToEnd2
import Verif.Stale

/-!
# Property C126: the files written by output functions

The examples write the values of every process to a file of its own and put the files together on process 0 after `solve()`.
-/

set_option linter.unusedSectionVars false

namespace Pymgrit

open Cfg

variable {V K T N : Type} [LinearOrder T] [Inhabited T]
variable [Add V] [Sub V] [SMul K V] [One K] [Sub K] [Zero N] {E : Cfg V K T N}

/-- What a directory holds after a run: for every process the values at its points. -/
theorem files_of_run (h : E.Good) {c : Conf E.P (Msg V N) (PState V N)} (h1 : Steps (startConf E) c)
    (hc : ∀ d, ¬ Step c d) {s : Nat → PState V N} (hs : ∀ r : Fin E.P, c.prog r = .ret (s r)) {dir : Nat → Nat}
    {ws : List (Write T V)} (hw : Interleaves E dir (fun r => (s r).outs) ws) (d : Disk T V) {i : Nat}
    {as bs : List (Nat × (Nat → V))} {o : Nat × (Nat → V)} (ho : (serialRun E).outs = as ++ o :: bs) (hi : dir o.1 = i)
    (hb : ∀ b ∈ bs, dir b.1 ≠ i) :
    (∀ r, r < E.P → ∃ f, d.after ws i r = some (E.fileOf r f) ∧ ∀ k p j : Nat, (E.info r 0).pts[k]? = some p →
      (E.info r 0).idx[k]? = some j → f j = o.2 p) ∧ ∀ r, E.P ≤ r → d.after ws i r = d i r := by
  refine ⟨fun r hr => ?_, fun r hr => ?_⟩
  · obtain ⟨s', e, hS⟩ := C20_same_as_serial_partial h h1 hc ⟨r, hr⟩
    rw [hs] at e
    cases e
    obtain ⟨hlen, hat⟩ := hS.outs
    simp only at hlen hat
    rw [ho] at hlen hat
    have hl : (s r).outs.length = as.length + (bs.length + 1) := by rw [hlen]; simp
    have hlt : as.length < (s r).outs.length := by omega
    obtain ⟨a1, a2⟩ := hat as.length _ o (List.getElem?_eq_getElem hlt) (by simp)
    refine ⟨((s r).outs[as.length]).2, ?_, a2⟩
    rw [after_filter, hw r, if_pos hr]
    have hsplit : (s r).outs = (s r).outs.take as.length ++ (s r).outs[as.length] :: (s r).outs.drop (as.length + 1) := by
      rw [← List.drop_eq_getElem_cons hlt, List.take_append_drop]
    have e := after_writes_last E dir r i d ((s r).outs.take as.length) ((s r).outs.drop (as.length + 1))
      (s r).outs[as.length] (by rw [a1, hi]) ?_
    · rw [← hsplit] at e
      exact e
    · intro b hbm
      obtain ⟨m, hm, rfl⟩ := List.getElem_of_mem hbm
      rw [List.length_drop] at hm
      rw [List.getElem_drop]
      obtain ⟨b1, -⟩ := hat (as.length + 1 + m) ((s r).outs[as.length + 1 + m]'(by omega)) (bs[m]'(by omega))
        (List.getElem?_eq_getElem (by omega))
        (by rw [List.getElem?_append_right (by omega), show as.length + 1 + m - as.length = m + 1 by omega,
              List.getElem?_cons_succ, List.getElem?_eq_getElem])
      rw [b1]
      exact hb _ (List.getElem_mem _)
  · rw [after_filter, hw r, if_neg (by omega)]
    rfl

/-- C126.  Output after every iteration (`output_lvl=2`), the iteration number in the path (example_output_fcn.py): after
any execution, whatever the order in which the processes write and in which the files are listed, loading the directory of
iteration `i` gives the values of iterate `i` at all points of the grid, each once, in order, with their times, provided
the directory held no files of processes with larger ranks before. -/
theorem C126_iterates_partial (h : E.Good) (hmax : 0 < E.maxIter) (hout : E.outLvl = 2)
    {c : Conf E.P (Msg V N) (PState V N)} (h1 : Steps (startConf E) c) (hc : ∀ d, ¬ Step c d) {s : Nat → PState V N}
    (hs : ∀ r : Fin E.P, c.prog r = .ret (s r)) {ws : List (Write T V)}
    (hw : Interleaves E id (fun r => (s r).outs) ws) {d : Disk T V} {i : Nat} (hi : i ≤ (s 0).solveIter)
    (hd : ∀ r, E.P ≤ r → d i r = none) {names : List Nat} (hl : Listing (d.after ws) i names) :
    load (d.after ws) i names = (List.range (npts E.ts 0)).map fun p => (tAt (grid E.ts 0) p,
      (iterates E.sys E.sys.forwardSolve E.cyc i (afterConstructor E).st).u 0 p) := by
  obtain ⟨s', e, hS⟩ := C20_same_as_serial_partial h h1 hc ⟨0, h.Ppos⟩
  rw [hs] at e
  cases e
  have hit := hS.iter
  simp only at hit
  have ho : (serialRun E).outs = (List.range ((serialRun E).iter + 1)).map fun j =>
      (j, (iterates E.sys E.sys.forwardSolve E.cyc j (afterConstructor E).st).u 0) :=
    (C19_output_schedule (S := E.sys) E.ctl E.sys.forwardSolve E.start E.zero E.guess hmax).2.2 hout
  have hsplit : List.range ((serialRun E).iter + 1) = List.range i ++ i ::
      (List.range' (i + 1) ((serialRun E).iter - i)) := by
    rw [List.range_eq_range', List.range_eq_range', show i :: List.range' (i + 1) ((serialRun E).iter - i) =
      List.range' (0 + 1 * i) ((serialRun E).iter - i + 1) by rw [List.range'_succ]; simp, List.range'_append]
    congr 1
    omega
  rw [hsplit, List.map_append, List.map_cons] at ho
  obtain ⟨a1, a2⟩ := files_of_run h h1 hc hs hw d ho rfl (fun b hb => by
    obtain ⟨j, hj, rfl⟩ := List.mem_map.1 hb
    rw [List.mem_range'_1] at hj
    simp only [id]
    omega)
  exact load_eq h.toBase _ hl a1 fun r hr => (a2 r hr).trans (hd r hr)

/-- C126.  The same path for every call (example_heat_2d.py, example_advection.py, …): loading gives the solution at the
end of the run at all points of the grid, each once, in order, with their times. -/
theorem C126_solution_partial (h : E.Good) (hmax : 0 < E.maxIter) (hout : E.outLvl = 1 ∨ E.outLvl = 2)
    {c : Conf E.P (Msg V N) (PState V N)} (h1 : Steps (startConf E) c) (hc : ∀ d, ¬ Step c d) {s : Nat → PState V N}
    (hs : ∀ r : Fin E.P, c.prog r = .ret (s r)) {i : Nat} {ws : List (Write T V)}
    (hw : Interleaves E (fun _ => i) (fun r => (s r).outs) ws) {d : Disk T V}
    (hd : ∀ r, E.P ≤ r → d i r = none) {names : List Nat} (hl : Listing (d.after ws) i names) :
    load (d.after ws) i names = (List.range (npts E.ts 0)).map fun p => (tAt (grid E.ts 0) p,
      (iterates E.sys E.sys.forwardSolve E.cyc (s 0).solveIter (afterConstructor E).st).u 0 p) := by
  obtain ⟨s', e, hS⟩ := C20_same_as_serial_partial h h1 hc ⟨0, h.Ppos⟩
  rw [hs] at e
  cases e
  have hit := hS.iter
  simp only at hit
  have hC := C19_output_schedule (S := E.sys) E.ctl E.sys.forwardSolve E.start E.zero E.guess hmax
  have ho : ∃ as, (serialRun E).outs = as ++ ((serialRun E).iter, (iterates E.sys E.sys.forwardSolve E.cyc
      (serialRun E).iter (afterConstructor E).st).u 0) :: [] := by
    rcases hout with ho | ho
    · exact ⟨[], hC.2.1 ho⟩
    · have e := hC.2.2 ho
      rw [List.range_succ, List.map_append] at e
      exact ⟨_, e⟩
  obtain ⟨as, ho⟩ := ho
  rw [hit]
  obtain ⟨a1, a2⟩ := files_of_run h h1 hc hs hw d ho rfl (fun b hb => by simp at hb)
  exact load_eq h.toBase _ hl a1 fun r hr => (a2 r hr).trans (hd r hr)

/-- The loop of example_output_fcn.py reads the directories `0, …, len(info['conv'])`: they exist, and they are those of
all iterates if and only if no recorded value is exactly zero. -/
theorem C126_directories_partial [DecidableEq N] (h : E.Good) (hmax : 0 < E.maxIter)
    {c : Conf E.P (Msg V N) (PState V N)} (h1 : Steps (startConf E) c) (hc : ∀ d, ¬ Step c d) {r : Fin E.P}
    {s : PState V N} (hs : c.prog r = .ret s) :
    (E.convHistory s).length ≤ s.solveIter ∧ ((E.convHistory s).length = s.solveIter ↔
      ∀ j, j < s.solveIter → E.sys.critValue E.ctl E.sys.forwardSolve (afterConstructor E) j ≠ 0) := by
  rw [C18_distributed_partial h hmax h1 hc r s hs]
  refine ⟨(List.length_filter_le _ _).trans (by simp), ?_⟩
  have e : s.solveIter = ((List.range s.solveIter).map fun j =>
      E.sys.critValue E.ctl E.sys.forwardSolve (afterConstructor E) j).length := by simp
  constructor
  · intro h2 j hj
    have h3 := List.length_filter_eq_length_iff.1 (h2.trans e)
    simpa using h3 _ (List.mem_map.2 ⟨j, List.mem_range.2 hj, rfl⟩)
  · intro h2
    refine (List.length_filter_eq_length_iff.2 fun x hx => ?_).trans e.symm
    obtain ⟨j, hj, rfl⟩ := List.mem_map.1 hx
    simpa using h2 j (List.mem_range.1 hj)

/-- C126 fails if the directory holds a file of an earlier run on more processes: the loaded list is too long. -/
theorem C126_leftover_counterexample (h : E.Good) (hmax : 0 < E.maxIter) (hout : E.outLvl = 1 ∨ E.outLvl = 2)
    {c : Conf E.P (Msg V N) (PState V N)} (h1 : Steps (startConf E) c) (hc : ∀ d, ¬ Step c d) {s : Nat → PState V N}
    (hs : ∀ r : Fin E.P, c.prog r = .ret (s r)) {i : Nat} {ws : List (Write T V)}
    (hw : Interleaves E (fun _ => i) (fun r => (s r).outs) ws) {P' : Nat} (ord' : Nat → Nat → List Nat → List Nat)
    (hP : E.P < P') (h' : ({ E with P := P', ord := ord' } : Cfg V K T N).Good)
    {c' : Conf P' (Msg V N) (PState V N)} (h1' : Steps (startConf { E with P := P', ord := ord' }) c')
    (hc' : ∀ d, ¬ Step c' d) {s' : Nat → PState V N} (hs' : ∀ r : Fin P', c'.prog r = .ret (s' r))
    {ws' : List (Write T V)}
    (hw' : Interleaves { E with P := P', ord := ord' } (fun _ => i) (fun r => (s' r).outs) ws')
    (d : Disk T V) {names : List Nat} (hl : Listing ((d.after ws').after ws) i names) :
    npts E.ts 0 < (load ((d.after ws').after ws) i names).length := by
  have hcalls : ∀ E : Cfg V K T N, 0 < E.maxIter → (E.outLvl = 1 ∨ E.outLvl = 2) → ∃ as, (serialRun E).outs =
      as ++ ((serialRun E).iter, (iterates E.sys E.sys.forwardSolve E.cyc (serialRun E).iter
        (afterConstructor E).st).u 0) :: [] := by
    intro E hmax hout
    have hC := C19_output_schedule (S := E.sys) E.ctl E.sys.forwardSolve E.start E.zero E.guess hmax
    rcases hout with ho | ho
    · exact ⟨[], hC.2.1 ho⟩
    · have e := hC.2.2 ho
      rw [List.range_succ, List.map_append] at e
      exact ⟨_, e⟩
  obtain ⟨as, ho⟩ := hcalls E hmax hout
  obtain ⟨as', ho'⟩ := hcalls { E with P := P', ord := ord' } hmax hout
  obtain ⟨a1, a2⟩ := files_of_run h h1 hc hs hw (d.after ws') ho rfl (fun b hb => by simp at hb)
  obtain ⟨b1, -⟩ := files_of_run h' h1' hc' hs' hw' d ho' rfl (fun b hb => by simp at hb)
  obtain ⟨f, hf, hf'⟩ := b1 E.P hP
  rw [← a2 E.P (Nat.le_refl _)] at hf
  rw [load_length]
  have hsub : (List.range E.P ++ [E.P]).Subperm names := by
    refine List.subperm_of_subset (by rw [← List.range_succ]; exact List.nodup_range) fun q hq => ?_
    rw [hl.2]
    rw [← List.range_succ, List.mem_range] at hq
    by_cases hqP : q = E.P
    · rw [hqP, hf]; rfl
    · obtain ⟨g, hg, -⟩ := a1 q (by omega)
      rw [hg]; rfl
  have hle : ((List.range E.P ++ [E.P]).map fun r => ((((d.after ws').after ws) i r).getD []).length).sum ≤
      (names.map fun r => ((((d.after ws').after ws) i r).getD []).length).sum := by
    obtain ⟨l, hp, hsl⟩ := hsub
    rw [← (hp.map _).sum_eq]
    exact (hsl.map _).sum_le_sum fun _ _ => Nat.zero_le _
  have hfull := flatMap_files h.toBase _ a1
  have hlen := congrArg List.length hfull
  rw [List.length_flatMap, List.length_map, List.length_range] at hlen
  rw [List.map_append, List.sum_append, hlen, List.map_singleton, List.sum_singleton, hf, Option.getD_some,
    fileOf_eq h'.toBase hP hf', List.length_map, List.length_range'] at hle
  have hpos : lo E.ts P' 0 E.P < lo E.ts P' 0 (E.P + 1) :=
    lo_lt0 h'.toBase hP
  simp only at hle
  omega

/-! ### When the files are there -/

/-- When process 0 has returned every other process has reached the last barrier. -/
theorem at_last_barrier (h : E.Base) {c : Conf E.P (Msg V N) (PState V N)} (h1 : Steps (startConf E) c)
    {s0 : PState V N} (h0 : c.prog ⟨0, h.Ppos⟩ = .ret s0) (q : Fin E.P) (hq : q.val ≠ 0) :
    ∃ s, c.prog q = .ret (E.lastCall s) ∨ c.prog q = .recv 0 3 fun _ => .ret (E.lastCall s) := by
  obtain ⟨x, hx, hc⟩ := XSteps.along (J := BarJ2 E) (post := BarPost E)
    (xsteps_of_steps h1) rfl (fun r => main_along2 E r _)
  have hpost := hx ⟨0, h.Ppos⟩
  rw [h0] at hpost
  replace hpost := hpost.2
  unfold BarPost at hpost
  rw [if_pos rfl] at hpost
  have h2 := hpost q (by omega) q.isLt
  have h3 := hc q 0 2
  have hJ := (hx q).here
  unfold BarJ2 at hJ
  rw [if_neg hq] at hJ
  simp only at h2
  exact hJ (by omega)

/-- C126, output after every iteration: when process 0 returns from `solve()`, every other process has made all its calls of
the output function; it has returned or waits for the end of the last barrier. -/
theorem C126_complete (h : E.Good) (hout : E.outLvl ≠ 1) {c : Conf E.P (Msg V N) (PState V N)}
    (h1 : Steps (startConf E) c) {s0 : PState V N} (h0 : c.prog ⟨0, h.Ppos⟩ = .ret s0) (q : Fin E.P) :
    ∃ s, (c.prog q = .ret s ∨ c.prog q = .recv 0 3 fun _ => .ret s) ∧ Shows E (serialRun E) q s := by
  obtain ⟨s, hs⟩ : ∃ s, c.prog q = .ret s ∨ c.prog q = .recv 0 3 fun _ => .ret s := by
    by_cases hq : q.val = 0
    · exact ⟨s0, .inl (by rw [← h0]; congr 1; exact Fin.ext hq)⟩
    · obtain ⟨s, hs⟩ := at_last_barrier h.toBase h1 h0 q hq
      unfold Cfg.lastCall at hs
      rw [if_neg hout] at hs
      exact ⟨s, hs⟩
  refine ⟨s, hs, ?_⟩
  obtain ⟨sf, hR, hf⟩ := exists_final h
  obtain ⟨n, hn⟩ := complete_of_steps hf fun r => ⟨_, rfl⟩
  obtain ⟨k, hk⟩ := h1.toN
  obtain ⟨-, hcf, -⟩ := hn k c hk
  have e : sf q = s := by
    have hret : (c.prog q).Returns s := by
      rcases hs with hs | hs
      · rw [hs]; rfl
      · rw [hs]; exact fun _ => rfl
    have := steps_returns hcf hret
    exact this
  rw [← e]
  exact hR.shows h q.isLt

/-- C126 fails for the default `output_lvl=1`: on two or more processes there is always an execution in which process 0
has returned from `solve()` while the last process has yet to call its output function, so the files that process 0
reads are not all written. -/
theorem C126_race_counterexample (h : E.Good) (hout : E.outLvl = 1) (hP : 2 ≤ E.P) :
    ∃ c, Steps (startConf E) c ∧ (∃ s0, c.prog ⟨0, h.Ppos⟩ = .ret s0) ∧
      ∃ s, c.prog ⟨E.P - 1, by omega⟩ = .recv 0 3 fun _ => .ret (outputP s) := by
  obtain ⟨sf, hR, hf⟩ := exists_final h
  have hb : 2 ≤ barriers E := by unfold barriers; split <;> omega
  have hstart : ∀ a, (startConf E).prog ⟨0, h.Ppos⟩ ≠ .ret a := by
    intro a ha
    have := main_along2 E 0 fun r l => off E.ts E.P l r
    rw [show E.mainP 0 (E.initState (fun r l => off E.ts E.P l r) 0) = .ret a from ha] at this
    have hp := this.2
    unfold BarPost at hp
    rw [if_pos rfl] at hp
    have := hp 1 (by omega) (by omega)
    simp only at this
    omega
  obtain ⟨c1, c2, h1, h2, h3, h4⟩ := returning_step hf hstart ⟨_, rfl⟩
  have h12 : Steps (startConf E) c2 := h1.tail ⟨_, h2⟩
  obtain ⟨s0, h4⟩ := h4
  refine ⟨c2, h12, ⟨s0, h4⟩, ?_⟩
  obtain ⟨s, hs⟩ := at_last_barrier h.toBase h12 h4 ⟨E.P - 1, by omega⟩ (by simp only; omega)
  unfold Cfg.lastCall at hs
  rw [if_pos hout] at hs
  refine ⟨s, hs.resolve_left fun hret => ?_⟩
  rw [h2.2 _ (by simp only [ne_eq, Fin.mk.injEq]; omega)] at hret
  obtain ⟨x, hx, hc⟩ := XSteps.along (J := BarJ2 E) (post := BarPost E)
    (xsteps_of_steps h1) rfl (fun r => main_along2 E r _)
  have hpost := hx ⟨E.P - 1, by omega⟩
  rw [hret] at hpost
  replace hpost := hpost.2
  unfold BarPost at hpost
  rw [if_neg (by simp only; omega)] at hpost
  have hJ := (hx ⟨0, h.Ppos⟩).here
  unfold BarJ2 at hJ
  rw [if_pos rfl] at hJ
  have h5 := hc 0 (E.P - 1) 3
  simp only at hpost hJ
  obtain ⟨a, ha⟩ := hJ hP (by omega)
  exact h3 a ha

/-! ### Names of the files in the PETSc example -/

/-- `'/petsc' + str(self.comm_time_rank) + str(self.comm_space_rank)` (petsc4py/example_heat_2d_petsc.py:35). -/
def petscName (timeRank spaceRank : Nat) : String := "/petsc" ++ toString timeRank ++ toString spaceRank

theorem petscName_toList (t p : Nat) :
    (petscName t p).toList = "/petsc".toList ++ Nat.toDigits 10 t ++ Nat.toDigits 10 p := by
  unfold petscName
  rw [String.toList_append, String.toList_append]
  show _ ++ t.repr.toList ++ p.repr.toList = _
  rw [Nat.toList_repr, Nat.toList_repr]

theorem toDigits_inj {a b : Nat} (h : Nat.toDigits 10 a = Nat.toDigits 10 b) : a = b := by
  rw [← Nat.ofDigitChars_toDigits (b := 10) (n := a) (by omega) (by omega), h,
    Nat.ofDigitChars_toDigits (by omega) (by omega)]

/-- C126, PETSc example: up to ten processes in space have files of their own. -/
theorem C126_petsc_names_partial {t p t' p' : Nat} (hp : p < 10) (hp' : p' < 10) (h : petscName t p = petscName t' p') :
    t = t' ∧ p = p' := by
  have h1 := congrArg String.toList h
  rw [petscName_toList, petscName_toList, Nat.toDigits_of_lt_base hp, Nat.toDigits_of_lt_base hp'] at h1
  obtain ⟨h2, h3⟩ := List.append_inj' h1 rfl
  refine ⟨toDigits_inj (List.append_cancel_left h2), ?_⟩
  rw [← Nat.toDigits_of_lt_base hp, ← Nat.toDigits_of_lt_base hp'] at h3
  exact toDigits_inj h3

/-- C126, PETSc example: with more processes in space two processes write to the same file. -/
theorem C126_petsc_names_counterexample : petscName 1 11 = petscName 11 1 := by decide +kernel

/-! ### The hypotheses are met -/

theorem interleaves_exists (E : Cfg V K T N) (dir : Nat → Nat) (outs : Nat → List (Nat × (Nat → V))) :
    Interleaves E dir outs ((List.range E.P).flatMap fun r => E.writes dir r (outs r)) := by
  intro r
  have hsame : ∀ q, (E.writes dir q (outs q)).filter (fun w => decide (w.rank = r)) =
      if q = r then E.writes dir r (outs r) else [] := by
    intro q
    split
    · rename_i e
      subst e
      exact List.filter_eq_self.2 fun w hw => by
        obtain ⟨o, -, rfl⟩ := List.mem_map.1 hw
        simp
    · rename_i e
      exact List.filter_eq_nil_iff.2 fun w hw => by
        obtain ⟨o, -, rfl⟩ := List.mem_map.1 hw
        simpa using e
  rw [List.filter_flatMap]
  simp only [hsame]
  generalize E.P = n
  induction n with
  | zero => simp
  | succ n ih =>
    rw [List.range_succ, List.flatMap_append, ih]
    simp only [List.flatMap_cons, List.flatMap_nil, List.append_nil]
    rcases Nat.lt_trichotomy n r with h | h | h
    · rw [if_neg (by omega), if_neg (by omega), if_neg (by omega)]; rfl
    · rw [if_neg (by omega), if_pos h, if_pos (by omega)]; rfl
    · rw [if_pos h, if_neg (by omega), if_pos (by omega), List.append_nil]

/-- C126 on three processes for the example, starting with an empty directory. -/
example : ∃ (c : Conf 3 (Msg Int Int) (PState Int Int)) (s : Nat → PState Int Int) (ws : List (Write Nat Int))
    (names : List Nat), Steps (startConf (exCfg 3)) c ∧ (∀ d, ¬ Step c d) ∧ (∀ r : Fin 3, c.prog r = .ret (s r)) ∧
    Interleaves (exCfg 3) id (fun r => (s r).outs) ws ∧ 0 ≤ (s 0).solveIter ∧
    Listing (Disk.after (fun _ _ => none) ws) 0 names ∧
    load (Disk.after (fun _ _ => none) ws) 0 names = (List.range 9).map fun p => (tAt (grid exGrid 0) p,
      (iterates (exCfg 3).sys (exCfg 3).sys.forwardSolve (exCfg 3).cyc 0 (afterConstructor (exCfg 3)).st).u 0 p) := by
  have hg := exCfg_good 3 (by decide) (by decide)
  obtain ⟨s, hR, hf⟩ := exists_final hg
  have hc : ∀ d, ¬ Step (⟨fun r => Prog.ret (s r), Chans.empty⟩ : Conf 3 (Msg Int Int) (PState Int Int)) d :=
    fun d => Conf.Done.not_step fun r => ⟨_, rfl⟩
  have hw := interleaves_exists (exCfg 3) id fun r => (s r).outs
  have ho := (C19_output_schedule (S := (exCfg 3).sys) (exCfg 3).ctl (exCfg 3).sys.forwardSolve (exCfg 3).start
    (exCfg 3).zero (exCfg 3).guess (by decide)).2.2 rfl
  rw [List.range_succ_eq_map, List.map_cons] at ho
  obtain ⟨a1, a2⟩ := files_of_run hg hf hc (fun _ => rfl) hw (fun _ _ => none) (as := []) ho rfl (fun b hb => by
    obtain ⟨j, hj, rfl⟩ := List.mem_map.1 hb
    obtain ⟨k, -, rfl⟩ := List.mem_map.1 hj
    simp)
  have hl : Listing (Disk.after (fun _ _ => none)
      ((List.range 3).flatMap fun r => (exCfg 3).writes id r (s r).outs)) 0 (List.range 3) := by
    refine ⟨List.nodup_range, fun r => ?_⟩
    rw [List.mem_range]
    constructor
    · intro hr
      obtain ⟨f, e, -⟩ := a1 r hr
      exact Option.isSome_iff_exists.2 ⟨_, e⟩
    · intro hr
      by_contra hlt
      have e := a2 r (Nat.le_of_not_lt hlt)
      rw [show Disk.after (fun _ _ => none) ((List.range 3).flatMap fun r => (exCfg 3).writes id r (s r).outs) 0 r = none
        from e] at hr
      exact absurd hr (by simp)
  exact ⟨_, s, _, _, hf, hc, fun _ => rfl, hw, Nat.zero_le _, hl,
    C126_iterates_partial hg (by decide) rfl hf hc (fun _ => rfl) hw (Nat.zero_le _) (fun _ _ => rfl) hl⟩

/-- The race on three processes for the example with the default output level. -/
example : ∃ c, Steps (startConf { exCfg 3 with outLvl := 1 }) c ∧ (∃ s0, c.prog (0 : Fin 3) = .ret s0) ∧
    ∃ s, c.prog (2 : Fin 3) = .recv 0 3 fun _ => .ret (outputP s) := by
  have hg : ({ exCfg 3 with outLvl := 1 } : Cfg Int Int Nat Int).Good :=
    good_of_gap exGrid_valid (by decide) (by decide) (fun r l hr hl => ordOK_id exGrid_valid (by decide) hl hr)
      (Or.inl rfl) exGrid_gap
  exact C126_race_counterexample hg rfl (by decide)

end Pymgrit
