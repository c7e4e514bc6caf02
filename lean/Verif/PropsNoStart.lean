import Verif.PropsConstruct
import Verif.PropsDist

/-!
# Property C41: coarse grids that do not contain the initial time

The constructor does not check that the coarse grids contain the initial time.  Without it the first
process waits for a message from itself.
-/

set_option linter.unusedSectionVars false

namespace Pymgrit

variable {V K T N : Type} [LinearOrder T] [Inhabited T]

/-- Nested increasing grids, as the constructor requires, but with no condition on the initial
time. -/
structure Nested (ts : List (List T)) : Prop where
  sorted : ∀ l, (grid ts l).Pairwise (· < ·)
  nested : ∀ l, l + 1 < ts.length → ∀ x ∈ grid ts (l + 1), x ∈ grid ts l

theorem Nested.sub_fine {ts : List (List T)} (h : Nested ts) {l : Nat} (hl : l < ts.length) :
    ∀ x ∈ grid ts l, x ∈ grid ts 0 := by
  induction l with
  | zero => exact fun x hx => hx
  | succ l ih => exact fun x hx => ih (by omega) x (h.nested l hl x hx)

/-- On one process all points of all levels are local. -/
theorem localPts_single {ts : List (List T)} (h : Nested ts) {l : Nat} (hl : l < ts.length)
    (hn : 0 < npts ts 0) : localPts ts 1 0 l = List.range (npts ts l) := by
  have hsp : splitPoints (grid ts 0).length 1 0 = (npts ts 0, 0) := by
    rw [splitPoints_eq (by exact hn) (by omega), firstPt_zero, firstPt_last (by omega)]
    rfl
  have hp0 : ((List.range (grid ts 0).length).drop 0).take (npts ts 0) = List.range (npts ts 0) := by
    rw [List.drop_zero, List.take_of_length_le (by simp [npts])]
    rfl
  unfold localPts
  simp only [hsp, hp0]
  split
  · next h0 => rw [h0]
  · have hhead : (List.range (npts ts 0)).headD 0 = 0 := by
      obtain ⟨k, hk⟩ : ∃ k, npts ts 0 = k + 1 := ⟨npts ts 0 - 1, by omega⟩
      rw [hk, List.range_succ_eq_map]; rfl
    have hlast : (List.range (npts ts 0)).getLastD 0 = npts ts 0 - 1 := by
      obtain ⟨k, hk⟩ : ∃ k, npts ts 0 = k + 1 := ⟨npts ts 0 - 1, by omega⟩
      rw [hk, List.range_succ]; simp
    rw [hhead, hlast, List.filter_eq_self]
    intro i hi
    have hi' := List.mem_range.1 hi
    obtain ⟨j, hj, e⟩ := mem_iff_tAt.1 (h.sub_fine hl _ (tAt_mem hi'))
    rw [e, Bool.and_eq_true, decide_eq_true_eq, decide_eq_true_eq, tAt_le_iff (h.sorted 0) hn hj,
      tAt_le_iff (h.sorted 0) hj (show npts ts 0 - 1 < npts ts 0 by omega)]
    have : j < npts ts 0 := hj
    omega

/-- On one process, on a level that does not begin with the initial time, the source of the first
point is the process itself. -/
theorem getFrom_self {ts : List (List T)} (h : Nested ts) (ord : List Nat → List Nat) {l : Nat}
    (hl : l < ts.length) (hn0 : 0 < npts ts 0) (hn : 0 < npts ts l)
    (hne : tAt (grid ts l) 0 ≠ tAt (grid ts 0) 0) :
    (setupLevel ts 1 ord 0 l).getFrom = some 0 := by
  have hpts := localPts_single h hl hn0
  have hwg : (List.range (npts ts l)).map Int.ofNat ≠ [] := by simp; omega
  have hcons : List.range (npts ts l) = 0 :: (List.range (npts ts l - 1)).map Nat.succ := by
    rw [← List.range_succ_eq_map]; congr 1; omega
  have htf : (((List.range (npts ts l)).map Int.ofNat).map (pyAt (grid ts l))).headD default =
      tAt (grid ts l) 0 := by
    rw [hcons]; simp [pyAt]
  have hg0 : (grid ts 0).headD default = tAt (grid ts 0) 0 := by
    cases hg : grid ts 0 with
    | nil => simp [npts, hg] at hn0
    | cons x xs => simp [tAt]
  unfold setupLevel
  simp only [hpts, ne_eq, not_true_eq_false, false_and, if_false]
  unfold mkLevel
  simp only [htf, hg0]
  rw [if_pos ⟨hwg, Or.inr hne⟩]
  congr 1
  obtain ⟨j, hj, e⟩ := mem_iff_tAt.1 (h.sub_fine hl _ (tAt_mem hn))
  refine searchSorted_of_iff (by simp) fun k hk => ?_
  have hk0 : k = 0 := by simpa [splitTimes] using hk
  have hlast : firstPt (npts ts 0) 1 (0 + 1) = npts ts 0 := firstPt_last (by omega)
  rw [hk0, show tAt (splitTimes ts 1) 0 = tAt (grid ts 0) (npts ts 0 - 1) by simp [splitTimes, tAt, hlast], e,
    tAt_lt_iff (h.sorted 0) (show npts ts 0 - 1 < npts ts 0 by omega) hj]
  have : j < npts ts 0 := hj
  omega

variable [Add V] [Sub V] [SMul K V] [One K] [Sub K] [Zero N]

/-- C41 fails: nested increasing grids whose coarsest one does not contain the initial time.  With
the default `nested_iteration=True`, one process never gets out of the constructor: it waits for a
message of its own, in every execution, for every such hierarchy. -/
theorem C41_hangs (E : Cfg V K T N) (h : Nested E.ts) (hP : E.P = 1) (hnest : E.nested = true)
    (hL : 0 < E.ts.length) (hn0 : 0 < npts E.ts 0) (hn : 0 < npts E.ts (E.ts.length - 1))
    (hne : tAt (grid E.ts 0) 0 ∉ grid E.ts (E.ts.length - 1)) :
    ¬ (startConf E).Done ∧ (∀ c, ¬ Step (startConf E) c) ∧
      ∃ tag k, ∀ r, (startConf E).prog r = Prog.recv 0 tag k := by
  have hne' : tAt (grid E.ts (E.ts.length - 1)) 0 ≠ tAt (grid E.ts 0) 0 := by
    intro e; exact hne (e ▸ tAt_mem hn)
  have hgf : (E.info 0 (E.ts.length - 1)).getFrom = some 0 := by
    unfold Cfg.info
    rw [hP]
    exact getFrom_self h _ (by omega) hn0 hn hne'
  have hmain : ∃ tag k, E.mainP 0 (E.initState (fun r l => off E.ts E.P l r) 0) = Prog.recv 0 tag k := by
    unfold Cfg.mainP Cfg.setupP Cfg.barrierP Cfg.collectP
    simp only [hP, hnest, if_true, Nat.sub_self, List.range'_zero, Prog.forIn'_nil, Prog.ret_bind]
    unfold Cfg.nestedIterationP Cfg.forwardSolveP Cfg.L
    simp only [hgf, Option.isSome_some, Cfg.initState, Bool.not_false, Bool.and_self, if_true]
    unfold Cfg.recvU Cfg.recvP
    exact ⟨_, _, rfl⟩
  obtain ⟨tag, k, hk⟩ := hmain
  have hall : ∀ r, (startConf E).prog r = Prog.recv 0 tag k := by
    intro r
    have : r.val = 0 := by have := r.isLt; omega
    show E.mainP r.val _ = _
    rw [this]; exact hk
  refine ⟨?_, ?_, tag, k, hall⟩
  · intro hd
    obtain ⟨a, ha⟩ := hd ⟨0, by omega⟩
    rw [hall] at ha
    cases ha
  · rintro c ⟨r, hr, -⟩
    rw [hall r] at hr
    generalize c.prog r = q at hr
    generalize hc : (startConf E).chan = ch at hr
    generalize c.chan = ch' at hr
    cases hr with
    | recv hq => simp [← hc, startConf, Chans.empty] at hq

/-- The hierarchy of the example: the constructor accepts it, and all hypotheses of `C41_hangs`
are met. -/
def noStart : List (List Nat) := [[0, 1, 2, 3], [1, 3]]

theorem C41_accepted : ∃ p, construct (⟨noStart, none, "V", 1, 2, 0, .int 1, 100, 1, 0⟩ : Args Nat) = .ok p :=
  ⟨_, rfl⟩

theorem C41_example : ¬ (startConf { exCfg 1 with ts := noStart }).Done ∧
    ∀ c, ¬ Step (startConf { exCfg 1 with ts := noStart }) c := by
  have h := C41_hangs { exCfg 1 with ts := noStart } (by
    refine ⟨?_, ?_⟩
    · intro l
      match l with
      | 0 => decide
      | 1 => decide
      | _ + 2 => exact List.Pairwise.nil
    · intro l hl
      match l with
      | 0 => decide
      | _ + 1 => exact absurd hl (by simp [noStart])) rfl rfl (by decide) (by decide) (by decide)
    (by decide)
  exact ⟨h.1, h.2.1⟩

/-- C41 fails: if process 0 holds no point of some level, because all of them are later than its last point, its
constructor ends in an `IndexError`. -/
theorem C41_raises (a : Args T) (hP : 0 < a.P) (hd : AllHold (documented a)) (hm : -1 ≤ a.maxIter)
    (hc : ∀ l, l + 1 < a.ts.length → 2 ≤ (allC a.ts l).length) (hr : a.rank = 0) (l : Nat) (hl0 : 0 < l)
    (hl : l < a.ts.length) (hlate : ∀ x ∈ grid a.ts l, tAt (grid a.ts 0) (firstPt (npts a.ts 0) a.P 1 - 1) < x) :
    ∃ l', l' ≤ l ∧ construct a = .error (.noPoint l') := by
  classical
  let bad : Nat → Prop := fun k => k ≠ 0 ∧ k < a.ts.length ∧ ¬ ∃ x ∈ grid a.ts k, tAt (grid a.ts 0) 0 ≤ x ∧
    x ≤ tAt (grid a.ts 0) (firstPt (npts a.ts 0) a.P 1 - 1)
  have hbad : bad l := ⟨by omega, hl, fun ⟨x, hx, _, h⟩ => absurd (lt_of_lt_of_le (hlate x hx) h) (lt_irrefl _)⟩
  have hex : ∃ k, bad k := ⟨l, hbad⟩
  obtain ⟨hk0, hkL, hk⟩ := Nat.find_spec hex
  refine ⟨Nat.find hex, Nat.find_min' hex hbad, ?_⟩
  rw [(construct_performs a hP).err, firstFailing_append]
  right
  refine ⟨hd, ?_⟩
  unfold undocumented
  have hsp : List.range a.ts.length = List.range (Nat.find hex) ++
      (Nat.find hex :: List.range' (Nat.find hex + 1) (a.ts.length - Nat.find hex - 1)) := by
    rw [← List.range'_succ, List.range_eq_range', List.range_eq_range']
    have := List.range'_append (s := 0) (m := Nat.find hex) (n := a.ts.length - Nat.find hex) (step := 1)
    simp only [Nat.one_mul, Nat.zero_add] at this
    rw [show a.ts.length - Nat.find hex - 1 + 1 = a.ts.length - Nat.find hex by omega, this]
    congr 1
    omega
  rw [hsp, List.flatMap_append, List.flatMap_cons]
  simp only [List.cons_append, List.nil_append]
  rw [← List.cons_append, List.append_cons]
  refine ⟨_, _, _, rfl, rfl, fun h => hk (h hk0 hr), ?_⟩
  intro d hd'
  rcases List.mem_append.1 hd' with hd' | hd'
  · rcases List.mem_cons.1 hd' with rfl | hd'
    · exact hm
    · obtain ⟨k, hkr, hd'⟩ := List.mem_flatMap.1 hd'
      have hk' := List.mem_range.1 hkr
      have hmin := Nat.find_min hex hk'
      simp only [List.mem_cons, List.not_mem_nil, or_false] at hd'
      rcases hd' with rfl | rfl
      · exact hc k
      · intro h1 _
        by_contra hcon
        exact hmin ⟨h1, by omega, hcon⟩
  · rw [List.mem_singleton.1 hd']
    exact hc _

example : construct (⟨[[0, 1, 2, 3], [2, 3]], none, "V", 1, 2, 0, .int 1, 100, 2, 0⟩ : Args Nat) = .error (.noPoint 1) := by
  have hd : AllHold (documented (⟨[[0, 1, 2, 3], [2, 3]], none, "V", 1, 2, 0, .int 1, 100, 2, 0⟩ : Args Nat)) := by
    intro c hc
    simp [documented] at hc
    rcases hc with rfl | rfl | rfl | rfl | rfl | rfl | rfl | rfl | rfl | rfl <;> simp [grid, npts]
  obtain ⟨l, hl, h⟩ := C41_raises _ (by decide) hd (by decide) (fun l hl => by
    match l with
    | 0 => decide
    | _ + 1 => exact absurd hl (by simp)) rfl 1 (by decide) (by decide) (by decide)
  match l with
  | 0 => exact h.trans (by rw [← h]; rfl)
  | 1 => exact h
  | _ + 2 => omega

end Pymgrit
