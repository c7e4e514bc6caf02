import Verif.PropsNoStart
import Verif.PropsTime
import Verif.EndToEnd

/-!
# Property C112: time points in another order

The constructor compares the grids as sets and does not check that the times increase: integration backwards in
time, unordered times and repeated times are accepted by its checks.
-/

set_option linter.unusedSectionVars false

namespace Pymgrit

variable {V K T N : Type} [LinearOrder T] [Inhabited T]

theorem tAt_gt {g : List T} (hs : g.Pairwise (· > ·)) {i j : Nat} (hij : i < j) (hj : j < g.length) :
    tAt g j < tAt g i := by
  rw [tAt_eq hj, tAt_eq (by omega)]
  exact List.pairwise_iff_getElem.1 hs i j (by omega) hj hij

theorem two_le_firstPt {n P : Nat} (hP : 0 < P) (h : P < n) : 2 ≤ firstPt n P 1 := by
  rw [firstPt_eq (by omega)]
  rcases Nat.lt_or_ge (n / P) 2 with h1 | h1
  · have h2 : 1 ≤ n / P := (Nat.one_le_div_iff hP).2 (by omega)
    have h3 := Nat.div_add_mod n P
    have h4 : n / P = 1 := by omega
    rw [h4, Nat.mul_one] at h3
    omega
  · omega

/-- C112 fails: backwards in time.  For all hierarchies with at least two levels and strictly decreasing grids that
pass the documented checks (with two C-points per level), on fewer processes than points, process 0 finds no point of
the first coarse level between its first and its last time and ends in an `IndexError`. -/
theorem C112_backward_counterexample (a : Args T) (hP : 0 < a.P) (hd : AllHold (documented a)) (hm : -1 ≤ a.maxIter)
    (hc : ∀ l, l + 1 < a.ts.length → 2 ≤ (allC a.ts l).length) (hs : (grid a.ts 0).Pairwise (· > ·))
    (hL : 2 ≤ a.ts.length) (hPn : a.P < npts a.ts 0) (hr : a.rank = 0) : construct a = .error (.noPoint 1) := by
  rw [(construct_performs a hP).err, firstFailing_append]
  right
  refine ⟨hd, ?_⟩
  unfold undocumented
  obtain ⟨k, hk⟩ : ∃ k, a.ts.length = k + 2 := ⟨a.ts.length - 2, by omega⟩
  rw [hk, List.range_succ_eq_map, List.range_succ_eq_map, List.map_cons, List.flatMap_cons, List.flatMap_cons, ← hk]
  refine ⟨[_, _, _, _], _, _, rfl, rfl, fun h => ?_, ?_⟩
  · obtain ⟨x, -, h1, h2⟩ := h (by simp) hr
    have hb := two_le_firstPt hP hPn
    have hle : firstPt (npts a.ts 0) a.P 1 ≤ npts a.ts 0 := by
      have := firstPt_mono hPn.le (show 1 ≤ a.P by omega) (Nat.le_refl a.P)
      rwa [firstPt_last hP] at this
    have := tAt_gt hs (show 0 < firstPt (npts a.ts 0) a.P 1 - 1 by omega)
      (show firstPt (npts a.ts 0) a.P 1 - 1 < npts a.ts 0 by omega)
    exact absurd (lt_of_lt_of_le this (h1.trans h2)) (lt_irrefl _)
  · intro d hd'
    simp only [List.mem_cons, List.not_mem_nil, or_false] at hd'
    rcases hd' with rfl | rfl | rfl | rfl
    · exact hm
    · exact hc 0
    · exact fun h => absurd rfl h
    · exact hc 1

/-- The hypotheses are met: from time 4 back to time 0 on one and on two processes. -/
example : AllHold (documented (⟨[[4, 3, 2, 1, 0], [4, 2, 0]], none, "V", 1, 2, 0, .int 1, 100, 2, 0⟩ : Args Nat)) ∧
    construct (⟨[[4, 3, 2, 1, 0], [4, 2, 0]], none, "V", 1, 2, 0, .int 1, 100, 2, 0⟩ : Args Nat) =
      .error (.noPoint 1) := by
  have hd : AllHold (documented (⟨[[4, 3, 2, 1, 0], [4, 2, 0]], none, "V", 1, 2, 0, .int 1, 100, 2, 0⟩ : Args Nat)) := by
    intro c hc
    simp [documented] at hc
    rcases hc with rfl | rfl | rfl | rfl | rfl | rfl | rfl | rfl | rfl | rfl <;> simp [grid, npts]
  refine ⟨hd, C112_backward_counterexample _ (by decide) hd (by decide) ?_ (by decide) (by decide) (by decide) rfl⟩
  intro l hl
  match l with
  | 0 => decide
  | _ + 1 => exact absurd hl (by simp)

/-- Binary search in a decreasing array for its first entry ends behind the last entry. -/
theorem searchSorted_decreasing {xs : List T} (hs : xs.Pairwise (· > ·)) (h2 : 2 ≤ xs.length) :
    searchSorted xs (tAt xs 0) = xs.length := by
  have loop : ∀ k a, 1 ≤ a → a ≤ xs.length → xs.length - a ≤ k →
      searchLoop xs (tAt xs 0) k a xs.length = xs.length := by
    intro k
    induction k with
    | zero => intro a _ _ h; simp only [searchLoop]; omega
    | succ k ih =>
      intro a h1 h2 h3
      simp only [searchLoop]
      split
      · rw [if_pos (tAt_gt hs (by omega) (by omega))]
        exact ih _ (by omega) (by omega) (by omega)
      · omega
  obtain ⟨k, hk⟩ : ∃ k, xs.length = k + 1 := ⟨xs.length - 1, by omega⟩
  unfold searchSorted
  rw [hk]
  simp only [searchLoop]
  rw [if_pos (by omega), ← hk, if_pos (tAt_gt hs (by omega) (by omega))]
  exact loop k _ (by omega) (by omega) (by omega)

/-- C112 fails: backwards in time on several processes, also on one level and with as many processes as points.
Process 1 stores `P` as the process that holds the point before its first one; there is no such process. -/
theorem C112_backward_source (ts : List (List T)) (hs : (grid ts 0).Pairwise (· > ·)) {P : Nat} (hP : 2 ≤ P)
    (hPn : P ≤ npts ts 0) (ord : List Nat → List Nat) : (setupLevel ts P ord 1 0).getFrom = some P := by
  have hb : firstPt (npts ts 0) P 1 < firstPt (npts ts 0) P 2 := firstPt_lt hPn (by omega)
  have hb0 : 0 < firstPt (npts ts 0) P 1 := by
    have := firstPt_lt hPn (show 0 < P by omega)
    rwa [firstPt_zero] at this
  have hle : ∀ q, q ≤ P → firstPt (npts ts 0) P q ≤ npts ts 0 := by
    intro q hq
    have := firstPt_mono hPn hq (Nat.le_refl P)
    rwa [firstPt_last (by omega)] at this
  have hsp : splitPoints (grid ts 0).length P 1 =
      (firstPt (npts ts 0) P 2 - firstPt (npts ts 0) P 1, firstPt (npts ts 0) P 1) :=
    splitPoints_eq (by exact hPn) (by omega)
  have hpts : localPts ts P 1 0 = List.range' (firstPt (npts ts 0) P 1)
      (firstPt (npts ts 0) P 2 - firstPt (npts ts 0) P 1) := by
    have h2 := hle 2 hP
    unfold localPts
    simp only [hsp, if_true]
    unfold npts at h2 ⊢
    simp only [List.range_eq_range', List.drop_range', Nat.zero_add, Nat.mul_one]
    rw [List.take_range'_of_length_ge (by omega)]
  have hne : localPts ts P 1 0 ≠ [] := by
    rw [hpts]
    simp
    omega
  have hhead : (localPts ts P 1 0).headD 0 = firstPt (npts ts 0) P 1 := by
    rw [hpts, show firstPt (npts ts 0) P 2 - firstPt (npts ts 0) P 1 =
      (firstPt (npts ts 0) P 2 - firstPt (npts ts 0) P 1 - 1) + 1 by omega, List.range'_succ]
    rfl
  have hdec : (splitTimes ts P).Pairwise (· > ·) := by
    rw [List.pairwise_iff_getElem]
    intro i j hi hj hij
    have hj' : j < P := by simpa [splitTimes] using hj
    simp only [splitTimes, List.getElem_map, List.getElem_range]
    have h1 := firstPt_strictMono hPn (show i + 1 < j + 1 by omega) (show j + 1 ≤ P by omega)
    have h2 := hle (j + 1) (by omega)
    have h3 := firstPt_strictMono hPn (show 0 < i + 1 by omega) (show i + 1 ≤ P by omega)
    rw [firstPt_zero] at h3
    exact tAt_gt hs (by omega) (show _ < npts ts 0 by omega)
  have hlen : (splitTimes ts P).length = P := by simp [splitTimes]
  have h0 : tAt (splitTimes ts P) 0 = tAt (grid ts 0) (firstPt (npts ts 0) P 1 - 1) := by
    rw [tAt_eq (by omega)]
    simp [splitTimes]
  unfold setupLevel
  simp only
  rw [if_pos ⟨by decide, hne⟩]
  unfold mkLevel
  simp only [hhead]
  rw [if_pos ⟨by simp, Or.inl ⟨by decide, hne⟩⟩]
  congr 1
  have : pyAt (grid ts 0) (((firstPt (npts ts 0) P 1 : Nat) : Int) - 1) = tAt (splitTimes ts P) 0 := by
    rw [h0]
    unfold pyAt
    rw [if_neg (by omega)]
    congr 1
    omega
  simp only [List.map_cons, List.headD_cons, this]
  rw [searchSorted_decreasing hdec (by omega), hlen]

example : (setupLevel [[(4 : Nat), 3, 2, 1, 0]] 3 id 1 0).getFrom = some 3 :=
  C112_backward_source _ (by decide) (by decide) (by decide) _

/-- C112 fails: a time that occurs twice on the finest grid and belongs to the next level.  There are more C-points
than coarse points, so the loop of `fas_residual` over the C-points of a single process leaves the list of the coarse
level (mgrit.py:498-500). -/
theorem C112_repeated_counterexample (ts : List (List T)) (l : Nat) (hl : l + 1 < ts.length)
    (hn : (grid ts (l + 1)).Nodup) (hsub : ∀ x ∈ grid ts (l + 1), x ∈ grid ts l) (i j : Nat) (hij : i ≠ j)
    (hi : i < npts ts l) (hj : j < npts ts l) (he : tAt (grid ts l) i = tAt (grid ts l) j)
    (hmem : tAt (grid ts l) i ∈ grid ts (l + 1)) : npts ts (l + 1) < (allC ts l).length := by
  have hC : ∀ k, k ∈ allC ts l ↔ k < npts ts l ∧ tAt (grid ts l) k ∈ grid ts (l + 1) := by
    intro k
    unfold allC
    rw [if_pos (by omega)]
    simp
  have hnd : (allC ts l).Nodup := by
    unfold allC
    split
    · exact List.nodup_range.filter _
    · exact List.nodup_range
  have hi' : i ∈ allC ts l := (hC i).2 ⟨hi, hmem⟩
  have h1 : (grid ts (l + 1)) ⊆ ((allC ts l).erase i).map (tAt (grid ts l)) := by
    intro x hx
    obtain ⟨k, hk, rfl⟩ := mem_iff_tAt.1 (hsub x hx)
    rw [List.mem_map]
    by_cases hki : k = i
    · exact ⟨j, (hnd.mem_erase_iff).2 ⟨fun h => hij h.symm, (hC j).2 ⟨hj, he ▸ hmem⟩⟩, by rw [hki, he]⟩
    · exact ⟨k, (hnd.mem_erase_iff).2 ⟨hki, (hC k).2 ⟨hk, hx⟩⟩, rfl⟩
  have h2 := (hn.subperm h1).length_le
  rw [List.length_map, List.length_erase_of_mem hi'] at h2
  have h3 : 0 < (allC ts l).length := List.length_pos_of_mem hi'
  show (grid ts (l + 1)).length < _
  omega

/-- The constructor accepts such a hierarchy. -/
example : (∃ p, construct (⟨[[0, 1, 2, 2, 3, 4], [0, 2, 4]], none, "V", 1, 2, 0, .int 1, 100, 1, 0⟩ : Args Nat) = .ok p) ∧
    npts [[0, 1, 2, 2, 3, 4], [0, 2, 4]] 1 < (allC [[0, 1, 2, 2, 3, 4], [0, 2, 4]] 0).length :=
  ⟨⟨_, rfl⟩, C112_repeated_counterexample _ 0 (by decide) (by decide) (by decide) 2 3 (by decide) (by decide)
    (by decide) rfl (by decide)⟩

/-! ## What holds: one process -/

section one
variable {T' : Type} [LinearOrder T'] [Inhabited T']
variable [Add V] [Sub V] [SMul K V] [One K] [Sub K] [Zero N]

theorem localPts_single' {ts : List (List T)} (hn : 0 < npts ts 0) {l : Nat}
    (h : l = 0 ∨ ∀ x ∈ grid ts l, tAt (grid ts 0) 0 ≤ x ∧ x ≤ tAt (grid ts 0) (npts ts 0 - 1)) :
    localPts ts 1 0 l = List.range (npts ts l) := by
  rw [localPts_first (by omega) hn, firstPt_last (P := 1) (by omega)]
  split
  · next h0 => rw [h0]
  · next h0 =>
    rw [List.filter_eq_self]
    intro i hi
    have := (h.resolve_left h0) _ (tAt_mem (List.mem_range.1 hi))
    simpa using this

theorem sameInfo_one {E : Cfg V K T N} {τ : T → T'} (hv : Valid E.ts) (hP : E.P = 1)
    (hinj : ∀ x ∈ grid E.ts 0, ∀ y ∈ grid E.ts 0, τ x = τ y → x = y)
    (hb : ∀ l, 0 < l → l < E.ts.length → ∀ x ∈ grid E.ts l, τ (tAt (grid E.ts 0) 0) ≤ τ x ∧
      τ x ≤ τ (tAt (grid E.ts 0) (npts E.ts 0 - 1))) : SameInfo E τ := by
  intro r l hr hl
  have hr0 : r = 0 := by omega
  subst hr0
  have hn0 : 0 < npts E.ts 0 := hv.npos hv.pos
  have hn : 0 < npts E.ts l := hv.npos hl
  have e1 : localPts E.ts 1 0 l = List.range (npts E.ts l) := by
    refine localPts_single' hn0 ?_
    rcases Nat.eq_zero_or_pos l with h | h
    · exact .inl h
    · refine .inr fun x hx => ?_
      obtain ⟨j, hj, rfl⟩ := mem_iff_tAt.1 (hv.sub_fine hl x hx)
      rw [tAt_le_iff (hv.sorted 0) hn0 hj, tAt_le_iff (hv.sorted 0) hj (show npts E.ts 0 - 1 < npts E.ts 0 by omega)]
      have : j < npts E.ts 0 := hj
      omega
  have e2 : localPts (E.ts.map (List.map τ)) 1 0 l = List.range (npts E.ts l) := by
    rw [localPts_single' (by rw [npts_map]; exact hn0), npts_map]
    rcases Nat.eq_zero_or_pos l with h | h
    · exact .inl h
    · refine .inr fun x hx => ?_
      rw [grid_map, List.mem_map] at hx
      obtain ⟨y, hy, rfl⟩ := hx
      rw [grid_map, npts_map, tAt_map hn0, tAt_map (show npts E.ts 0 - 1 < npts E.ts 0 by omega)]
      exact hb l h hl y hy
  have e3 : allC (E.ts.map (List.map τ)) l = allC E.ts l := by
    unfold allC
    rw [List.length_map, npts_map]
    split
    · refine List.filter_congr fun i hi => ?_
      rw [List.mem_range] at hi
      rw [grid_map, grid_map, tAt_map hi]
      congr 1
      apply propext
      rw [List.mem_map]
      constructor
      · rintro ⟨y, hy, e⟩
        have := hinj _ (hv.sub_fine (by omega) _ hy) _ (hv.sub_fine hl _ (tAt_mem hi)) e
        rwa [← this]
      · exact fun h => ⟨_, h, rfl⟩
    · rfl
  have e4 : allF (E.ts.map (List.map τ)) l = allF E.ts l := by unfold allF; rw [e3, npts_map]
  have et : ∀ (g : List T), ((List.range g.length).map Int.ofNat).map (pyAt g) = g := by
    intro g
    refine List.ext_getElem (by simp) fun i h1 h2 => ?_
    simp only [List.getElem_map, List.getElem_range, pyAt]
    rw [if_neg (by simp)]
    exact tAt_eq h2
  have et' : ∀ (g : List T'), ((List.range g.length).map Int.ofNat).map (pyAt g) = g := by
    intro g
    refine List.ext_getElem (by simp) fun i h1 h2 => ?_
    simp only [List.getElem_map, List.getElem_range, pyAt]
    rw [if_neg (by simp)]
    exact tAt_eq h2
  have eg := et (grid E.ts l)
  have eg' := et' ((grid E.ts l).map τ)
  rw [List.length_map] at eg'
  have hh : ∀ {S : Type} (g : List S) (d : S), g.headD d = g.head?.getD d := fun g d => by cases g <;> rfl
  show setupLevel (E.ts.map (List.map τ)) E.P (E.ord 0 l) 0 l =
    { setupLevel E.ts E.P (E.ord 0 l) 0 l with t := (setupLevel E.ts E.P (E.ord 0 l) 0 l).t.map τ }
  rw [hP]
  have hw : ¬ ((0 : Nat) ≠ 0 ∧ List.range (npts E.ts l) ≠ []) := fun h => h.1 rfl
  simp only [setupLevel, e1, e2, e4, if_neg hw]
  simp only [mkLevel, npts_map, e3, e4, LvlInfo.mk.injEq, grid_map]
  unfold npts at *
  refine ⟨trivial, trivial, ?_, trivial, trivial, trivial, trivial, trivial, trivial, trivial, trivial, trivial, ?_, ?_⟩
  · rw [eg, eg']
  · rw [eg, eg', if_neg (fun h => h.2 rfl), if_neg (fun h => h.2 rfl)]
  · rw [eg, eg']
    have h1 : (grid E.ts l).headD default = (grid E.ts 0).headD default := by rw [hh, hh, hv.start l hl]
    have h2 : ((grid E.ts l).map τ).headD default = ((grid E.ts 0).map τ).headD default := by
      rw [hh, hh, List.head?_map, List.head?_map, hv.start l hl]
    rw [if_neg (fun h => ?_), if_neg (fun h => ?_)]
    · rcases h.2 with h | h
      · exact h.1 rfl
      · exact h h1
    · rcases h.2 with h | h
      · exact h.1 rfl
      · exact h h2

/-- C112, what holds.  One process, times in any order: a hierarchy obtained from an increasing one by renaming the
times (`τ`, injective), so that the coarse points lie between the first and the last time of the finest grid (no
condition on one level), without a random initial guess.  Constructor and `solve()` do the same as for the increasing
hierarchy with the renamed step functions; so all properties of the latter hold.  Missing: repeated times and several
processes. -/
theorem C112_one_process_partial (E : Cfg V K T N) (hv : Valid E.ts) (hP : E.P = 1)
    (ho : ∀ r l xs, (E.ord r l xs).Perm xs) (τ : T → T')
    (hinj : ∀ x ∈ grid E.ts 0, ∀ y ∈ grid E.ts 0, τ x = τ y → x = y)
    (hb : ∀ l, 0 < l → l < E.ts.length → ∀ x ∈ grid E.ts l, τ (tAt (grid E.ts 0) 0) ≤ τ x ∧
      τ x ≤ τ (tAt (grid E.ts 0) (npts E.ts 0 - 1)))
    (hg : ∀ i j, E.guess i = E.guess j) (step : Nat → V → T' → T' → V)
    (hs : ∀ l i x, l < E.ts.length → i + 1 < npts E.ts l →
      step l x (τ (tAt (grid E.ts l) i)) (τ (tAt (grid E.ts l) (i + 1))) =
        E.step l x (tAt (grid E.ts l) i) (tAt (grid E.ts l) (i + 1))) :
    startConf (E.withTimes (E.ts.map (List.map τ)) step) = startConf E :=
  startConf_shifted hv (sameInfo_one hv hP hinj hb) (by have := hv.npos hv.pos; omega) ho hs fun _ _ _ => hg _ _

/-- Backwards in time on one level: the hypotheses are met. -/
example : Valid [List.range 9] ∧ (∀ x ∈ grid [List.range 9] 0, ∀ y ∈ grid [List.range 9] 0,
    (8 : Int) - (x : Int) = 8 - (y : Int) → x = y) ∧ ∀ l, 0 < l → ¬ l < [List.range 9].length := by
  refine ⟨⟨by decide, by decide, ?_, ?_, ?_⟩, fun x _ y _ h => by omega, fun l h1 h2 => by simp at h2; omega⟩
  · intro l
    match l with
    | 0 => decide
    | _ + 1 => exact List.Pairwise.nil
  · intro l hl
    simp at hl
  · intro l hl
    have : l = 0 := by simpa using hl
    rw [this]

/-- An unordered finest grid (3 and 5 exchanged) on three levels. -/
example : startConf (({ exCfg 1 with guess := fun _ => 0 } : Cfg Int Int Nat Int).withTimes
      (exGrid.map (List.map fun t => if t = 3 then 5 else if t = 5 then 3 else t))
      fun l x s t => (exCfg 1).step l x (if s = 3 then 5 else if s = 5 then 3 else s)
        (if t = 3 then 5 else if t = 5 then 3 else t)) = startConf { exCfg 1 with guess := fun _ => 0 } := by
  refine C112_one_process_partial { exCfg 1 with guess := fun _ => 0 } exGrid_valid rfl
    (fun _ _ xs => List.Perm.refl xs) _ (by decide) ?_ (fun _ _ => rfl) _ fun l i x _ _ => ?_
  · intro l h1 h2
    match l with
    | 1 => decide
    | 2 => decide
    | _ + 3 => exact absurd h2 (by simp [exCfg, exGrid])
  · have h : ∀ t : Nat, (if (if t = 3 then 5 else if t = 5 then 3 else t) = 3 then 5 else
        if (if t = 3 then 5 else if t = 5 then 3 else t) = 5 then 3 else if t = 3 then 5 else if t = 5 then 3 else t) = t := by
      intro t
      split_ifs <;> omega
    simp only [h]

end one

end Pymgrit
