import Verif.PySetFacts
import Verif.PropsDist
import Verif.PropsSetup

/-!
# Visiting order of F-points under CPython (C06, C67)

`C06_iff` (`Verif.Visit`) says which iteration orders of the set of F-points are harmless.  Here the order
is the one CPython produces (`Verif.PySet`).
-/

namespace Pymgrit

open PySet

namespace PySet

theorem resize_holds {t : Tab} {xs : List Nat} (hp : (keys t).Perm xs) (hn : xs.Nodup) {m : Nat}
    (hm : xs.length ≤ m) : Holds (resize t m) xs := by
  obtain ⟨h0, h1, h2⟩ := sized_spec m
  obtain ⟨h3, -⟩ := h0.insertAll (keys t) (by simpa using hp.nodup_iff.2 hn) (by
    simp [hp.length_eq]; omega)
  refine ⟨h3.size, h3.perm.trans (by simpa using hp), hn, fun ha => ?_⟩
  unfold resize at ha ⊢
  exact h3.home (by simpa using ha.perm hp.symm)

theorem diff_perm {pts cpts : List Nat} (hp : pts.Nodup) (hc : cpts.Nodup) :
    (setMinus pts cpts).Perm (pts.filter fun i => decide (i ∉ cpts)) := by
  have h1 := isSet_ofList hp
  have h2 := isSet_ofList hc
  have hf : ∀ i, decide (i ∉ keys (ofList cpts)) = decide (i ∉ cpts) := by
    intro i; rw [decide_eq_decide, h2.perm.mem_iff]
  unfold setMinus diff
  simp only [hf]
  split
  · obtain ⟨h3, -⟩ := Holds.copy h1
    have h4 : (keys ((copy (ofList pts)).map fun s => s.filter fun x => decide (x ∉ cpts))).Perm
        (pts.filter fun i => decide (i ∉ cpts)) := by
      rw [keys_filter]; exact h3.perm.filter _
    split
    · exact h4
    · refine (resize_holds h4 (hp.filter _) ?_).perm
      rw [h4.length_eq]
      unfold want; split <;> omega
  · have h5 : ((keys (ofList pts)).filter fun i => decide (i ∉ cpts)).Perm
        (pts.filter fun i => decide (i ∉ cpts)) := h1.perm.filter _
    have h6 := isSet_empty.addAll ((keys (ofList pts)).filter fun i => decide (i ∉ cpts)) (by
      rw [List.nil_append]; exact h5.nodup_iff.2 (hp.filter _))
    rw [List.nil_append] at h6
    exact h6.perm.trans h5

/-- The table in which the remaining points are iterated. -/
theorem diff_rotated {lo n : Nat} {cpts : List Nat} (hc : cpts.Nodup)
    (h : cpts.length < n / 4 ∨ ∀ x y, x ∈ (List.range' lo n).filter (fun i => decide (i ∉ cpts)) →
      y ∈ (List.range' lo n).filter (fun i => decide (i ∉ cpts)) →
      3 * (y - x) ≤ 5 * ((List.range' lo n).filter fun i => decide (i ∉ cpts)).length) :
    ∃ a b, setMinus (List.range' lo n) cpts = a ++ b ∧ (b ++ a).Pairwise (· < ·) := by
  have hp : (List.range' lo n).Nodup := List.nodup_range'
  have h1 := isSet_ofList hp
  have h2 := isSet_ofList hc
  have hf : ∀ i, decide (i ∉ keys (ofList cpts)) = decide (i ∉ cpts) := by
    intro i; rw [decide_eq_decide, h2.perm.mem_iff]
  unfold setMinus diff
  simp only [hf, h1.len, h2.len, List.length_range']
  by_cases hlt : cpts.length < n / 4
  · rw [if_pos hlt]
    obtain ⟨h3, h4⟩ := Holds.copy h1
    rw [List.length_range'] at h4
    have hb : ∀ x ∈ List.range' lo n, lo ≤ x ∧ x < lo + (copy (ofList (List.range' lo n))).length := by
      intro x hx
      rw [List.mem_range'_1] at hx
      omega
    have h5 := h3.remove (apart_of_span h3.nodup hb) fun x => decide (x ∉ cpts)
    have hlen : ((List.range' lo n).filter fun x => decide (x ∉ cpts)).length + cpts.length ≥ n := by
      have e := List.length_eq_length_filter_add (l := List.range' lo n) (fun x => decide (x ∉ cpts))
      rw [List.length_range'] at e
      have : ((List.range' lo n).filter fun x => !decide (x ∉ cpts)).length ≤ cpts.length := by
        refine List.Subperm.length_le ((hp.filter _).subperm ?_)
        intro x hx
        have := (List.mem_filter.1 hx).2
        simpa using this
      omega
    rw [if_pos]
    · refine h5.rotated (lo := lo) ?_
      intro x hx
      rw [List.length_map]
      exact hb x (List.mem_filter.1 hx).1
    · rw [h3.len, h5.len, List.length_range']
      omega
  · rw [if_neg hlt]
    have h' := h.resolve_left hlt
    set F := (List.range' lo n).filter fun i => decide (i ∉ cpts) with hF
    have h5 : ((keys (ofList (List.range' lo n))).filter fun i => decide (i ∉ cpts)).Perm F :=
      h1.perm.filter _
    have h6 := isSet_empty.addAll ((keys (ofList (List.range' lo n))).filter fun i => decide (i ∉ cpts)) (by
      rw [List.nil_append]; exact h5.nodup_iff.2 (hp.filter _))
    rw [List.nil_append] at h6
    have hload := h6.load
    rw [h5.length_eq] at hload
    cases hF0 : F with
    | nil =>
      rw [hF0] at h5
      have hk := h6.perm
      rw [h5.eq_nil] at hk ⊢
      exact ⟨[], [], by rw [hk.eq_nil]; rfl, List.Pairwise.nil⟩
    | cons m F' =>
      have hm : m ∈ F := by rw [hF0]; exact List.mem_cons_self
      have hsorted : F.Pairwise (· < ·) := List.Pairwise.filter _ List.pairwise_lt_range'
      refine h6.toHolds.rotated (lo := m) ?_
      intro x hx
      have hxF : x ∈ F := h5.mem_iff.1 hx
      have hmx : m ≤ x := by
        rw [hF0] at hxF hsorted
        rcases List.mem_cons.1 hxF with e | e
        · exact e.ge
        · exact ((List.pairwise_cons.1 hsorted).1 x e).le
      have := h' m x hm hxF
      omega

/-- In a set of points with distances of at least three, a window of `3 * k` points meets at most `k`. -/
theorem window (p : Nat → Bool) (gap : ∀ i, p i = true → p (i + 1) = false ∧ p (i + 2) = false) (k : Nat) :
    ∀ x, ((List.range' x (3 * k)).filter p).length ≤ k := by
  induction k with
  | zero => intro x; simp
  | succ k ih =>
    intro x
    have e : List.range' x (3 * (k + 1)) = x :: (x + 1) :: (x + 2) :: List.range' (x + 3) (3 * k) := by
      rw [show 3 * (k + 1) = (3 * k) + 1 + 1 + 1 by ring]
      simp [List.range'_succ]
    rw [e]
    have := ih (x + 3)
    have g0 := gap x
    have g1 : p (x + 1) = true → p (x + 2) = false := fun h => (gap (x + 1) h).1
    clear ih gap
    simp only [List.filter_cons]
    cases h0 : p x <;> cases h1 : p (x + 1) <;> cases h2 : p (x + 2) <;> simp_all <;> omega

theorem spread (cpts : List Nat) (gap : ∀ i ∈ cpts, i + 1 ∉ cpts ∧ i + 2 ∉ cpts) {lo n x y : Nat}
    (hx : x ∈ List.range' lo n) (hy : y ∈ List.range' lo n) :
    3 * (y - x) ≤ 5 * ((List.range' lo n).filter fun i => decide (i ∉ cpts)).length := by
  by_cases hxy : x ≤ y
  swap
  · rw [Nat.sub_eq_zero_of_le (by omega)]; omega
  rw [List.mem_range'_1] at hx hy
  set s := y - x with hs
  have hsub : (List.range' x (s + 1)).Sublist (List.range' lo n) := by
    have e : List.range' lo n = List.range' lo (x - lo) ++ (List.range' x (s + 1) ++
        List.range' (x + (s + 1)) (n - (x - lo) - (s + 1))) := by
      rw [List.range'_append_1]
      have e2 := List.range'_append_1 (s := lo) (m := x - lo) (n := s + 1 + (n - (x - lo) - (s + 1)))
      rw [show lo + (x - lo) = x by omega] at e2
      rw [e2]
      congr 1; omega
    rw [e]
    exact (List.sublist_append_left _ _).trans (List.sublist_append_right _ _)
  have h1 := (hsub.filter fun i => decide (i ∉ cpts)).length_le
  have h2 := window (fun i => decide (i ∈ cpts)) (by
    intro i hi
    simpa using gap i (by simpa using hi)) (s / 3 + 1) x
  have h3 : ((List.range' x (s + 1)).filter fun i => decide (i ∈ cpts)).length ≤
      ((List.range' x (3 * (s / 3 + 1))).filter fun i => decide (i ∈ cpts)).length := by
    refine (List.Sublist.filter _ ?_).length_le
    have e : List.range' x (3 * (s / 3 + 1)) = List.range' x (s + 1) ++
        List.range' (x + (s + 1)) (3 * (s / 3 + 1) - (s + 1)) := by
      rw [List.range'_append_1]; congr 1; omega
    rw [e]
    exact List.sublist_append_left _ _
  have h4 := List.length_eq_length_filter_add (l := List.range' x (s + 1)) (fun i => decide (i ∈ cpts))
  have h5 : ((List.range' x (s + 1)).filter fun i => !decide (i ∈ cpts)).length =
      ((List.range' x (s + 1)).filter fun i => decide (i ∉ cpts)).length := by
    congr 1
    refine List.filter_congr fun i _ => ?_
    simp
  rw [List.length_range'] at h4
  omega

end PySet

/-- C67.  What Python iterates over are the local points that are not C-points, each exactly once. -/
theorem C67_set_contents (pts cpts : List Nat) (hp : pts.Nodup) (hc : cpts.Nodup) :
    (setMinus pts cpts).Nodup ∧ ∀ i, i ∈ setMinus pts cpts ↔ i ∈ pts ∧ i ∉ cpts := by
  have h := diff_perm hp hc
  refine ⟨h.nodup_iff.2 (hp.filter _), fun i => ?_⟩
  rw [h.mem_iff, List.mem_filter, decide_eq_true_eq]

/-- C06 under CPython, for the points `lo, …, lo + n - 1` of a process: every F-point is visited after the
F-point before it if (1) no two F-points are neighbours, or (2) less than a quarter of the points are
C-points, or (3) the F-points fill three fifths of the range they span. -/
theorem C06_python_partial (lo n : Nat) (cpts : List Nat) (hc : cpts.Nodup)
    (h : (∀ i, i ∉ cpts → i + 1 ∉ cpts → lo ≤ i → lo + n ≤ i + 1) ∨ cpts.length < n / 4 ∨
      ∀ x y, x ∈ (List.range' lo n).filter (fun i => decide (i ∉ cpts)) →
        y ∈ (List.range' lo n).filter (fun i => decide (i ∉ cpts)) →
        3 * (y - x) ≤ 5 * ((List.range' lo n).filter fun i => decide (i ∉ cpts)).length) :
    Compat (visit (setMinus (List.range' lo n) cpts)) := by
  rcases h with h | h
  · obtain ⟨h1, h2⟩ := C67_set_contents (List.range' lo n) cpts List.nodup_range' hc
    refine C06_isolated_partial _ h1 ?_
    intro x hx hx1
    rw [h2, List.mem_range'_1] at hx hx1
    have := h x hx.2 hx1.2 hx.1.1
    omega
  · obtain ⟨a, b, e, hab⟩ := diff_rotated hc h
    rw [e]
    exact C06_rotated_partial a b hab

/-- C06 under CPython for C-points at the multiples of a coarsening factor (what `simple_setup_problem`
and every uniform coarsening produce), for every factor, on every process. -/
theorem C06_python_uniform (lo n m : Nat) :
    Compat (visit (setMinus (List.range' lo n) ((List.range' lo n).filter fun i => decide (m ∣ i)))) := by
  have hnd : ((List.range' lo n).filter fun i => decide (m ∣ i)).Nodup := List.Nodup.filter _ List.nodup_range'
  by_cases hm : m = 1 ∨ m = 2
  · refine C06_python_partial lo n _ hnd (Or.inl ?_)
    intro i h0 h1 hi
    by_contra hlt
    have a0 : ¬ m ∣ i := fun hd => h0 (List.mem_filter.2 ⟨List.mem_range'_1.2 ⟨hi, by omega⟩, by simpa using hd⟩)
    have a1 : ¬ m ∣ i + 1 := fun hd =>
      h1 (List.mem_filter.2 ⟨List.mem_range'_1.2 ⟨by omega, by omega⟩, by simpa using hd⟩)
    rcases hm with rfl | rfl <;> omega
  · refine C06_python_partial lo n _ hnd (Or.inr (Or.inr ?_))
    intro x y hx hy
    refine spread _ ?_ (List.mem_filter.1 hx).1 (List.mem_filter.1 hy).1
    intro i hi
    have hdi : m ∣ i := by simpa using (List.mem_filter.1 hi).2
    have key : ∀ d, 0 < d → d < 3 → ¬ m ∣ i + d := by
      intro d h1 h2 hd
      have : m ∣ d := (Nat.dvd_add_right hdi).1 hd
      have := Nat.le_of_dvd h1 this
      have : m ≠ 0 := by
        rintro rfl
        have := Nat.eq_zero_of_zero_dvd ‹0 ∣ d›
        omega
      omega
    refine ⟨fun h => key 1 (by omega) (by omega) ?_, fun h => key 2 (by omega) (by omega) ?_⟩
    · simpa using (List.mem_filter.1 h).2
    · simpa using (List.mem_filter.1 h).2

/-- C06 is false under CPython: ten points, coarse grid `0, 2, …, 7`.  Python iterates over the F-points in
the order 8, 1, 9, so they are visited in the order 9, 1, 8: point 9 before point 8. -/
theorem C06_python_counterexample :
    setMinus (List.range' 0 10) [0, 2, 3, 4, 5, 6, 7] = [8, 1, 9] ∧
    visit [8, 1, 9] = [9, 1, 8] ∧ ¬ Compat (visit [8, 1, 9]) := by
  refine ⟨by decide +kernel, by decide, ?_⟩
  rw [C06_iff _ (by decide)]
  intro h
  have := h 0 2 (by decide) (by decide) (by decide) (by decide)
  omega

/-! ### Whole runs under CPython -/

/-- CPython's order fulfils what the theorems on runs need, if the C-points of the level are at least three
apart or no two F-points are neighbours. -/
theorem ordOK_python {T : Type} [LinearOrder T] [Inhabited T] {ts : List (List T)} (hv : Valid ts) {P : Nat}
    (hPn : P ≤ npts ts 0) {r l : Nat} (hl : l < ts.length) (hr : r < P)
    (h : (∀ i ∈ allC ts l, i + 1 ∉ allC ts l ∧ i + 2 ∉ allC ts l) ∨
      ∀ i, i ∉ allC ts l → i + 1 < npts ts l → i + 1 ∈ allC ts l) :
    OrdOK ts P (PySet.order ts P r l) r l := by
  have hcp : (localPts ts P r l).filter (fun i => decide
      (i ∉ (localPts ts P r l).filter fun i => decide (i ∉ allC ts l))) =
      (localPts ts P r l).filter fun i => decide (i ∈ allC ts l) := by
    refine List.filter_congr fun i hi => ?_
    rw [decide_eq_decide, List.mem_filter]
    simp [hi]
  have hfp : (localPts ts P r l).filter (fun i => decide
      (i ∉ (localPts ts P r l).filter fun i => decide (i ∈ allC ts l))) =
      (localPts ts P r l).filter fun i => decide (i ∉ allC ts l) := by
    refine List.filter_congr fun i hi => ?_
    rw [decide_eq_decide, List.mem_filter]
    simp [hi]
  have hle := hv.localPts_eq hPn hl hr
  have hpn : (localPts ts P r l).Nodup := by rw [hle]; exact List.nodup_range'
  unfold OrdOK PySet.order
  dsimp only
  rw [hcp]
  refine ⟨?_, ?_⟩
  · have := diff_perm hpn (hpn.filter fun i => decide (i ∈ allC ts l))
    rw [hfp] at this
    exact this
  · rw [hle] at hfp ⊢
    refine C06_python_partial _ _ _ (List.Nodup.filter _ List.nodup_range') ?_
    rcases h with h | h
    · refine Or.inr (Or.inr ?_)
      intro x y hx hy
      refine spread _ ?_ (List.mem_filter.1 hx).1 (List.mem_filter.1 hy).1
      intro i hi
      have := h i (by simpa using (List.mem_filter.1 hi).2)
      exact ⟨fun h => this.1 (by simpa using (List.mem_filter.1 h).2),
        fun h => this.2 (by simpa using (List.mem_filter.1 h).2)⟩
    · refine Or.inl ?_
      intro i h0 h1 hi
      by_contra hlt
      have hlo : ∀ j, j ∉ (List.range' (lo ts P l r) (lo ts P l (r + 1) - lo ts P l r)).filter
          (fun i => decide (i ∈ allC ts l)) → lo ts P l r ≤ j →
          j < lo ts P l r + (lo ts P l (r + 1) - lo ts P l r) → j ∉ allC ts l := by
        intro j hj h2 h3 hc
        exact hj (List.mem_filter.2 ⟨List.mem_range'_1.2 ⟨h2, h3⟩, by simpa using hc⟩)
      have hb : lo ts P l (r + 1) ≤ npts ts l := hv.lo_le P l (r + 1)
      exact hlo (i + 1) h1 (by omega) (by omega) (h i (hlo i h0 hi (by omega)) (by omega))

/-- C06 for whole runs: on the hierarchies of `simple_setup_problem`, with any coarsening factor of at least
two, on any number of processes, CPython's order of the F-points fulfils the hypotheses of the theorems on
distributed runs (C10, C13, C14, C20–C23). -/
theorem C06_python_runs {V K T N : Type} [LinearOrder T] [Inhabited T] [Add V] [Sub V] [SMul K V] [One K]
    [Sub K] [Zero N] (E : Cfg V K T N) (p : App T)
    (level c : Nat) (hl : 1 ≤ level) (hc : 2 ≤ c) (ht : p.t ≠ []) (hs : p.t.Pairwise (· < ·))
    (ps : List (App T)) (w : Bool) (h : simpleSetup p level c = .ok (ps, w))
    (hE : E.ts = ps.map App.t) (hP : 0 < E.P) (hPN : E.P ≤ p.t.length)
    (ho : E.ord = PySet.order E.ts E.P)
    (hg : E.convCrit = 0 ∨ E.convCrit = 1) : E.Good := by
  refine good_simple E p level c hl hc ht hs ps w h hE hP hPN ?_ hg
  have hv : Valid E.ts := hE ▸ C26_valid p level c hl (by omega) ht hs ps w h
  have hlen : E.ts.length = level := by
    rw [hE, List.length_map]; exact (simple_grid p level c hl (by omega) ht ps w h).1
  intro r l hr hlt
  rw [ho]
  refine ordOK_python hv ?_ hlt hr ?_
  · rw [npts, hE, (simple_grid p level c hl (by omega) ht ps w h).2 0 (by omega), Nat.pow_zero,
      stride_one]
    exact hPN
  · by_cases hlast : l + 1 = E.ts.length
    · refine Or.inr fun i hi hi1 => absurd ?_ hi
      unfold allC
      rw [if_neg (by omega)]
      exact List.mem_range.2 (by omega)
    · have hC : ∀ i, i ∈ allC E.ts l ↔ i < npts E.ts l ∧ c ∣ i := by
        intro i
        have := C26_cpoints p level c hl (by omega) ht hs ps w h l (by omega) i
        rw [← hE] at this
        rw [this]
        have hn : E.ts[l]?.elim 0 List.length = npts E.ts l := by
          rw [npts, grid_getElem (by omega), List.getElem?_eq_getElem (by omega)]
          rfl
        rw [hn]
      by_cases h2 : c = 2
      · subst h2
        refine Or.inr fun i hi hi1 => ?_
        rw [hC] at hi ⊢
        exact ⟨hi1, by omega⟩
      · refine Or.inl fun i hi => ?_
        rw [hC] at hi
        have key : ∀ d, 0 < d → d < 3 → i + d ∉ allC E.ts l := by
          intro d h1 h3 hd
          rw [hC] at hd
          have := Nat.le_of_dvd h1 ((Nat.dvd_add_right hi.2).1 hd.2)
          omega
        exact ⟨key 1 (by omega) (by omega), key 2 (by omega) (by omega)⟩

/-- Ten points, coarse grid `0, 2, …, 7`, one process, consistent steps on both levels, CPython's order. -/
def pyCfg : Cfg Int Int Nat Int :=
  { exCfg 1 with
    ts := [[0, 1, 2, 3, 4, 5, 6, 7, 8, 9], [0, 2, 3, 4, 5, 6, 7]]
    step := fun _ x t0 t1 => x + ((t1 : Int) - (t0 : Int))
    guess := fun _ => 0
    nested := false
    cf := fun _ => 0
    cyc := Sys.Cycle.V
    ord := PySet.order [[0, 1, 2, 3, 4, 5, 6, 7, 8, 9], [0, 2, 3, 4, 5, 6, 7]] 1 }

/-- C06, C13 and C16 fail under CPython for this hierarchy, which the constructor accepts: on a single
process every execution ends after one iteration with a recorded residual of exactly zero, but the value at
the last time is 2, where time stepping gives 10. -/
theorem C06_python_wrong_solution :
    Valid pyCfg.ts ∧ seqSol (fun i x => pyCfg.step 0 x (i - 1) i) (pyCfg.start 0) 9 = 10 ∧
    (∃ c, Steps (startConf pyCfg) c ∧ c.Done) ∧
    ∀ c, Steps (startConf pyCfg) c → (∀ d, ¬ Step c d) →
      ∃ s, c.prog (0 : Fin 1) = Prog.ret s ∧ s.u 0 9 = 2 ∧ s.conv 1 = 0 ∧ s.solveIter = 1 := by
  refine ⟨⟨by decide, by decide, ?_, ?_, ?_⟩, by decide, ?_⟩
  · intro l
    match l with
    | 0 => decide
    | 1 => decide
    | _ + 2 => exact List.Pairwise.nil
  · intro l hl
    have : l = 0 := by
      have : l + 1 < 2 := hl
      omega
    subst this
    decide
  · intro l hl
    have : l < 2 := hl
    match l with
    | 0 => rfl
    | 1 => rfl
  set res := (exec 1 1000 10 ((List.range 1).map fun r => pyCfg.mainP r
    (pyCfg.initState (fun r l => off pyCfg.ts 1 l r) r)) []).1 with hres
  have hall : res.all isRet = true := by decide +kernel
  have e0 : (match res.getD 0 (.fail "") with
      | .ret s => some (s.u 0 9, s.conv 1, s.solveIter)
      | _ => none) = some (2, 0, 1) := by decide +kernel
  refine ⟨?_, ?_⟩
  · obtain ⟨c, h1, h2, -⟩ := exec_done pyCfg 1000 10 res rfl hall
    exact ⟨c, h1, h2⟩
  intro c h1 hc
  have h0' : c.prog (0 : Fin 1) = res.getD 0 (.fail "") := exec_final pyCfg 1000 10 res rfl hall h1 hc (0 : Fin 1)
  clear_value res
  rw [h0']
  revert e0
  cases res.getD 0 (.fail "") <;> simp +contextual

/-- The constructor accepts the hierarchy (multigrid with the default arguments but `cf_iter=0`). -/
example : ∃ p, construct (⟨pyCfg.ts, none, "V", 1, 2, 0, .int 0, 100, 1, 0⟩ : Args Nat) = .ok p := ⟨_, rfl⟩

/-- Hypotheses of `C06_python_runs`: twenty points, coarsening by three, two levels, four processes. -/
example : ∃ (E : Cfg Int Int Nat Int) (p : App Nat) (ps : List (App Nat)) (w : Bool),
    simpleSetup p 2 3 = .ok (ps, w) ∧ E.ts = ps.map App.t ∧ E.P = 4 ∧ 4 ≤ p.t.length ∧
    E.ord = PySet.order E.ts E.P ∧ E.convCrit = 0 := by
  refine ⟨{ exCfg 4 with
      ts := [List.range 20, [0, 3, 6, 9, 12, 15, 18]]
      ord := PySet.order [List.range 20, [0, 3, 6, 9, 12, 15, 18]] 4 },
    ⟨List.range 20, 0, 19, 20⟩, _, _, rfl, ?_, rfl, by decide, rfl, rfl⟩
  decide +kernel

/-- The order is a proper rotation here, and the runs of F-points are still visited from left to right. -/
example : setMinus (List.range' 25 12) [27, 30, 33, 36] = [32, 34, 35, 25, 26, 28, 29, 31] ∧
    visit [32, 34, 35, 25, 26, 28, 29, 31] = [31, 28, 29, 25, 26, 34, 35, 32] := by decide +kernel

end Pymgrit
