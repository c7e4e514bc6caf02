import Verif.Setup
import Verif.PropsConstruct

/-!
# Properties C26–C29, C53, C54
-/

set_option linter.unusedSectionVars false

namespace Pymgrit

/-! ## Strides -/

theorem getElem?_filterMap_range {α : Type} (f : Nat → Option α) (n : Nat)
    (h : ∀ k, k < n → (f k).isSome) (k : Nat) :
    ((List.range n).filterMap f)[k]? = if k < n then f k else none := by
  induction n generalizing f k with
  | zero => simp
  | succ n ih =>
    rw [List.range_succ_eq_map, List.filterMap_cons]
    obtain ⟨x, hx⟩ := Option.isSome_iff_exists.1 (h 0 (by omega))
    rw [hx]
    simp only
    cases k with
    | zero => simp [hx]
    | succ k =>
      rw [List.getElem?_cons_succ, List.filterMap_map, ih (f ∘ Nat.succ) fun k hk => h (k + 1) (by omega)]
      simp

theorem lt_ceil {n m k : Nat} (hm : 1 ≤ m) : k < (n + m - 1) / m ↔ k * m < n := by
  rw [Nat.lt_iff_add_one_le, Nat.le_div_iff_mul_le (by omega), Nat.add_mul]
  omega

theorem stride_get {α : Type} (xs : List α) {m : Nat} (hm : 1 ≤ m) (k : Nat) :
    (stride xs m)[k]? = xs[k * m]? := by
  unfold stride
  rw [getElem?_filterMap_range]
  · split
    · rfl
    · next h =>
      rw [lt_ceil hm] at h
      rw [List.getElem?_eq_none (by omega)]
  · intro k hk
    rw [lt_ceil hm] at hk
    simp [hk]

theorem stride_length {α : Type} (xs : List α) {m : Nat} (hm : 1 ≤ m) :
    (stride xs m).length = (xs.length + m - 1) / m := by
  have h : ∀ k, k < (stride xs m).length ↔ k < (xs.length + m - 1) / m := by
    intro k
    have h1 : (stride xs m)[k]? = none ↔ xs[k * m]? = none := by rw [stride_get xs hm]
    rw [List.getElem?_eq_none_iff, List.getElem?_eq_none_iff] at h1
    rw [lt_ceil hm]
    omega
  have h1 := h (stride xs m).length
  have h2 := h ((xs.length + m - 1) / m)
  omega

theorem stride_stride {α : Type} (xs : List α) {a b : Nat} (ha : 1 ≤ a) (hb : 1 ≤ b) :
    stride (stride xs a) b = stride xs (a * b) := by
  apply List.ext_getElem?
  intro k
  rw [stride_get _ hb, stride_get _ ha, stride_get _ (Nat.mul_pos ha hb), Nat.mul_assoc, Nat.mul_comm b]

theorem stride_one {α : Type} (xs : List α) : stride xs 1 = xs := by
  apply List.ext_getElem?
  intro k
  rw [stride_get _ (le_refl 1), Nat.mul_one]

/-! ## C26 -/

/-- The points of `xs` at the multiples of `m`. -/
def IsEvery {α : Type} (m : Nat) (xs ys : List α) : Prop := ∀ k, ys[k]? = xs[k * m]?

theorem setupLoop_spec {T : Type} {c : Nat} (hc : 1 ≤ c) {t : List T} (ht : t ≠ []) (n : Nat) :
    ∀ (acc : List (App T)), acc ≠ [] → acc.map App.t = (List.range acc.length).map (fun l => stride t (c ^ l)) →
      (∀ p ∈ acc.drop 1, p.nt = p.t.length ∧ p.t.head? = some p.tStart ∧ p.t.getLast? = some p.tEnd) →
      ∃ ps, setupLoop (c : Int) n acc = .ok ps ∧ ps.length = acc.length + n ∧ ps.head? = acc.head? ∧
        ps.map App.t = (List.range ps.length).map (fun l => stride t (c ^ l)) ∧
        (∀ p ∈ ps.drop 1, p.nt = p.t.length ∧ p.t.head? = some p.tStart ∧ p.t.getLast? = some p.tEnd) := by
  induction n with
  | zero => intro acc _ h1 h2; exact ⟨acc, rfl, by simp, rfl, h1, h2⟩
  | succ n ih =>
    intro acc hne h1 h2
    have hlen : 0 < acc.length := List.length_pos_iff.2 hne
    have hlast : (acc.getLast?.map App.t).getD [] = stride t (c ^ (acc.length - 1)) := by
      have : (acc.map App.t).getLast? = some (stride t (c ^ (acc.length - 1))) := by
        rw [h1, List.getLast?_map, List.getLast?_range]
        simp [Nat.ne_of_gt hlen]
      rw [List.getLast?_map] at this
      rw [this]; rfl
    have hpow : ∀ l, 1 ≤ c ^ l := fun l => Nat.one_le_pow _ _ hc
    have hsl : pySlice (stride t (c ^ (acc.length - 1))) (c : Int) = .ok (stride t (c ^ acc.length)) := by
      unfold pySlice
      rw [if_neg (by omega), if_pos (by omega), Int.toNat_natCast, stride_stride _ (hpow _) hc,
        ← Nat.pow_succ]
      congr 2
      congr 1
      omega
    have hnil : stride t (c ^ acc.length) ≠ [] := by
      intro h
      have h0 := stride_get t (hpow acc.length) 0
      rw [h] at h0
      simp at h0
      exact ht h0
    obtain ⟨a, ha⟩ : ∃ a, (stride t (c ^ acc.length)).head? = some a := by
      cases h : stride t (c ^ acc.length) with
      | nil => exact absurd h hnil
      | cons x xs => exact ⟨x, rfl⟩
    obtain ⟨b, hb⟩ : ∃ b, (stride t (c ^ acc.length)).getLast? = some b :=
      ⟨_, List.getLast?_eq_some_getLast hnil⟩
    obtain ⟨ps, e1, e2, e3, e4, e5⟩ := ih (acc ++ [⟨stride t (c ^ acc.length), a, b,
      (stride t (c ^ acc.length)).length⟩]) (by simp) (by
        rw [List.map_append, h1, List.length_append, List.length_singleton, List.range_succ,
          List.map_append]
        rfl) (by
        intro p hp
        rw [List.drop_append_of_le_length hlen] at hp
        rcases List.mem_append.1 hp with h | h
        · exact h2 p h
        · rw [List.mem_singleton.1 h]
          exact ⟨rfl, ha, hb⟩)
    refine ⟨ps, ?_, by rw [e2]; simp; omega, by rw [e3, List.head?_append_of_ne_nil _ hne], e4, e5⟩
    simp only [setupLoop, hlast, hsl, Bind.bind, Except.bind, ha, hb]
    exact e1

/-- C26.  For a coarsening factor of at least one and at least one level, `simple_setup_problem`
returns `level` problems.  The first is the given one.  The grid of problem `l` consists of the
points at the multiples of `c^l`; it has `⌈nt/c^l⌉` points and begins with the initial time; `nt`,
`t_start` and `t_end` are set accordingly. -/
theorem C26_hierarchy {T : Type} (p : App T) (level c : Nat) (hl : 1 ≤ level) (hc : 1 ≤ c)
    (ht : p.t ≠ []) :
    ∃ ps w, simpleSetup p level c = .ok (ps, w) ∧ ps.length = level ∧ ps[0]? = some p ∧
      ∀ l (hlt : l < ps.length), IsEvery (c ^ l) p.t ps[l].t ∧
        ps[l].t.length = (p.t.length + c ^ l - 1) / c ^ l ∧ ps[l].t.head? = p.t.head? ∧
        (0 < l → ps[l].nt = ps[l].t.length ∧ ps[l].t.head? = some ps[l].tStart ∧
          ps[l].t.getLast? = some ps[l].tEnd) := by
  obtain ⟨ps, e1, e2, e3, e4, e5⟩ := setupLoop_spec hc ht (level - 1) [p] (by simp)
    (by simp [stride_one]) (by simp)
  have hpow : ∀ l, 1 ≤ c ^ l := fun l => Nat.one_le_pow _ _ hc
  have hcl : (c : Int) * level ≠ 0 := by
    have : 0 < (c : Int) * level := by positivity
    omega
  have hw : ∃ w, pySlice p.t ((c : Int) * level) = .ok w := by
    unfold pySlice
    rw [if_neg hcl]
    split <;> exact ⟨_, rfl⟩
  obtain ⟨w, hw⟩ := hw
  refine ⟨ps, decide (w.length = 1), ?_, by rw [e2]; simp; omega, ?_, ?_⟩
  · unfold simpleSetup
    rw [hw, show ((level : Int) - 1).toNat = level - 1 by omega, e1]
    rfl
  · rw [← List.head?_eq_getElem?, e3]; rfl
  · intro l hlt
    have hgrid : ps[l].t = stride p.t (c ^ l) := by
      have := congrArg (·[l]?) e4
      simp only [List.getElem?_map, List.getElem?_range, hlt, List.getElem?_eq_getElem, Option.map_some,
        Option.some.injEq] at this
      simpa using this
    refine ⟨?_, ?_, ?_, ?_⟩
    · intro k; rw [hgrid, stride_get _ (hpow l)]
    · rw [hgrid, stride_length _ (hpow l)]
    · rw [hgrid, List.head?_eq_getElem?, stride_get _ (hpow l), List.head?_eq_getElem?, Nat.zero_mul]
    · intro h0
      refine e5 _ ?_
      rw [List.mem_iff_getElem]
      refine ⟨l - 1, by simp; omega, ?_⟩
      rw [List.getElem_drop]
      congr 1
      omega

/-- A step of zero is rejected. -/
theorem C26_zero {T : Type} (p : App T) (level : Int) : simpleSetup p level 0 = .error .zeroStep := by
  unfold simpleSetup pySlice
  rw [if_pos (by simp)]
  rfl

section
variable {T : Type} [LinearOrder T] [Inhabited T]

theorem grid_getElem {ts : List (List T)} {l : Nat} (h : l < ts.length) : grid ts l = ts[l] := by
  simp [grid, h]

/-- C26.  The hierarchy of an increasing grid is valid: nested, increasing, with common initial time
(so it passes the checks of `Mgrit` and the theorems about `Valid` hierarchies apply). -/
theorem C26_valid (p : App T) (level c : Nat) (hl : 1 ≤ level) (hc : 1 ≤ c)
    (ht : p.t ≠ []) (hs : p.t.Pairwise (· < ·)) (ps : List (App T)) (w : Bool)
    (h : simpleSetup p level c = .ok (ps, w)) : Valid (ps.map App.t) := by
  obtain ⟨ps', w', e, hlen, h0, hall⟩ := C26_hierarchy p level c hl hc ht
  have : ps' = ps := by
    rw [h] at e
    injection e with e
    exact (congrArg Prod.fst e).symm
  subst this
  have hg : ∀ l (hl : l < ps'.length), grid (ps'.map App.t) l = ps'[l].t := by
    intro l hl
    rw [grid_getElem (by simpa using hl)]
    simp
  have hp0 : ∀ hl : 0 < ps'.length, ps'[0].t = p.t := by
    intro hl
    rw [List.getElem?_eq_getElem hl] at h0
    rw [Option.some.inj h0]
  refine ⟨by simp; omega, ?_, ?_, ?_, ?_⟩
  · rw [hg 0 (by omega), hp0 (by omega)]; exact ht
  · intro l
    by_cases hl : l < ps'.length
    · rw [hg l hl, List.pairwise_iff_getElem]
      intro i j hi hj hij
      have key := (hall l hl).1
      have hi' := key i
      have hj' := key j
      rw [List.getElem?_eq_getElem hi] at hi'
      rw [List.getElem?_eq_getElem hj] at hj'
      have hci := List.getElem?_eq_some_iff.1 hi'.symm
      have hcj := List.getElem?_eq_some_iff.1 hj'.symm
      obtain ⟨bi, ei⟩ := hci
      obtain ⟨bj, ej⟩ := hcj
      rw [← ei, ← ej]
      exact List.pairwise_iff_getElem.1 hs _ _ bi bj
        (Nat.mul_lt_mul_of_pos_right hij (Nat.one_le_pow _ _ hc))
    · rw [grid, List.getD_eq_getElem?_getD, List.getElem?_eq_none (by simpa using hl)]
      simp
  · intro l hl x hx
    have hl' : l + 1 < ps'.length := by simpa using hl
    rw [hg (l + 1) hl'] at hx
    rw [hg l (by omega)]
    obtain ⟨k, hk⟩ := List.mem_iff_getElem?.1 hx
    rw [(hall (l + 1) hl').1 k] at hk
    refine List.mem_iff_getElem?.2 ⟨k * c, ?_⟩
    rw [(hall l (by omega)).1, ← hk, Nat.mul_assoc, Nat.pow_succ, Nat.mul_comm c]
  · intro l hl
    have hl' : l < ps'.length := by simpa using hl
    rw [hg l hl', hg 0 (by omega), (hall l hl').2.2.1, hp0 (by omega)]

/-- Grid `l` of the hierarchy. -/
theorem simple_grid (p : App T) (level c : Nat) (hl : 1 ≤ level) (hc : 1 ≤ c) (ht : p.t ≠ [])
    (ps : List (App T)) (w : Bool) (h : simpleSetup p level c = .ok (ps, w)) :
    ps.length = level ∧ ∀ l, l < level → grid (ps.map App.t) l = stride p.t (c ^ l) := by
  obtain ⟨ps', w', e, hlen, h0, hall⟩ := C26_hierarchy p level c hl hc ht
  have : ps' = ps := by
    rw [h] at e
    injection e with e
    exact (congrArg Prod.fst e).symm
  subst this
  refine ⟨hlen, fun l hlt => ?_⟩
  rw [grid_getElem (by simp; omega)]
  apply List.ext_getElem?
  intro k
  rw [stride_get _ (Nat.one_le_pow _ _ hc)]
  simpa using (hall l (by omega)).1 k

/-- C26.  The C-points of every level are the multiples of the coarsening factor. -/
theorem C26_cpoints (p : App T) (level c : Nat) (hl : 1 ≤ level) (hc : 1 ≤ c) (ht : p.t ≠ [])
    (hs : p.t.Pairwise (· < ·)) (ps : List (App T)) (w : Bool)
    (h : simpleSetup p level c = .ok (ps, w)) (l : Nat) (hlt : l + 1 < level) (i : Nat) :
    i ∈ allC (ps.map App.t) l ↔ i < (ps.map App.t)[l]?.elim 0 List.length ∧ c ∣ i := by
  have hv := C26_valid p level c hl hc ht hs ps w h
  obtain ⟨hlen, hg⟩ := simple_grid p level c hl hc ht ps w h
  have hn : (ps.map App.t)[l]?.elim 0 List.length = npts (ps.map App.t) l := by
    rw [npts, grid_getElem (by simp; omega), List.getElem?_eq_getElem (by simp; omega)]
    rfl
  have hp := Nat.one_le_pow l c hc
  rw [hn, mem_allC_iff (by simp; omega), hg (l + 1) (by omega)]
  refine and_congr_right fun hi => ?_
  have hsl := hv.sorted l
  have hi' : i < (stride p.t (c ^ l)).length := by rw [← hg l (by omega)]; exact hi
  rw [show stride p.t (c ^ (l + 1)) = stride (stride p.t (c ^ l)) c by
    rw [stride_stride _ hp hc, Nat.pow_succ], hg l (by omega)]
  rw [hg l (by omega)] at hsl
  generalize stride p.t (c ^ l) = g at *
  rw [tAt_eq hi']
  constructor
  · intro hm
    obtain ⟨k, hk⟩ := List.mem_iff_getElem?.1 hm
    rw [stride_get _ hc] at hk
    obtain ⟨hb, he⟩ := List.getElem?_eq_some_iff.1 hk
    have : k * c = i := by
      rcases Nat.lt_trichotomy (k * c) i with hlt | heq | hgt
      · exact absurd he (ne_of_lt (List.pairwise_iff_getElem.1 hsl _ _ hb hi' hlt))
      · exact heq
      · exact absurd he.symm (ne_of_lt (List.pairwise_iff_getElem.1 hsl _ _ hi' hb hgt))
    exact ⟨k, by rw [← this, Nat.mul_comm]⟩
  · rintro ⟨k, rfl⟩
    refine List.mem_iff_getElem?.2 ⟨k, ?_⟩
    rw [stride_get _ hc, Nat.mul_comm k c, List.getElem?_eq_getElem hi']

/-- With a coarsening factor of at least two no two C-points are adjacent, so the process-count
independence of `C20_same_as_serial_partial` needs no further assumption on the grids. -/
theorem C26_no_adjacent (p : App T) (level c : Nat) (hl : 1 ≤ level) (hc : 2 ≤ c) (ht : p.t ≠ [])
    (hs : p.t.Pairwise (· < ·)) (ps : List (App T)) (w : Bool)
    (h : simpleSetup p level c = .ok (ps, w)) (l i : Nat) (hlt : l + 1 < (ps.map App.t).length) :
    ¬ (i ∈ allC (ps.map App.t) l ∧ i + 1 ∈ allC (ps.map App.t) l) := by
  obtain ⟨hlen, -⟩ := simple_grid p level c hl (by omega) ht ps w h
  rw [C26_cpoints p level c hl (by omega) ht hs ps w h l (by simpa [hlen] using hlt),
    C26_cpoints p level c hl (by omega) ht hs ps w h l (by simpa [hlen] using hlt)]
  rintro ⟨⟨_, h1⟩, _, h2⟩
  have := (Nat.dvd_add_iff_right h1).2 h2
  have := Nat.le_of_dvd (by omega) this
  omega

/-- C26.  The constructor of `Mgrit` accepts the hierarchy, with default transfers and valid other
arguments, if the coarsest grid has at least two points. -/
theorem C26_accepted (p : App T) (level c : Nat) (hl : 1 ≤ level) (hc : 1 ≤ c) (ht : p.t ≠ [])
    (hs : p.t.Pairwise (· < ·)) (ps : List (App T)) (w : Bool)
    (h : simpleSetup p level c = .ok (ps, w)) (a : Args T) (hts : a.ts = ps.map App.t)
    (htr : a.transfers = none ∨ a.transfers = some (level - 1))
    (hcy : a.cycle = "V" ∨ a.cycle = "F") (hout : a.outLvl ∈ [0, 1, 2]) (hnorm : a.tNorm ∈ [1, 2, 3])
    (hcrit : a.convCrit ∈ [0, 1, 2, 3]) (hcf : ∃ k, a.cfIter = .int k) (hP0 : 0 < a.P) (hP : a.P ≤ p.t.length)
    (hm : 0 ≤ a.maxIter) (h2 : level = 1 ∨ c ^ (level - 1) < p.t.length) :
    ∃ pr, construct a = .ok pr := by
  have hv := C26_valid p level c hl hc ht hs ps w h
  obtain ⟨hlen, hg⟩ := simple_grid p level c hl hc ht ps w h
  have hL : a.ts.length = level := by rw [hts]; simpa using hlen
  have hg' : ∀ l, l < level → grid a.ts l = stride p.t (c ^ l) := by rw [hts]; exact hg
  have hn : ∀ l, l < level → npts a.ts l = (p.t.length + c ^ l - 1) / c ^ l := fun l h => by
    rw [npts, hg' l h, stride_length _ (Nat.one_le_pow _ _ hc)]
  have hmono : ∀ l, l + 1 < level → npts a.ts (l + 1) ≤ npts a.ts l := by
    intro l hl'
    rw [npts, ← List.length_map (f := id)]
    rw [List.map_id]
    have := allC_length hv (l := l) (by simp; omega)
    rw [hts]
    show npts (ps.map App.t) (l + 1) ≤ _
    rw [← this]
    refine le_trans (List.Sublist.length_le (?_ : (allC (ps.map App.t) l).Sublist
      (List.range (npts (ps.map App.t) l)))) (by simp)
    unfold allC
    split
    · exact List.filter_sublist
    · exact List.Sublist.refl _
  have hC2 : ∀ l, l + 1 < a.ts.length → 2 ≤ (allC a.ts l).length := by
    intro l hl''
    rw [hts, allC_length hv (by simp; omega), ← hts, hn (l + 1) (by omega)]
    have h1 : 1 < (p.t.length + c ^ (l + 1) - 1) / c ^ (l + 1) := by
      rw [lt_ceil (Nat.one_le_pow _ _ hc), Nat.one_mul]
      rcases h2 with h2 | h2
      · omega
      · exact lt_of_le_of_lt (Nat.pow_le_pow_right hc (by omega)) h2
    omega
  have hmem : ∀ l, l < a.ts.length → tAt (grid a.ts 0) 0 ∈ grid a.ts l := by
    intro l hl'
    rw [hts] at hl' ⊢
    rw [← hv.tAt_zero hl']
    exact tAt_mem (hv.npos hl')
  rw [C24_accepts_partial a hP0 (by omega) hC2 (by rw [hts]; exact hv.sorted 0) hmem]
  intro ck hck
  simp only [documented, List.mem_append, List.mem_map, List.mem_range, List.mem_cons,
    List.not_mem_nil, or_false] at hck
  rcases hck with (((rfl | ⟨i, hi, rfl⟩) | rfl | rfl) | ⟨i, hi, rfl⟩) | rfl | rfl | rfl | rfl | rfl
  · refine ⟨by omega, ?_⟩
    rcases htr with e | e <;> simp [e, hL]
  · exact hmono i (by omega)
  · exact hcy
  · simpa using hout
  · refine ⟨?_, ?_⟩
    · rw [hts]
      exact (hv.sorted (i + 1)).imp fun h => ne_of_lt h
    · have := hv.nested i (by rw [← hts]; omega)
      rw [hts]; exact this
  · simpa using hnorm
  · simpa using hcrit
  · obtain ⟨k, hk⟩ := hcf
    intro ks hks
    rw [hk] at hks
    cases hks
  · obtain ⟨k, hk⟩ := hcf
    show a.cfIter ≠ _
    rw [hk]; simp
  · show a.P ≤ npts a.ts 0
    rw [hn 0 (by omega)]
    simpa using hP

end

/-- A hierarchy of three levels. -/
example : (simpleSetup (⟨[0, 1, 2, 3, 4, 5, 6, 7, 8], 0, 8, 9⟩ : App Nat) 3 2).toOption.map
    (fun x => (x.1.map App.t, x.2)) = some ([[0, 1, 2, 3, 4, 5, 6, 7, 8], [0, 2, 4, 6, 8], [0, 4, 8]], false) :=
  by decide

/-! ## C27 -/

/-- When the warning is issued, and when the coarsest grid has a single point: the code compares
with `c·level`, the number of points is determined by `c^(level-1)`. -/
theorem C27_warning_partial {T : Type} (p : App T) (level c : Nat) (hl : 1 ≤ level) (hc : 1 ≤ c)
    (ht : p.t ≠ []) (ps : List (App T)) (w : Bool) (h : simpleSetup p level c = .ok (ps, w)) :
    (w = true ↔ p.t.length ≤ c * level) ∧
    ((ps.getLast?.map fun q => q.t.length) = some 1 ↔ p.t.length ≤ c ^ (level - 1)) := by
  have hn : 0 < p.t.length := List.length_pos_iff.2 ht
  obtain ⟨ps', w', e, hlen, h0, hall⟩ := C26_hierarchy p level c hl hc ht
  have hps : ps' = ps := by
    rw [h] at e
    injection e with e
    exact (congrArg Prod.fst e).symm
  subst hps
  have one : ∀ m, 1 ≤ m → ((p.t.length + m - 1) / m = 1 ↔ p.t.length ≤ m) := by
    intro m hm
    have a := lt_ceil (n := p.t.length) (k := 0) hm
    have b := lt_ceil (n := p.t.length) (k := 1) hm
    omega
  constructor
  · have hcl : 1 ≤ c * level := Nat.mul_pos hc hl
    have hsl : pySlice p.t ((c : Int) * level) = .ok (stride p.t (c * level)) := by
      unfold pySlice
      rw [← Int.natCast_mul, if_neg (by omega), if_pos (by omega), Int.toNat_natCast]
    unfold simpleSetup at h
    rw [hsl] at h
    simp only [Bind.bind, Except.bind] at h
    split at h
    · cases h
    · have : decide ((stride p.t (c * level)).length = 1) = w := by
        injection h with h
        exact congrArg Prod.snd h
      rw [← this, decide_eq_true_iff, stride_length _ hcl, one _ hcl]
  · have hk := (hall (level - 1) (by omega)).2.1
    rw [List.getLast?_eq_getElem?, List.getElem?_eq_getElem (by omega), Option.map_some,
      Option.some.injEq]
    have : ps'[ps'.length - 1]'(by omega) = ps'[level - 1]'(by omega) := by
      congr 1; omega
    rw [this, hk]
    exact one _ (Nat.one_le_pow _ _ hc)

/-- The claim "warns if and only if the coarsest grid has a single point" is false in both
directions: there is a warning for a coarsest grid of two points, and no warning for one point. -/
theorem C27_wrong_warning :
    (∃ (p : App Nat) (ps : List (App Nat)), simpleSetup p 2 2 = .ok (ps, true) ∧
      ps.getLast?.map (fun q => q.t.length) = some 2) ∧
    (∃ (p : App Nat) (ps : List (App Nat)), simpleSetup p 5 2 = .ok (ps, false) ∧
      ps.getLast?.map (fun q => q.t.length) = some 1) :=
  ⟨⟨⟨[0, 1, 2], 0, 2, 3⟩, _, rfl, by decide⟩,
   ⟨⟨List.range 12, 0, 11, 12⟩, _, rfl, by decide⟩⟩

theorem range_split (a n : Nat) (h : a ≤ n) : List.range n = List.range a ++ List.range' a (n - a) := by
  rw [List.range_eq_range', List.range_eq_range']
  have := List.range'_append (s := 0) (m := a) (n := n - a) (step := 1)
  simp only [Nat.one_mul, Nat.zero_add] at this
  rw [this]
  congr 1
  omega

/-- A hierarchy (finest grid increasing, initial time on every level) with a coarse grid of fewer than two points
that passes all documented checks ends in an `IndexError` of the constructor, not in an intelligible message. -/
theorem C27_index_error {T : Type} [LinearOrder T] [Inhabited T] (a : Args T) (hP : 0 < a.P)
    (hd : AllHold (documented a)) (hm : -1 ≤ a.maxIter) (hs : (grid a.ts 0).Pairwise (· < ·))
    (h0 : ∀ l, l < a.ts.length → tAt (grid a.ts 0) 0 ∈ grid a.ts l) (l : Nat) (hl : l + 1 < a.ts.length)
    (h1 : (allC a.ts l).length < 2) : ∃ l', l' ≤ l ∧ construct a = .error (.indexError l') := by
  classical
  have hex : ∃ k, k + 1 < a.ts.length ∧ (allC a.ts k).length < 2 := ⟨l, hl, h1⟩
  have hs' := Nat.find_spec hex
  refine ⟨Nat.find hex, Nat.find_min' hex ⟨hl, h1⟩, ?_⟩
  rw [(construct_performs a hP).err, firstFailing_append]
  right
  refine ⟨hd, ?_⟩
  unfold undocumented
  have hsp : List.range a.ts.length = List.range (Nat.find hex) ++
      (Nat.find hex :: List.range' (Nat.find hex + 1) (a.ts.length - Nat.find hex - 1)) := by
    rw [← List.range'_succ, range_split (Nat.find hex) a.ts.length (by omega)]
    congr 2
    omega
  rw [hsp, List.flatMap_append, List.flatMap_cons, ← List.cons_append]
  simp only [List.cons_append, List.nil_append]
  rw [← List.cons_append]
  refine ⟨_, _, _, rfl, rfl, fun h => ?_, ?_⟩
  · have := h hs'.1
    omega
  · intro d hd'
    rcases List.mem_cons.1 hd' with rfl | hd'
    · exact hm
    · obtain ⟨k, hk, hd'⟩ := List.mem_flatMap.1 hd'
      have hk' := List.mem_range.1 hk
      have hmin := Nat.find_min hex hk'
      simp only [List.mem_cons, List.not_mem_nil, or_false] at hd'
      rcases hd' with rfl | rfl
      · intro h2
        by_contra hcon
        exact hmin ⟨h2, by omega⟩
      · intro _ _
        have hPn : a.P ≤ npts a.ts 0 := hd ⟨a.P ≤ npts a.ts 0, .processes⟩ (by simp [documented])
        refine ⟨_, h0 k (by omega), le_refl _, ?_⟩
        have hle : firstPt (npts a.ts 0) a.P 1 ≤ npts a.ts 0 := by
          have := firstPt_mono hPn (show 1 ≤ a.P by omega) (Nat.le_refl a.P)
          rwa [firstPt_last hP] at this
        rw [tAt_le_iff hs (show 0 < npts a.ts 0 by omega)
          (show firstPt (npts a.ts 0) a.P 1 - 1 < npts a.ts 0 by omega)]
        omega

/-! ## C28 -/

theorem mem_splitComm {size r q : Nat} {color : Nat → Nat} :
    q ∈ splitComm size color r ↔ q < size ∧ color q = color r := by
  simp [splitComm]

/-- Number of multiples: the numbers below `r` in the same class modulo `s`. -/
theorem count_mod (s r : Nat) (hs : 1 ≤ s) :
    ((List.range r).filter fun q => decide (q % s = r % s)).length = r / s := by
  induction r using Nat.strong_induction_on with
  | _ r ih =>
    by_cases h : r < s
    · rw [Nat.div_eq_of_lt h, List.length_eq_zero_iff, List.filter_eq_nil_iff]
      intro q hq
      have := List.mem_range.1 hq
      rw [Nat.mod_eq_of_lt h, Nat.mod_eq_of_lt (by omega)]
      simp; omega
    · have hd : r / s = (r - s) / s + 1 := by
        rw [Nat.div_eq_sub_div (by omega) (by omega)]
      rw [hd, ← ih (r - s) (by omega)]
      have hsplit : List.range r = List.range (r - s) ++ List.range' (r - s) s := by
        rw [List.range_eq_range', List.range_eq_range']
        have := List.range'_append (s := 0) (m := r - s) (n := s) (step := 1)
        simp only [Nat.one_mul, Nat.zero_add] at this
        rw [this]
        congr 1
        omega
      rw [hsplit, List.filter_append, List.length_append]
      have hm : (r - s) % s = r % s := by
        conv_rhs => rw [← Nat.sub_add_cancel (Nat.le_of_not_lt h)]
        simp
      rw [hm]
      congr 1
      have : (List.range' (r - s) s).filter (fun q => decide (q % s = r % s)) = [r - s] := by
        obtain ⟨s', rfl⟩ : ∃ s', s = s' + 1 := ⟨s - 1, by omega⟩
        rw [List.range'_succ, List.filter_cons, if_pos (by simp [hm])]
        congr 1
        rw [List.filter_eq_nil_iff]
        intro q hq
        rw [List.mem_range'_1] at hq
        simp only [decide_eq_true_eq]
        intro he
        rw [← hm] at he
        have := (Nat.modEq_iff_dvd' (by omega : r - (s' + 1) ≤ q)).1 (show (r - (s'+1)) ≡ q [MOD (s'+1)] from he.symm)
        have := Nat.le_of_dvd (by omega) this
        omega
      rw [this]
      rfl

/-- Position of an element in a filtered range. -/
theorem idxOf_filter_range (p : Nat → Bool) {size r : Nat} (hr : r < size) (hp : p r = true) :
    ((List.range size).filter p).idxOf r = ((List.range r).filter p).length := by
  rw [range_split r size (by omega), List.filter_append, List.idxOf_append, if_neg]
  · obtain ⟨k, hk⟩ : ∃ k, size - r = k + 1 := ⟨size - r - 1, by omega⟩
    rw [hk, List.range'_succ, List.filter_cons, if_pos hp]
    simp
  · intro hm
    have := List.mem_range.1 (List.mem_filter.1 hm).1
    omega

/-- The numbers in the block of `r` below `r`. -/
theorem count_div (s r : Nat) (hs : 1 ≤ s) :
    ((List.range r).filter fun q => decide (q / s = r / s)).length = r % s := by
  have hle : s * (r / s) ≤ r := Nat.mul_div_le r s
  rw [range_split (s * (r / s)) r hle, List.filter_append, List.length_append]
  have h1 : (List.range (s * (r / s))).filter (fun q => decide (q / s = r / s)) = [] := by
    rw [List.filter_eq_nil_iff]
    intro q hq
    have := List.mem_range.1 hq
    have : q / s < r / s := by rw [Nat.div_lt_iff_lt_mul (by omega), Nat.mul_comm]; exact this
    simp; omega
  have h2 : (List.range' (s * (r / s)) (r - s * (r / s))).filter (fun q => decide (q / s = r / s)) =
      List.range' (s * (r / s)) (r - s * (r / s)) := by
    rw [List.filter_eq_self]
    intro q hq
    rw [List.mem_range'_1] at hq
    have hq2 : q < r := by omega
    have a : r / s ≤ q / s := by
      rw [Nat.le_div_iff_mul_le (by omega), Nat.mul_comm]; exact hq.1
    have b : q / s ≤ r / s := Nat.div_le_div_right (by omega)
    simp; omega
  rw [h1, h2, List.length_nil, List.length_range', Nat.zero_add, ← Nat.mod_eq_sub]

/-- C28.  Ranks in the two communicators of process `r`. -/
theorem C28_ranks (size s r : Nat) (hs : 1 ≤ s) (hr : r < size) :
    rankIn (spaceComm size s r) r = r % s ∧ rankIn (timeComm size s r) r = r / s ∧
    r = rankIn (timeComm size s r) r * s + rankIn (spaceComm size s r) r := by
  have h1 : rankIn (spaceComm size s r) r = r % s := by
    unfold rankIn spaceComm splitComm
    rw [idxOf_filter_range (fun q => decide (q / s = r / s)) hr (by simp), count_div s r hs]
  have h2 : rankIn (timeComm size s r) r = r / s := by
    unfold rankIn timeComm splitComm
    rw [idxOf_filter_range (fun q => decide (q % s = r % s)) hr (by simp), count_mod s r hs]
  refine ⟨h1, h2, ?_⟩
  rw [h1, h2, Nat.mul_comm]
  exact (Nat.div_add_mod r s).symm

/-- C28.  Every process is in exactly one space and one time communicator (its own), sharing a
communicator is symmetric and transitive, and only the process itself is in both of its
communicators. -/
theorem C28_grid (size s r : Nat) (hs : 1 ≤ s) (hr : r < size) :
    r ∈ spaceComm size s r ∧ r ∈ timeComm size s r ∧
    (∀ q, q ∈ spaceComm size s r → spaceComm size s q = spaceComm size s r) ∧
    (∀ q, q ∈ timeComm size s r → timeComm size s q = timeComm size s r) ∧
    (∀ q, q ∈ spaceComm size s r → q ∈ timeComm size s r → q = r) := by
  refine ⟨mem_splitComm.2 ⟨hr, rfl⟩, mem_splitComm.2 ⟨hr, rfl⟩, ?_, ?_, ?_⟩
  · intro q hq
    have e : q / s = r / s := (mem_splitComm.1 hq).2
    simp only [spaceComm, splitComm, e]
  · intro q hq
    have e : q % s = r % s := (mem_splitComm.1 hq).2
    simp only [timeComm, splitComm, e]
  · intro q h1 h2
    have e1 := (mem_splitComm.1 h1).2
    have e2 := (mem_splitComm.1 h2).2
    rw [← Nat.div_add_mod q s, ← Nat.div_add_mod r s, e1, e2]

/-- C28.  If the splitting factor divides the size, the communicators have `s` and `size/s`
members. -/
theorem C28_sizes (m s r : Nat) (hs : 1 ≤ s) (hr : r < m * s) :
    (spaceComm (m * s) s r).length = s ∧ (timeComm (m * s) s r).length = m := by
  have hrs : r / s < m := by rw [Nat.div_lt_iff_lt_mul (by omega)]; exact hr
  have hlt := Nat.mod_lt r (show 0 < s by omega)
  constructor
  · have hp : (spaceComm (m * s) s r).Perm (List.range' (s * (r / s)) s) := by
      refine (List.perm_ext_iff_of_nodup (List.nodup_range.filter _) (List.nodup_range')).2 ?_
      intro q
      show q ∈ splitComm _ _ _ ↔ _
      rw [mem_splitComm, List.mem_range'_1]
      constructor
      · rintro ⟨_, h⟩
        have h1 := Nat.div_add_mod q s
        have h2 := Nat.mod_lt q (show 0 < s by omega)
        rw [h] at h1
        omega
      · rintro ⟨h1, h2⟩
        have a : r / s ≤ q / s := by rw [Nat.le_div_iff_mul_le (by omega), Nat.mul_comm]; exact h1
        have b : q / s < r / s + 1 := by
          rw [Nat.div_lt_iff_lt_mul (by omega), Nat.add_mul, Nat.mul_comm (r / s)]; omega
        refine ⟨?_, by omega⟩
        have : s * (r / s) + s ≤ m * s := by
          rw [Nat.mul_comm s, ← Nat.succ_mul]; exact Nat.mul_le_mul_right s hrs
        omega
    rw [hp.length_eq, List.length_range']
  · have hp : (timeComm (m * s) s r).Perm ((List.range m).map fun k => k * s + r % s) := by
      refine (List.perm_ext_iff_of_nodup (List.nodup_range.filter _) ?_).2 ?_
      · refine List.Nodup.map_on ?_ List.nodup_range
        intro a _ b _ h
        exact Nat.eq_of_mul_eq_mul_right (show 0 < s by omega) (by omega)
      · intro q
        show q ∈ splitComm _ _ _ ↔ _
        rw [mem_splitComm, List.mem_map]
        constructor
        · rintro ⟨h1, h2⟩
          refine ⟨q / s, ?_, ?_⟩
          · rw [List.mem_range, Nat.div_lt_iff_lt_mul (by omega)]; exact h1
          · rw [← h2, Nat.mul_comm]; exact Nat.div_add_mod q s
        · rintro ⟨k, hk, rfl⟩
          have hk' := List.mem_range.1 hk
          refine ⟨?_, by simp [Nat.add_mod]⟩
          have : k * s + s ≤ m * s := by rw [← Nat.succ_mul]; exact Nat.mul_le_mul_right s hk'
          omega
    rw [hp.length_eq, List.length_map, List.length_range]

example : spaceComm 6 2 3 = [2, 3] ∧ timeComm 6 2 3 = [1, 3, 5] := by decide

/-! ## C54 -/

theorem timeComm_length_zero (size s : Nat) (hs : 1 ≤ s) (hsz : 0 < size) (r : Nat) (hr : r % s = 0) :
    (timeComm size s r).length = (size - 1) / s + 1 := by
  have hp : (timeComm size s r).Perm ((List.range ((size - 1) / s + 1)).map fun k => k * s) := by
    refine (List.perm_ext_iff_of_nodup (List.nodup_range.filter _) ?_).2 ?_
    · refine List.Nodup.map_on ?_ List.nodup_range
      intro a _ b _ h
      exact Nat.eq_of_mul_eq_mul_right (show 0 < s by omega) h
    · intro q
      show q ∈ splitComm _ _ _ ↔ _
      rw [mem_splitComm, List.mem_map]
      constructor
      · rintro ⟨h1, h2⟩
        refine ⟨q / s, ?_, ?_⟩
        · rw [List.mem_range, Nat.lt_add_one_iff]; exact Nat.div_le_div_right (by omega)
        · rw [hr] at h2
          exact Nat.div_mul_cancel (Nat.dvd_of_mod_eq_zero h2)
      · rintro ⟨k, hk, rfl⟩
        have hk' := List.mem_range.1 hk
        rw [Nat.lt_add_one_iff, Nat.le_div_iff_mul_le (by omega)] at hk'
        exact ⟨by omega, by simp [hr]⟩
  rw [hp.length_eq, List.length_map, List.length_range]

/-- C54.  With spatial parallelism, for every world size and splitting factor, exactly one process
writes an informational message. -/
theorem C54_one_writer (size s : Nat) (hs : 1 ≤ s) (hsz : 0 < size) :
    ∃ r, (r < size ∧ writesLog (rankIn (timeComm size s r) r) (timeComm size s r).length
        (some (rankIn (spaceComm size s r) r)) = true) ∧
      ∀ q, (q < size ∧ writesLog (rankIn (timeComm size s q) q) (timeComm size s q).length
        (some (rankIn (spaceComm size s q) q)) = true) → q = r := by
  have key : ∀ r, r < size → (writesLog (rankIn (timeComm size s r) r) (timeComm size s r).length
        (some (rankIn (spaceComm size s r) r)) = true ↔ r = (size - 1) / s * s) := by
    intro r hr
    obtain ⟨h1, h2, -⟩ := C28_ranks size s r hs hr
    simp only [writesLog, Bool.and_eq_true, decide_eq_true_eq]
    rw [h1, h2]
    constructor
    · rintro ⟨a, b⟩
      rw [timeComm_length_zero size s hs hsz r b] at a
      have : r / s = (size - 1) / s := by omega
      rw [← this]
      exact (Nat.div_mul_cancel (Nat.dvd_of_mod_eq_zero b)).symm
    · intro h
      have b : r % s = 0 := by rw [h]; simp
      refine ⟨?_, b⟩
      rw [timeComm_length_zero size s hs hsz r b, h, Nat.mul_div_cancel _ (by omega)]
  have hlt : (size - 1) / s * s < size := by
    have := Nat.div_mul_le_self (size - 1) s
    omega
  exact ⟨_, ⟨hlt, (key _ hlt).2 rfl⟩, fun q hq => (key q hq.1).1 hq.2⟩

/-- C54.  Without spatial parallelism. -/
theorem C54_one_writer_time (size : Nat) (hsz : 0 < size) :
    ∃ r, (r < size ∧ writesLog r size none = true) ∧
      ∀ q, (q < size ∧ writesLog q size none = true) → q = r := by
  refine ⟨size - 1, ⟨by omega, by simp [writesLog]; omega⟩, ?_⟩
  rintro q ⟨_, h⟩
  simp [writesLog] at h
  omega

/-! ## C29 -/

/-- The time rank of world rank `r`. -/
def timeRank (size s r : Nat) : Nat := rankIn (timeComm size s r) r

/-- C29 fails: with a split into space communicators of two or more processes, world rank 1 has time
rank 0 but is not the root of the gather over the world communicator, and iterates over `None`. -/
theorem C29_type_error {N : Type} (size s : Nat) (hs : 2 ≤ s) (hsz : 2 ≤ size) (norm : List N → N)
    (val : Nat → List N) :
    globalNorm size norm val (timeRank size s 1) 1 = .typeError := by
  have : timeRank size s 1 = 0 := by
    unfold timeRank
    rw [(C28_ranks size s 1 (by omega) (by omega)).2.1]
    exact Nat.div_eq_of_lt (by omega)
  simp [globalNorm, this]

/-- C29 holds without spatial parallelism (`s = 1`): no process fails, and the root computes the norm
of the values of all processes, each counted once, in the order of time. -/
theorem C29_time_only_partial {N : Type} (size : Nat) (norm : List N → N) (val : Nat → List N)
    (r : Nat) (hr : r < size) :
    globalNorm size norm val (timeRank size 1 r) r =
      if r = 0 then .value (norm ((List.range size).map val).flatten) else .skip := by
  have : timeRank size 1 r = r := by
    unfold timeRank
    rw [(C28_ranks size 1 r (by omega) hr).2.1]
    exact Nat.div_one r
  unfold globalNorm
  rw [this]
  by_cases h : r = 0 <;> simp [h]

/-! ## C53 -/

/-- C53.  The time grid of an application: an array is used as it is; otherwise all three of
`t_start`, `t_stop`, `nt` are required and the grid is the one of `np.linspace`. -/
theorem C53_time_grid {T : Type} (linspace : T → T → Nat → List T) (a b : Option T) (n : Option Nat)
    (iv : IntervalArg T) :
    (∀ ts, iv = .array ts → ∀ p, appInit linspace a b n iv = .ok p →
      p.t = ts ∧ p.nt = ts.length ∧ ts.head? = some p.tStart ∧ ts.getLast? = some p.tEnd) ∧
    (iv = .none → ((∃ p, appInit linspace a b n iv = .ok p) ↔ a.isSome ∧ b.isSome ∧ n.isSome)) ∧
    (iv = .none → ∀ p, appInit linspace a b n iv = .ok p →
      p.t = linspace p.tStart p.tEnd p.nt ∧ some p.tStart = a ∧ some p.tEnd = b ∧ some p.nt = n) ∧
    (iv = .other → appInit linspace a b n iv = .error .wrongType) := by
  refine ⟨?_, ?_, ?_, ?_⟩
  · rintro ts rfl p h
    simp only [appInit] at h
    split at h
    · next x y hx hy =>
      injection h with h
      subst h
      exact ⟨rfl, rfl, hx, hy⟩
    · cases h
  · rintro rfl
    cases a <;> cases b <;> cases n <;> simp [appInit]
  · rintro rfl p h
    cases a <;> cases b <;> cases n <;> simp [appInit] at h
    subst h
    simp
  · rintro rfl; rfl

/-- C53.  An application is accepted exactly if its constructor succeeds and has set both required
attributes. -/
theorem C53_required {A : Type} (obj : Except AppError (A × List String)) :
    (∃ x, appCall obj = .ok x) ↔
      ∃ x attrs, obj = .ok (x, attrs) ∧ "vector_template" ∈ attrs ∧ "vector_t_start" ∈ attrs := by
  cases obj with
  | error e => simp [appCall, Bind.bind, Except.bind]
  | ok y =>
    obtain ⟨x, attrs⟩ := y
    by_cases h1 : "vector_template" ∈ attrs <;> by_cases h2 : "vector_t_start" ∈ attrs <;>
      simp [appCall, Bind.bind, Except.bind, Pure.pure, Except.pure, h1, h2]

example : (appInit (fun a b n => (List.range n).map fun k => a + k * (b - a) / (n - 1)) (some 0)
    (some 10) (some 6) .none).toOption.map App.t = some [0, 2, 4, 6, 8, 10] := by decide

/-! ## The hierarchy of simple_setup_problem on several processes -/

/-- With a coarsening factor of at least two, a run on the hierarchy of `simple_setup_problem` with a
global criterion fulfils the hypotheses of the theorems on distributed runs (C20–C23) for every
number of processes up to the number of points. -/
theorem good_simple {V K T N : Type} [LinearOrder T] [Inhabited T] [Add V] [Sub V] [SMul K V] [One K]
    [Sub K] [Zero N] (E : Cfg V K T N) (p : App T)
    (level c : Nat) (hl : 1 ≤ level) (hc : 2 ≤ c) (ht : p.t ≠ []) (hs : p.t.Pairwise (· < ·))
    (ps : List (App T)) (w : Bool) (h : simpleSetup p level c = .ok (ps, w))
    (hE : E.ts = ps.map App.t) (hP : 0 < E.P) (hPN : E.P ≤ p.t.length)
    (ho : ∀ r l, r < E.P → l < E.ts.length → OrdOK E.ts E.P (E.ord r l) r l)
    (hg : E.convCrit = 0 ∨ E.convCrit = 1) : E.Good := by
  refine good_of_gap ?_ hP ?_ ho hg ?_
  · rw [hE]; exact C26_valid p level c hl (by omega) ht hs ps w h
  · rw [npts, hE, (simple_grid p level c hl (by omega) ht ps w h).2 0 (by omega), Nat.pow_zero,
      stride_one]
    exact hPN
  · intro l i hlt
    rw [hE] at hlt ⊢
    exact C26_no_adjacent p level c hl hc ht hs ps w h l i hlt

/-- A negative coarsening factor `-m` is not rejected: the second grid starts at the *end* time, takes
every `m`-th point backwards, and its times decrease. -/
theorem C27_negative {T : Type} [LinearOrder T] (p : App T) (hp : p.t ≠ []) (hs : p.t.Pairwise (· < ·))
    {m : Nat} (hm : 1 ≤ m) : ∃ q w, simpleSetup p 2 (-(m : Int)) = .ok ([p, q], w) ∧
      (∀ k, q.t[k]? = if k * m < p.t.length then p.t[p.t.length - 1 - k * m]? else none) ∧
      p.t.getLast? = some q.tStart ∧ q.t.Pairwise (· > ·) := by
  have h0 : -(m : Int) ≠ 0 := by omega
  have h1 : ¬ 0 < -(m : Int) := by omega
  have hsl : ∀ xs : List T, pySlice xs (-(m : Int)) = .ok (stride xs.reverse m) := by
    intro xs
    unfold pySlice
    rw [if_neg h0, if_neg h1]
    simp
  have hsl2 : ∀ xs : List T, pySlice xs (-(m : Int) * 2) = .ok (stride xs.reverse (m * 2)) := by
    intro xs
    unfold pySlice
    rw [if_neg (by omega), if_neg (by omega)]
    congr 3
    omega
  have hget : ∀ k, (stride p.t.reverse m)[k]? =
      if k * m < p.t.length then p.t[p.t.length - 1 - k * m]? else none := by
    intro k
    rw [stride_get _ hm]
    split
    · next h => rw [List.getElem?_reverse h]
    · next h => rw [List.getElem?_eq_none (by rw [List.length_reverse]; omega)]
  have hlen : 0 < p.t.length := List.length_pos_iff.2 hp
  obtain ⟨z, hz⟩ : ∃ z, p.t.getLast? = some z := ⟨_, List.getLast?_eq_some_getLast hp⟩
  have hhead : (stride p.t.reverse m).head? = some z := by
    rw [List.head?_eq_getElem?, hget, if_pos (by omega), ← hz, List.getLast?_eq_getElem?]
    simp
  have hne : stride p.t.reverse m ≠ [] := by intro e; rw [e] at hhead; cases hhead
  obtain ⟨y, hy⟩ : ∃ y, (stride p.t.reverse m).getLast? = some y := ⟨_, List.getLast?_eq_some_getLast hne⟩
  refine ⟨⟨stride p.t.reverse m, z, y, (stride p.t.reverse m).length⟩,
    decide ((stride p.t.reverse (m * 2)).length = 1), ?_, hget, hz, ?_⟩
  · unfold simpleSetup
    rw [hsl2]
    simp only [bind, Except.bind, show ((2 : Int) - 1).toNat = 1 from rfl]
    unfold setupLoop
    simp only [List.getLast?_singleton, Option.map_some, Option.getD_some, hsl, bind, Except.bind, hhead, hy]
    unfold setupLoop
    rfl
  · rw [List.pairwise_iff_getElem]
    intro i j hi hj hij
    have e1 := hget i
    have e2 := hget j
    rw [List.getElem?_eq_getElem hi] at e1
    rw [List.getElem?_eq_getElem hj] at e2
    split at e1
    · next c1 =>
      split at e2
      · next c2 =>
        have l1 : p.t.length - 1 - i * m < p.t.length := by omega
        have l2 : p.t.length - 1 - j * m < p.t.length := by omega
        rw [List.getElem?_eq_getElem l1] at e1
        rw [List.getElem?_eq_getElem l2] at e2
        rw [Option.some.inj e1, Option.some.inj e2]
        have : i * m < j * m := Nat.mul_lt_mul_of_pos_right hij hm
        exact List.pairwise_iff_getElem.1 hs _ _ l2 l1 (by omega)
      · cases e2
    · cases e1

example : (simpleSetup (⟨[0, 1, 2, 3, 4], 0, 4, 5⟩ : App Nat) 2 (-2)).toOption.map (fun r => r.1.map App.t) =
    some [[0, 1, 2, 3, 4], [4, 2, 0]] := by decide

end Pymgrit
