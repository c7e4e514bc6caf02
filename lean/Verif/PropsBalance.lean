import Verif.PropsSetup
import Verif.PropsWork

/-!
# Property C136: balance of the work between the processes

Numbers of points, F-points and C-points of the processes on the levels (mgrit.py:742-822, the constructor's
distribution of the points), for hierarchies in which a level consists of every `M`-th point of the finest grid.  A process
calls `step()` once per F-point in an F-relaxation and once per C-point in a C-relaxation, so these numbers are the lengths
of the loops.
-/

set_option linter.unusedSectionVars false

namespace Pymgrit

/-! ### Multiples of `M` in an interval -/

/-- Number of multiples of `M` below `a`. -/
theorem mult_lt {M a i : Nat} (hM : 0 < M) : i < (a + M - 1) / M ↔ i * M < a := by
  rw [Nat.lt_iff_add_one_le, Nat.le_div_iff_mul_le hM, Nat.add_mul, Nat.one_mul]
  omega

/-- An interval of `b` numbers contains `b / M` or `⌈b / M⌉` multiples of `M`. -/
theorem mult_interval {M a b : Nat} (hM : 0 < M) :
    b / M ≤ (a + b + M - 1) / M - (a + M - 1) / M ∧
    (a + b + M - 1) / M - (a + M - 1) / M ≤ (b + M - 1) / M := by
  constructor
  · have h1 : (a + M - 1) / M + b / M ≤ (a + M - 1 + b) / M := by
      rw [Nat.le_div_iff_mul_le hM, Nat.add_mul]
      exact Nat.add_le_add (Nat.div_mul_le_self _ _) (Nat.div_mul_le_self _ _)
    have e : a + M - 1 + b = a + b + M - 1 := by omega
    rw [e] at h1
    omega
  · rw [Nat.sub_le_iff_le_add]
    apply Nat.le_of_lt_succ
    rw [Nat.lt_iff_add_one_le, Nat.succ_eq_add_one]
    by_contra hlt
    have hge : (b + M - 1) / M + (a + M - 1) / M < (a + b + M - 1) / M := by omega
    rw [mult_lt hM, Nat.add_mul] at hge
    have hb : ¬ (b + M - 1) / M < (b + M - 1) / M := Nat.lt_irrefl _
    have ha : ¬ (a + M - 1) / M < (a + M - 1) / M := Nat.lt_irrefl _
    rw [mult_lt hM] at ha
    rw [mult_lt hM] at hb
    omega

/-- Intervals whose lengths differ by at most one contain numbers of multiples that differ by at most one. -/
theorem mult_balance {M b b' : Nat} (hM : 0 < M) (h : b ≤ b' + 1) : (b + M - 1) / M ≤ b' / M + 1 := by
  rw [← Nat.add_div_right _ hM]
  exact Nat.div_le_div_right (by omega)

/-- Numbers that differ by at most one lie next to their mean value. -/
theorem near_mean {P n : Nat} {f : Nat → Nat} (hsum : ((List.range P).map f).sum = n)
    (hb : ∀ r q, r < P → q < P → f r ≤ f q + 1) {r : Nat} (hr : r < P) :
    n / P ≤ f r ∧ f r ≤ (n + P - 1) / P := by
  have hP : 0 < P := by omega
  have upper : ∀ k, ∀ Q, Q ≤ P → (∀ q, q < Q → f q ≤ k) → (r < Q → f r < k) →
      ((List.range Q).map f).sum + (if r < Q then 1 else 0) ≤ Q * k := by
    intro k Q
    induction Q with
    | zero => simp
    | succ Q ih =>
      intro hQ h1 h2
      have := ih (by omega) (fun q hq => h1 q (by omega)) (fun h => h2 (by omega))
      rw [List.range_succ, List.map_append, List.sum_append, Nat.add_mul]
      simp only [List.map_cons, List.map_nil, List.sum_cons, List.sum_nil, Nat.one_mul, Nat.add_zero]
      have h3 := h1 Q (by omega)
      by_cases hrQ : r < Q
      · rw [if_pos hrQ] at this
        rw [if_pos (by omega)]
        omega
      · rw [if_neg hrQ] at this
        by_cases e : r = Q
        · subst e
          have := h2 (by omega)
          rw [if_pos (by omega)]
          omega
        · rw [if_neg (by omega)]
          omega
  have lower : ∀ k, ∀ Q, Q ≤ P → (∀ q, q < Q → k ≤ f q) → (r < Q → k < f r) →
      Q * k + (if r < Q then 1 else 0) ≤ ((List.range Q).map f).sum := by
    intro k Q
    induction Q with
    | zero => simp
    | succ Q ih =>
      intro hQ h1 h2
      have := ih (by omega) (fun q hq => h1 q (by omega)) (fun h => h2 (by omega))
      rw [List.range_succ, List.map_append, List.sum_append, Nat.add_mul]
      simp only [List.map_cons, List.map_nil, List.sum_cons, List.sum_nil, Nat.one_mul, Nat.add_zero]
      have h3 := h1 Q (by omega)
      by_cases hrQ : r < Q
      · rw [if_pos hrQ] at this
        rw [if_pos (by omega)]
        omega
      · rw [if_neg hrQ] at this
        by_cases e : r = Q
        · subst e
          have := h2 (by omega)
          rw [if_pos (by omega)]
          omega
        · rw [if_neg (by omega)]
          omega
  constructor
  · by_contra hlt
    have h1 := upper (f r + 1) P (Nat.le_refl _) (fun q hq => hb q r hq hr) (fun _ => by omega)
    rw [if_pos hr, hsum] at h1
    have : n / P < f r + 1 := by
      rw [Nat.div_lt_iff_lt_mul hP, Nat.mul_comm]
      omega
    omega
  · by_cases h0 : f r = 0
    · rw [h0]
      exact Nat.zero_le _
    have h1 := lower (f r - 1) P (Nat.le_refl _) (fun q hq => by have := hb r q hr hq; omega) (fun _ => by omega)
    rw [if_pos hr, hsum] at h1
    have : f r - 1 < (n + P - 1) / P := by
      rw [mult_lt hP, Nat.mul_comm]
      omega
    omega

section
variable {T : Type} [LinearOrder T] [Inhabited T] {ts : List (List T)} {P : Nat} {ord : Nat → Nat → List Nat → List Nat}

/-- Index on the finest grid of a point of a level with every `M`-th point. -/
theorem every_tAt {xs ys : List T} {M i : Nat} (h : IsEvery M xs ys) (hi : i < ys.length) :
    i * M < xs.length ∧ tAt ys i = tAt xs (i * M) := by
  have := h i
  rw [List.getElem?_eq_getElem hi] at this
  obtain ⟨h1, h2⟩ := List.getElem?_eq_some_iff.1 this.symm
  refine ⟨h1, ?_⟩
  simp [tAt, hi, h1, h2]

/-- The first point of a process on a level with every `M`-th point. -/
theorem lo_every (h : Valid ts) (hPn : P ≤ npts ts 0) {l r M : Nat} (hM : 0 < M) (hr : r ≤ P) (hP : 0 < P)
    (he : IsEvery M (grid ts 0) (grid ts l)) : lo ts P l r = (firstPt (npts ts 0) P r + M - 1) / M := by
  have hle := h.lo_le P l r
  have hfn : firstPt (npts ts 0) P r ≤ npts ts 0 := by
    have := firstPt_mono hPn hr (Nat.le_refl P)
    rwa [firstPt_last hP] at this
  have key : ∀ i, i < npts ts l → (i < lo ts P l r ↔ i < (firstPt (npts ts 0) P r + M - 1) / M) := by
    intro i hi
    obtain ⟨h1, h2⟩ := every_tAt he hi
    rw [h.lt_lo_iff hP hPn hr hi h1 h2, mult_lt hM]
  have hlen : (firstPt (npts ts 0) P r + M - 1) / M ≤ npts ts l := by
    by_contra hlt
    have h1 : npts ts l < (firstPt (npts ts 0) P r + M - 1) / M := by omega
    rw [mult_lt hM] at h1
    have h2 := he (npts ts l)
    rw [List.getElem?_eq_none (show (grid ts l).length ≤ npts ts l from Nat.le_refl _), List.getElem?_eq_getElem
      (show npts ts l * M < (grid ts 0).length from Nat.lt_of_lt_of_le h1 hfn)] at h2
    exact absurd h2 (by simp)
  rcases Nat.lt_trichotomy (lo ts P l r) ((firstPt (npts ts 0) P r + M - 1) / M) with h1 | h1 | h1
  · have := (key (lo ts P l r) (by omega)).2 h1
    omega
  · exact h1
  · have := (key _ (by omega)).1 h1
    omega

theorem pts_length (h : Valid ts) (hPn : P ≤ npts ts 0) (hord : ∀ r l xs, (ord r l xs).Perm xs) {r l : Nat} (hr : r < P)
    (hl : l < ts.length) : (setupLevel ts P (ord r l) r l).pts.length = lo ts P l (r + 1) - lo ts P l r := by
  rw [(spec0 h hPn hord hr hl).pts, List.length_range']

/-- C136, one process: from `b` points of the finest level a level with every `M`-th point takes `⌊b / M⌋` or
`⌈b / M⌉`. -/
theorem C136_count (h : Valid ts) (hPn : P ≤ npts ts 0) (hord : ∀ r l xs, (ord r l xs).Perm xs) {r l M : Nat} (hr : r < P)
    (hl : l < ts.length) (hM : 0 < M) (he : IsEvery M (grid ts 0) (grid ts l)) :
    (setupLevel ts P (ord r 0) r 0).pts.length / M ≤ (setupLevel ts P (ord r l) r l).pts.length ∧
    (setupLevel ts P (ord r l) r l).pts.length ≤ ((setupLevel ts P (ord r 0) r 0).pts.length + M - 1) / M := by
  have hP : 0 < P := by omega
  rw [pts_length h hPn hord hr hl, pts_length h hPn hord hr h.pos, lo_every h hPn hM (by omega) hP he,
    lo_every h hPn hM (by omega) hP he, h.lo_fine hP hPn (by omega), h.lo_fine hP hPn (by omega)]
  have hlt := firstPt_lt hPn hr
  have := mult_interval (M := M) (a := firstPt (npts ts 0) P r)
    (b := firstPt (npts ts 0) P (r + 1) - firstPt (npts ts 0) P r) hM
  rwa [show firstPt (npts ts 0) P r + (firstPt (npts ts 0) P (r + 1) - firstPt (npts ts 0) P r) =
    firstPt (npts ts 0) P (r + 1) by omega] at this

/-- The full claim: the numbers of points of two processes on a level differ by at most one.  It is proved for levels
with every `M`-th point of the finest grid; what is missing, other coarse grids, is refuted by
`C136_balance_counterexample`. -/
theorem C136_balance_partial (h : Valid ts) (hPn : P ≤ npts ts 0) (hord : ∀ r l xs, (ord r l xs).Perm xs) {r q l M : Nat}
    (hr : r < P) (hq : q < P) (hl : l < ts.length) (hM : 0 < M) (he : IsEvery M (grid ts 0) (grid ts l)) :
    (setupLevel ts P (ord r l) r l).pts.length ≤ (setupLevel ts P (ord q l) q l).pts.length + 1 := by
  have hP : 0 < P := by omega
  have h1 := (C136_count h hPn hord hr hl hM he).2
  have h2 := (C136_count h hPn hord hq hl hM he).1
  have h3 : (setupLevel ts P (ord r 0) r 0).pts.length ≤ (setupLevel ts P (ord q 0) q 0).pts.length + 1 := by
    have := (C01_block_distribution (npts ts 0) P hP hPn).2.2.1 r q hr hq
    rw [splitPoints_eq hPn hr, splitPoints_eq hPn hq] at this
    rw [pts_length h hPn hord hr h.pos, pts_length h hPn hord hq h.pos, h.lo_fine hP hPn (by omega),
      h.lo_fine hP hPn (by omega), h.lo_fine hP hPn (by omega), h.lo_fine hP hPn (by omega)]
    exact this
  have := mult_balance hM h3
  omega

/-- No distribution is better: on a level with `n` points, every `M`-th of the finest grid, every process owns `⌊n / P⌋`
or `⌈n / P⌉` points.  So no process is idle on a level with at least as many points as processes, and none owns two points
of a level with at most as many points as processes.  For other coarse grids see `C136_balance_counterexample`. -/
theorem C136_optimal_partial (h : Valid ts) (hPn : P ≤ npts ts 0) (hord : ∀ r l xs, (ord r l xs).Perm xs) {r l M : Nat}
    (hr : r < P) (hl : l < ts.length) (hM : 0 < M) (he : IsEvery M (grid ts 0) (grid ts l)) :
    npts ts l / P ≤ (setupLevel ts P (ord r l) r l).pts.length ∧
    (setupLevel ts P (ord r l) r l).pts.length ≤ (npts ts l + P - 1) / P := by
  have hP : 0 < P := by omega
  refine near_mean (f := fun r => (setupLevel ts P (ord r l) r l).pts.length) ?_
    (fun r q hr hq => C136_balance_partial h hPn hord hr hq hl hM he) hr
  have := sum_diff (P := P) (fun r => lo ts P l r) fun r hr => h.lo_mono hP hPn hl (by omega) (by omega)
  simp only [h.lo_zero hP hPn hl, h.lo_last (P := P) l] at this
  rw [← this, Nat.add_zero]
  apply congrArg List.sum
  apply List.map_congr_left
  intro q hq
  exact pts_length h hPn hord (List.mem_range.1 hq) hl

/-- The loops of the relaxation: the numbers of C-points of two processes differ by at most one, those of F-points by at
most two.  Proved for uniform coarsening; two is attained, see `C136_fpoints_sharp`. -/
theorem C136_loops_partial (h : Valid ts) (hPn : P ≤ npts ts 0) (hord : ∀ r l xs, (ord r l xs).Perm xs) {r q l M M' : Nat}
    (hr : r < P) (hq : q < P) (hl : l + 1 < ts.length) (hM : 0 < M) (hM' : 0 < M')
    (he : IsEvery M (grid ts 0) (grid ts l)) (he' : IsEvery M' (grid ts 0) (grid ts (l + 1))) :
    (setupLevel ts P (ord r l) r l).idxC.length ≤ (setupLevel ts P (ord q l) q l).idxC.length + 1 ∧
    (setupLevel ts P (ord r l) r l).idxF.length ≤ (setupLevel ts P (ord q l) q l).idxF.length + 2 := by
  have hC : ∀ r, r < P → (setupLevel ts P (ord r l) r l).idxC.length =
      (setupLevel ts P (ord r (l + 1)) r (l + 1)).pts.length := by
    intro r hr
    rw [pts_length h hPn hord hr hl, (C05_pairing h hPn hord hr hl).1, (spec0 h hPn hord hr hl).idx, List.length_range']
  have hF : ∀ r, r < P → (setupLevel ts P (ord r l) r l).idxF.length + (setupLevel ts P (ord r l) r l).idxC.length =
      (setupLevel ts P (ord r l) r l).pts.length := by
    intro r hr
    have hp := (C05_partition h hPn hord hr (show l < ts.length by omega)).1.length_eq
    rw [List.length_append, (spec0 h hPn hord hr (show l < ts.length by omega)).idx, List.length_range',
      ← pts_length h hPn hord hr (show l < ts.length by omega)] at hp
    omega
  have b1 := C136_balance_partial h hPn hord hr hq hl hM' he'
  have b2 := C136_balance_partial h hPn hord hq hr hl hM' he'
  have b3 := C136_balance_partial h hPn hord hr hq (show l < ts.length by omega) hM he
  have := hF r hr
  have := hF q hq
  have := hC r hr
  have := hC q hq
  omega

/-- Idle processes, for every hierarchy: at most as many processes as the level has points own a point of it. -/
theorem C136_idle (h : Valid ts) (hP : 0 < P) (hPn : P ≤ npts ts 0) (hord : ∀ r l xs, (ord r l xs).Perm xs) {l : Nat}
    (hl : l < ts.length) :
    P ≤ ((List.range P).filter fun r => decide ((setupLevel ts P (ord r l) r l).pts = [])).length + npts ts l := by
  have hs := sum_diff (P := P) (fun r => lo ts P l r) fun r hr => h.lo_mono hP hPn hl (by omega) (by omega)
  simp only [h.lo_zero hP hPn hl, h.lo_last (P := P) l] at hs
  have key : ∀ Q, Q ≤ P → Q ≤ ((List.range Q).filter fun r => decide ((setupLevel ts P (ord r l) r l).pts = [])).length +
      ((List.range Q).map fun r => lo ts P l (r + 1) - lo ts P l r).sum := by
    intro Q
    induction Q with
    | zero => simp
    | succ Q ih =>
      intro hQ
      have := ih (by omega)
      rw [List.range_succ, List.filter_append, List.map_append, List.sum_append, List.length_append]
      have hlen := pts_length h hPn hord (show Q < P by omega) hl
      by_cases hn : (setupLevel ts P (ord Q l) Q l).pts = []
      · simp [hn]
        omega
      · have : 0 < (setupLevel ts P (ord Q l) Q l).pts.length := List.length_pos_iff.2 hn
        simp [hn]
        omega
  have := key P (Nat.le_refl _)
  omega

/-- C136 for `simple_setup_problem` (simple_setup_problem.py:19-41): on every level of the hierarchy every process owns the
mean number of points, rounded down or up. -/
theorem C136_setup (p : App T) (level c : Nat) (hl : 1 ≤ level) (hc : 1 ≤ c) (ht : p.t ≠ [])
    (hs : p.t.Pairwise (· < ·)) (ps : List (App T)) (w : Bool) (hps : simpleSetup p level c = .ok (ps, w))
    (hPn : P ≤ p.t.length) (hord : ∀ r l xs, (ord r l xs).Perm xs) {r l : Nat} (hr : r < P) (hll : l < level) :
    npts (ps.map App.t) l / P ≤ (setupLevel (ps.map App.t) P (ord r l) r l).pts.length ∧
    (setupLevel (ps.map App.t) P (ord r l) r l).pts.length ≤ (npts (ps.map App.t) l + P - 1) / P := by
  obtain ⟨ps', w', e, hlen, h0, hall⟩ := C26_hierarchy p level c hl hc ht
  have : ps' = ps := by
    rw [hps] at e
    injection e with e
    exact (congrArg Prod.fst e).symm
  subst this
  have hg : ∀ l (hl : l < ps'.length), grid (ps'.map App.t) l = ps'[l].t := by
    intro l hl
    rw [grid_getElem (by simpa using hl)]
    simp
  have hp0 : grid (ps'.map App.t) 0 = p.t := by
    rw [hg 0 (by omega)]
    rw [List.getElem?_eq_getElem (by omega)] at h0
    rw [Option.some.inj h0]
  refine C136_optimal_partial (M := c ^ l) (C26_valid p level c hl hc ht hs ps' w hps) ?_ hord hr ?_
    (Nat.one_le_pow _ _ hc) ?_
  · show P ≤ (grid _ 0).length
    rw [hp0]
    exact hPn
  · simp
    omega
  · rw [hp0, hg l (by omega)]
    exact (hall l (by omega)).1

/-- The grids of `run_mgrit` (example_3_petsc.py:348-351): level `i` has the points
`t_interval[::np.prod(coarsening[:i])]`.  `np.prod` with `dtype=int` wraps around beyond the range of the machine
integers; the products here are exact. -/
def productLevels (t : List T) (coarsening : List Nat) : List (List T) :=
  t :: (List.range coarsening.length).map fun i => stride t (coarsening.take (i + 1)).prod

theorem productLevels_grid (t : List T) (cs : List Nat) {l : Nat} (hl : l ≤ cs.length) :
    grid (productLevels t cs) l = stride t (cs.take l).prod := by
  cases l with
  | zero => simp [grid, productLevels, stride_one]
  | succ l =>
    have : l < cs.length := by omega
    simp [grid, productLevels, this]

theorem prod_pos {cs : List Nat} (hc : ∀ c ∈ cs, 1 ≤ c) : 0 < cs.prod := by
  induction cs with
  | nil => simp
  | cons c cs ih =>
    rw [List.prod_cons]
    exact Nat.mul_pos (hc c (by simp)) (ih fun d hd => hc d (by simp [hd]))

/-- C136 for a list of coarsening factors: the hierarchy is valid (so the theorems about the solver hold for it) and every
level is spread evenly, whatever the factors are. -/
theorem C136_products (t : List T) (cs : List Nat) (ht : t ≠ []) (hs : t.Pairwise (· < ·)) (hc : ∀ c ∈ cs, 1 ≤ c)
    (hPn : P ≤ t.length) (hord : ∀ r l xs, (ord r l xs).Perm xs) :
    Valid (productLevels t cs) ∧ (productLevels t cs).length = cs.length + 1 ∧
    ∀ r l, r < P → l ≤ cs.length →
      npts (productLevels t cs) l / P ≤ (setupLevel (productLevels t cs) P (ord r l) r l).pts.length ∧
      (setupLevel (productLevels t cs) P (ord r l) r l).pts.length ≤ (npts (productLevels t cs) l + P - 1) / P := by
  have hlen : (productLevels t cs).length = cs.length + 1 := by simp [productLevels]
  have hpos : ∀ l, 0 < (cs.take l).prod := fun l => prod_pos fun c hm => hc c (List.mem_of_mem_take hm)
  have h0 : grid (productLevels t cs) 0 = t := rfl
  have hev : ∀ l, l ≤ cs.length → IsEvery (cs.take l).prod t (grid (productLevels t cs) l) := by
    intro l hl k
    rw [productLevels_grid t cs hl, stride_get t (hpos l)]
  have hv : Valid (productLevels t cs) := by
    refine ⟨by omega, ht, ?_, ?_, ?_⟩
    · intro l
      by_cases hl : l ≤ cs.length
      · rw [List.pairwise_iff_getElem]
        intro i j hi hj hij
        have hi' := hev l hl i
        have hj' := hev l hl j
        rw [List.getElem?_eq_getElem hi] at hi'
        rw [List.getElem?_eq_getElem hj] at hj'
        obtain ⟨bi, ei⟩ := List.getElem?_eq_some_iff.1 hi'.symm
        obtain ⟨bj, ej⟩ := List.getElem?_eq_some_iff.1 hj'.symm
        rw [← ei, ← ej]
        exact List.pairwise_iff_getElem.1 hs _ _ bi bj (Nat.mul_lt_mul_of_pos_right hij (hpos l))
      · rw [grid, List.getD_eq_getElem?_getD, List.getElem?_eq_none (by omega)]
        simp
    · intro l hl x hx
      have hl' : l + 1 ≤ cs.length := by omega
      obtain ⟨k, hk⟩ := List.mem_iff_getElem?.1 hx
      have hp : (cs.take (l + 1)).prod = (cs.take l).prod * cs[l] := by
        rw [List.take_add_one, List.getElem?_eq_getElem (show l < cs.length by omega), List.prod_append]
        simp only [Option.toList_some, List.prod_cons, List.prod_nil, Nat.mul_one]
      rw [hev (l + 1) hl' k, hp] at hk
      refine List.mem_iff_getElem?.2 ⟨k * cs[l], ?_⟩
      rw [hev l (by omega), ← hk, Nat.mul_assoc, Nat.mul_comm cs[l]]
    · intro l hl
      rw [List.head?_eq_getElem?, List.head?_eq_getElem?, hev l (by omega) 0, h0, Nat.zero_mul]
  refine ⟨hv, hlen, fun r l hr hl => ?_⟩
  exact C136_optimal_partial hv hPn hord hr (by omega) (hpos l) (hev l hl)

end

/-! ### Examples and counterexamples -/

/-- The factors of the example (example_3_petsc.py:374) with fewer points. -/
example : productLevels (List.range 17) [4, 2, 2] =
    [List.range 17, [0, 4, 8, 12, 16], [0, 8, 16], [0, 16]] ∧ (∀ c ∈ [4, 2, 2], 1 ≤ c) := by
  decide

/-- The hierarchy of the project's own test: 65, 17 and 5 points on 7 processes. -/
example (r : Nat) (hr : r < 7) : 17 / 7 ≤ (setupLevel testGrid 7 id r 1).pts.length ∧
    (setupLevel testGrid 7 id r 1).pts.length ≤ (17 + 7 - 1) / 7 := by
  revert r
  decide

/-- The hypothesis on the coarse grid holds for it. -/
example : IsEvery 4 (grid testGrid 0) (grid testGrid 1) ∧ 7 ≤ npts testGrid 0 ∧ 1 < testGrid.length := by
  refine ⟨fun k => ?_, by decide, by decide⟩
  by_cases hk : k < 17
  · revert k
    decide
  · rw [List.getElem?_eq_none (show (grid testGrid 1).length ≤ k by
      show 17 ≤ k
      omega), List.getElem?_eq_none (show (grid testGrid 0).length ≤ k * 4 by
      show 65 ≤ k * 4
      omega)]

/-- A hierarchy made by `simple_setup_problem`: 19 points on 4 processes; the 7 points of the second level are distributed
as 2, 2, 1, 2. -/
example : ∃ ps w, simpleSetup (⟨List.range 19, 0, 18, 19⟩ : App Nat) 2 3 = .ok (ps, w) ∧
    (⟨List.range 19, 0, 18, 19⟩ : App Nat).t.Pairwise (· < ·) ∧ 4 ≤ (List.range 19).length ∧
    (List.range 4).map (fun r => (setupLevel (ps.map App.t) 4 id r 1).pts.length) = [2, 2, 1, 2] :=
  ⟨_, _, rfl, by decide, by decide, by decide⟩

/-- A coarse grid that is not every `M`-th point: the points 0, 1, 2, 3 of 0, …, 7. -/
def skewGrid : List (List Nat) := [List.range 8, List.range 4]

theorem skewGrid_valid : Valid skewGrid where
  pos := by decide
  ne0 := by decide
  sorted := by
    intro l
    match l with
    | 0 => decide
    | 1 => decide
    | l + 2 => simp [grid, skewGrid]
  nested := by
    intro l hl
    have : l = 0 := by simp [skewGrid] at hl; omega
    subst this
    decide
  start := by
    intro l hl
    match l, hl with
    | 0, _ => decide
    | 1, _ => decide

/-- C136 is false for other coarse grids: two processes with four points each on the finest level, the first owns all four
points of the coarse level, the second none. -/
theorem C136_balance_counterexample : Valid skewGrid ∧ 2 ≤ npts skewGrid 0 ∧
    (setupLevel skewGrid 2 id 0 0).pts.length = 4 ∧ (setupLevel skewGrid 2 id 1 0).pts.length = 4 ∧
    (setupLevel skewGrid 2 id 0 1).pts.length = 4 ∧ (setupLevel skewGrid 2 id 1 1).pts.length = 0 :=
  ⟨skewGrid_valid, by decide, by decide, by decide, by decide, by decide⟩

/-- 19 points, every third is a C-point. -/
def thirdGrid : List (List Nat) := [List.range 19, (List.range 7).map (3 * ·)]

/-- The bound two for the F-points is attained with uniform coarsening: on four processes one has four F-points, another
two. -/
theorem C136_fpoints_sharp : (∀ k, k < 7 → (grid thirdGrid 1)[k]? = (grid thirdGrid 0)[k * 3]?) ∧
    (setupLevel thirdGrid 4 id 2 0).idxF.length = 4 ∧ (setupLevel thirdGrid 4 id 3 0).idxF.length = 2 := by
  decide

end Pymgrit
