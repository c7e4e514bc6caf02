import Verif.Grid

/-! Closed form of the local grids and of the communication pattern. -/

set_option linter.unusedSectionVars false

namespace Pymgrit

variable {T : Type} [LinearOrder T] [Inhabited T]

theorem tAt_eq {g : List T} {i : Nat} (h : i < g.length) : tAt g i = g[i] := by
  simp [tAt, h]

theorem tAt_mem {g : List T} {i : Nat} (h : i < g.length) : tAt g i ∈ g := by
  rw [tAt_eq h]; exact List.getElem_mem h

theorem tAt_lt_iff {g : List T} (hs : g.Pairwise (· < ·)) {i j : Nat} (hi : i < g.length)
    (hj : j < g.length) : tAt g i < tAt g j ↔ i < j := by
  rw [tAt_eq hi, tAt_eq hj]
  constructor
  · intro h
    by_contra hle
    rcases Nat.lt_or_eq_of_le (Nat.le_of_not_lt hle) with h1 | h1
    · exact absurd h (not_lt_of_gt (List.pairwise_iff_getElem.1 hs j i hj hi h1))
    · subst h1; exact absurd h (lt_irrefl _)
  · intro h; exact List.pairwise_iff_getElem.1 hs i j hi hj h

theorem tAt_le_iff {g : List T} (hs : g.Pairwise (· < ·)) {i j : Nat} (hi : i < g.length)
    (hj : j < g.length) : tAt g i ≤ tAt g j ↔ i ≤ j := by
  rw [← not_lt, tAt_lt_iff hs hj hi]; omega

theorem tAt_inj {g : List T} (hs : g.Pairwise (· < ·)) {i j : Nat} (hi : i < g.length)
    (hj : j < g.length) : tAt g i = tAt g j ↔ i = j := by
  constructor
  · intro h
    have h1 := (tAt_le_iff hs hi hj).1 (le_of_eq h)
    have h2 := (tAt_le_iff hs hj hi).1 (le_of_eq h.symm)
    omega
  · rintro rfl; rfl

theorem mem_iff_tAt {g : List T} {x : T} : x ∈ g ↔ ∃ i, i < g.length ∧ x = tAt g i := by
  rw [List.mem_iff_getElem]
  constructor
  · rintro ⟨i, hi, rfl⟩; exact ⟨i, hi, (tAt_eq hi).symm⟩
  · rintro ⟨i, hi, rfl⟩; exact ⟨i, hi, (tAt_eq hi).symm⟩

theorem idxOf_tAt {g : List T} (hs : g.Pairwise (· < ·)) {i : Nat} (hi : i < g.length) :
    g.idxOf (tAt g i) = i := by
  have hn : g.Nodup := hs.imp fun h => ne_of_lt h
  rw [tAt_eq hi]
  exact hn.idxOf_getElem i hi

/-- Number of leading entries below `a`. -/
theorem lt_iff_lt_count {g : List T} (hs : g.Pairwise (· < ·)) (a : T) {i : Nat}
    (hi : i < g.length) : tAt g i < a ↔ i < (g.filter fun x => decide (x < a)).length := by
  induction g generalizing i with
  | nil => simp at hi
  | cons x g ih =>
    have hs' := List.pairwise_cons.1 hs
    by_cases hx : x < a
    · rw [List.filter_cons_of_pos (by simpa using hx), List.length_cons]
      cases i with
      | zero => simp [tAt, hx]
      | succ i =>
        have : tAt (x :: g) (i + 1) = tAt g i := by simp [tAt]
        rw [this, ih hs'.2 (by simpa using hi)]; omega
    · have hnil : g.filter (fun x => decide (x < a)) = [] := by
        rw [List.filter_eq_nil_iff]
        intro y hy
        have := hs'.1 y hy
        simp only [decide_eq_true_eq]
        exact fun h => hx (lt_trans this h)
      rw [List.filter_cons_of_neg (by simpa using hx), hnil]
      simp only [List.length_nil, Nat.not_lt_zero, iff_false]
      cases i with
      | zero => simpa [tAt] using hx
      | succ i =>
        have h1 : tAt (x :: g) (i + 1) = tAt g i := by simp [tAt]
        have h2 := hs'.1 _ (tAt_mem (show i < g.length by simpa using hi))
        rw [h1]
        exact fun h => hx (lt_trans h2 h)

theorem filter_range_eq (n a b : Nat) (hb : b ≤ n) (p : Nat → Bool)
    (hp : ∀ i, i < n → (p i = true ↔ a ≤ i ∧ i < b)) :
    (List.range n).filter p = List.range' a (b - a) := by
  have h1 : ((List.range n).filter p).Pairwise (· < ·) := List.pairwise_lt_range.filter p
  have h2 : (List.range' a (b - a)).Pairwise (· < ·) := List.pairwise_lt_range'
  refine List.Perm.eq_of_pairwise (le := (· < ·)) (fun x y _ _ hxy hyx => absurd hxy (by omega)) h1 h2 ?_
  rw [List.perm_ext_iff_of_nodup (h1.imp fun h => Nat.ne_of_lt h) (h2.imp fun h => Nat.ne_of_lt h)]
  intro i
  rw [List.mem_filter, List.mem_range, List.mem_range'_1]
  constructor
  · rintro ⟨hi, hpi⟩; have := (hp i hi).1 hpi; omega
  · intro h; exact ⟨by omega, (hp i (by omega)).2 (by omega)⟩

/-! ### Block boundaries on every level -/

/-- First global index on level `l` belonging to process `r` (for `r = P`: the number of points). -/
def lo (ts : List (List T)) (P l r : Nat) : Nat :=
  if r < P then
    ((grid ts l).filter fun x => decide (x < tAt (grid ts 0) (firstPt (npts ts 0) P r))).length
  else npts ts l

/-- Binary search finds the boundary between the entries that are smaller and the others. -/
theorem searchSorted_of_iff {xs : List T} {x : T} {q : Nat} (hq : q ≤ xs.length)
    (h : ∀ k, k < xs.length → (tAt xs k < x ↔ k < q)) : searchSorted xs x = q := by
  have loop : ∀ k a b, a ≤ q → q ≤ b → b ≤ xs.length → b - a ≤ k → searchLoop xs x k a b = q := by
    intro k
    induction k with
    | zero => intro a b h1 h2 _ h4; simp only [searchLoop]; omega
    | succ k ih =>
      intro a b h1 h2 h3 h4
      simp only [searchLoop]
      split
      · next hlt =>
        have hm := h (a + (b - a) / 2) (by omega)
        split
        · next hc => exact ih _ _ (by have := hm.1 hc; omega) h2 h3 (by omega)
        · next hc => exact ih _ _ h1 (by have := mt hm.2 hc; omega) (by omega) (by omega)
      · omega
  exact loop _ _ _ (Nat.zero_le _) hq (Nat.le_refl _) (by omega)

namespace Valid
variable {ts : List (List T)} (h : Valid ts)
include h

theorem npos {l : Nat} (hl : l < ts.length) : 0 < npts ts l := by
  have h1 := h.start l hl
  unfold npts
  rcases hg : grid ts l with _ | ⟨x, xs⟩
  · rw [hg] at h1
    have := h.ne0
    rcases hg0 : grid ts 0 with _ | ⟨y, ys⟩
    · exact absurd hg0 this
    · rw [hg0] at h1; simp at h1
  · simp

theorem tAt_zero {l : Nat} (hl : l < ts.length) : tAt (grid ts l) 0 = tAt (grid ts 0) 0 := by
  have h1 := h.start l hl
  have hn := h.npos hl
  have hn0 := h.npos (show 0 < ts.length from h.pos)
  unfold npts at hn hn0
  rw [List.head?_eq_getElem?, List.head?_eq_getElem?] at h1
  simp [tAt, h1]

theorem sub_fine {l : Nat} (hl : l < ts.length) : ∀ x ∈ grid ts l, x ∈ grid ts 0 := by
  induction l with
  | zero => exact fun x hx => hx
  | succ l ih => exact fun x hx => ih (by omega) x (h.nested l hl x hx)

theorem exists_fine {l i : Nat} (hl : l < ts.length) (hi : i < npts ts l) :
    ∃ j, j < npts ts 0 ∧ tAt (grid ts l) i = tAt (grid ts 0) j :=
  mem_iff_tAt.1 (h.sub_fine hl _ (tAt_mem hi))

theorem lo_le (P l r : Nat) : lo ts P l r ≤ npts ts l := by
  unfold lo
  split
  · exact List.length_filter_le _ _
  · exact Nat.le_refl _

theorem lo_last {P : Nat} (l : Nat) : lo ts P l P = npts ts l := by simp [lo]

/-- Membership of a point in the part left of process `r`, in terms of its fine index. -/
theorem lt_lo_iff {P r l i j : Nat} (hP : 0 < P) (hPn : P ≤ npts ts 0) (hr : r ≤ P)
    (hi : i < npts ts l) (hj : j < npts ts 0)
    (hij : tAt (grid ts l) i = tAt (grid ts 0) j) :
    i < lo ts P l r ↔ j < firstPt (npts ts 0) P r := by
  unfold lo
  split
  · rename_i hrP
    have hf : firstPt (npts ts 0) P r < npts ts 0 := by
      have := firstPt_strictMono hPn hrP (Nat.le_refl P)
      rwa [firstPt_last hP] at this
    rw [← lt_iff_lt_count (h.sorted l) _ hi, hij, tAt_lt_iff (h.sorted 0) hj hf]
  · have : r = P := by omega
    subst this
    rw [firstPt_last hP]
    exact iff_of_true hi hj

theorem lo_fine {P r : Nat} (hP : 0 < P) (hPn : P ≤ npts ts 0) (hr : r ≤ P) :
    lo ts P 0 r = firstPt (npts ts 0) P r := by
  have hle := h.lo_le P 0 r
  have hle2 : firstPt (npts ts 0) P r ≤ npts ts 0 := by
    have := firstPt_mono hPn hr (Nat.le_refl P)
    rwa [firstPt_last hP] at this
  rcases Nat.lt_trichotomy (lo ts P 0 r) (firstPt (npts ts 0) P r) with h1 | h1 | h1
  · have := (h.lt_lo_iff (l := 0) hP hPn hr (i := lo ts P 0 r) (j := lo ts P 0 r) (by omega)
      (by omega) rfl).2 h1
    omega
  · exact h1
  · have := (h.lt_lo_iff (l := 0) hP hPn hr (i := firstPt (npts ts 0) P r)
      (j := firstPt (npts ts 0) P r) (by omega) (by omega) rfl).1 h1
    omega

theorem lo_mono {P l r r' : Nat} (hP : 0 < P) (hPn : P ≤ npts ts 0) (hl : l < ts.length)
    (hrr : r ≤ r') (hr : r' ≤ P) : lo ts P l r ≤ lo ts P l r' := by
  by_contra hlt
  have h1 := h.lo_le P l r
  obtain ⟨j, hj, hij⟩ := h.exists_fine hl (i := lo ts P l r') (by omega)
  have h2 := (h.lt_lo_iff hP hPn (Nat.le_trans hrr hr) (i := lo ts P l r') (by omega) hj hij).1
    (by omega)
  have h3 := (h.lt_lo_iff hP hPn hr (i := lo ts P l r') (by omega) hj hij).not.1 (by omega)
  have := firstPt_mono hPn hrr hr
  omega

theorem lo_zero {P l : Nat} (hP : 0 < P) (hPn : P ≤ npts ts 0) (hl : l < ts.length) :
    lo ts P l 0 = 0 := by
  have hn := h.npos hl
  have := (h.lt_lo_iff (r := 0) hP hPn (Nat.zero_le P) (i := 0) (j := 0) hn (h.npos h.pos)
    (h.tAt_zero hl)).not.2 (by rw [firstPt_zero]; omega)
  omega

theorem lo_pos {P l r : Nat} (hPn : P ≤ npts ts 0) (hl : l < ts.length) (hr : r ≤ P)
    (hr0 : 0 < r) : 0 < lo ts P l r := by
  have hn := h.npos hl
  refine (h.lt_lo_iff (by omega) hPn hr (i := 0) (j := 0) hn (h.npos h.pos)
    (h.tAt_zero hl)).2 ?_
  have := firstPt_strictMono (n := npts ts 0) hPn hr0 hr
  omega

/-- The local points of process `r` on level `l` are a contiguous block. -/
theorem localPts_eq {P r l : Nat} (hPn : P ≤ npts ts 0) (hl : l < ts.length)
    (hr : r < P) :
    localPts ts P r l = List.range' (lo ts P l r) (lo ts P l (r + 1) - lo ts P l r) := by
  have hP : 0 < P := by omega
  have hf := firstPt_lt hPn hr
  have hf2 : firstPt (npts ts 0) P (r + 1) ≤ npts ts 0 := by
    have := firstPt_mono hPn (show r + 1 ≤ P by omega) (Nat.le_refl P)
    rwa [firstPt_last hP] at this
  have hp0 : ((List.range (grid ts 0).length).drop (splitPoints (grid ts 0).length P r).2).take
      (splitPoints (grid ts 0).length P r).1 = List.range' (firstPt (npts ts 0) P r)
        (firstPt (npts ts 0) P (r + 1) - firstPt (npts ts 0) P r) := by
    have e := splitPoints_eq (n := npts ts 0) hPn hr
    unfold npts at e hf hf2 ⊢
    rw [e]
    simp only [List.range_eq_range', List.drop_range', Nat.zero_add, Nat.mul_one]
    rw [List.take_range'_of_length_ge (by omega)]
  unfold localPts
  simp only [hp0]
  split
  · rename_i hl0; subst hl0
    rw [h.lo_fine hP hPn (by omega), h.lo_fine hP hPn (by omega)]
  · have hle := h.lo_le P l (r + 1)
    refine filter_range_eq _ _ _ hle _ ?_
    intro i hi
    obtain ⟨j, hj, hij⟩ := h.exists_fine hl hi
    have h1 := h.lt_lo_iff hP hPn (show r ≤ P by omega) hi hj hij
    have h2 := h.lt_lo_iff hP hPn (show r + 1 ≤ P by omega) hi hj hij
    have e1 : (List.range' (firstPt (npts ts 0) P r)
        (firstPt (npts ts 0) P (r + 1) - firstPt (npts ts 0) P r)).headD 0
        = firstPt (npts ts 0) P r := by
      rw [List.headD_eq_head?_getD, List.head?_range', if_neg (by omega)]; rfl
    have e2 : (List.range' (firstPt (npts ts 0) P r)
        (firstPt (npts ts 0) P (r + 1) - firstPt (npts ts 0) P r)).getLastD 0
        = firstPt (npts ts 0) P (r + 1) - 1 := by
      rw [List.getLastD_eq_getLast?, List.getLast?_range', if_neg (by omega)]
      simp; omega
    rw [e1, e2, hij]
    simp only [Bool.and_eq_true, decide_eq_true_eq]
    rw [tAt_le_iff (h.sorted 0) (show firstPt (npts ts 0) P r < npts ts 0 by omega) hj,
      tAt_le_iff (h.sorted 0) hj (show firstPt (npts ts 0) P (r + 1) - 1 < npts ts 0 by omega)]
    omega

/-- `searchsorted` finds the process that owns a point. -/
theorem searchSorted_eq {P l i q : Nat} (hPn : P ≤ npts ts 0) (hl : l < ts.length)
    (hq : q < P) (h1 : lo ts P l q ≤ i) (h2 : i < lo ts P l (q + 1)) :
    searchSorted (splitTimes ts P) (tAt (grid ts l) i) = q := by
  have hP : 0 < P := by omega
  have hi : i < npts ts l := Nat.lt_of_lt_of_le h2 (h.lo_le P l (q + 1))
  obtain ⟨j, hj, hij⟩ := h.exists_fine hl hi
  have e1 := (h.lt_lo_iff hP hPn (show q ≤ P by omega) hi hj hij).not.1 (by omega)
  have e2 := (h.lt_lo_iff hP hPn (show q + 1 ≤ P by omega) hi hj hij).1 (by omega)
  rw [hij]
  have key : ∀ k, k < P → (tAt (grid ts 0) (firstPt (npts ts 0) P (k + 1) - 1)
      < tAt (grid ts 0) j ↔ k < q) := by
    intro k hk
    have hf := firstPt_lt hPn hk
    have hf2 : firstPt (npts ts 0) P (k + 1) ≤ npts ts 0 := by
      have := firstPt_mono hPn (show k + 1 ≤ P by omega) (Nat.le_refl P)
      rwa [firstPt_last hP] at this
    rw [tAt_lt_iff (h.sorted 0) (show _ < npts ts 0 by omega) hj]
    constructor
    · intro hlt
      by_contra hge
      have := firstPt_mono hPn (show q + 1 ≤ k + 1 by omega) (show k + 1 ≤ P by omega)
      omega
    · intro hlt
      have := firstPt_mono hPn (show k + 1 ≤ q by omega) (show q ≤ P by omega)
      omega
  refine searchSorted_of_iff (by simp [splitTimes]; omega) fun k hk => ?_
  have hk' : k < P := by simpa [splitTimes] using hk
  rw [show tAt (splitTimes ts P) k = tAt (grid ts 0) (firstPt (npts ts 0) P (k + 1) - 1) by
    simp [splitTimes, tAt, hk']]
  exact key k hk'

/-- Every point has an owner. -/
theorem exists_owner {P l i : Nat} (hP : 0 < P) (hPn : P ≤ npts ts 0) (hl : l < ts.length)
    (hi : i < npts ts l) : ∃ q, q < P ∧ lo ts P l q ≤ i ∧ i < lo ts P l (q + 1) := by
  have key : ∀ k, k ≤ P → i < lo ts P l k →
      ∃ q, q < k ∧ lo ts P l q ≤ i ∧ i < lo ts P l (q + 1) := by
    intro k
    induction k with
    | zero => intro _ hk; rw [h.lo_zero hP hPn hl] at hk; omega
    | succ k ih =>
      intro hk hik
      by_cases hc : i < lo ts P l k
      · obtain ⟨q, hq, h1, h2⟩ := ih (by omega) hc
        exact ⟨q, by omega, h1, h2⟩
      · exact ⟨k, by omega, by omega, hik⟩
  exact key P (Nat.le_refl P) (by rw [h.lo_last]; exact hi)

end Valid

end Pymgrit
