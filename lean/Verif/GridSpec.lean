import Verif.GridLemmas
import Mathlib.Data.List.SplitBy

/-! Specification of the stored grid information, and proof that `setupLevel` meets it. -/

set_option linter.unusedSectionVars false

namespace Pymgrit

variable {T : Type} [LinearOrder T] [Inhabited T]

/-- `q` is the next process after `r` that has points on level `l`. -/
def Adj (ts : List (List T)) (P l r q : Nat) : Prop :=
  r < q ∧ q < P ∧ lo ts P l r < lo ts P l (r + 1) ∧ lo ts P l q < lo ts P l (q + 1) ∧
    lo ts P l (r + 1) = lo ts P l q

/-- 1 if process `r` has a ghost point in front of its block. -/
def gh (r : Nat) : Nat := if r = 0 then 0 else 1

/-- Offset between local and global indices. -/
def off (ts : List (List T)) (P l r : Nat) : Nat := lo ts P l r - gh r

/-- Admissible iteration orders of the set of local F-points: a permutation whose regrouping by
`visit` visits every point after its predecessor. -/
def OrdOK (ts : List (List T)) (P : Nat) (ord : List Nat → List Nat) (r l : Nat) : Prop :=
  let fp := (localPts ts P r l).filter fun i => decide (i ∉ allC ts l)
  (ord fp).Perm fp ∧ Compat (visit (ord fp))

/-- Closed form of the stored information, for any iteration order of the F-points. -/
structure LSpec0 (ts : List (List T)) (P r l : Nat) (J : LvlInfo T) : Prop where
  pts : J.pts = List.range' (lo ts P l r) (lo ts P l (r + 1) - lo ts P l r)
  cpts : J.cpts = J.pts.filter fun i => decide (i ∈ allC ts l)
  idx : J.idx = List.range' (gh r) (lo ts P l (r + 1) - lo ts P l r)
  idxC : J.idxC = J.cpts.map (· - off ts P l r)
  idxF_mem : ∀ j, j ∈ J.idxF ↔ ∃ i, lo ts P l r ≤ i ∧ i < lo ts P l (r + 1) ∧ i ∉ allC ts l ∧
    j = i - off ts P l r
  t_len : J.t.length = if lo ts P l r < lo ts P l (r + 1) then
    lo ts P l (r + 1) - off ts P l r else 0
  t_at : lo ts P l r < lo ts P l (r + 1) → ∀ i, off ts P l r ≤ i → i < lo ts P l (r + 1) →
    tAt J.t (i - off ts P l r) = tAt (grid ts l) i
  commFront : J.commFront = true ↔ lo ts P l r < lo ts P l (r + 1) ∧ 1 ≤ lo ts P l r ∧
    lo ts P l r ∉ allC ts l ∧ lo ts P l r - 1 ∉ allC ts l
  commBack : J.commBack = true ↔ lo ts P l r < lo ts P l (r + 1) ∧ lo ts P l (r + 1) < npts ts l ∧
    lo ts P l (r + 1) - 1 ∉ allC ts l ∧ lo ts P l (r + 1) ∉ allC ts l
  firstC : J.firstC = true ↔ lo ts P l r < lo ts P l (r + 1) ∧ 1 ≤ lo ts P l r ∧
    lo ts P l r ∈ allC ts l ∧ lo ts P l r - 1 ∉ allC ts l
  firstF : J.firstF = true ↔ lo ts P l r < lo ts P l (r + 1) ∧ 1 ≤ lo ts P l r ∧
    lo ts P l r ∉ allC ts l ∧ lo ts P l r - 1 ∈ allC ts l
  lastC : J.lastC = true ↔ lo ts P l r < lo ts P l (r + 1) ∧ lo ts P l (r + 1) < npts ts l ∧
    lo ts P l (r + 1) - 1 ∈ allC ts l ∧ lo ts P l (r + 1) ∉ allC ts l
  lastF : J.lastF = true ↔ lo ts P l r < lo ts P l (r + 1) ∧ lo ts P l (r + 1) < npts ts l ∧
    lo ts P l (r + 1) - 1 ∉ allC ts l ∧ lo ts P l (r + 1) ∈ allC ts l
  sendTo : ∀ q, J.sendTo = some q ↔ Adj ts P l r q
  getFrom : ∀ q, J.getFrom = some q ↔ Adj ts P l q r

/-- Closed form of the stored information, for an admissible iteration order of the F-points. -/
structure LSpec (ts : List (List T)) (P r l : Nat) (J : LvlInfo T) : Prop
    extends LSpec0 ts P r l J where
  idxF_compat : Compat J.idxF

theorem allC_lt {ts : List (List T)} {l i : Nat} (hi : i ∈ allC ts l) : i < npts ts l := by
  unfold allC at hi
  split at hi
  · exact List.mem_range.1 (List.mem_filter.1 hi).1
  · exact List.mem_range.1 hi

theorem mem_allF {ts : List (List T)} {l i : Nat} :
    i ∈ allF ts l ↔ i < npts ts l ∧ i ∉ allC ts l := by
  simp [allF]

theorem visit_perm (fs : List Nat) : (visit fs).Perm fs := by
  have h := List.Perm.flatten (List.reverse_perm (fs.splitBy fun a b => a + 1 == b))
  rw [List.flatten_splitBy] at h
  exact h

theorem zipIdx_filter_range' (m o s p : Nat) (h1 : o ≤ p) (h2 : p < o + m) :
    ((((List.range' o m).map Int.ofNat).zipIdx s).filter
      fun q => decide (q.1 = (p : Int))).map (·.2) = [p - o + s] := by
  induction m generalizing o s with
  | zero => omega
  | succ m ih =>
    rw [List.range'_succ, List.map_cons, List.zipIdx_cons]
    rcases Nat.lt_or_eq_of_le h1 with hlt | rfl
    · rw [List.filter_cons_of_neg (by simp; omega), ih (o + 1) (s + 1) (by omega) (by omega)]
      congr 1; omega
    · rw [List.filter_cons_of_pos (by simp), List.map_cons]
      have : ((((List.range' (o + 1) m).map Int.ofNat).zipIdx (s + 1)).filter
          fun q => decide (q.1 = (o : Int))) = [] := by
        rw [List.filter_eq_nil_iff]
        rintro ⟨x, k⟩ hx
        have hx' := List.fst_mem_of_mem_zipIdx hx
        simp only [List.mem_map, List.mem_range'_1] at hx'
        obtain ⟨y, hy, rfl⟩ := hx'
        simp; omega
      rw [this]; simp

theorem locOf_eq (m o : Nat) (xs : List Nat) (hx : ∀ p ∈ xs, o ≤ p ∧ p < o + m) :
    locOf ((List.range' o m).map Int.ofNat) xs = xs.map (· - o) := by
  unfold locOf
  induction xs with
  | nil => rfl
  | cons p xs ih =>
    have h := hx p (by simp)
    rw [List.flatMap_cons, zipIdx_filter_range' m o 0 p h.1 h.2,
      ih fun q hq => hx q (by simp [hq])]
    simp

theorem Compat.map_sub {xs : List Nat} (h : Compat xs) (o : Nat) (ho : ∀ x ∈ xs, o ≤ x) :
    Compat (xs.map (· - o)) := by
  unfold Compat at *
  rw [List.pairwise_map]
  refine h.imp_of_mem ?_
  intro a b ha hb hab
  have h1 := ho a ha
  have h2 := ho b hb
  omega

theorem range'_headD {a m : Nat} (hm : 0 < m) : (List.range' a m).headD 0 = a := by
  rw [List.headD_eq_head?_getD, List.head?_range', if_neg (by omega)]; rfl

theorem range'_getLastD {a m : Nat} (hm : 0 < m) :
    (List.range' a m).getLastD 0 = a + m - 1 := by
  rw [List.getLastD_eq_getLast?, List.getLast?_range', if_neg (by omega)]
  simp

section
variable {ts : List (List T)} {P : Nat} {ord : List Nat → List Nat}

theorem Adj.unique_right (h : Valid ts) {l r q q' : Nat} (hPn : P ≤ npts ts 0) (hl : l < ts.length)
    (h1 : Adj ts P l r q) (h2 : Adj ts P l r q') : q = q' := by
  obtain ⟨a1, a2, a3, a4, a5⟩ := h1
  obtain ⟨b1, b2, b3, b4, b5⟩ := h2
  rcases Nat.lt_trichotomy q q' with hlt | heq | hlt
  · have := h.lo_mono (by omega) hPn hl (show q + 1 ≤ q' by omega) (by omega); omega
  · exact heq
  · have := h.lo_mono (by omega) hPn hl (show q' + 1 ≤ q by omega) (by omega); omega

theorem Adj.unique_left (h : Valid ts) {l r r' q : Nat} (hPn : P ≤ npts ts 0) (hl : l < ts.length)
    (h1 : Adj ts P l r q) (h2 : Adj ts P l r' q) : r = r' := by
  obtain ⟨a1, a2, a3, a4, a5⟩ := h1
  obtain ⟨b1, b2, b3, b4, b5⟩ := h2
  rcases Nat.lt_trichotomy r r' with hlt | heq | hlt
  · have := h.lo_mono (by omega) hPn hl (show r + 1 ≤ r' by omega) (by omega); omega
  · exact heq
  · have := h.lo_mono (by omega) hPn hl (show r' + 1 ≤ r by omega) (by omega); omega

/-- Owner of the point after the block. -/
theorem adj_of_next (h : Valid ts) {l r q : Nat} (hPn : P ≤ npts ts 0) (hl : l < ts.length)
    (hr : r < P) (hq : q < P) (hne : lo ts P l r < lo ts P l (r + 1))
    (h1 : lo ts P l q ≤ lo ts P l (r + 1)) (h2 : lo ts P l (r + 1) < lo ts P l (q + 1)) :
    Adj ts P l r q := by
  have hrq : r < q := by
    by_contra hle
    have := h.lo_mono (by omega) hPn hl (show q + 1 ≤ r + 1 by omega) (by omega)
    omega
  have := h.lo_mono (by omega) hPn hl (show r + 1 ≤ q by omega) (by omega)
  exact ⟨hrq, hq, hne, by omega, by omega⟩

/-- Owner of the point before the block. -/
theorem adj_of_prev (h : Valid ts) {l r q : Nat} (hPn : P ≤ npts ts 0) (hl : l < ts.length)
    (hr : r < P) (hq : q < P) (hne : lo ts P l r < lo ts P l (r + 1)) (hpos : 0 < lo ts P l r)
    (h1 : lo ts P l q ≤ lo ts P l r - 1) (h2 : lo ts P l r - 1 < lo ts P l (q + 1)) :
    Adj ts P l q r := by
  have hrq : q < r := by
    by_contra hle
    have := h.lo_mono (by omega) hPn hl (show r ≤ q by omega) (by omega)
    omega
  have := h.lo_mono (by omega) hPn hl (show q + 1 ≤ r by omega) (by omega)
  exact ⟨hrq, hr, by omega, hne, by omega⟩

/-- `setup_points_and_comm_info` meets its specification, and visits the F-points in the order given
by `visit`. -/
theorem setupLevel_spec0 (h : Valid ts) {r l : Nat} (hPn : P ≤ npts ts 0) (hl : l < ts.length)
    (hr : r < P)
    (hperm : (ord ((localPts ts P r l).filter fun i => decide (i ∉ allC ts l))).Perm
      ((localPts ts P r l).filter fun i => decide (i ∉ allC ts l))) :
    LSpec0 ts P r l (setupLevel ts P ord r l) ∧ (setupLevel ts P ord r l).idxF =
      (visit (ord ((localPts ts P r l).filter fun i => decide (i ∉ allC ts l)))).map
        (· - off ts P l r) := by
  have hP : 0 < P := by omega
  have hpts := h.localPts_eq hPn hl hr
  have hbn := h.lo_le P l (r + 1)
  have hab := h.lo_mono hP hPn hl (show r ≤ r + 1 by omega) (by omega)
  have hapos : 0 < r → 0 < lo ts P l r := h.lo_pos hPn hl (by omega)
  have ha0 : r = 0 → lo ts P l r = 0 := by rintro rfl; exact h.lo_zero hP hPn hl
  have hnpos := h.npos hl
  have hlast : ∀ i, i < lo ts P l (r + 1) → i < npts ts l := fun i hi => by omega
  have hsend_ex : lo ts P l (r + 1) < npts ts l → ∃ q, q < P ∧ lo ts P l q ≤ lo ts P l (r + 1) ∧
      lo ts P l (r + 1) < lo ts P l (q + 1) := fun hlt => h.exists_owner hP hPn hl hlt
  have hget_ex : ∃ q, q < P ∧ lo ts P l q ≤ lo ts P l r - 1 ∧ lo ts P l r - 1 < lo ts P l (q + 1) :=
    h.exists_owner hP hPn hl (by omega)
  have hAdjL : ∀ q, Adj ts P l q r → lo ts P l q ≤ lo ts P l r - 1 ∧ lo ts P l r - 1 < lo ts P l (q + 1) ∧ q < P := by
    rintro q ⟨a1, a2, a3, a4, a5⟩; omega
  have hAdjR : ∀ q, Adj ts P l r q → lo ts P l q ≤ lo ts P l (r + 1) ∧
      lo ts P l (r + 1) < lo ts P l (q + 1) := by
    rintro q ⟨a1, a2, a3, a4, a5⟩; omega
  have hNb : ∀ q, Adj ts P l r q → lo ts P l (r + 1) < npts ts l := by
    rintro q ⟨a1, a2, a3, a4, a5⟩
    have := h.lo_le P l (q + 1); omega
  have hadjS := fun q => adj_of_next h hPn hl hr (q := q)
  have hadjG := fun q => adj_of_prev h hPn hl hr (q := q)
  have hss : ∀ q i, q < P → lo ts P l q ≤ i → i < lo ts P l (q + 1) →
      searchSorted (splitTimes ts P) (tAt (grid ts l) i) = q :=
    fun q i hq h1 h2 => h.searchSorted_eq hPn hl hq h1 h2
  have hsorted := h.sorted l
  have hg0 : tAt (grid ts l) 0 = tAt (grid ts 0) 0 := h.tAt_zero hl
  have hAdjne : ∀ q, Adj ts P l r q → lo ts P l r < lo ts P l (r + 1) := fun q hq => hq.2.2.1
  have hAdjne' : ∀ q, Adj ts P l q r → lo ts P l r < lo ts P l (r + 1) := fun q hq => hq.2.2.2.1
  have hAdjr0 : ∀ q, Adj ts P l q r → r ≠ 0 := fun q hq => by have := hq.1; omega
  have hn0 : 0 < npts ts 0 := h.npos h.pos
  have hcN : ∀ i, i ∈ allC ts l → i < npts ts l := fun i hi => allC_lt hi
  -- abbreviate
  revert hperm
  generalize hfp : (localPts ts P r l).filter (fun i => decide (i ∉ allC ts l)) = fp
  intro hperm
  have hcp : (localPts ts P r l).filter (fun i => decide (i ∉ allF ts l))
      = (localPts ts P r l).filter (fun i => decide (i ∈ allC ts l)) := by
    apply List.filter_congr
    intro i hi
    rw [hpts, List.mem_range'_1] at hi
    have : i < npts ts l := by omega
    simp [mem_allF, this]
  have hfp' : (localPts ts P r l).filter (fun i => decide (i ∉
      (localPts ts P r l).filter (fun i => decide (i ∉ allF ts l)))) = fp := by
    rw [← hfp, hcp]
    apply List.filter_congr
    intro i hi
    simp [hi]
  have hmemfp : ∀ i, i ∈ ord fp ↔ lo ts P l r ≤ i ∧ i < lo ts P l (r + 1) ∧ i ∉ allC ts l := by
    intro i
    rw [hperm.mem_iff, ← hfp, List.mem_filter, hpts, List.mem_range'_1]
    simp only [decide_eq_true_eq]
    constructor
    · rintro ⟨h1, h2⟩; exact ⟨by omega, by omega, h2⟩
    · rintro ⟨h1, h2, h3⟩; exact ⟨by omega, h3⟩
  have hmemv : ∀ i, i ∈ visit (ord fp) ↔
      lo ts P l r ≤ i ∧ i < lo ts P l (r + 1) ∧ i ∉ allC ts l := fun i => by
    rw [(visit_perm _).mem_iff, hmemfp]
  by_cases hne : lo ts P l r < lo ts P l (r + 1)
  · -- non-empty block
    have hptsne : localPts ts P r l ≠ [] := by
      rw [hpts]
      intro h0
      have := congrArg List.length h0
      simp at this; omega
    have hwg : (if r ≠ 0 ∧ localPts ts P r l ≠ [] then
        ((((localPts ts P r l).headD 0 : Nat) : Int) - 1) :: (localPts ts P r l).map Int.ofNat
        else (localPts ts P r l).map Int.ofNat)
        = (List.range' (lo ts P l r - if r = 0 then 0 else 1)
            (lo ts P l (r + 1) - (lo ts P l r - if r = 0 then 0 else 1))).map Int.ofNat := by
      by_cases hr0 : r = 0
      · rw [if_neg (by simp [hr0]), if_pos hr0, hpts]; rfl
      · have := hapos (by omega)
        rw [if_pos ⟨hr0, hptsne⟩, if_neg hr0, hpts, range'_headD (by omega)]
        have e : lo ts P l (r + 1) - (lo ts P l r - 1)
            = (lo ts P l (r + 1) - lo ts P l r) + 1 := by omega
        rw [e, List.range'_succ, List.map_cons]
        congr 1
        · simp; omega
        · congr 2; omega
    have hgle : (if r = 0 then 0 else 1) ≤ lo ts P l r := by
      by_cases hr0 : r = 0
      · simp [hr0]
      · have := hapos (by omega); simp [hr0]; omega
    have hghpos : (if r = 0 then 0 else 1) = 1 ∨ lo ts P l r = 0 := by
      by_cases hr0 : r = 0
      · right; exact ha0 hr0
      · left; simp [hr0]
    have hgh0 : r = 0 ↔ (if r = 0 then 0 else 1) = 0 := by
      by_cases hr0 : r = 0 <;> simp [hr0]
    have hwgne : ((List.range' (lo ts P l r - if r = 0 then 0 else 1)
            (lo ts P l (r + 1) - (lo ts P l r - if r = 0 then 0 else 1))).map Int.ofNat) ≠ [] := by
      intro h0
      have := congrArg List.length h0
      simp at this; omega
    have ht : ((List.range' (lo ts P l r - if r = 0 then 0 else 1)
            (lo ts P l (r + 1) - (lo ts P l r - if r = 0 then 0 else 1))).map Int.ofNat).map
              (pyAt (grid ts l)) = (List.range' (lo ts P l r - if r = 0 then 0 else 1)
            (lo ts P l (r + 1) - (lo ts P l r - if r = 0 then 0 else 1))).map (tAt (grid ts l)) := by
      rw [List.map_map]
      apply List.map_congr_left
      intro i _
      simp [pyAt]
    have hfirst : (localPts ts P r l).headD 0 = lo ts P l r := by
      rw [hpts, range'_headD (by omega)]
    have hlastp : (localPts ts P r l).getLastD 0 = lo ts P l (r + 1) - 1 := by
      rw [hpts, range'_getLastD (by omega)]; omega
    have htF : ((List.range' (lo ts P l r - if r = 0 then 0 else 1)
            (lo ts P l (r + 1) - (lo ts P l r - if r = 0 then 0 else 1))).map
              (tAt (grid ts l))).headD default
        = tAt (grid ts l) (lo ts P l r - if r = 0 then 0 else 1) := by
      rw [List.headD_eq_head?_getD, List.head?_map, List.head?_range', if_neg (by omega)]; rfl
    have htL : ((List.range' (lo ts P l r - if r = 0 then 0 else 1)
            (lo ts P l (r + 1) - (lo ts P l r - if r = 0 then 0 else 1))).map
              (tAt (grid ts l))).getLastD default = tAt (grid ts l) (lo ts P l (r + 1) - 1) := by
      rw [List.getLastD_eq_getLast?, List.getLast?_map, List.getLast?_range', if_neg (by omega)]
      simp only [Option.map_some, Option.getD_some]
      congr 1; omega
    have hgL : (grid ts l).getLastD default = tAt (grid ts l) (npts ts l - 1) := by
      rw [List.getLastD_eq_getLast?, List.getLast?_eq_getElem?]
      rfl
    have hg0L : (grid ts 0).headD default = tAt (grid ts 0) 0 := by
      rw [List.headD_eq_head?_getD, List.head?_eq_getElem?]; simp [tAt]
    have hcptsmem : ∀ i, i ∈ (localPts ts P r l).filter (fun i => decide (i ∈ allC ts l)) ↔
        lo ts P l r ≤ i ∧ i < lo ts P l (r + 1) ∧ i ∈ allC ts l := by
      intro i
      rw [List.mem_filter, hpts, List.mem_range'_1]
      simp only [decide_eq_true_eq]
      constructor
      · rintro ⟨h1, h2⟩; exact ⟨by omega, by omega, h2⟩
      · rintro ⟨h1, h2, h3⟩; exact ⟨by omega, h3⟩
    unfold setupLevel
    simp only []
    rw [hfp', hcp, hwg]
    refine ⟨?_, by
      simp only [mkLevel, off, gh]
      rw [locOf_eq]
      intro p hp; rw [hmemv] at hp; omega⟩
    constructor
    all_goals simp only [off, gh, mkLevel, ht, hfirst, hlastp, htF, htL, hgL, hg0L]
    · exact hpts
    · rw [locOf_eq, hpts]
      · rw [List.map_sub_range' (by omega)]
        congr 1; omega
      · intro p hp; rw [hpts, List.mem_range'_1] at hp; omega
    · rw [locOf_eq]
      intro p hp; rw [hcptsmem] at hp; omega
    · intro j
      rw [locOf_eq]
      · rw [List.mem_map]
        constructor
        · rintro ⟨i, hi, rfl⟩
          rw [hmemv] at hi
          exact ⟨i, hi.1, hi.2.1, hi.2.2, rfl⟩
        · rintro ⟨i, h1, h2, h3, rfl⟩
          exact ⟨i, (hmemv i).2 ⟨h1, h2, h3⟩, rfl⟩
      · intro p hp; rw [hmemv] at hp; omega
    · simp [hne]
    · intro _ i h1 h2
      have h3 : i - (lo ts P l r - if r = 0 then 0 else 1) <
          lo ts P l (r + 1) - (lo ts P l r - if r = 0 then 0 else 1) := by omega
      unfold tAt
      simp only [List.getD_eq_getElem?_getD, List.getElem?_map]
      rw [List.getElem?_range' h3]
      simp only [Option.map_some, Option.getD_some]
      congr 2; omega
    · -- commFront
      rcases hm : (ord fp).min? with _ | m
      · rw [List.min?_eq_none_iff] at hm
        simp only [Bool.false_eq_true, false_iff]
        rintro ⟨-, h1, h2, h3⟩
        have := (hmemfp (lo ts P l r)).2 ⟨by omega, hne, h2⟩
        rw [hm] at this; simp at this
      · rw [List.min?_eq_some_iff] at hm
        simp only [predIn, Bool.and_eq_true, decide_eq_true_eq]
        have hmm := (hmemfp m).1 hm.1
        constructor
        · rintro ⟨h1, h2⟩
          rw [mem_allF] at h2
          by_cases hmlo : m = lo ts P l r
          · subst hmlo; exact ⟨hne, h1, hmm.2.2, h2.2⟩
          · have := hm.2 (m - 1) ((hmemfp (m - 1)).2 ⟨by omega, by omega, h2.2⟩)
            omega
        · rintro ⟨-, h1, h2, h3⟩
          have h4 := hm.2 (lo ts P l r) ((hmemfp _).2 ⟨by omega, hne, h2⟩)
          have h5 : m = lo ts P l r := by omega
          subst h5
          exact ⟨h1, mem_allF.2 ⟨by omega, h3⟩⟩
    · -- commBack
      rcases hm : (ord fp).max? with _ | m
      · rw [List.max?_eq_none_iff] at hm
        simp only [Bool.false_eq_true, false_iff]
        rintro ⟨-, h1, h2, h3⟩
        have := (hmemfp (lo ts P l (r + 1) - 1)).2 ⟨by omega, by omega, h2⟩
        rw [hm] at this; simp at this
      · rw [List.max?_eq_some_iff] at hm
        simp only [decide_eq_true_eq]
        have hmm := (hmemfp m).1 hm.1
        constructor
        · intro h2
          rw [mem_allF] at h2
          by_cases hmlo : m + 1 = lo ts P l (r + 1)
          · rw [← hmlo]; exact ⟨by omega, h2.1, hmm.2.2, h2.2⟩
          · have := hm.2 (m + 1) ((hmemfp (m + 1)).2 ⟨by omega, by omega, h2.2⟩)
            omega
        · rintro ⟨-, h1, h2, h3⟩
          have h4 := hm.2 (lo ts P l (r + 1) - 1) ((hmemfp _).2 ⟨by omega, by omega, h2⟩)
          have h5 : m + 1 = lo ts P l (r + 1) := by omega
          rw [h5]
          exact mem_allF.2 ⟨h1, h3⟩
    · -- firstC
      simp only [predIn, Bool.and_eq_true, decide_eq_true_eq, hcptsmem, mem_allF]
      constructor
      · rintro ⟨⟨⟨h1, h2⟩, h3⟩, h4, h5⟩; exact ⟨hne, h4, h2.2.2, h5.2⟩
      · rintro ⟨h1, h2, h3, h4⟩
        exact ⟨⟨⟨hptsne, by omega, hne, h3⟩, by omega⟩, h2, by omega, h4⟩
    · -- firstF
      simp only [predIn, Bool.and_eq_true, decide_eq_true_eq, hmemv]
      constructor
      · rintro ⟨⟨h1, h2⟩, h4, h5⟩; exact ⟨hne, h4, h2.2.2, h5⟩
      · rintro ⟨h1, h2, h3, h4⟩
        exact ⟨⟨hptsne, by omega, hne, h3⟩, h2, h4⟩
    · -- lastC
      simp only [Bool.and_eq_true, decide_eq_true_eq, hcptsmem, mem_allF]
      have e : lo ts P l (r + 1) - 1 + 1 = lo ts P l (r + 1) := by omega
      rw [e]
      constructor
      · rintro ⟨⟨⟨h1, h2⟩, h3⟩, h4, h5⟩; exact ⟨hne, h4, h2.2.2, h5⟩
      · rintro ⟨h1, h2, h3, h4⟩
        exact ⟨⟨⟨hptsne, by omega, by omega, h3⟩, by omega⟩, h2, h4⟩
    · -- lastF
      simp only [Bool.and_eq_true, decide_eq_true_eq, hmemv]
      have e : lo ts P l (r + 1) - 1 + 1 = lo ts P l (r + 1) := by omega
      rw [e]
      constructor
      · rintro ⟨⟨⟨h1, h2⟩, h3⟩, h4⟩; exact ⟨hne, allC_lt h4, h2.2.2, h4⟩
      · rintro ⟨h1, h2, h3, h4⟩
        exact ⟨⟨⟨hptsne, by omega, by omega, h3⟩, by omega⟩, h4⟩
    · -- sendTo
      intro q
      have hlt1 : lo ts P l (r + 1) - 1 < (grid ts l).length := by
        have := hbn; unfold npts at this; omega
      have hlt2 : npts ts l - 1 < (grid ts l).length := by unfold npts at *; omega
      have e : lo ts P l (r + 1) - 1 + 1 = lo ts P l (r + 1) := by omega
      rw [idxOf_tAt hsorted hlt1, e]
      by_cases hlt : lo ts P l (r + 1) < npts ts l
      · rw [if_pos ⟨hwgne, by rw [Ne, tAt_inj hsorted hlt1 hlt2]; omega⟩, Option.some_inj]
        obtain ⟨q', hq', h1, h2⟩ := hsend_ex hlt
        rw [hss q' _ hq' h1 h2]
        have hA := hadjS q' hq' hne h1 h2
        constructor
        · rintro rfl; exact hA
        · intro hA'; exact Adj.unique_right h hPn hl hA hA'
      · rw [if_neg (by
          rintro ⟨-, hc⟩
          exact hc (by rw [tAt_inj hsorted hlt1 hlt2]; omega))]
        simp only [reduceCtorEq, false_iff]
        intro hA; exact hlt (hNb q hA)
    · -- getFrom
      intro q
      by_cases hr0 : r = 0
      · rw [if_neg (by
          rintro ⟨-, hc⟩
          rcases hc with hc | hc
          · exact hc.1 hr0
          · apply hc
            rw [if_pos hr0, Nat.sub_zero, ha0 hr0, hg0])]
        simp only [reduceCtorEq, false_iff]
        intro hA; exact hAdjr0 q hA hr0
      · rw [if_pos ⟨hwgne, Or.inl ⟨hr0, hptsne⟩⟩, if_neg hr0, Option.some_inj]
        obtain ⟨q', hq', h1, h2⟩ := hget_ex
        rw [hss q' _ hq' h1 h2]
        have hA := hadjG q' hq' hne (hapos (by omega)) h1 h2
        constructor
        · rintro rfl; exact hA
        · intro hA'; exact Adj.unique_left h hPn hl hA hA'
  · -- empty block
    have hz : lo ts P l (r + 1) - lo ts P l r = 0 := by omega
    have hptse : localPts ts P r l = [] := by rw [hpts, hz]; rfl
    have hofp : ord fp = [] := by
      rw [List.eq_nil_iff_forall_not_mem]
      intro i hi; rw [hmemfp] at hi; omega
    have hv : visit (ord fp) = [] := by rw [hofp]; rfl
    have hwg : (if r ≠ 0 ∧ localPts ts P r l ≠ [] then
        ((((localPts ts P r l).headD 0 : Nat) : Int) - 1) :: (localPts ts P r l).map Int.ofNat
        else (localPts ts P r l).map Int.ofNat) = [] := by
      rw [hptse]; simp
    unfold setupLevel
    simp only []
    rw [hfp', hcp, hwg, hofp, hptse]
    have hv' : visit [] = [] := rfl
    refine ⟨?_, by simp [mkLevel, hv', locOf]⟩
    constructor
    all_goals simp only [off, gh, mkLevel, hv']
    · rw [hz]; rfl
    · simp [locOf, hz]
    · simp [locOf]
    · intro j
      simp only [locOf, List.flatMap_nil, List.not_mem_nil, false_iff]
      rintro ⟨i, h1, h2, -⟩; omega
    · simp [hne]
    · intro h0; exact absurd h0 hne
    · simp [hne]
    · simp [hne]
    · simp [hne]
    · simp [hne]
    · simp [hne]
    · simp [hne]
    · intro q
      simp only [ne_eq, not_true_eq_false, false_and, if_false, reduceCtorEq, false_iff]
      intro hA; exact hne (hAdjne q hA)
    · intro q
      simp only [ne_eq, not_true_eq_false, false_and, if_false, reduceCtorEq, false_iff]
      intro hA; exact hne (hAdjne' q hA)

/-- `setup_points_and_comm_info` meets its specification. -/
theorem setupLevel_spec (h : Valid ts) {r l : Nat} (hPn : P ≤ npts ts 0) (hl : l < ts.length)
    (hr : r < P) (hord : OrdOK ts P ord r l) : LSpec ts P r l (setupLevel ts P ord r l) := by
  obtain ⟨hperm, hcompat⟩ := hord
  obtain ⟨h1, h2⟩ := setupLevel_spec0 h hPn hl hr hperm
  refine { toLSpec0 := h1, idxF_compat := ?_ }
  rw [h2]
  refine hcompat.map_sub _ ?_
  intro p hp
  rw [(visit_perm _).mem_iff, hperm.mem_iff, List.mem_filter, h.localPts_eq hPn hl hr,
    List.mem_range'_1] at hp
  unfold off; omega

end

end Pymgrit
