import Verif.GridSpec
import Verif.Hier

/-!
# Properties C01-C05 and C55: distribution of the time grids and communication pattern

Each theorem is about `splitPoints` or about the record `setupLevel` computes, for every hierarchy
`ts` satisfying `Valid`, every number of processes and every iteration order `ord` of Python sets
that lists each element once.
-/

set_option linter.unusedSectionVars false

namespace Pymgrit

variable {T : Type} [LinearOrder T] [Inhabited T]

/-! ## C01 -/

/-- C01.  `n` points on `P ≤ n` processes: block sizes are positive, add up to `n`, differ by at most
one; the blocks follow each other without gap, so every point has exactly one owner. -/
theorem C01_block_distribution (n P : Nat) (hP : 0 < P) (hPn : P ≤ n) :
    (∀ r, r < P → 1 ≤ (splitPoints n P r).1) ∧
    ((List.range P).map fun r => (splitPoints n P r).1).sum = n ∧
    (∀ r q, r < P → q < P → (splitPoints n P r).1 ≤ (splitPoints n P q).1 + 1) ∧
    (splitPoints n P 0).2 = 0 ∧
    (∀ r, r + 1 < P →
      (splitPoints n P (r + 1)).2 = (splitPoints n P r).2 + (splitPoints n P r).1) ∧
    (∀ i, i < n → ∃! r, r < P ∧ (splitPoints n P r).2 ≤ i ∧
      i < (splitPoints n P r).2 + (splitPoints n P r).1) := by
  have key : ∀ r, r < P → splitPoints n P r = (firstPt n P (r + 1) - firstPt n P r, firstPt n P r) :=
    fun r hr => splitPoints_eq hPn hr
  have hlt : ∀ r, r < P → firstPt n P r < firstPt n P (r + 1) := fun r hr => firstPt_lt hPn hr
  refine ⟨?_, ?_, ?_, ?_, ?_, ?_⟩
  · intro r hr
    have := hlt r hr
    rw [key r hr]; show 1 ≤ _ - _; omega
  · have : ∀ k, k ≤ P → ((List.range k).map fun r => (splitPoints n P r).1).sum = firstPt n P k := by
      intro k
      induction k with
      | zero => intro _; simp [firstPt_zero]
      | succ k ih =>
        intro hk
        have := hlt k (by omega)
        rw [List.range_succ, List.map_append, List.sum_append, ih (by omega), List.map_singleton,
          List.sum_singleton, key k (by omega)]
        show _ + (_ - _) = _
        omega
    rw [this P (Nat.le_refl P), firstPt_last hP]
  · intro r q hr hq
    have h1 : (splitPoints n P r).1 = n / P + if r < n % P then 1 else 0 := splitInto_getD hr
    have h2 : (splitPoints n P q).1 = n / P + if q < n % P then 1 else 0 := splitInto_getD hq
    rw [h1, h2]
    split <;> split <;> omega
  · rw [key 0 hP]; exact firstPt_zero n P
  · intro r hr
    have := hlt r (by omega)
    rw [key (r + 1) hr, key r (by omega)]
    show _ = _ + (_ - _)
    omega
  · intro i hi
    have hex : ∀ k, k ≤ P → i < firstPt n P k → ∃ r, r < k ∧ firstPt n P r ≤ i ∧
        i < firstPt n P (r + 1) := by
      intro k
      induction k with
      | zero => intro _ h0; rw [firstPt_zero] at h0; omega
      | succ k ih =>
        intro hk hik
        by_cases hc : i < firstPt n P k
        · obtain ⟨r, h1, h2⟩ := ih (by omega) hc
          exact ⟨r, by omega, h2⟩
        · exact ⟨k, by omega, by omega, hik⟩
    obtain ⟨r, hr, h1, h2⟩ := hex P (Nat.le_refl P) (by rw [firstPt_last hP]; exact hi)
    refine ⟨r, ⟨hr, ?_⟩, ?_⟩
    · rw [key r hr]; exact ⟨h1, by show i < _ + (_ - _); omega⟩
    · rintro q ⟨hq, h3⟩
      rw [key q hq] at h3
      have h4 : i < firstPt n P q + (firstPt n P (q + 1) - firstPt n P q) := h3.2
      have h3 : firstPt n P q ≤ i := h3.1
      have := hlt q hq
      rcases Nat.lt_trichotomy q r with hqr | hqr | hqr
      · have := firstPt_mono hPn (show q + 1 ≤ r by omega) (by omega); omega
      · exact hqr
      · have := firstPt_mono hPn (show r + 1 ≤ q by omega) (by omega); omega

/-- Without the process-count check of the constructor (mgrit.py:195-196) the distribution still adds
up to `n`, but some process owns nothing. -/
theorem C01_too_many_processes (n P : Nat) (hPn : n < P) : ∃ r, r < P ∧ (splitPoints n P r).1 = 0 := by
  refine ⟨n, hPn, ?_⟩
  have h1 : (splitPoints n P n).1 = n / P + if n < n % P then 1 else 0 := splitInto_getD hPn
  rw [h1, Nat.div_eq_of_lt hPn, Nat.mod_eq_of_lt hPn]; simp

example : 0 < 7 ∧ 7 ≤ 65 := by decide

/-! ## C02 -/

section
variable {ts : List (List T)} {P : Nat} {ord : Nat → Nat → List Nat → List Nat}

/-- The hypothesis on the Python sets: iteration lists every element once. -/
theorem spec0 (h : Valid ts) (hPn : P ≤ npts ts 0) (hord : ∀ r l xs, (ord r l xs).Perm xs)
    {r l : Nat} (hr : r < P) (hl : l < ts.length) :
    LSpec0 ts P r l (setupLevel ts P (ord r l) r l) :=
  (setupLevel_spec0 h hPn hl hr (hord r l _)).1

theorem mem_pts (h : Valid ts) (hPn : P ≤ npts ts 0) (hord : ∀ r l xs, (ord r l xs).Perm xs)
    {r l : Nat} (hr : r < P) (hl : l < ts.length) (i : Nat) :
    i ∈ (setupLevel ts P (ord r l) r l).pts ↔ lo ts P l r ≤ i ∧ i < lo ts P l (r + 1) := by
  rw [(spec0 h hPn hord hr hl).pts, List.mem_range'_1]
  have := h.lo_mono (by omega) hPn hl (show r ≤ r + 1 by omega) (by omega)
  omega

/-- C02.  Every point of every level has exactly one owner. -/
theorem C02_unique_owner (h : Valid ts) (hP : 0 < P) (hPn : P ≤ npts ts 0)
    (hord : ∀ r l xs, (ord r l xs).Perm xs) {l i : Nat} (hl : l < ts.length) (hi : i < npts ts l) :
    ∃! r, r < P ∧ i ∈ (setupLevel ts P (ord r l) r l).pts := by
  obtain ⟨r, hr, h1, h2⟩ := h.exists_owner hP hPn hl hi
  refine ⟨r, ⟨hr, (mem_pts h hPn hord hr hl i).2 ⟨h1, h2⟩⟩, ?_⟩
  rintro q ⟨hq, hm⟩
  have h3 := (mem_pts h hPn hord hq hl i).1 hm
  rcases Nat.lt_trichotomy q r with hqr | hqr | hqr
  · have := h.lo_mono hP hPn hl (show q + 1 ≤ r by omega) (by omega); omega
  · exact hqr
  · have := h.lo_mono hP hPn hl (show r + 1 ≤ q by omega) (by omega); omega

/-- C02.  The owner of a coarse point is the process whose fine block contains its time; points are
listed in increasing order, once. -/
theorem C02_owner_of_time (h : Valid ts) (hPn : P ≤ npts ts 0)
    (hord : ∀ r l xs, (ord r l xs).Perm xs) {r l : Nat} (hr : r < P) (hl : l < ts.length) :
    (setupLevel ts P (ord r l) r l).pts.Pairwise (· < ·) ∧
    ∀ i, i ∈ (setupLevel ts P (ord r l) r l).pts ↔ i < npts ts l ∧
      ∃ j, (splitPoints (npts ts 0) P r).2 ≤ j ∧
        j < (splitPoints (npts ts 0) P r).2 + (splitPoints (npts ts 0) P r).1 ∧
        tAt (grid ts l) i = tAt (grid ts 0) j := by
  have hP : 0 < P := by omega
  have hlt := firstPt_lt hPn hr
  have hbd : firstPt (npts ts 0) P (r + 1) ≤ npts ts 0 := by
    have := firstPt_mono hPn (show r + 1 ≤ P by omega) (Nat.le_refl P)
    rwa [firstPt_last hP] at this
  constructor
  · rw [(spec0 h hPn hord hr hl).pts]; exact List.pairwise_lt_range'
  intro i
  rw [mem_pts h hPn hord hr hl, splitPoints_eq hPn hr]
  show _ ↔ _ ∧ ∃ j, firstPt _ P r ≤ j ∧ j < firstPt _ P r + (_ - firstPt _ P r) ∧ _
  constructor
  · rintro ⟨h1, h2⟩
    have hi : i < npts ts l := Nat.lt_of_lt_of_le h2 (h.lo_le P l (r + 1))
    obtain ⟨j, hj, hij⟩ := h.exists_fine hl hi
    have e1 := (h.lt_lo_iff hP hPn (show r ≤ P by omega) hi hj hij).not.1 (by omega)
    have e2 := (h.lt_lo_iff hP hPn (show r + 1 ≤ P by omega) hi hj hij).1 h2
    exact ⟨hi, j, by omega, by omega, hij⟩
  · rintro ⟨hi, j, h1, h2, hij⟩
    have hj : j < npts ts 0 := by omega
    have e1 := (h.lt_lo_iff hP hPn (show r ≤ P by omega) hi hj hij).not.2 (by omega)
    have e2 := (h.lt_lo_iff hP hPn (show r + 1 ≤ P by omega) hi hj hij).2 (by omega)
    exact ⟨by omega, e2⟩

/-! ## C03 -/

theorem adj_iff (h : Valid ts) (hPn : P ≤ npts ts 0) (hord : ∀ r l xs, (ord r l xs).Perm xs)
    {r q l : Nat} (hr : r < P) (hq : q < P) (hl : l < ts.length) :
    Adj ts P l r q ↔ q ≠ r ∧ ∃ i, i ∈ (setupLevel ts P (ord r l) r l).pts ∧
      i + 1 ∈ (setupLevel ts P (ord q l) q l).pts := by
  have hP : 0 < P := by omega
  constructor
  · rintro ⟨h1, h2, h3, h4, h5⟩
    refine ⟨by omega, lo ts P l (r + 1) - 1, (mem_pts h hPn hord hr hl _).2 (by omega),
      (mem_pts h hPn hord hq hl _).2 (by omega)⟩
  · rintro ⟨hne, i, h1, h2⟩
    rw [mem_pts h hPn hord hr hl] at h1
    rw [mem_pts h hPn hord hq hl] at h2
    have hrq : r < q := by
      by_contra hle
      have := h.lo_mono hP hPn hl (show q + 1 ≤ r by omega) (by omega)
      omega
    have := h.lo_mono hP hPn hl (show r + 1 ≤ q by omega) (by omega)
    exact ⟨hrq, hq, by omega, by omega, by omega⟩

/-- C03.  The send partner is the owner of the next later point, on every level. -/
theorem C03_sendTo (h : Valid ts) (hPn : P ≤ npts ts 0) (hord : ∀ r l xs, (ord r l xs).Perm xs)
    {r l : Nat} (hr : r < P) (hl : l < ts.length) (q : Nat) :
    (setupLevel ts P (ord r l) r l).sendTo = some q ↔ q < P ∧ q ≠ r ∧
      ∃ i, i ∈ (setupLevel ts P (ord r l) r l).pts ∧
        i + 1 ∈ (setupLevel ts P (ord q l) q l).pts := by
  rw [(spec0 h hPn hord hr hl).sendTo]
  constructor
  · intro hA
    exact ⟨hA.2.1, (adj_iff h hPn hord hr hA.2.1 hl).1 hA⟩
  · rintro ⟨hq, hA⟩
    exact (adj_iff h hPn hord hr hq hl).2 hA

/-- C03.  The receive partner is the owner of the preceding point, on every level. -/
theorem C03_getFrom (h : Valid ts) (hPn : P ≤ npts ts 0) (hord : ∀ r l xs, (ord r l xs).Perm xs)
    {r l : Nat} (hr : r < P) (hl : l < ts.length) (q : Nat) :
    (setupLevel ts P (ord r l) r l).getFrom = some q ↔ q < P ∧ q ≠ r ∧
      ∃ i, i ∈ (setupLevel ts P (ord q l) q l).pts ∧
        i + 1 ∈ (setupLevel ts P (ord r l) r l).pts := by
  rw [(spec0 h hPn hord hr hl).getFrom]
  constructor
  · intro hA
    have hq : q < P := by have := hA.1; omega
    have := (adj_iff h hPn hord hq hr hl).1 hA
    exact ⟨hq, fun e => this.1 e.symm, this.2⟩
  · rintro ⟨hq, hne, hA⟩
    exact (adj_iff h hPn hord hq hr hl).2 ⟨fun e => hne e.symm, hA⟩

/-- C03.  Partners are symmetric. -/
theorem C03_symmetric (h : Valid ts) (hPn : P ≤ npts ts 0) (hord : ∀ r l xs, (ord r l xs).Perm xs)
    {p q l : Nat} (hp : p < P) (hq : q < P) (hl : l < ts.length) :
    (setupLevel ts P (ord p l) p l).sendTo = some q ↔
      (setupLevel ts P (ord q l) q l).getFrom = some p := by
  rw [(spec0 h hPn hord hp hl).sendTo, (spec0 h hPn hord hq hl).getFrom]

/-- C03.  There is no send partner exactly if the process owns no point of the level or the last one,
and no receive partner exactly if it owns no point or the first one. -/
theorem C03_no_partner (h : Valid ts) (hPn : P ≤ npts ts 0) (hord : ∀ r l xs, (ord r l xs).Perm xs)
    {r l : Nat} (hr : r < P) (hl : l < ts.length) :
    ((setupLevel ts P (ord r l) r l).sendTo = none ↔ (setupLevel ts P (ord r l) r l).pts = [] ∨
      npts ts l - 1 ∈ (setupLevel ts P (ord r l) r l).pts) ∧
    ((setupLevel ts P (ord r l) r l).getFrom = none ↔ (setupLevel ts P (ord r l) r l).pts = [] ∨
      0 ∈ (setupLevel ts P (ord r l) r l).pts) := by
  have hP : 0 < P := by omega
  have hn := h.npos hl
  have hsp := spec0 h hPn hord hr hl
  have hmp := mem_pts h hPn hord hr hl
  have hle := h.lo_le P l (r + 1)
  have hmono := h.lo_mono hP hPn hl (show r ≤ r + 1 by omega) (by omega)
  have hnil : (setupLevel ts P (ord r l) r l).pts = [] ↔ ¬ lo ts P l r < lo ts P l (r + 1) := by
    rw [List.eq_nil_iff_forall_not_mem]
    constructor
    · intro hh hlt; exact hh (lo ts P l r) ((hmp _).2 ⟨Nat.le_refl _, hlt⟩)
    · intro hh i hi; have := (hmp i).1 hi; omega
  rw [hnil, hmp, hmp, Option.eq_none_iff_forall_ne_some, Option.eq_none_iff_forall_ne_some]
  constructor
  · constructor
    · intro hno
      by_contra hc
      have hne : lo ts P l r < lo ts P l (r + 1) := by omega
      obtain ⟨q, hq, a1, a2⟩ := h.exists_owner hP hPn hl (i := lo ts P l (r + 1)) (by omega)
      exact hno q ((hsp.sendTo q).2 (adj_of_next h hPn hl hr hq hne a1 a2))
    · intro hc q hs
      obtain ⟨a1, a2, a3, a4, a5⟩ := (hsp.sendTo q).1 hs
      have := h.lo_le P l (q + 1)
      omega
  · constructor
    · intro hno
      by_contra hc
      have hne : lo ts P l r < lo ts P l (r + 1) := by omega
      obtain ⟨q, hq, a1, a2⟩ := h.exists_owner hP hPn hl (i := lo ts P l r - 1) (by omega)
      exact hno q ((hsp.getFrom q).2 (adj_of_prev h hPn hl hr hq hne (by omega) a1 a2))
    · intro hc q hs
      obtain ⟨a1, a2, a3, a4, a5⟩ := (hsp.getFrom q).1 hs
      omega

/-! ## C04 -/

/-- C04.  Between neighbours every conditional send (`comm_back`, `last_is_c_point`,
`last_is_f_point`) has its conditional receive (`comm_front`, `first_is_f_point`,
`first_is_c_point`), and conversely. -/
theorem C04_neighbours (h : Valid ts) (hPn : P ≤ npts ts 0) (hord : ∀ r l xs, (ord r l xs).Perm xs)
    {p q l : Nat} (hp : p < P) (hq : q < P) (hl : l < ts.length)
    (hpq : (setupLevel ts P (ord p l) p l).sendTo = some q) :
    let Jp := setupLevel ts P (ord p l) p l
    let Jq := setupLevel ts P (ord q l) q l
    Jp.commBack = Jq.commFront ∧ Jp.lastC = Jq.firstF ∧ Jp.lastF = Jq.firstC := by
  have sp := spec0 h hPn hord hp hl
  have sq := spec0 h hPn hord hq hl
  obtain ⟨a1, a2, a3, a4, a5⟩ := (sp.sendTo q).1 hpq
  have hle := h.lo_le P l (q + 1)
  have h1 : lo ts P l (p + 1) < npts ts l := by omega
  have h2 : 1 ≤ lo ts P l q := by omega
  rw [a5] at a3 h1
  refine ⟨Bool.eq_iff_iff.2 ?_, Bool.eq_iff_iff.2 ?_, Bool.eq_iff_iff.2 ?_⟩
  · rw [sp.commBack, sq.commFront, a5]; tauto
  · rw [sp.lastC, sq.firstF, a5]; tauto
  · rw [sp.lastF, sq.firstC, a5]; tauto

/-- C04.  A flag that makes a process send or receive is raised only if there is a partner. -/
theorem C04_partner_exists (h : Valid ts) (hPn : P ≤ npts ts 0)
    (hord : ∀ r l xs, (ord r l xs).Perm xs) {r l : Nat} (hr : r < P) (hl : l < ts.length) :
    let J := setupLevel ts P (ord r l) r l
    (J.commBack = true ∨ J.lastC = true ∨ J.lastF = true → ∃ q, q < P ∧ J.sendTo = some q) ∧
    (J.commFront = true ∨ J.firstC = true ∨ J.firstF = true → ∃ q, q < P ∧ J.getFrom = some q) := by
  have hP : 0 < P := by omega
  have s := spec0 h hPn hord hr hl
  have hle := h.lo_le P l (r + 1)
  constructor
  · intro hf
    rw [s.commBack, s.lastC, s.lastF] at hf
    obtain ⟨q, hq, a1, a2⟩ := h.exists_owner hP hPn hl (i := lo ts P l (r + 1)) (by omega)
    exact ⟨q, hq, (s.sendTo q).2 (adj_of_next h hPn hl hr hq (by omega) a1 a2)⟩
  · intro hf
    rw [s.commFront, s.firstC, s.firstF] at hf
    obtain ⟨q, hq, a1, a2⟩ := h.exists_owner hP hPn hl (i := lo ts P l r - 1) (by omega)
    exact ⟨q, hq, (s.getFrom q).2 (adj_of_prev h hPn hl hr hq (by omega) (by omega) a1 a2)⟩

/-- C04.  For two neighbours exactly one of the four cases C-C, C-F, F-C, F-F holds at their border:
at most one of the three flags of each kind is raised, and none only if both border points are
C-points. -/
theorem C04_exclusive (h : Valid ts) (hPn : P ≤ npts ts 0)
    (hord : ∀ r l xs, (ord r l xs).Perm xs) {p q l : Nat} (hp : p < P) (hl : l < ts.length)
    (hpq : (setupLevel ts P (ord p l) p l).sendTo = some q) :
    let J := setupLevel ts P (ord p l) p l
    (J.commBack = true ∧ J.lastC = false ∧ J.lastF = false) ∨
    (J.commBack = false ∧ J.lastC = true ∧ J.lastF = false) ∨
    (J.commBack = false ∧ J.lastC = false ∧ J.lastF = true) ∨
    (J.commBack = false ∧ J.lastC = false ∧ J.lastF = false ∧
      ∀ i, i ∈ J.pts → i + 1 ∉ J.pts → i ∈ allC ts l ∧ i + 1 ∈ allC ts l) := by
  have s := spec0 h hPn hord hp hl
  obtain ⟨a1, a2, a3, a4, a5⟩ := (s.sendTo q).1 hpq
  have hle := h.lo_le P l (q + 1)
  have h1 : lo ts P l (p + 1) < npts ts l := by omega
  have hb : ∀ b : Bool, b = false ↔ ¬ b = true := by decide
  intro J
  rw [hb J.commBack, hb J.lastC, hb J.lastF, s.commBack, s.lastC, s.lastF]
  by_cases hc1 : lo ts P l (p + 1) - 1 ∈ allC ts l <;> by_cases hc2 : lo ts P l (p + 1) ∈ allC ts l
  · refine Or.inr (Or.inr (Or.inr ⟨by tauto, by tauto, by tauto, ?_⟩))
    intro i hi hi'
    rw [mem_pts h hPn hord hp hl] at hi hi'
    have e : i = lo ts P l (p + 1) - 1 := by omega
    have e' : i + 1 = lo ts P l (p + 1) := by omega
    rw [e'] ; rw [e]; exact ⟨hc1, hc2⟩
  · right; left; tauto
  · right; right; left; tauto
  · left; tauto

/-! ## C05 -/

/-- C05.  The local positions of a process are split into C- and F-positions without overlap or
omission, each listed once; the C-positions are those whose time is on the next coarser grid (all of
them on the coarsest level), in increasing order. -/
theorem C05_partition (h : Valid ts) (hPn : P ≤ npts ts 0)
    (hord : ∀ r l xs, (ord r l xs).Perm xs) {r l : Nat} (hr : r < P) (hl : l < ts.length) :
    let J := setupLevel ts P (ord r l) r l
    (J.idxC ++ J.idxF).Perm J.idx ∧ J.idx.Nodup ∧ J.idxC.Pairwise (· < ·) ∧
    (∀ j, j ∈ J.idx → (j ∈ J.idxC ↔
      (l + 1 < ts.length → tAt J.t j ∈ grid ts (l + 1)))) := by
  have hP : 0 < P := by omega
  intro J
  obtain ⟨s, sF⟩ := setupLevel_spec0 (ord := ord r l) h hPn hl hr (hord r l _)
  have hmono := h.lo_mono hP hPn hl (show r ≤ r + 1 by omega) (by omega)
  have hpts := s.pts
  have hloc := h.localPts_eq hPn hl hr
  have hg : off ts P l r + gh r = lo ts P l r := by
    unfold off gh
    by_cases hr0 : r = 0
    · simp [hr0]
    · have := h.lo_pos hPn hl (show r ≤ P by omega) (by omega)
      simp [hr0]; omega
  have hidx : J.idx = J.pts.map (· - off ts P l r) := by
    rw [s.idx, hpts, List.map_sub_range' (by omega)]
    congr 1; omega
  have hnd : J.idx.Nodup := by rw [s.idx]; exact List.nodup_range'
  have hcpts : J.cpts = J.pts.filter fun i => decide (i ∈ allC ts l) := s.cpts
  have hptsJ : J.pts = localPts ts P r l := by rw [hloc]; exact hpts
  refine ⟨?_, hnd, ?_, ?_⟩
  · rw [hidx, show J.idxC = _ from s.idxC, show J.idxF = _ from sF, ← List.map_append]
    refine List.Perm.map _ ?_
    have hp1 : (visit (ord r l (List.filter (fun i => decide (i ∉ allC ts l)) (localPts ts P r l)))).Perm
        (List.filter (fun i => decide (i ∉ allC ts l)) (localPts ts P r l)) :=
      (visit_perm _).trans (hord r l _)
    refine (List.Perm.append_left _ hp1).trans ?_
    rw [show (setupLevel ts P (ord r l) r l).cpts = _ from hcpts, hptsJ]
    have := List.filter_append_perm (fun i => decide (i ∈ allC ts l)) (localPts ts P r l)
    simpa using this
  · rw [show J.idxC = _ from s.idxC, List.pairwise_map,
      show (setupLevel ts P (ord r l) r l).cpts = _ from hcpts]
    refine (List.Pairwise.filter _ (by rw [hpts]; exact List.pairwise_lt_range')).imp_of_mem ?_
    intro a b ha hb hab
    have ha' := (mem_pts h hPn hord hr hl a).1 (List.mem_filter.1 ha).1
    have hb' := (mem_pts h hPn hord hr hl b).1 (List.mem_filter.1 hb).1
    omega
  · intro j hj
    have hj' := hj
    rw [s.idx, List.mem_range'_1] at hj'
    have hne : lo ts P l r < lo ts P l (r + 1) := by omega
    have htt := s.t_at hne (j + off ts P l r) (by omega) (by omega)
    rw [Nat.add_sub_cancel] at htt
    have hlt : j + off ts P l r < npts ts l := by
      have := h.lo_le P l (r + 1); omega
    rw [show tAt J.t j = _ from htt]
    have hmemC : j ∈ J.idxC ↔ j + off ts P l r ∈ allC ts l := by
      rw [show J.idxC = _ from s.idxC, List.mem_map,
        show (setupLevel ts P (ord r l) r l).cpts = _ from hcpts]
      constructor
      · rintro ⟨i, hi, rfl⟩
        have hi' := (mem_pts h hPn hord hr hl i).1 (List.mem_filter.1 hi).1
        rw [Nat.sub_add_cancel (by omega)]
        simpa using (List.mem_filter.1 hi).2
      · intro hc
        refine ⟨j + off ts P l r, List.mem_filter.2
          ⟨(mem_pts h hPn hord hr hl _).2 (by omega), by simpa using hc⟩, by omega⟩
    rw [hmemC]
    by_cases hl' : l + 1 < ts.length
    · rw [mem_allC_iff hl']; tauto
    · rw [mem_allC_last (by omega)]; tauto

/-- C05.  The `k`-th local C-position of a level and the `k`-th local position of the next level are
positions of the same time; there are equally many of them. -/
theorem C05_pairing (h : Valid ts) (hPn : P ≤ npts ts 0)
    (hord : ∀ r l xs, (ord r l xs).Perm xs) {r l : Nat} (hr : r < P) (hl : l + 1 < ts.length) :
    let J := setupLevel ts P (ord r l) r l
    let J' := setupLevel ts P (ord r (l + 1)) r (l + 1)
    J.idxC.length = J'.idx.length ∧
    ∀ k, k < J.idxC.length → tAt J.t (J.idxC.getD k 0) = tAt J'.t (J'.idx.getD k 0) := by
  have hP : 0 < P := by omega
  intro J J'
  have s := spec0 h hPn hord hr (show l < ts.length by omega)
  have s' := spec0 h hPn hord hr hl
  have hce := cpts_eq h hP hPn hl hr
  have hC : J.idxC = (List.range' (lo ts P (l + 1) r)
      (lo ts P (l + 1) (r + 1) - lo ts P (l + 1) r)).map
        fun k => (allC ts l).getD k 0 - off ts P l r := by
    rw [show J.idxC = _ from s.idxC, s.cpts, s.pts, hce, List.map_map]; rfl
  have hI : J'.idx = List.range' (gh r) (lo ts P (l + 1) (r + 1) - lo ts P (l + 1) r) := s'.idx
  refine ⟨by rw [hC, hI]; simp, ?_⟩
  intro k hk
  have hk' : k < lo ts P (l + 1) (r + 1) - lo ts P (l + 1) r := by rw [hC] at hk; simpa using hk
  have hkn : lo ts P (l + 1) r + k < npts ts (l + 1) := by
    have := h.lo_le P (l + 1) (r + 1); omega
  have e1 : J.idxC.getD k 0 = (allC ts l).getD (lo ts P (l + 1) r + k) 0 - off ts P l r := by
    rw [hC]
    simp [List.getD_eq_getElem?_getD, List.getElem?_range', hk']
  have e2 : J'.idx.getD k 0 = gh r + k := by
    rw [hI]; simp [List.getD_eq_getElem?_getD, List.getElem?_range', hk']
  have c1 := (cpt_lt_lo h hP hPn hl (show r ≤ P by omega) hkn).not.2 (by omega)
  have c2 := (cpt_lt_lo h hP hPn hl (show r + 1 ≤ P by omega) hkn).2 (by omega)
  have hoff : off ts P l r ≤ lo ts P l r := by unfold off; omega
  rw [e1, e2, show tAt J.t _ = _ from s.t_at (by omega) _ (by omega) c2, tAt_cpt h hl hkn]
  have hg : off ts P (l + 1) r + gh r = lo ts P (l + 1) r := by
    unfold off gh
    by_cases hr0 : r = 0
    · simp [hr0]
    · have := h.lo_pos hPn hl (show r ≤ P by omega) (by omega)
      simp [hr0]; omega
  have := s'.t_at (by omega) (lo ts P (l + 1) r + k) (by omega) (by omega)
  rw [← this]
  congr 1; omega

/-! ## C55 -/

/-- C55.  Every local position lies inside the local arrays (which have the length of the local time
grid), every F-position and every C-position except that of the initial time has a predecessor
position in the array, and the predecessor of a position is the preceding time point. -/
theorem C55_index_ranges (h : Valid ts) (hPn : P ≤ npts ts 0)
    (hord : ∀ r l xs, (ord r l xs).Perm xs) {r l : Nat} (hr : r < P) (hl : l < ts.length) :
    let J := setupLevel ts P (ord r l) r l
    (∀ j, j ∈ J.idx ∨ j ∈ J.idxC ∨ j ∈ J.idxF → j < J.t.length) ∧
    (∀ j, j ∈ J.idxF → 1 ≤ j) ∧
    (∀ j, j ∈ J.idx → (1 ≤ j ↔ ¬ (r = 0 ∧ j = 0))) ∧
    (∀ j, j ∈ J.idx → 1 ≤ j → ∃ i, i + 1 < npts ts l ∧ tAt J.t (j - 1) = tAt (grid ts l) i ∧
      tAt J.t j = tAt (grid ts l) (i + 1)) ∧
    (0 ∈ J.idx → tAt J.t 0 = tAt (grid ts 0) 0) := by
  have hP : 0 < P := by omega
  intro J
  have s := spec0 h hPn hord hr hl
  obtain ⟨hperm, hnd, hsortC, hCmem⟩ := C05_partition h hPn hord hr hl
  have hg : off ts P l r + gh r = lo ts P l r := by
    unfold off gh
    by_cases hr0 : r = 0
    · simp [hr0]
    · have := h.lo_pos hPn hl (show r ≤ P by omega) (by omega)
      simp [hr0]; omega
  have hle := h.lo_le P l (r + 1)
  have hidx : ∀ j, j ∈ J.idx ↔ gh r ≤ j ∧ j + off ts P l r < lo ts P l (r + 1) := by
    intro j
    rw [s.idx, List.mem_range'_1]; omega
  have hlen : ∀ j, j ∈ J.idx → j < J.t.length := by
    intro j hj
    rw [hidx] at hj
    rw [show J.t.length = _ from s.t_len, if_pos (by omega)]; omega
  have hsub : ∀ j, j ∈ J.idxC ∨ j ∈ J.idxF → j ∈ J.idx := by
    intro j hj
    exact hperm.mem_iff.1 (List.mem_append.2 hj)
  have hgr : gh r = 0 ↔ r = 0 := by unfold gh; split <;> simp_all
  have hgr1 : gh r ≤ 1 := by unfold gh; split <;> omega
  have ht0 : r = 0 → off ts P l r = 0 := by
    rintro rfl
    have := h.lo_zero hP hPn hl
    unfold off; omega
  refine ⟨?_, ?_, ?_, ?_, ?_⟩
  · rintro j (hj | hj | hj)
    · exact hlen j hj
    · exact hlen j (hsub j (Or.inl hj))
    · exact hlen j (hsub j (Or.inr hj))
  · intro j hj
    obtain ⟨i, h1, h2, h3, rfl⟩ := (s.idxF_mem j).1 hj
    by_contra hlt
    by_cases hr0 : r = 0
    · have := ht0 hr0
      have hi0 : i = 0 := by omega
      subst hi0
      exact h3 (List.mem_of_getElem? (allC_zero h hl))
    · have : gh r ≠ 0 := fun e => hr0 (hgr.1 e)
      omega
  · intro j hj
    rw [hidx] at hj
    constructor
    · rintro h1 ⟨-, h2⟩; omega
    · intro h1
      by_contra hlt
      have : gh r = 0 := by omega
      exact h1 ⟨hgr.1 this, by omega⟩
  · intro j hj h1
    rw [hidx] at hj
    refine ⟨j - 1 + off ts P l r, by omega, ?_, ?_⟩
    · have := s.t_at (by omega) (j - 1 + off ts P l r) (by omega) (by omega)
      rw [Nat.add_sub_cancel] at this; exact this
    · have := s.t_at (by omega) (j - 1 + off ts P l r + 1) (by omega) (by omega)
      rw [show j - 1 + off ts P l r + 1 - off ts P l r = j by omega] at this; exact this
  · intro hj
    rw [hidx] at hj
    have hr0 : r = 0 := hgr.1 (by omega)
    have := s.t_at (by omega) 0 (by rw [ht0 hr0]) (by omega)
    rw [Nat.zero_sub] at this
    rw [show tAt J.t 0 = _ from this, h.tAt_zero hl]

end

/-! ### The hypotheses are met -/

theorem testGrid_valid : Valid testGrid where
  pos := by decide
  ne0 := by decide
  sorted := by
    intro l
    match l with
    | 0 => decide
    | 1 => decide
    | 2 => decide
    | _ + 3 => exact List.Pairwise.nil
  nested := by
    intro l hl
    match l with
    | 0 => decide
    | 1 => decide
    | _ + 2 => exact absurd hl (by simp [testGrid])
  start := by
    intro l hl
    match l with
    | 0 => rfl
    | 1 => rfl
    | 2 => rfl
    | _ + 3 => exact absurd hl (by simp [testGrid])

/-- The hypotheses of C02-C05 and C55 hold for a three-level hierarchy on seven processes. -/
example : Valid testGrid ∧ 0 < 7 ∧ 7 ≤ npts testGrid 0 ∧
    (∀ (_ _ : Nat) (xs : List Nat), (xs.reverse).Perm xs) :=
  ⟨testGrid_valid, by decide, by decide, fun _ _ xs => List.reverse_perm xs⟩

end Pymgrit
