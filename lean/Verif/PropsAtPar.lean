import Verif.PropsAt
import Verif.PropsGrid

/-!
# Property C37: AT-MGRIT on several processes
-/

set_option linter.unusedSectionVars false

namespace Pymgrit
namespace At

/-- What is needed of the distribution of the coarsest points. -/
structure Distr (P : Nat) (own : List Nat) (cp : Nat → List Nat) : Prop where
  mono : ∀ i j, i ≤ j → j < own.length → own.getD i 0 ≤ own.getD j 0
  lt : ∀ i, i < own.length → own.getD i 0 < P
  pos : 0 < own.length
  zero : own.getD 0 0 = 0
  cp : ∀ r, r < P → cp r = (List.range own.length).filter fun i => decide (own.getD i 0 = r)

section
variable {T : Type} [LinearOrder T] [Inhabited T] {ts : List (List T)} {P : Nat}

theorem distr_of_valid (h : Valid ts) (hP : 0 < P) (hPn : P ≤ npts ts 0) :
    Distr P (ownList ts P) (cpList ts P) := by
  have hl : ts.length - 1 < ts.length := by have := h.pos; omega
  have hlen : (ownList ts P).length = npts ts (ts.length - 1) := by simp [ownList, npts]
  have hget : ∀ i q, q < P → lo ts P (ts.length - 1) q ≤ i → i < lo ts P (ts.length - 1) (q + 1) →
      (ownList ts P).getD i 0 = q := by
    intro i q hq h1 h2
    have hi : i < npts ts (ts.length - 1) := Nat.lt_of_lt_of_le h2 (h.lo_le P _ (q + 1))
    have hi' : i < (grid ts (ts.length - 1)).length := hi
    have := h.searchSorted_eq hPn hl hq h1 h2
    rw [tAt_eq hi'] at this
    simp only [ownList, List.getD_eq_getElem?_getD, List.getElem?_map,
      List.getElem?_eq_getElem hi', Option.map_some, Option.getD_some]
    exact this
  have hown : ∀ i, i < npts ts (ts.length - 1) → ∃ q, q < P ∧ lo ts P (ts.length - 1) q ≤ i ∧
      i < lo ts P (ts.length - 1) (q + 1) ∧ (ownList ts P).getD i 0 = q := by
    intro i hi
    obtain ⟨q, h1, h2, h3⟩ := h.exists_owner hP hPn hl hi
    exact ⟨q, h1, h2, h3, hget i q h1 h2 h3⟩
  refine ⟨?_, ?_, by rw [hlen]; exact h.npos hl, ?_, ?_⟩
  · intro i j hij hj
    rw [hlen] at hj
    obtain ⟨q, q1, q2, q3, q4⟩ := hown i (by omega)
    obtain ⟨q', r1, r2, r3, r4⟩ := hown j hj
    rw [q4, r4]
    by_contra hc
    have := h.lo_mono hP hPn hl (show q' + 1 ≤ q by omega) (by omega)
    omega
  · intro i hi
    rw [hlen] at hi
    obtain ⟨q, q1, q2, q3, q4⟩ := hown i hi
    omega
  · refine hget 0 0 hP (by rw [h.lo_zero hP hPn hl]) ?_
    exact h.lo_pos hPn hl (by omega) (by omega)
  · intro r hr
    unfold cpList
    rw [h.localPts_eq hPn hl hr, hlen]
    symm
    refine filter_range_eq _ _ _ (h.lo_le P _ (r + 1)) _ ?_
    intro i hi
    obtain ⟨q, q1, q2, q3, q4⟩ := hown i hi
    rw [q4, decide_eq_true_eq]
    constructor
    · rintro rfl; omega
    · rintro ⟨a, b⟩
      rw [← hget i r hr a b, q4]

end

theorem count_eq (own : List Nat) (r : Nat) :
    own.count r = ((List.range own.length).filter fun i => decide (own.getD i 0 = r)).length := by
  induction own with
  | nil => rfl
  | cons a l ih =>
    have e : (fun i => decide ((a :: l).getD i 0 = r)) ∘ Nat.succ = fun i => decide (l.getD i 0 = r) := by
      funext i; simp
    rw [List.length_cons, List.range_succ_eq_map, List.filter_cons, List.filter_map, e,
      List.count_cons, ih]
    by_cases h : a = r
    · subst h; simp
    · simp [h]

section
variable {P : Nat} {own : List Nat} {cp : Nat → List Nat}

/-- 1 if the first process has two coarsest points. -/
def extra (own : List Nat) : Nat := if own.count 0 = 2 then 1 else 0

theorem Distr.head (h : Distr P own cp) : own.headD 0 = 0 := by
  have := h.zero
  cases own <;> simpa using this

theorem Distr.count_cp (h : Distr P own cp) {r : Nat} (hr : r < P) : own.count r = (cp r).length := by
  rw [count_eq, h.cp r hr]

theorem Distr.lengths (h : Distr P own cp) (hc : check own = .ok ()) :
    (∀ r, r ≠ 0 → own.count r ≤ 1) ∧ 1 ≤ own.count 0 ∧ own.count 0 ≤ 2 := by
  unfold check at hc
  rw [h.head] at hc
  split at hc
  · cases hc
  rename_i h1
  split at hc
  · cases hc
  rename_i h2
  refine ⟨fun r hr => ?_, ?_, by omega⟩
  · by_contra hlt
    refine h1 ?_
    rw [List.any_eq_true]
    refine ⟨r, List.count_pos_iff.1 (by omega), ?_⟩
    simp [hr]; omega
  · have : 0 ∈ own := by
      have h0 := h.zero
      have hp := h.pos
      rw [List.getD_eq_getElem?_getD, List.getElem?_eq_getElem hp] at h0
      simp only [Option.getD_some] at h0
      rw [← h0]; exact List.getElem_mem hp
    exact List.count_pos_iff.2 this

/-- A strictly ascending list of indices with the same owner is no longer than its count. -/
theorem le_count {own : List Nat} {r : Nat} (xs : List Nat) (hx : xs.Nodup)
    (hm : ∀ i, i ∈ xs → i < own.length ∧ own.getD i 0 = r) : xs.length ≤ own.count r := by
  rw [count_eq]
  exact (List.subperm_of_subset hx fun i hi => by
    rw [List.mem_filter, List.mem_range, decide_eq_true_eq]; exact hm i hi).length_le

theorem Distr.strict (h : Distr P own cp) (hc : check own = .ok ()) {i j : Nat}
    (hi : extra own ≤ i) (hij : i < j) (hj : j < own.length) : own.getD i 0 < own.getD j 0 := by
  obtain ⟨h1, h2, h3⟩ := h.lengths hc
  refine Nat.lt_of_le_of_ne (h.mono i j (by omega) hj) fun he => ?_
  have hle := le_count (own := own) (r := own.getD i 0) [i, j] (by simp; omega)
    (by simp only [List.mem_cons, List.not_mem_nil, or_false]; rintro a (rfl | rfl)
        · exact ⟨by omega, rfl⟩
        · exact ⟨hj, he.symm⟩)
  simp only [List.length_cons, List.length_nil] at hle
  have h0 : own.getD i 0 = 0 := by
    by_contra hne
    have := h1 _ hne; omega
  rw [h0] at he hle
  have hi1 : 1 ≤ i := by
    have : extra own = 1 := by unfold extra; rw [if_pos (by omega)]
    omega
  have := le_count (own := own) (r := 0) [0, i, j] (by simp; omega)
    (by simp only [List.mem_cons, List.not_mem_nil, or_false]; rintro a (rfl | rfl | rfl)
        · exact ⟨by omega, h.zero⟩
        · exact ⟨by omega, h0⟩
        · exact ⟨hj, he.symm⟩)
  simp at this; omega

theorem Distr.members_eq (h : Distr P own cp) : members own = own.drop (extra own) := by
  unfold members extra
  rw [h.head]
  split <;> simp

theorem Distr.extra_lt (h : Distr P own cp) : extra own < own.length := by
  have hp := h.pos
  unfold extra
  split
  · rename_i hc
    have := List.count_le_length (a := 0) (l := own)
    omega
  · exact hp

theorem Distr.extra_zero (h : Distr P own cp) (he : extra own = 1) : own.getD 1 0 = 0 := by
  unfold extra at he
  split at he
  · rename_i hc
    by_contra hne
    have h1 : ∀ i, i < own.length → own.getD i 0 = 0 → i = 0 := by
      intro i hi h0
      by_contra hi0
      have := h.mono 1 i (by omega) hi
      omega
    rw [count_eq] at hc
    have hsub : ((List.range own.length).filter fun i => decide (own.getD i 0 = 0)) ⊆ [0] := by
      intro i hi
      rw [List.mem_filter, List.mem_range, decide_eq_true_eq] at hi
      rw [List.mem_singleton]
      exact h1 i hi.1 hi.2
    have := (List.subperm_of_subset (List.nodup_range.filter _) hsub).length_le
    simp only [List.length_cons, List.length_nil] at this
    omega
  · omega

theorem Distr.mem_members (h : Distr P own cp) (r : Nat) :
    r ∈ members own ↔ ∃ p, extra own ≤ p ∧ p < own.length ∧ own.getD p 0 = r := by
  rw [h.members_eq, List.mem_iff_getElem?]
  constructor
  · rintro ⟨j, hj⟩
    rw [List.getElem?_drop] at hj
    refine ⟨extra own + j, by omega, ?_, ?_⟩
    · exact (List.getElem?_eq_some_iff.1 hj).1
    · rw [List.getD_eq_getElem?_getD, hj]; rfl
  · rintro ⟨p, h1, h2, h3⟩
    refine ⟨p - extra own, ?_⟩
    rw [List.getElem?_drop, Nat.add_sub_cancel' h1, List.getElem?_eq_getElem h2]
    rw [List.getD_eq_getElem?_getD, List.getElem?_eq_getElem h2] at h3
    rw [← h3]; rfl

theorem Distr.idx_eq (h : Distr P own cp) (hc : check own = .ok ()) {p : Nat} (h1 : extra own ≤ p)
    (h2 : p < own.length) : idx own (own.getD p 0) = p - extra own := by
  unfold idx
  rw [h.members_eq]
  have hnd : (own.drop (extra own)).Nodup := by
    rw [List.nodup_iff_getElem?_ne_getElem?]
    intro i j hij hj
    rw [List.length_drop] at hj
    rw [List.getElem?_drop, List.getElem?_drop]
    have := h.strict hc (show extra own ≤ extra own + i by omega)
      (show extra own + i < extra own + j by omega) (by omega)
    rw [List.getD_eq_getElem?_getD, List.getD_eq_getElem?_getD] at this
    intro he
    rw [he] at this; omega
  have hlt : p - extra own < (own.drop (extra own)).length := by rw [List.length_drop]; omega
  have he : own.getD p 0 = (own.drop (extra own))[p - extra own] := by
    rw [List.getElem_drop, List.getD_eq_getElem?_getD, List.getElem?_eq_getElem h2, Option.getD_some]
    congr 1; omega
  rw [he]
  exact hnd.idxOf_getElem _ hlt

/-- Coarsest points of the process of point `p`. -/
theorem Distr.cp_eq (h : Distr P own cp) (hc : check own = .ok ()) {p : Nat} (h1 : extra own ≤ p)
    (h2 : p < own.length) :
    cp (own.getD p 0) = if own.getD p 0 = 0 ∧ extra own = 1 then [0, 1] else [p] := by
  rw [h.cp _ (h.lt p h2)]
  split
  · rename_i hz
    obtain ⟨hz, he⟩ := hz
    have hlt := h.extra_lt
    rw [hz, filter_range_eq own.length 0 2 (by omega)]
    · rfl
    intro i hi
    rw [decide_eq_true_eq]
    constructor
    · intro h0
      by_contra hi2
      have := h.strict hc (show extra own ≤ 1 by omega) (show 1 < i by omega) hi
      omega
    · rintro ⟨-, hi2⟩
      rcases (show i = 0 ∨ i = 1 by omega) with rfl | rfl
      · exact h.zero
      · exact h.extra_zero he
  · rename_i hz
    rw [filter_range_eq own.length p (p + 1) (by omega)]
    · simp
    intro i hi
    rw [decide_eq_true_eq]
    constructor
    · intro h0
      rcases Nat.lt_trichotomy i p with hlt | rfl | hgt
      · by_cases hie : extra own ≤ i
        · have := h.strict hc hie hlt h2; omega
        · have hi0 : i = 0 := by
            have : extra own ≤ 1 := by unfold extra; split <;> omega
            omega
          subst hi0
          refine absurd ⟨?_, ?_⟩ hz
          · rw [← h0]; exact h.zero
          · have : extra own ≤ 1 := by unfold extra; split <;> omega
            omega
      · omega
      · have := h.strict hc h1 hgt hi; omega
    · rintro ⟨a, b⟩
      have : i = p := by omega
      rw [this]

theorem Distr.lastC_eq (h : Distr P own cp) (hc : check own = .ok ()) {p : Nat} (h1 : extra own ≤ p)
    (h2 : p < own.length) : lastC cp (own.getD p 0) = p := by
  unfold lastC
  rw [h.cp_eq hc h1 h2]
  split
  · rename_i hz
    obtain ⟨hz, he⟩ := hz
    by_contra hne
    have hp : p ≠ 1 := by intro h; subst h; exact hne rfl
    have := h.strict hc (show extra own ≤ 1 by omega) (show 1 < p by omega) h2
    omega
  · rfl

theorem mem_group {color : Nat → Nat} {r q : Nat} :
    q ∈ group P own color r ↔ q < P ∧ q ∈ members own ∧ color q = color r := by
  unfold group
  rw [List.mem_filter, List.mem_range, decide_eq_true_eq]

/-- The first process of a communicator is the one with the smallest rank. -/
theorem group_head {color : Nat → Nat} {r : Nat} (hr : r < P) (hm : r ∈ members own) :
    (group P own color r).headD 0 ∈ group P own color r ∧
    ∀ q, q ∈ group P own color r → (group P own color r).headD 0 ≤ q := by
  have hs : (group P own color r).Pairwise (· < ·) := List.pairwise_lt_range.filter _
  have hin : r ∈ group P own color r := mem_group.2 ⟨hr, hm, rfl⟩
  rcases hg : group P own color r with _ | ⟨a, l⟩
  · rw [hg] at hin; exact absurd hin (List.not_mem_nil)
  · rw [hg] at hs
    refine ⟨List.mem_cons_self, ?_⟩
    intro q hq
    rw [List.headD_cons]
    rcases List.mem_cons.1 hq with rfl | hq
    · exact Nat.le_refl _
    · exact Nat.le_of_lt (List.rel_of_pairwise_cons hs hq)

theorem green_eq {k r : Nat} (hk : 1 ≤ k) : green k own r = (idx own r + 1) / k := by
  unfold green black
  have hd := Nat.div_add_mod (idx own r) k
  have hm := Nat.mod_lt (idx own r) hk
  split
  · rename_i he
    symm
    rw [Nat.div_eq_iff (by omega)]
    rw [he] at hd
    rw [Nat.add_mul, Nat.mul_comm, Nat.one_mul]
    omega
  · symm
    rw [Nat.div_eq_iff (by omega), Nat.mul_comm]
    omega

/-- C37.  The data a process gathers contains the contribution of the owner of every point of its
window of `k` points (apart from an initial point that its owner does not contribute because it has a
second one). -/
theorem Distr.covered (h : Distr P own cp) (hc : check own = .ok ()) {k p i : Nat} (hk : 1 ≤ k)
    (h1 : extra own ≤ p) (h2 : p < own.length) (hi : p + 1 - k ≤ i) (hip : i ≤ p)
    (hie : extra own ≤ i) : own.getD i 0 ∈ sources k P own (own.getD p 0) := by
  have hin : i < own.length := by omega
  have hmi : own.getD i 0 ∈ members own := (h.mem_members _).2 ⟨i, hie, hin, rfl⟩
  have hmp : own.getD p 0 ∈ members own := (h.mem_members _).2 ⟨p, h1, h2, rfl⟩
  unfold sources
  rw [List.mem_append]
  by_cases hb : black k own (own.getD i 0) = black k own (own.getD p 0)
  · exact Or.inl (mem_group.2 ⟨h.lt i hin, hmi, hb⟩)
  right
  obtain ⟨g1, g2⟩ := group_head (color := green k own) (h.lt p h2) hmp
  obtain ⟨a1, a2, a3⟩ := mem_group.1 g1
  obtain ⟨q, q1, q2, q3⟩ := (h.mem_members _).1 a2
  refine mem_group.2 ⟨h.lt i hin, hmi, ?_⟩
  rw [← q3]
  rw [← q3, green_eq hk, green_eq hk, h.idx_eq hc q1 q2, h.idx_eq hc h1 h2] at a3
  unfold black at hb ⊢
  rw [h.idx_eq hc hie hin, h.idx_eq hc h1 h2] at hb
  rw [h.idx_eq hc hie hin, h.idx_eq hc q1 q2]
  -- indices without the extra point
  generalize hj : p - extra own = j at *
  generalize hx : i - extra own = x at *
  generalize hy : q - extra own = y at *
  have hxj : x ≤ j := by omega
  have hjx : j + 1 - k ≤ x := by omega
  obtain ⟨c, hcd⟩ : ∃ c, c = (j + 1) / k := ⟨_, rfl⟩
  rw [← hcd] at a3
  have dj := Nat.div_add_mod j k
  have mj := Nat.mod_lt j hk
  have dx := Nat.div_add_mod x k
  have mx := Nat.mod_lt x hk
  have dc : c * k ≤ j + 1 ∧ j + 1 < (c + 1) * k :=
    ⟨(Nat.le_div_iff_mul_le (by omega)).1 (by omega), (Nat.div_lt_iff_lt_mul (by omega)).1 (by omega)⟩
  have dy : c * k ≤ y + 1 := (Nat.le_div_iff_mul_le (by omega)).1 (by omega)
  have hlt : x / k < j / k := Nat.lt_of_le_of_ne (Nat.div_le_div_right hxj) hb
  have hck : 1 ≤ c := by
    have : j / k ≤ c := by rw [hcd]; exact Nat.div_le_div_right (by omega)
    exact Nat.le_trans (Nat.lt_of_le_of_lt (Nat.zero_le _) hlt) this
  -- the root is the process with index `c * k - 1`
  have hroot : y + 1 = c * k := by
    have hck' : 1 * k ≤ c * k := Nat.mul_le_mul_right k hck
    have hz1 : c * k - 1 + extra own < own.length := by omega
    have hz : own.getD (c * k - 1 + extra own) 0 ∈ group P own (green k own) (own.getD p 0) := by
      refine mem_group.2 ⟨h.lt _ hz1, (h.mem_members _).2 ⟨_, by omega, hz1, rfl⟩, ?_⟩
      rw [green_eq hk, green_eq hk, h.idx_eq hc (by omega) hz1, h.idx_eq hc h1 h2, hj, ← hcd,
        Nat.add_sub_cancel, Nat.sub_add_cancel (by omega), Nat.mul_div_cancel _ (by omega)]
    have hle := g2 _ hz
    rw [← q3] at hle
    have hck1 : 1 ≤ c * k := by omega
    have hql : q ≤ c * k - 1 + extra own := by
      by_contra hgt
      have := h.strict hc (show extra own ≤ c * k - 1 + extra own by omega)
        (show c * k - 1 + extra own < q by omega) q2
      omega
    omega
  -- both belong to block `c - 1`
  obtain ⟨d, rfl⟩ : ∃ d, c = d + 1 := ⟨c - 1, by omega⟩
  rw [Nat.add_mul (d + 1), Nat.add_mul, Nat.one_mul] at dc
  rw [Nat.add_mul, Nat.one_mul] at hroot
  have e2 : y / k = d := (Nat.div_eq_iff (by omega)).2 (by constructor <;> omega)
  have hjd : j / k ≤ d + 1 := by rw [hcd]; exact Nat.div_le_div_right (by omega)
  have hlow : d ≤ x / k := by
    rcases Nat.lt_or_ge (j / k) (d + 1) with hlt' | hge
    · -- then `j` is the last of its block, and the window lies inside the block
      exfalso
      have : j / k = d := by
        have : d ≤ j / k := (Nat.le_div_iff_mul_le (by omega)).2 (by omega)
        omega
      have hx2 : x / k ≤ d - 1 := by omega
      have : (x / k + 1) * k ≤ d * k := Nat.mul_le_mul_right k (by omega)
      rw [Nat.add_mul, Nat.one_mul] at this
      rw [Nat.mul_comm] at dx
      omega
    · have : j / k = d + 1 := by omega
      rw [Nat.le_div_iff_mul_le (by omega)]
      rw [this, Nat.mul_add, Nat.mul_one, Nat.mul_comm] at dj
      omega
  omega

theorem Distr.window_eq (h : Distr P own cp) (hc : check own = .ok ()) {k p : Nat} (hk : 1 ≤ k)
    (hk2 : 2 ≤ k ∨ own.count 0 = 1) (h1 : extra own ≤ p) (h2 : p < own.length) :
    window k own cp (own.getD p 0) = List.range' (p + 1 - k) (p + 1 - (p + 1 - k)) := by
  unfold window
  rw [h.cp_eq hc h1 h2, h.head]
  have hl := (h.lengths hc).2
  split
  · rename_i hz
    obtain ⟨hz, he⟩ := hz
    have hp : p = 1 := by
      by_contra hne
      have := h.strict hc (show extra own ≤ 1 by omega) (show 1 < p by omega) h2
      omega
    have hc2 : own.count 0 = 2 := by
      unfold extra at he; split at he
      · assumption
      · omega
    subst hp
    simp only [hz, ne_eq, not_true_eq_false, if_false]
    rw [if_neg (by omega)]
    have e1 : [0, 1].getD 0 0 + 1 - k = 1 + 1 - k := by simp; omega
    rw [e1]; rfl
  · rename_i hz
    simp only [List.getD_cons_zero]
    split
    · rfl
    · rename_i hz0
      rw [if_pos]
      have : extra own ≠ 1 := fun he => hz ⟨by omega, he⟩
      unfold extra at this
      split at this <;> omega

end

section
variable {V : Type} [Add V]

theorem idxOf_range' {a m p : Nat} (h1 : a ≤ p) (h2 : p < a + m) : (List.range' a m).idxOf p = p - a := by
  have hlt : p - a < (List.range' a m).length := by simp; omega
  have e : (List.range' a m)[p - a] = p := by simp; omega
  have := (List.nodup_range' (s := a) (n := m) (step := 1)).idxOf_getElem (p - a) hlt
  rw [e] at this
  exact this

theorem gather_spec (a m : Nat) (u g : Nat → V) (data : List Nat) (x : V × (Nat → V)) :
    (gather (List.range' a m) u g data x).1 = (if a ∈ data ∧ 0 < m then u a else x.1) ∧
    ∀ i, i < m → (gather (List.range' a m) u g data x).2 i =
      if a + i ∈ data then g (a + i) else x.2 i := by
  induction data generalizing x with
  | nil => simp [gather]
  | cons p data ih =>
    unfold gather at ih ⊢
    rw [List.foldl_cons]
    by_cases hp : p ∈ List.range' a m
    · rw [if_pos hp]
      rw [List.mem_range'_1] at hp
      rw [idxOf_range' hp.1 hp.2]
      obtain ⟨i1, i2⟩ := ih ((if p - a = 0 then u p else x.1), Function.update x.2 (p - a) (g p))
      constructor
      · rw [i1]
        have hm : 0 < m := by omega
        by_cases hd : a ∈ data
        · simp [hd, hm]
        · by_cases hpa : p = a
          · subst hpa
            simp [hm]
          · have : p - a ≠ 0 := by omega
            have h' : a ≠ p := fun h => hpa h.symm
            simp [hd, this, h']
      · intro i hi
        rw [i2 i hi]
        by_cases hd : a + i ∈ data
        · simp [hd]
        · by_cases hpi : i = p - a
          · subst hpi
            have : a + (p - a) = p := by omega
            rw [if_neg hd]
            simp only [Function.update_self, this]
            rw [if_pos List.mem_cons_self]
          · have : a + i ≠ p := by omega
            simp [hd, this, Function.update_of_ne hpi]
    · rw [if_neg hp]
      rw [List.mem_range'_1] at hp
      obtain ⟨i1, i2⟩ := ih x
      constructor
      · rw [i1]
        by_cases hm : 0 < m
        · have : a ≠ p := by omega
          simp [this]
        · simp [hm]
      · intro i hi
        rw [i2 i hi]
        have : a + i ≠ p := by omega
        simp [this]

end

/-! ## The property -/

section
variable {T : Type} [LinearOrder T] [Inhabited T] {ts : List (List T)} {P : Nat}

/-- C37.  The constructor check raises exactly if a process other than the first has more than one
coarsest point or the first more than two. -/
theorem C37_rejects (h : Valid ts) (hP : 0 < P) (hPn : P ≤ npts ts 0) :
    check (ownList ts P) = .ok () ↔
      (∀ r, 0 < r → r < P → (cpList ts P r).length ≤ 1) ∧ (cpList ts P 0).length ≤ 2 := by
  have hd := distr_of_valid h hP hPn
  constructor
  · intro hc
    obtain ⟨h1, h2, h3⟩ := hd.lengths hc
    refine ⟨fun r hr hrP => ?_, ?_⟩
    · rw [← hd.count_cp hrP]; exact h1 r (by omega)
    · rw [← hd.count_cp hP]; exact h3
  · rintro ⟨h1, h2⟩
    unfold check
    rw [hd.head, if_neg, if_neg]
    · rw [hd.count_cp hP]; omega
    · rw [List.any_eq_true]
      rintro ⟨r, hr, hh⟩
      obtain ⟨i, hi, he⟩ := List.getElem_of_mem hr
      have hrP : r < P := by
        have := hd.lt i hi
        rw [List.getD_eq_getElem?_getD, List.getElem?_eq_getElem hi, he] at this
        exact this
      simp only [Bool.and_eq_true, decide_eq_true_eq] at hh
      rw [hd.count_cp hrP] at hh
      have := h1 r (by omega) hrP
      omega

/-- A process with coarsest points, by its last one. -/
theorem exists_last (h : Valid ts) (hP : 0 < P) (hPn : P ≤ npts ts 0)
    (hc : check (ownList ts P) = .ok ()) {r : Nat} (hr : r < P) (hne : cpList ts P r ≠ []) :
    ∃ p, extra (ownList ts P) ≤ p ∧ p < (ownList ts P).length ∧ (ownList ts P).getD p 0 = r ∧
      (cpList ts P r).getLastD 0 = p := by
  have hd := distr_of_valid h hP hPn
  obtain ⟨i, hi⟩ := List.exists_mem_of_ne_nil _ hne
  rw [hd.cp r hr, List.mem_filter, List.mem_range, decide_eq_true_eq] at hi
  obtain ⟨hi, rfl⟩ := hi
  by_cases hie : extra (ownList ts P) ≤ i
  · exact ⟨i, hie, hi, rfl, hd.lastC_eq hc hie hi⟩
  · have hlt := hd.extra_lt
    have he : extra (ownList ts P) = 1 := by
      have : extra (ownList ts P) ≤ 1 := by unfold extra; split <;> omega
      omega
    have hi0 : i = 0 := by omega
    subst hi0
    have e : (ownList ts P).getD 0 0 = (ownList ts P).getD 1 0 := by rw [hd.zero, hd.extra_zero he]
    exact ⟨1, by omega, by omega, e.symm, by rw [e]; exact hd.lastC_eq hc (by omega) (by omega)⟩

/-- C37.  Group communication delivers the window: if the check passes, every process `r` with coarsest
points, `p` being the last of them, receives the contribution of every point `i` with
`p - k < i ≤ p`, i.e. some process contributes it and is among the sources of `r`.  The only exception
is the initial point if the first process has a second point, which it contributes instead. -/
theorem C37_window_delivered (h : Valid ts) (hP : 0 < P) (hPn : P ≤ npts ts 0)
    (hc : check (ownList ts P) = .ok ()) {k r : Nat} (hk : 1 ≤ k) (hr : r < P)
    (hne : cpList ts P r ≠ []) {i : Nat} (hi : (cpList ts P r).getLastD 0 < i + k)
    (hip : i ≤ (cpList ts P r).getLastD 0) (hi0 : i = 0 → (cpList ts P 0).length = 1) :
    ∃ q, q ∈ sources k P (ownList ts P) r ∧ q < P ∧ (cpList ts P q).getLastD 0 = i := by
  have hd := distr_of_valid h hP hPn
  obtain ⟨p, p1, p2, rfl, p4⟩ := exists_last h hP hPn hc hr hne
  rw [p4] at hi hip
  have hie : extra (ownList ts P) ≤ i := by
    by_cases hz : i = 0
    · have := hi0 hz
      rw [← hd.count_cp hP] at this
      unfold extra; rw [if_neg (by omega)]; omega
    · unfold extra; split <;> omega
  exact ⟨_, hd.covered hc hk p1 p2 (by omega) hip hie, hd.lt i (by omega),
    hd.lastC_eq hc hie (by omega)⟩

variable {V : Type} [Add V]

/-- C37.  If `g_coarsest` existed, every process would compute for its last coarsest point `p` the value
of the serial algorithm (compare `C35_window_value`): stepping from the old value `k - 1` points
before.  `u 0 = start`: the initial value is in place.  For `k = 1` the first process must have one
point only. -/
theorem C37_value_if_created (h : Valid ts) (hP : 0 < P) (hPn : P ≤ npts ts 0)
    (hc : check (ownList ts P) = .ok ()) {k r : Nat} (hk : 1 ≤ k)
    (hk2 : 2 ≤ k ∨ (cpList ts P 0).length = 1) (hr : r < P) (hne : cpList ts P r ≠ [])
    (Φ : Nat → V → V) (u g : Nat → V) (start : V) (hu : u 0 = start) (g0 : Nat → V) :
    solve k P (ownList ts P) (cpList ts P) Φ u g start (some g0) r =
      .ok (stepsFrom (fun i x => g i + Φ i x) ((cpList ts P r).getLastD 0 + 1 - k)
        (min ((cpList ts P r).getLastD 0) (k - 1)) (u ((cpList ts P r).getLastD 0 + 1 - k))) := by
  have hd := distr_of_valid h hP hPn
  rw [← hd.count_cp hP] at hk2
  obtain ⟨p, p1, p2, rfl, p4⟩ := exists_last h hP hPn hc hr hne
  rw [p4]
  have hcov : ∀ i, p + 1 - k ≤ i → i ≤ p → extra (ownList ts P) ≤ i →
      i ∈ (sources k P (ownList ts P) ((ownList ts P).getD p 0)).map (lastC (cpList ts P)) := by
    intro i h1 h2 h3
    exact List.mem_map.2 ⟨_, hd.covered hc hk p1 p2 h1 h2 h3, hd.lastC_eq hc h3 (by omega)⟩
  have he : extra (ownList ts P) ≤ 1 := by unfold extra; split <;> omega
  unfold solve
  simp only [hd.window_eq hc hk hk2 p1 p2]
  obtain ⟨x1, x2⟩ := gather_spec (p + 1 - k) (p + 1 - (p + 1 - k)) u g
    ((sources k P (ownList ts P) ((ownList ts P).getD p 0)).map (lastC (cpList ts P))) (start, g0)
  have e1 : (gather (List.range' (p + 1 - k) (p + 1 - (p + 1 - k))) u g
      ((sources k P (ownList ts P) ((ownList ts P).getD p 0)).map (lastC (cpList ts P))) (start, g0)).1
      = u (p + 1 - k) := by
    rw [x1]
    split
    · rfl
    · rename_i hno
      rcases Nat.eq_zero_or_pos (p + 1 - k) with hz | hpos
      · rw [hz, hu]
      · exact absurd ⟨hcov _ (Nat.le_refl _) (by omega) (by omega), by omega⟩ hno
  rw [e1]
  have hmin : (List.range' (p + 1 - k) (p + 1 - (p + 1 - k))).length - 1 = min p (k - 1) := by
    simp; omega
  rw [hmin]
  congr 1
  have key : ∀ m, m ≤ min p (k - 1) →
      (List.range' 1 m).foldl (fun y i => (gather (List.range' (p + 1 - k) (p + 1 - (p + 1 - k))) u g
        ((sources k P (ownList ts P) ((ownList ts P).getD p 0)).map (lastC (cpList ts P)))
          (start, g0)).2 i + Φ ((List.range' (p + 1 - k) (p + 1 - (p + 1 - k))).getD i 0) y)
        (u (p + 1 - k)) =
      stepsFrom (fun i x => g i + Φ i x) (p + 1 - k) m (u (p + 1 - k)) := by
    intro m
    induction m with
    | zero => intro _; rfl
    | succ m ih =>
      intro hm
      rw [List.range'_concat, List.foldl_append, ih (by omega)]
      simp only [List.foldl_cons, List.foldl_nil, stepsFrom, Nat.one_mul]
      rw [x2 _ (by omega), if_pos (hcov _ (by omega) (by omega) (by omega))]
      have e3 : (List.range' (p + 1 - k) (p + 1 - (p + 1 - k))).getD (1 + m) 0 = p + 1 - k + m + 1 := by
        rw [List.getD_eq_getElem?_getD, List.getElem?_range' (by omega)]
        simp; omega
      rw [e3, Nat.add_assoc, Nat.add_comm 1 m]
  exact key _ (Nat.le_refl _)

/-- C37.  As the code is, `g_coarsest` does not exist: on several processes every process with
coarsest points fails in its first coarsest solve, for every problem. -/
theorem C37_attribute_error (h : Valid ts) (hP : 0 < P) (hPn : P ≤ npts ts 0)
    (hc : check (ownList ts P) = .ok ()) {k r : Nat} (hk : 1 ≤ k) (hr : r < P)
    (hne : cpList ts P r ≠ []) (Φ : Nat → V → V) (u g : Nat → V) (start : V) :
    solve k P (ownList ts P) (cpList ts P) Φ u g start gCoarsest r =
      .error "AttributeError: g_coarsest" := by
  have hd := distr_of_valid h hP hPn
  obtain ⟨p, p1, p2, rfl, p4⟩ := exists_last h hP hPn hc hr hne
  unfold solve gCoarsest
  simp only
  rw [if_pos]
  by_cases hk2 : 2 ≤ k ∨ (ownList ts P).count 0 = 1
  · left
    rw [List.any_eq_true]
    refine ⟨p, List.mem_map.2 ⟨_, hd.covered hc hk p1 p2 (by omega) (Nat.le_refl p) p1,
      hd.lastC_eq hc p1 p2⟩, ?_⟩
    rw [decide_eq_true_eq, hd.window_eq hc hk hk2 p1 p2, List.mem_range'_1]
    omega
  · left
    rw [List.any_eq_true]
    refine ⟨p, List.mem_map.2 ⟨_, hd.covered hc hk p1 p2 (by omega) (Nat.le_refl p) p1,
      hd.lastC_eq hc p1 p2⟩, ?_⟩
    have hcnt := (hd.lengths hc).2
    rw [decide_eq_true_eq]
    unfold window
    rw [hd.cp_eq hc p1 p2, hd.head]
    split
    · rename_i hz
      have hp : p = 1 := by
        by_contra hne
        have := hd.strict hc (show extra _ ≤ 1 by omega) (show 1 < p by omega) p2
        omega
      simp only [hz.1, ne_eq, not_true_eq_false, if_false]
      rw [if_neg (by omega), List.mem_range'_1]
      simp; omega
    · rename_i hz
      simp only [List.getD_cons_zero]
      split
      · rw [List.mem_range'_1]; omega
      · rename_i hz0
        exfalso
        refine hz ⟨by omega, ?_⟩
        unfold extra; rw [if_pos (by omega)]

end

/-- Fine grid with 9 points, coarse grid with 5 points. -/
def atGrid : List (List Nat) := [List.range 9, [0, 2, 4, 6, 8]]

theorem atGrid_valid : Valid atGrid where
  pos := by decide
  ne0 := by decide
  sorted := by
    intro l
    match l with
    | 0 => exact (by decide : (grid atGrid 0).Pairwise (· < ·))
    | 1 => exact (by decide : (grid atGrid 1).Pairwise (· < ·))
    | l + 2 => exact List.Pairwise.nil
  nested := by
    intro l hl
    match l, hl with
    | 0, _ => exact (by decide : ∀ x ∈ grid atGrid 1, x ∈ grid atGrid 0)
    | l + 1, hl => exact absurd hl (by simp [atGrid])
  start := by
    intro l hl
    match l, hl with
    | 0, _ => decide
    | 1, _ => decide
    | l + 2, hl => exact absurd hl (by simp [atGrid])

/-- On four processes the first owns two coarsest points, the others one: the hypotheses of the
theorems of this section are met, and the window of the last process spans all groups. -/
example : check (ownList atGrid 4) = .ok () ∧ cpList atGrid 4 0 = [0, 1] ∧
    cpList atGrid 4 3 = [4] ∧ sources 2 4 (ownList atGrid 4) 3 = [2, 3, 2, 3] := by
  refine ⟨rfl, by decide, by decide, by decide⟩

/-- Two processes are too few for this grid. -/
example : check (ownList atGrid 2) = .error "Too many points on proc" := rfl

end At
end Pymgrit
