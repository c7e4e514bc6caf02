import Verif.GridSpec

/-!
# Property C06: the order in which a process visits its F-points

`fpts2` (mgrit.py:773-776) is computed from the iteration order `fs` of a Python set: `fs` is cut into
maximal runs of consecutive numbers, and the runs are visited in reverse order.
-/

namespace Pymgrit

/-- Whenever a point comes before its successor in the list, they are neighbours in the list. -/
def Adjoin (fs : List Nat) : Prop :=
  ∀ i j (hi : i < fs.length) (hj : j < fs.length), i < j → fs[i] + 1 = fs[j] → j = i + 1

theorem chain_getElem {xs : List Nat} (h : xs.IsChain fun a b => (a + 1 == b) = true) {i j : Nat}
    (hij : i ≤ j) (hj : j < xs.length) : xs[j] = xs[i] + (j - i) := by
  induction j with
  | zero => have : i = 0 := by omega
            subst this; rfl
  | succ j ih =>
    by_cases e : i = j + 1
    · subst e; simp
    · have h1 := ih (by omega) (by omega)
      have h2 := List.isChain_iff_getElem.1 h j (by omega)
      have h3 : xs[j] + 1 = xs[j + 1] := by simpa using h2
      omega

theorem compat_runs_iff (gs : List (List Nat)) (hne : ∀ m ∈ gs, m ≠ [])
    (hch : ∀ m ∈ gs, m.IsChain fun a b => (a + 1 == b) = true)
    (hb : gs.IsChain fun a b => ∃ ha hb, (a.getLast ha + 1 == b.head hb) = false) :
    gs.Pairwise (fun a b => ∀ y ∈ a, ∀ x ∈ b, y + 1 ≠ x) ↔ Adjoin gs.flatten := by
  induction gs with
  | nil => simp [Adjoin]
  | cons l gs ih =>
    have ih' := ih (fun m hm => hne m (by simp [hm])) (fun m hm => hch m (by simp [hm])) hb.tail
    rw [List.pairwise_cons, ih']
    simp only [List.flatten_cons]
    constructor
    · rintro ⟨h1, h2⟩ i j hi hj hij e
      by_cases hjl : j < l.length
      · rw [List.getElem_append_left hjl, List.getElem_append_left (by omega : i < l.length)] at e
        have := chain_getElem (hch l (by simp)) (Nat.le_of_lt hij) hjl
        omega
      · by_cases hil : i < l.length
        · rw [List.getElem_append_left hil, List.getElem_append_right (by omega)] at e
          have hm : gs.flatten[j - l.length]'(by simp at hj ⊢; omega) ∈ gs.flatten :=
            List.getElem_mem _
          obtain ⟨m, hm1, hm2⟩ := List.mem_flatten.1 hm
          exact absurd e (h1 m hm1 _ (List.getElem_mem _) _ hm2)
        · rw [List.getElem_append_right (by omega), List.getElem_append_right (by omega)] at e
          simp only [List.length_append] at hi hj
          have := h2 (i - l.length) (j - l.length) (by omega) (by omega) (by omega) e
          omega
    · intro h
      constructor
      · intro m hm y hy x hx e
        obtain ⟨i, hi, rfl⟩ := List.getElem_of_mem hy
        obtain ⟨j, hj, hjx⟩ := List.getElem_of_mem (List.mem_flatten.2 ⟨m, hm, hx⟩)
        have hlen : l.length + j < (l ++ gs.flatten).length := by
          simp only [List.length_append]; omega
        have := h i (l.length + j) (by simp only [List.length_append]; omega) hlen (by omega) (by
          rw [List.getElem_append_left hi, List.getElem_append_right (by omega)]
          simp only [Nat.add_sub_cancel_left]
          rw [hjx, e])
        have hj0 : j = 0 := by omega
        subst hj0
        cases gs with
        | nil => simp at hm
        | cons g gs =>
          have hg := hne g (by simp)
          obtain ⟨ha, hb', e'⟩ := (List.isChain_cons_cons.1 hb).1
          have e1 : l.getLast ha = l[i] := by
            rw [List.getLast_eq_getElem]; congr 1; omega
          have e2 : g.head hb' = x := by
            rw [← hjx, List.head_eq_getElem]
            simp only [List.flatten_cons]
            rw [List.getElem_append_left (List.length_pos_iff.2 hg)]
          rw [e1, e2] at e'
          simp [e] at e'
      · intro i j hi hj hij e
        have := h (l.length + i) (l.length + j) (by simp only [List.length_append]; omega)
          (by simp only [List.length_append]; omega) (by omega) (by
            rw [List.getElem_append_right (by omega), List.getElem_append_right (by omega)]
            simp only [Nat.add_sub_cancel_left]; exact e)
        omega

/-- C06.  Exact condition on the iteration order under which every F-point is visited after the
F-point before it. -/
theorem C06_iff (fs : List Nat) (hn : fs.Nodup) : Compat (visit fs) ↔ Adjoin fs := by
  have hne : ∀ m ∈ fs.splitBy (fun a b => a + 1 == b), m ≠ [] :=
    fun m hm => List.ne_nil_of_mem_splitBy hm
  have hch : ∀ m ∈ fs.splitBy (fun a b => a + 1 == b), m.IsChain fun a b => (a + 1 == b) = true :=
    fun m hm => List.isChain_of_mem_splitBy hm
  have key := compat_runs_iff _ hne hch (List.isChain_getLast_head_splitBy (fun a b => a + 1 == b) fs)
  rw [List.flatten_splitBy] at key
  rw [← key]
  have hnd : (visit fs).Nodup := (visit_perm fs).nodup_iff.2 hn
  unfold Compat visit
  constructor
  · intro h
    rw [List.pairwise_flatten] at h
    have := List.pairwise_reverse.1 h.2
    exact this.imp fun h y hy x hx e => (h x hx y hy).2 e
  · intro h
    have h2 : ((fs.splitBy fun a b => a + 1 == b).reverse.flatten).Pairwise fun a b => b + 1 ≠ a := by
      rw [List.pairwise_flatten]
      refine ⟨?_, List.pairwise_reverse.2 (h.imp fun h x hx y hy => h y hy x hx)⟩
      intro m hm
      have hm' := hch m (List.mem_reverse.1 hm)
      rw [List.pairwise_iff_getElem]
      intro i j hi hj hij
      have := chain_getElem hm' (Nat.le_of_lt hij) hj
      omega
    exact List.Pairwise.and hnd h2

/-- C06, first class of orders: ascending. -/
theorem C06_sorted (fs : List Nat) (h : fs.Pairwise (· < ·)) : Compat (visit fs) := by
  rw [C06_iff fs (h.imp fun h => Nat.ne_of_lt h)]
  intro i j hi hj hij e
  by_contra hc
  have h1 := List.pairwise_iff_getElem.1 h i (i + 1) hi (by omega) (by omega)
  have h2 := List.pairwise_iff_getElem.1 h (i + 1) j (by omega) hj (by omega)
  omega

/-- C06, second class: a rotation of the ascending order (what iterating a hash table gives whose
entries sit at their value modulo the table size, with values spread over at most one table size). -/
theorem C06_rotated_partial (a b : List Nat) (h : (b ++ a).Pairwise (· < ·)) :
    Compat (visit (a ++ b)) := by
  have hnd : (a ++ b).Nodup := by
    have : (b ++ a).Nodup := h.imp fun h => Nat.ne_of_lt h
    exact (List.perm_append_comm).nodup_iff.1 this
  obtain ⟨hb, ha, hba⟩ := List.pairwise_append.1 h
  rw [C06_iff _ hnd]
  intro i j hi hj hij e
  by_contra hc
  simp only [List.length_append] at hi hj
  by_cases hja : j < a.length
  · rw [List.getElem_append_left hja, List.getElem_append_left (by omega : i < a.length)] at e
    have h1 := List.pairwise_iff_getElem.1 ha i (i + 1) (by omega) (by omega) (by omega)
    have h2 := List.pairwise_iff_getElem.1 ha (i + 1) j (by omega) hja (by omega)
    omega
  · by_cases hia : i < a.length
    · rw [List.getElem_append_left hia, List.getElem_append_right (by omega)] at e
      have := hba _ (List.getElem_mem (l := b) (n := j - a.length) (by omega)) _ (List.getElem_mem hia)
      omega
    · rw [List.getElem_append_right (by omega), List.getElem_append_right (by omega)] at e
      have h1 := List.pairwise_iff_getElem.1 hb (i - a.length) (i - a.length + 1) (by omega) (by omega)
        (by omega)
      have h2 := List.pairwise_iff_getElem.1 hb (i - a.length + 1) (j - a.length) (by omega) (by omega)
        (by omega)
      omega

/-- C06, third class: any order, if no two F-points are neighbours (coarsening factor two). -/
theorem C06_isolated_partial (fs : List Nat) (hn : fs.Nodup) (h : ∀ x ∈ fs, x + 1 ∉ fs) :
    Compat (visit fs) := by
  rw [C06_iff fs hn]
  intro i j hi hj _ e
  exact absurd (e ▸ List.getElem_mem hj) (h _ (List.getElem_mem hi))

/-- C06 is false for arbitrary orders: from the order `2, 1, 3` the point 3 is visited before 2. -/
theorem C06_counterexample :
    [2, 1, 3].Perm [1, 2, 3] ∧ visit [2, 1, 3] = [3, 1, 2] ∧ ¬ Compat (visit [2, 1, 3]) := by
  refine ⟨by decide, by decide, ?_⟩
  rw [C06_iff _ (by decide)]
  intro h
  have := h 0 2 (by decide) (by decide) (by decide) (by decide)
  omega

example : Compat (visit [33, 34, 35, 1, 2, 3, 5]) ∧ visit [33, 34, 35, 1, 2, 3, 5] = [5, 1, 2, 3, 33, 34, 35] :=
  ⟨C06_rotated_partial [33, 34, 35] [1, 2, 3, 5] (by decide), by decide⟩

/-- Ascending order is admissible. -/
theorem ordOK_id {T : Type} [LinearOrder T] [Inhabited T] {ts : List (List T)} (hv : Valid ts) {P : Nat}
    (hPn : P ≤ npts ts 0) {r l : Nat} (hl : l < ts.length) (hr : r < P) :
    OrdOK ts P (fun xs => xs) r l := by
  refine ⟨List.Perm.refl _, C06_sorted _ (List.Pairwise.filter _ ?_)⟩
  rw [hv.localPts_eq hPn hl hr]
  exact List.pairwise_lt_range'

end Pymgrit
