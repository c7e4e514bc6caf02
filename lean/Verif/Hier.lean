import Verif.GridSpec
import Verif.Proc

/-!
# The global view of a configuration

`Cfg.sys` is the system of `Verif.Seq` belonging to a configuration; it satisfies `Sys.WF`.
-/

set_option linter.unusedSectionVars false

namespace Pymgrit

variable {T : Type} [LinearOrder T] [Inhabited T]

section grids
variable {ts : List (List T)} (h : Valid ts)
include h

theorem allC_sorted (l : Nat) : (allC ts l).Pairwise (· < ·) := by
  unfold allC
  split
  · exact List.pairwise_lt_range.filter _
  · exact List.pairwise_lt_range

omit h in
theorem mem_allC_iff {l i : Nat} (hl : l + 1 < ts.length) :
    i ∈ allC ts l ↔ i < npts ts l ∧ tAt (grid ts l) i ∈ grid ts (l + 1) := by
  unfold allC
  rw [if_pos (by omega)]
  simp

omit h in
theorem mem_allC_last {l i : Nat} (hl : l + 1 = ts.length) : i ∈ allC ts l ↔ i < npts ts l := by
  unfold allC
  rw [if_neg (by omega)]
  simp

/-- The C-points of a level are, in order, the points of the next level. -/
theorem allC_map {l : Nat} (hl : l + 1 < ts.length) :
    (allC ts l).map (tAt (grid ts l)) = grid ts (l + 1) := by
  have hs : ((allC ts l).map (tAt (grid ts l))).Pairwise (· < ·) := by
    rw [List.pairwise_map]
    refine (allC_sorted h l).imp_of_mem ?_
    intro a b ha hb hab
    exact (tAt_lt_iff (h.sorted l) (allC_lt ha) (allC_lt hb)).2 hab
  refine List.Perm.eq_of_pairwise (le := (· < ·))
    (fun x y _ _ hxy hyx => absurd hxy (not_lt_of_gt hyx)) hs (h.sorted (l + 1)) ?_
  rw [List.perm_ext_iff_of_nodup (hs.imp fun h => ne_of_lt h)
    ((h.sorted (l + 1)).imp fun h => ne_of_lt h)]
  intro x
  rw [List.mem_map]
  constructor
  · rintro ⟨i, hi, rfl⟩
    exact ((mem_allC_iff hl).1 hi).2
  · intro hx
    obtain ⟨i, hi, rfl⟩ := mem_iff_tAt.1 (h.nested l hl x hx)
    exact ⟨i, (mem_allC_iff hl).2 ⟨hi, hx⟩, rfl⟩

theorem allC_length {l : Nat} (hl : l + 1 < ts.length) : (allC ts l).length = npts ts (l + 1) := by
  have := congrArg List.length (allC_map h hl)
  simpa [npts] using this

/-- Index of the `k`-th C-point. -/
theorem tAt_cpt {l k : Nat} (hl : l + 1 < ts.length) (hk : k < npts ts (l + 1)) :
    tAt (grid ts l) ((allC ts l).getD k 0) = tAt (grid ts (l + 1)) k := by
  have hk' : k < (allC ts l).length := by rw [allC_length h hl]; exact hk
  conv_rhs => rw [← allC_map h hl]
  simp [tAt, hk']

theorem allC_zero {l : Nat} (hl : l < ts.length) : (allC ts l)[0]? = some 0 := by
  have hn := h.npos hl
  have hmem : 0 ∈ allC ts l := by
    by_cases hl' : l + 1 < ts.length
    · rw [mem_allC_iff hl']
      refine ⟨hn, ?_⟩
      rw [h.tAt_zero hl, ← h.tAt_zero hl']
      exact tAt_mem (h.npos hl')
    · exact (mem_allC_last (by omega)).2 hn
  have hs := allC_sorted h l
  rcases hC : allC ts l with _ | ⟨a, as⟩
  · rw [hC] at hmem; cases hmem
  · rw [hC] at hmem hs
    rcases List.mem_cons.1 hmem with h0 | h0
    · simp [← h0]
    · have := (List.pairwise_cons.1 hs).1 0 h0
      omega

/-- Ownership of C-points is ownership of the coarse points. -/
theorem cpt_lt_lo {P l k r : Nat} (hP : 0 < P) (hPn : P ≤ npts ts 0) (hl : l + 1 < ts.length)
    (hr : r ≤ P) (hk : k < npts ts (l + 1)) :
    (allC ts l).getD k 0 < lo ts P l r ↔ k < lo ts P (l + 1) r := by
  have hk' : k < (allC ts l).length := by rw [allC_length h hl]; exact hk
  have hc : (allC ts l).getD k 0 ∈ allC ts l := by
    simp [hk']
  have hclt := allC_lt hc
  obtain ⟨j, hj, hij⟩ := h.exists_fine (show l < ts.length by omega) hclt
  rw [h.lt_lo_iff hP hPn hr hclt hj hij,
    h.lt_lo_iff hP hPn hr hk hj (by rw [← hij, tAt_cpt h hl hk])]

/-- The C-points of process `r` are the coarse points of process `r`. -/
theorem cpts_eq {P l r : Nat} (hP : 0 < P) (hPn : P ≤ npts ts 0) (hl : l + 1 < ts.length)
    (hr : r < P) :
    (List.range' (lo ts P l r) (lo ts P l (r + 1) - lo ts P l r)).filter
        (fun i => decide (i ∈ allC ts l))
      = (List.range' (lo ts P (l + 1) r) (lo ts P (l + 1) (r + 1) - lo ts P (l + 1) r)).map
          fun k => (allC ts l).getD k 0 := by
  have hCs := allC_sorted h l
  have hlen := allC_length h hl
  have hle := h.lo_le P (l + 1) (r + 1)
  have hle' := h.lo_le P l (r + 1)
  have hs1 : ((List.range' (lo ts P l r) (lo ts P l (r + 1) - lo ts P l r)).filter
        (fun i => decide (i ∈ allC ts l))).Pairwise (· < ·) := List.Pairwise.filter _ List.pairwise_lt_range'
  have hs2 : ((List.range' (lo ts P (l + 1) r) (lo ts P (l + 1) (r + 1) - lo ts P (l + 1) r)).map
          fun k => (allC ts l).getD k 0).Pairwise (· < ·) := by
    rw [List.pairwise_map]
    refine (List.pairwise_lt_range').imp_of_mem ?_
    intro a b ha hb hab
    simp only [List.mem_range'_1] at ha hb
    have ha' : a < (allC ts l).length := by omega
    have hb' : b < (allC ts l).length := by omega
    simp only [List.getD, ha', hb', List.getElem?_eq_getElem, Option.getD_some]
    exact List.pairwise_iff_getElem.1 hCs a b ha' hb' hab
  refine List.Perm.eq_of_pairwise (le := (· < ·))
    (fun x y _ _ hxy hyx => absurd hxy (by omega)) hs1 hs2 ?_
  rw [List.perm_ext_iff_of_nodup (hs1.imp fun h => Nat.ne_of_lt h) (hs2.imp fun h => Nat.ne_of_lt h)]
  intro x
  simp only [List.mem_filter, List.mem_range'_1, decide_eq_true_eq, List.mem_map]
  constructor
  · rintro ⟨⟨h1, h2⟩, hx⟩
    obtain ⟨k, hk, rfl⟩ := List.mem_iff_getElem.1 hx
    have e : (allC ts l).getD k 0 = (allC ts l)[k] := by simp [hk]
    have hk' : k < npts ts (l + 1) := by omega
    have a1 := (cpt_lt_lo h hP hPn hl (show r ≤ P by omega) hk').not.1 (by omega)
    have a2 := (cpt_lt_lo h hP hPn hl (show r + 1 ≤ P by omega) hk').1 (by omega)
    exact ⟨k, by omega, e⟩
  · rintro ⟨k, hk, rfl⟩
    have hk' : k < npts ts (l + 1) := by omega
    have a1 := (cpt_lt_lo h hP hPn hl (show r ≤ P by omega) hk').not.2 (by omega)
    have a2 := (cpt_lt_lo h hP hPn hl (show r + 1 ≤ P by omega) hk').2 (by omega)
    refine ⟨by omega, ?_⟩
    have hk2 : k < (allC ts l).length := by omega
    simp [hk2]

end grids

namespace Cfg
variable {V K N : Type} (E : Cfg V K T N)

/-- The system of `Verif.Seq` for a configuration: the global grids, `Φ l i x` the time integration
from point `i - 1` to point `i` of level `l`.  F-points are visited in ascending order here;
`Verif.Dist` shows that the orders produced by the code give the same values. -/
def sys : Sys V K where
  L := E.ts.length
  n := npts E.ts
  C := allC E.ts
  F := allF E.ts
  Φ := fun l i x => E.step l x (tAt (grid E.ts l) (i - 1)) (tAt (grid E.ts l) i)
  R := E.R
  I := E.I
  cf := E.cf
  w := E.w

theorem sys_wf (h : Valid E.ts) : E.sys.WF where
  Lpos := h.pos
  npos := fun _ hl => h.npos hl
  C_sorted := fun l _ => allC_sorted h l
  C_zero := fun l hl => allC_zero h (show l < E.ts.length from by
    have : l + 1 < E.ts.length := hl
    omega)
  C_len := fun l hl => allC_length h hl
  C_lt := fun l _ c hc => allC_lt hc
  C_last := by
    have := h.pos
    show allC E.ts (E.ts.length - 1) = _
    unfold allC
    rw [if_neg (by omega)]
    rfl
  F_mem := fun l _ i => mem_allF
  F_compat := fun l _ => Compat.of_sorted (List.pairwise_lt_range.filter _)

end Cfg
end Pymgrit
