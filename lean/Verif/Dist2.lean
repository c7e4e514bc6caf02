import Verif.Dist1

/-! FAS residual, correction, interpolation, cycles and nested iteration of the distributed
program. -/

set_option linter.unusedSectionVars false

namespace Pymgrit

variable {V K T N : Type} [LinearOrder T] [Inhabited T]

namespace Cfg
variable {E : Cfg V K T N}

/-- Index of the `k`-th C-point. -/
theorem sys_cpt (l k : Nat) : E.sys.cpt l k = (allC E.ts l).getD k 0 := rfl

theorem idxC_eq (h : E.Good) {r l : Nat} (hr : r < E.P) (hl : l + 1 < E.ts.length) :
    (E.info r l).idxC = (List.range' (lo E.ts E.P (l + 1) r)
      (lo E.ts E.P (l + 1) (r + 1) - lo E.ts E.P (l + 1) r)).map
        fun k => E.sys.cpt l k - off E.ts E.P l r := by
  have hs := h.spec hr (show l < E.ts.length by omega)
  rw [hs.idxC, hs.cpts, hs.pts, cpts_eq h.valid h.Ppos h.PN hl hr, List.map_map]
  rfl

theorem mem_idxC_zip (h : E.Good) {r l : Nat} (hr : r < E.P) (hl : l + 1 < E.ts.length)
    (ci : Nat × Nat) :
    ci ∈ (E.info r l).idxC.zipIdx ↔ ∃ k, lo E.ts E.P (l + 1) r ≤ k ∧
      k < lo E.ts E.P (l + 1) (r + 1) ∧
      ci = (E.sys.cpt l k - off E.ts E.P l r, k - lo E.ts E.P (l + 1) r) := by
  rw [idxC_eq h hr hl]
  obtain ⟨c, i⟩ := ci
  rw [List.mem_zipIdx_iff_getElem?]
  simp only [List.getElem?_map, Option.map_eq_some_iff, Prod.mk.injEq]
  constructor
  · rintro ⟨k, hk, rfl⟩
    rw [List.getElem?_eq_some_iff] at hk
    obtain ⟨hi, rfl⟩ := hk
    rw [List.length_range'] at hi
    refine ⟨lo E.ts E.P (l + 1) r + i, by omega, by omega, ?_, by omega⟩
    simp
  · rintro ⟨k, a, b, rfl, rfl⟩
    refine ⟨k, ?_, rfl⟩
    rw [List.getElem?_eq_some_iff]
    refine ⟨by rw [List.length_range']; omega, ?_⟩
    simp; omega

/-- A process' own coarse points are the coarse versions of its own C-points. -/
theorem own_cpt (h : E.Good) {r l k : Nat} (hr : r < E.P) (hl : l + 1 < E.ts.length)
    (h1 : lo E.ts E.P (l + 1) r ≤ k) (h2 : k < lo E.ts E.P (l + 1) (r + 1)) :
    lo E.ts E.P l r ≤ E.sys.cpt l k ∧ E.sys.cpt l k < lo E.ts E.P l (r + 1) ∧
      k < npts E.ts (l + 1) ∧ E.sys.cpt l k ∈ allC E.ts l := by
  have hk : k < npts E.ts (l + 1) := Nat.lt_of_lt_of_le h2 (h.lo_le _ _)
  have a1 := (cpt_lt_lo h.valid h.Ppos h.PN hl (show r ≤ E.P by omega) hk).not.2 (by omega)
  have a2 := (cpt_lt_lo h.valid h.Ppos h.PN hl (show r + 1 ≤ E.P by omega) hk).2 h2
  refine ⟨Nat.le_of_not_lt a1, a2, hk, ?_⟩
  exact Sys.cpt_mem (S := E.sys) (by rw [(E.sys_wf h.valid).C_len l hl]; exact hk)

theorem idxC_zip_snd_nodup {xs : List Nat} (r : Nat) (p : Nat × Nat → Bool) :
    ((xs.zipIdx.filter p).map fun ci => ci.2 + gh r).Nodup := by
  refine nodup_filter_map _ (fun ci : Nat × Nat => ci.2 + gh r) p ?_
  have : xs.zipIdx.map (fun ci : Nat × Nat => ci.2 + gh r)
      = (xs.zipIdx.map Prod.snd).map (· + gh r) := by
    rw [List.map_map]; rfl
  rw [this]
  exact (zipIdx_map_snd_nodup xs).map fun a b hab => by
    have hab' : a + gh r = b + gh r := hab
    omega

theorem idxC_nodup (h : E.Good) {r l : Nat} (hr : r < E.P) (hl : l + 1 < E.ts.length) :
    (E.info r l).idxC.Nodup := by
  have hs := h.spec hr (show l < E.ts.length by omega)
  have ho := h.off_add (show l < E.ts.length by omega) (Nat.le_of_lt hr)
  rw [hs.idxC, hs.cpts, hs.pts]
  have : (((List.range' (lo E.ts E.P l r) (lo E.ts E.P l (r + 1) - lo E.ts E.P l r)).filter
      (fun i => decide (i ∈ allC E.ts l))).map (· - off E.ts E.P l r)).Pairwise (· < ·) := by
    rw [List.pairwise_map]
    refine (List.Pairwise.filter _ List.pairwise_lt_range').imp_of_mem ?_
    intro a b ha hb hab
    have := (List.mem_filter.1 ha).1
    rw [List.mem_range'_1] at this
    omega
  exact this.imp fun h => Nat.ne_of_lt h

/-- Skipping the first coarse point of rank 0 is skipping coarse point 0. -/
theorem skip_iff (h : E.Good) {r l k : Nat} (hr : r < E.P) (hl : l < E.ts.length)
    (h1 : lo E.ts E.P l r ≤ k) :
    (k - lo E.ts E.P l r ≠ 0 ∨ r ≠ 0) ↔ k ≠ 0 := by
  by_cases hr0 : r = 0
  · subst hr0
    rw [h.lo_zero hl]
    omega
  · have := h.lo_pos hl (Nat.le_of_lt hr) hr0
    omega

theorem loc_idx (h : E.Good) {r l k : Nat} (hr : r < E.P) (hl : l < E.ts.length)
    (h1 : lo E.ts E.P l r ≤ k) :
    k - lo E.ts E.P l r + gh r = k - off E.ts E.P l r := by
  have := h.off_add hl (Nat.le_of_lt hr)
  omega

theorem idx_getD (h : E.Good) {r l l' k : Nat} (hr : r < E.P) (hl : l < E.ts.length)
    (hl' : l' < E.ts.length) (h1 : lo E.ts E.P l r ≤ k)
    (h2 : k - lo E.ts E.P l r < lo E.ts E.P l' (r + 1) - lo E.ts E.P l' r) :
    (E.info r l').idx.getD (k - lo E.ts E.P l r) 0 = k - off E.ts E.P l r := by
  have hs := h.spec hr hl'
  rw [hs.idx, List.getD_eq_getElem?_getD, List.getElem?_range' (by omega)]
  simp only [Option.getD_some]
  rw [← loc_idx h hr hl h1]
  omega

section ops
variable [Add V]

/-! ### Loops -/

/-- A local loop over the C-points that writes the array of the next level. -/
theorem restrict_loop (h : E.Good) {r l : Nat} (hr : r < E.P) (hl : l + 1 < E.ts.length)
    {G : GState V} {s : PState V N} (hR : E.LRep G r s) :
    ∃ x, E.restrictLoop r l s = s.setLvl (l + 1) x ∧
      ∀ k, lo E.ts E.P (l + 1) r ≤ k → k < lo E.ts E.P (l + 1) (r + 1) →
        x (k - off E.ts E.P (l + 1) r) = E.R l (G.u l (E.sys.cpt l k)) := by
  have hl0 : l < E.ts.length := by omega
  have e : E.restrictLoop r l s = s.setLvl (l + 1)
      ((E.info r l).idxC.zipIdx.foldl
        (fun u ci => Function.update u (ci.2 + gh r) (E.R l (s.u l ci.1))) (s.u (l + 1))) := by
    have := foldl_setU (E.info r l).idxC.zipIdx (fun ci => ci.2 + gh r) (l + 1)
      (fun s ci => E.R l (s.u l ci.1)) (fun _ ci => E.R l (s.u l ci.1)) s
      (fun x ci _ => by
        show E.R l ((s.setLvl (l + 1) x).u l ci.1) = _
        rw [PState.setLvl_u_ne _ _ (by omega)])
    rw [← this]
    unfold restrictLoop
    congr 1
    funext s ci
    congr 1
    unfold gh
    split <;> rfl
  refine ⟨_, e, ?_⟩
  intro k a b
  have hm := (mem_idxC_zip h hr hl _).2 ⟨k, a, b, rfl⟩
  have hnd := idxC_zip_snd_nodup (xs := (E.info r l).idxC) r (fun _ => true)
  rw [List.filter_true] at hnd
  have := foldl_update_mem (E.info r l).idxC.zipIdx (fun ci => ci.2 + gh r)
    (fun ci _ => E.R l (s.u l ci.1)) (s.u (l + 1)) hnd hm
  simp only at this
  rw [loc_idx h hr hl a] at this
  rw [this]
  obtain ⟨c1, c2, _, _⟩ := own_cpt h hr hl a b
  rw [hR.u l _ hl0 c1 c2]

theorem errorCorrection_local [Sub V] (h : E.Good) {r l : Nat} (hr : r < E.P)
    (hl : l + 1 < E.ts.length) {G : GState V} {s : PState V N} (hR : E.LRep G r s) :
    ∃ x, E.errorCorrectionP r l s = s.setLvl l x ∧
      ∀ i, lo E.ts E.P l r ≤ i → i < lo E.ts E.P l (r + 1) →
        x (i - off E.ts E.P l r) = (E.sys.errorCorrection l G).u l i := by
  have hl0 : l < E.ts.length := by omega
  have hwf := E.sys_wf h.valid
  set xs := (E.info r l).idxC.zipIdx.filter (fun ci => decide (ci.2 ≠ 0 ∨ r ≠ 0)) with hxs
  set val : Nat × Nat → V → V := fun ci y =>
    y + E.I l (s.u (l + 1) ((E.info r l).idx.getD ci.2 0)
      - s.v (l + 1) ((E.info r l).idx.getD ci.2 0)) with hval
  have e : E.errorCorrectionP r l s = s.setLvl l
      (xs.foldl (fun u ci => Function.update u ci.1 (val ci (u ci.1))) (s.u l)) := by
    have := foldl_setU xs Prod.fst l
      (fun s ci => s.u l ci.1 + E.I l (s.u (l + 1) ((E.info r l).idx.getD ci.2 0)
        - s.v (l + 1) ((E.info r l).idx.getD ci.2 0))) (fun u ci => val ci (u ci.1)) s
      (fun x ci _ => by
        simp only [hval]
        rw [PState.setLvl_u_ne s x (show l + 1 ≠ l by omega), PState.setLvl_u]
        rfl)
    rw [← this]
    unfold errorCorrectionP
    rw [foldl_ite]
  refine ⟨_, e, ?_⟩
  intro i a b
  have hnd : (xs.map Prod.fst).Nodup :=
    nodup_filter_map _ _ _ (Sys.zipIdx_map_fst_nodup (idxC_nodup h hr hl))
  by_cases hi : i ∈ allC E.ts l ∧ i ≠ 0
  · obtain ⟨hC, h0⟩ := hi
    obtain ⟨k, hk, rfl⟩ := (hwf.mem_C_iff hl).1 hC
    have hk' : k < npts E.ts (l + 1) := hk
    have k1 := (cpt_lt_lo h.valid h.Ppos h.PN hl (show r ≤ E.P by omega) hk').not.1
      (Nat.not_lt.2 a)
    have k2 := (cpt_lt_lo h.valid h.Ppos h.PN hl (show r + 1 ≤ E.P by omega) hk').1 b
    have hk0 : k ≠ 0 := by
      rintro rfl
      exact h0 (hwf.cpt_zero hl)
    have hm : (E.sys.cpt l k - off E.ts E.P l r, k - lo E.ts E.P (l + 1) r) ∈ xs := by
      rw [hxs, List.mem_filter]
      refine ⟨(mem_idxC_zip h hr hl _).2 ⟨k, by omega, k2, rfl⟩, ?_⟩
      simp only [decide_eq_true_eq]
      exact (skip_iff h hr hl (by omega)).2 hk0
    have := foldl_update_mem xs Prod.fst val (s.u l) hnd hm
    simp only at this
    rw [this, hwf.errorCorrection_C hl G hk hk0]
    simp only [hval]
    -- the index into the coarse arrays
    have hcnt : k - lo E.ts E.P (l + 1) r < lo E.ts E.P l (r + 1) - lo E.ts E.P l r := by
      -- as many C-points as coarse points: the C-points from the first to `k` are distinct own points
      have hmono : ∀ d, lo E.ts E.P (l + 1) r + d < npts E.ts (l + 1) →
          lo E.ts E.P l r + d ≤ E.sys.cpt l (lo E.ts E.P (l + 1) r + d) := by
        intro d
        induction d with
        | zero =>
          intro hd
          have := (cpt_lt_lo h.valid h.Ppos h.PN hl (show r ≤ E.P by omega) hd).not.2 (by omega)
          rw [sys_cpt]; omega
        | succ d ih =>
          intro hd
          have h1 := ih (by omega)
          have h2 := hwf.cpt_lt hl (k := lo E.ts E.P (l + 1) r + d)
            (k' := lo E.ts E.P (l + 1) r + (d + 1)) (by omega) hd
          omega
      have := hmono (k - lo E.ts E.P (l + 1) r) (by omega)
      have e : lo E.ts E.P (l + 1) r + (k - lo E.ts E.P (l + 1) r) = k := by omega
      rw [e] at this
      omega
    rw [idx_getD h hr hl hl0 (by omega) hcnt, hR.u l _ hl0 a b, hR.u (l + 1) k hl (by omega) k2,
      hR.v (l + 1) k hl (by omega) k2]
    rfl
  · have hnm : i - off E.ts E.P l r ∉ xs.map Prod.fst := by
      intro hm
      obtain ⟨ci, hci, hce⟩ := List.mem_map.1 hm
      rw [hxs, List.mem_filter] at hci
      obtain ⟨k, k1, k2, rfl⟩ := (mem_idxC_zip h hr hl _).1 hci.1
      obtain ⟨c1, c2, c3, c4⟩ := own_cpt h hr hl k1 k2
      have ho := h.off_add hl0 (Nat.le_of_lt hr)
      have hie : i = E.sys.cpt l k := by
        simp only at hce
        omega
      apply hi
      refine ⟨hie ▸ c4, ?_⟩
      have hk0 : k ≠ 0 := by
        have := hci.2
        simp only [decide_eq_true_eq] at this
        exact (skip_iff h hr hl k1).1 this
      have := hwf.cpt_lt hl (k := 0) (k' := k) (by omega) c3
      omega
    rw [foldl_update_not_mem xs Prod.fst (fun ci u => val ci (u ci.1)) _ hnm,
      hR.u l i hl0 a b, hwf.errorCorrection_not hl G (by
        by_cases hC : i ∈ allC E.ts l
        · exact Or.inr (not_not.1 fun h0 => hi ⟨hC, h0⟩)
        · exact Or.inl hC)]

theorem interpolate_local (h : E.Good) {r l : Nat} (hr : r < E.P)
    (hl : l + 1 < E.ts.length) {G : GState V} {s : PState V N} (hR : E.LRep G r s) :
    ∃ x, E.interpolateP r l s = s.setLvl l x ∧
      ∀ i, lo E.ts E.P l r ≤ i → i < lo E.ts E.P l (r + 1) →
        x (i - off E.ts E.P l r) = (E.sys.interpolate l G).u l i := by
  have hl0 : l < E.ts.length := by omega
  have hwf := E.sys_wf h.valid
  have hs1 := h.spec hr hl
  set xs := (E.info r (l + 1)).idx.zipIdx.filter (fun ci => decide (ci.2 ≠ 0 ∨ r ≠ 0)) with hxs
  set key : Nat × Nat → Nat := fun ki => (E.info r l).idxC.getD ki.2 0 with hkey
  -- elements of the loop
  have hmem : ∀ ki, ki ∈ xs ↔ ∃ k, lo E.ts E.P (l + 1) r ≤ k ∧ k < lo E.ts E.P (l + 1) (r + 1) ∧
      k ≠ 0 ∧ ki = (k - off E.ts E.P (l + 1) r, k - lo E.ts E.P (l + 1) r) := by
    rintro ⟨c, i⟩
    rw [hxs, List.mem_filter, List.mem_zipIdx_iff_getElem?, hs1.idx]
    simp only [decide_eq_true_eq, Prod.mk.injEq]
    constructor
    · rintro ⟨hg, hd⟩
      rw [List.getElem?_eq_some_iff] at hg
      obtain ⟨hi, hg⟩ := hg
      rw [List.length_range'] at hi
      simp only [List.getElem_range'] at hg
      have ho := h.off_add hl (Nat.le_of_lt hr)
      refine ⟨lo E.ts E.P (l + 1) r + i, by omega, by omega, ?_, by omega, by omega⟩
      refine (skip_iff h hr hl (by omega)).1 ?_
      rcases hd with hd | hd
      · left; omega
      · exact Or.inr hd
    · rintro ⟨k, a, b, c, rfl, rfl⟩
      refine ⟨?_, (skip_iff h hr hl a).2 c⟩
      rw [List.getElem?_range' (by omega)]
      rw [← loc_idx h hr hl a]
      congr 1; omega
  have hkeyv : ∀ k, lo E.ts E.P (l + 1) r ≤ k → k < lo E.ts E.P (l + 1) (r + 1) →
      (E.info r l).idxC.getD (k - lo E.ts E.P (l + 1) r) 0 = E.sys.cpt l k - off E.ts E.P l r := by
    intro k a b
    rw [idxC_eq h hr hl, List.getD_eq_getElem?_getD, List.getElem?_map,
      List.getElem?_range' (by omega)]
    simp only [Option.map_some, Option.getD_some]
    congr 2; omega
  have e : E.interpolateP r l s = s.setLvl l
      (xs.foldl (fun u ki => Function.update u (key ki) (E.I l (s.u (l + 1) ki.1))) (s.u l)) := by
    have := foldl_setU xs key l
      (fun s ki => E.I l (s.u (l + 1) ki.1)) (fun _ ki => E.I l (s.u (l + 1) ki.1)) s
      (fun x ci _ => by
        show _ = _
        rw [PState.setLvl_u_ne _ _ (by omega)])
    rw [← this]
    unfold interpolateP
    rw [foldl_ite]
  refine ⟨_, e, ?_⟩
  have ho := h.off_add hl0 (Nat.le_of_lt hr)
  have hnd : (xs.map key).Nodup := by
    have h1 : (xs.map Prod.snd).Nodup := nodup_filter_map _ _ _ (zipIdx_map_snd_nodup _)
    have h2 : xs.map key = (xs.map Prod.snd).map fun i => (E.info r l).idxC.getD i 0 := by
      rw [List.map_map]; rfl
    rw [h2]
    refine h1.map_on ?_
    intro x hx y hy hxy
    obtain ⟨a, ha, rfl⟩ := List.mem_map.1 hx
    obtain ⟨b, hb, rfl⟩ := List.mem_map.1 hy
    obtain ⟨k, k1, k2, k3, rfl⟩ := (hmem a).1 ha
    obtain ⟨k', k1', k2', k3', rfl⟩ := (hmem b).1 hb
    simp only at hxy ⊢
    rw [hkeyv k k1 k2, hkeyv k' k1' k2'] at hxy
    have c := own_cpt h hr hl k1 k2
    have c' := own_cpt h hr hl k1' k2'
    have hc : E.sys.cpt l k = E.sys.cpt l k' := by omega
    have i1 := (hwf.cpt_le_iff hl c.2.2.1 c'.2.2.1).1 (Nat.le_of_eq hc)
    have i2 := (hwf.cpt_le_iff hl c'.2.2.1 c.2.2.1).1 (Nat.le_of_eq hc.symm)
    omega
  intro i a b
  by_cases hi : i ∈ allC E.ts l ∧ i ≠ 0
  · obtain ⟨hC, h0⟩ := hi
    obtain ⟨k, hk, rfl⟩ := (hwf.mem_C_iff hl).1 hC
    have hk' : k < npts E.ts (l + 1) := hk
    have k1 := (cpt_lt_lo h.valid h.Ppos h.PN hl (show r ≤ E.P by omega) hk').not.1
      (Nat.not_lt.2 a)
    have k2 := (cpt_lt_lo h.valid h.Ppos h.PN hl (show r + 1 ≤ E.P by omega) hk').1 b
    have hk0 : k ≠ 0 := by
      rintro rfl
      exact h0 (hwf.cpt_zero hl)
    have hm := (hmem _).2 ⟨k, by omega, k2, hk0, rfl⟩
    have := foldl_update_mem xs key (fun ki _ => E.I l (s.u (l + 1) ki.1)) (s.u l) hnd hm
    simp only [hkey] at this
    rw [hkeyv k (by omega) k2] at this
    rw [this, hwf.interpolate_C hl G hk hk0, hR.u (l + 1) k hl (by omega) k2]
    rfl
  · have hnm : i - off E.ts E.P l r ∉ xs.map key := by
      intro hm
      obtain ⟨ci, hci, hce⟩ := List.mem_map.1 hm
      obtain ⟨k, k1, k2, k3, rfl⟩ := (hmem ci).1 hci
      obtain ⟨c1, c2, c3, c4⟩ := own_cpt h hr hl k1 k2
      simp only [hkey] at hce
      rw [hkeyv k k1 k2] at hce
      have hie : i = E.sys.cpt l k := by omega
      apply hi
      refine ⟨hie ▸ c4, ?_⟩
      have := hwf.cpt_lt hl (k := 0) (k' := k) (by omega) c3
      omega
    rw [foldl_update_not_mem xs key (fun ki _ => E.I l (s.u (l + 1) ki.1)) _ hnm,
      hR.u l i hl0 a b, hwf.interpolate_not hl G (by
        by_cases hC : i ∈ allC E.ts l
        · exact Or.inr (not_not.1 fun h0 => hi ⟨hC, h0⟩)
        · exact Or.inl hC)]

/-- Phases without messages. -/
theorem phase_of_local {f : Nat → PState V N → PState V N} {F : GState V → GState V} {l : Nat}
    (hF : ∀ G, (F G).v = G.v ∧ (F G).g = G.g ∧ ∀ l', l' ≠ l → (F G).u l' = G.u l')
    (hf : ∀ r, r < E.P → ∀ (G : GState V) (s : PState V N), E.LRep G r s →
      ∃ x, f r s = s.setLvl l x ∧
      ∀ i, lo E.ts E.P l r ≤ i → i < lo E.ts E.P l (r + 1) →
        x (i - off E.ts E.P l r) = (F G).u l i) (h : E.Good) :
    Phase E (fun r s => .ret (f r s)) F := by
  intro G s hR
  refine ⟨fun r => f r (s r), ⟨?_, ?_⟩, ?_, Runs.ret _⟩
  · intro r hr
    obtain ⟨x, hx, hv⟩ := hf r hr G (s r) (hR.loc r hr)
    show E.LRep _ r (f r (s r))
    rw [hx]
    obtain ⟨f1, f2, f3⟩ := hF G
    constructor
    · intro l' i hl' a b
      by_cases he : l' = l
      · subst he
        rw [PState.setLvl_u]; exact hv i a b
      · rw [PState.setLvl_u_ne _ _ he, (hR.loc r hr).u l' i hl' a b, f3 l' he]
    · rw [f1]; exact (hR.loc r hr).v
    · rw [f2]; exact (hR.loc r hr).g
    · exact (hR.loc r hr).sf
  · intro l' op p q hl' hp hn
    have hq := ((h.chain hl').up p q hp hn).2
    obtain ⟨x, hx, _⟩ := hf p hp G (s p) (hR.loc p hp)
    obtain ⟨y, hy, _⟩ := hf q hq G (s q) (hR.loc q hq)
    show (f p (s p)).tagS l' op = (f q (s q)).tagR l' op
    rw [hx, hy]
    exact hR.tags l' op p q hl' hp hn
  · intro r hr
    obtain ⟨x, hx, _⟩ := hf r hr G (s r) (hR.loc r hr)
    show Same (s r) (f r (s r))
    rw [hx]
    exact ⟨rfl, rfl, rfl, rfl, rfl, rfl, rfl, rfl⟩

theorem errorCorrection_phase [Sub V] (h : E.Good) {l : Nat} (hl : l + 1 < E.ts.length) :
    Phase E (fun r s => .ret (E.errorCorrectionP r l s)) (E.sys.errorCorrection l) :=
  phase_of_local (l := l) (fun G => ⟨rfl, rfl, fun _ hne => Sys.errorCorrection_u_ne G hne⟩)
    (fun _ hr _ _ hR => errorCorrection_local h hr hl hR) h

theorem interpolate_phase (h : E.Good) {l : Nat} (hl : l + 1 < E.ts.length) :
    Phase E (fun r s => .ret (E.interpolateP r l s)) (E.sys.interpolate l) :=
  phase_of_local (l := l) (fun G => ⟨rfl, rfl, fun _ hne => Sys.interpolate_u_ne G hne⟩)
    (fun _ hr _ _ hR => interpolate_local h hr hl hR) h

/-- The restriction part of `fasResidual`. -/
theorem restrict_phase [Sub V] (h : E.Good) {l : Nat} (hl : l + 1 < E.ts.length) :
    Phase E (fun r s => .ret (E.restrictLoop r l s))
      (fun G => ⟨(E.sys.fasResidual l G).u, G.v, G.g⟩) := by
  refine phase_of_local (l := l + 1)
    (fun G => ⟨rfl, rfl, fun _ hne => Sys.fasResidual_u_ne G hne⟩) (fun r hr G s hR => ?_) h
  obtain ⟨x, hx, hv⟩ := restrict_loop h hr hl hR
  refine ⟨x, hx, fun k a b => ?_⟩
  have hk : k < npts E.ts (l + 1) := Nat.lt_of_lt_of_le b (h.lo_le _ _)
  rw [hv k a b]
  exact ((E.sys_wf h.valid).fasResidual_u hl G hk).symm

theorem fasLoop_local [Sub V] (h : E.Good) {r l : Nat} (hr : r < E.P) (hl : l + 1 < E.ts.length)
    {G : GState V} {s : PState V N}
    (hR : E.LRep ⟨(E.sys.fasResidual l G).u, (E.sys.fasResidual l G).v, G.g⟩ r s)
    (hgl : (E.info r l).firstC = true → s.u l 0 = G.u l (lo E.ts E.P l r - 1))
    (hgv : r ≠ 0 → lo E.ts E.P (l + 1) r < lo E.ts E.P (l + 1) (r + 1) →
      s.v (l + 1) 0 = (E.sys.fasResidual l G).u (l + 1) (lo E.ts E.P (l + 1) r - 1)) :
    ∃ x, E.fasLoop r l s = s.setGLvl (l + 1) x ∧
      ∀ k, lo E.ts E.P (l + 1) r ≤ k → k < lo E.ts E.P (l + 1) (r + 1) →
        x (k - off E.ts E.P (l + 1) r) = (E.sys.fasResidual l G).g (l + 1) k := by
  have hl0 : l < E.ts.length := by omega
  have hwf := E.sys_wf h.valid
  have hs := h.spec hr hl0
  set G1 := E.sys.fasResidual l G with hG1
  set xs := (E.info r l).idxC.zipIdx.filter (fun ci => decide (ci.2 ≠ 0 ∨ r ≠ 0)) with hxs
  set key : Nat × Nat → Nat := fun ci => (E.info r (l + 1)).idx.getD ci.2 0 with hkey
  set val : PState V N → Nat × Nat → V := fun s ci =>
    (if l = 0 then E.R l (E.stepAt r l ci.1 (s.u l) - s.u l ci.1)
      else E.R l (s.g l ci.1 - s.u l ci.1 + E.stepAt r l ci.1 (s.u l)))
      + s.v (l + 1) (key ci) - E.stepAt r (l + 1) (key ci) (s.v (l + 1)) with hval
  have hmem : ∀ ci, ci ∈ xs ↔ ∃ k, lo E.ts E.P (l + 1) r ≤ k ∧ k < lo E.ts E.P (l + 1) (r + 1) ∧
      k ≠ 0 ∧ ci = (E.sys.cpt l k - off E.ts E.P l r, k - lo E.ts E.P (l + 1) r) := by
    intro ci
    rw [hxs, List.mem_filter, mem_idxC_zip h hr hl]
    simp only [decide_eq_true_eq]
    constructor
    · rintro ⟨⟨k, a, b, rfl⟩, c⟩
      exact ⟨k, a, b, (skip_iff h hr hl a).1 c, rfl⟩
    · rintro ⟨k, a, b, c, rfl⟩
      exact ⟨⟨k, a, b, rfl⟩, (skip_iff h hr hl a).2 c⟩
  have hkeyv : ∀ k, lo E.ts E.P (l + 1) r ≤ k → k < lo E.ts E.P (l + 1) (r + 1) →
      (E.info r (l + 1)).idx.getD (k - lo E.ts E.P (l + 1) r) 0 = k - off E.ts E.P (l + 1) r :=
    fun k a b => idx_getD h hr hl hl a (by omega)
  have e : E.fasLoop r l s = s.setGLvl (l + 1)
      (xs.foldl (fun u ci => Function.update u (key ci) (val s ci)) (s.g (l + 1))) := by
    have := foldl_setG xs key (l + 1) val (val s) s (fun x ci _ => by
      simp only [hval, PState.setGLvl]
      rw [Function.update_of_ne (show l ≠ l + 1 by omega)])
    rw [← this]
    unfold fasLoop
    rw [foldl_ite]
    congr 1
    funext s ci
    simp only [hval]
    by_cases hl00 : l = 0
    · simp only [hl00, if_true, hkey]
    · simp only [hl00, if_false, hkey]
  refine ⟨_, e, ?_⟩
  have hnd : (xs.map key).Nodup := by
    have h1 : (xs.map Prod.snd).Nodup := nodup_filter_map _ _ _ (zipIdx_map_snd_nodup _)
    have h2 : xs.map key = (xs.map Prod.snd).map fun i => (E.info r (l + 1)).idx.getD i 0 := by
      rw [List.map_map]; rfl
    rw [h2]
    refine h1.map_on ?_
    intro x hx y hy hxy
    obtain ⟨a, ha, rfl⟩ := List.mem_map.1 hx
    obtain ⟨b, hb, rfl⟩ := List.mem_map.1 hy
    obtain ⟨k, k1, k2, k3, rfl⟩ := (hmem a).1 ha
    obtain ⟨k', k1', k2', k3', rfl⟩ := (hmem b).1 hb
    simp only at hxy ⊢
    rw [hkeyv k k1 k2, hkeyv k' k1' k2'] at hxy
    have ho := h.off_add hl (Nat.le_of_lt hr)
    omega
  intro k a b
  by_cases hk0 : k = 0
  · have hnm : k - off E.ts E.P (l + 1) r ∉ xs.map key := by
      intro hm
      obtain ⟨ci, hci, hce⟩ := List.mem_map.1 hm
      obtain ⟨k', k1, k2, k3, rfl⟩ := (hmem ci).1 hci
      simp only [hkey] at hce
      rw [hkeyv k' k1 k2] at hce
      have ho := h.off_add hl (Nat.le_of_lt hr)
      omega
    rw [foldl_update_not_mem xs key (fun ci _ => val s ci) _ hnm, hR.g (l + 1) k hl a b]
    subst hk0
    have : G1.g (l + 1) 0 = G.g (l + 1) 0 := by
      rw [hG1]
      simp only [Sys.fasResidual, Function.update_self]
      rw [foldl_if (E.sys.C l).zipIdx (fun ck => ck.2 = 0)]
      refine foldl_update_not_mem _ Prod.snd _ _ ?_
      intro hm
      obtain ⟨ck, hck, hce⟩ := List.mem_map.1 hm
      have := (List.mem_filter.1 hck).2
      simp [hce] at this
    exact this.symm
  · have hm := (hmem _).2 ⟨k, a, b, hk0, rfl⟩
    have := foldl_update_mem xs key (fun ci _ => val s ci) (s.g (l + 1)) hnd hm
    simp only [hkey] at this
    rw [hkeyv k a b] at this
    rw [this]
    obtain ⟨c1, c2, c3, c4⟩ := own_cpt h hr hl a b
    have hc0 : E.sys.cpt l k ≠ 0 := by
      have := hwf.cpt_lt hl (k := 0) (k' := k) (by omega) c3
      omega
    -- the ingredients
    have hul : G1.u l = G.u l := Sys.fasResidual_u_ne G (by omega)
    have u1 : s.u l (E.sys.cpt l k - off E.ts E.P l r) = G.u l (E.sys.cpt l k) := by
      rw [hR.u l _ hl0 c1 c2]
      show G1.u l _ = _
      rw [hul]
    have g1 : s.g l (E.sys.cpt l k - off E.ts E.P l r) = G.g l (E.sys.cpt l k) :=
      hR.g l _ hl0 c1 c2
    have uprev : E.sys.Φ l (E.sys.cpt l k) (s.u l (E.sys.cpt l k - 1 - off E.ts E.P l r)) =
        E.sys.Φ l (E.sys.cpt l k) (G.u l (E.sys.cpt l k - 1)) := by
      by_cases hcc : E.sys.cpt l k = lo E.ts E.P l r ∧ E.sys.cpt l k - 1 ∈ allC E.ts l
      · exact h.cc hr hl hc0 (by have := h.lo_le l (r + 1); omega) hcc.1 hcc.2 c4 _ _
      congr 1
      by_cases hlo : E.sys.cpt l k = lo E.ts E.P l r
      · have hr0 : r ≠ 0 := by
          rintro rfl
          rw [h.lo_zero hl0] at hlo
          exact hc0 hlo
        have ho := h.off_add hl0 (Nat.le_of_lt hr)
        simp only [gh, hr0, if_false] at ho
        have hz : E.sys.cpt l k - 1 - off E.ts E.P l r = 0 := by omega
        have hnC : E.sys.cpt l k - 1 ∉ allC E.ts l := fun hc => hcc ⟨hlo, hc⟩
        rw [hz, hgl (hs.firstC.2 ⟨by omega, by omega, hlo ▸ c4, hlo ▸ hnC⟩), hlo]
      · rw [hR.u l _ hl0 (by omega) (by omega)]
        show G1.u l _ = _
        rw [hul]
    have v1 : s.v (l + 1) (k - off E.ts E.P (l + 1) r) = G1.u (l + 1) k := by
      rw [hR.v (l + 1) k hl a b]
      show G1.v (l + 1) k = _
      rw [hG1, Sys.fasResidual_v_eq]
    have vprev : s.v (l + 1) (k - 1 - off E.ts E.P (l + 1) r) = G1.u (l + 1) (k - 1) := by
      by_cases hlo : k = lo E.ts E.P (l + 1) r
      · have hr0 : r ≠ 0 := by
          rintro rfl
          rw [h.lo_zero hl] at hlo
          exact hk0 hlo
        have ho := h.off_add hl (Nat.le_of_lt hr)
        simp only [gh, hr0, if_false] at ho
        have hz : k - 1 - off E.ts E.P (l + 1) r = 0 := by omega
        rw [hz, hgv hr0 (by omega), hlo]
      · rw [hR.v (l + 1) (k - 1) hl (by omega) (by omega)]
        show G1.v (l + 1) _ = _
        rw [hG1, Sys.fasResidual_v_eq]
    rw [hG1, hwf.fasResidual_g hl G c3 hk0, ← hG1]
    simp only [hval, hkey]
    rw [hkeyv k a b, stepAt_eq h hr hl0 c1 c2 hc0, stepAt_eq h hr hl a b hk0, u1, g1, uprev, v1,
      vprev]
    rfl

theorem fasResidual_phase [Sub V] (h : E.Good) {l : Nat} (hl : l + 1 < E.ts.length) :
    Phase E (fun r => E.fasResidualP r l) (E.sys.fasResidual l) := by
  intro G s hR
  have hl0 : l < E.ts.length := by omega
  set G1 := E.sys.fasResidual l G with hG1
  have hul : G1.u l = G.u l := Sys.fasResidual_u_ne G (by omega)
  -- restriction
  obtain ⟨s1, hR1, hS1, hrun1⟩ := restrict_phase h hl G s hR
  simp only at hR1
  -- fine ghost points
  obtain ⟨s2, hR2, hS2, hu2, hvg2, hgh2, hrun2⟩ := ex_last h (op := 3) hl0 (by decide) hR1
    (fun r hr hf => ((h.spec hr hl0).lastF.1 hf).1)
  -- coarse ghost points
  have hl4 : lvlOf l 4 < E.ts.length := hl
  set x4 : Nat → V := fun r => (s2 r).u (l + 1) ((E.info r (l + 1)).idx.getLastD 0) with hx4
  have hrun3 := exP_runs (lu := l + 1) h hl4 hR2.tags (fun r hr => (hR2.loc r hr).sf l 4) x4
  have hR3 := afterEx_rep (lu := l + 1) (x := x4) h hl4 hR2
  set s3 : Nat → PState V N := fun r => afterEx E l 4 (l + 1) x4 r (s2 r) with hs3
  have hg3 : ∀ r, r < E.P → r ≠ 0 → lo E.ts E.P (l + 1) r < lo E.ts E.P (l + 1) (r + 1) →
      (s3 r).u (l + 1) 0 = G1.u (l + 1) (lo E.ts E.P (l + 1) r - 1) := by
    intro r hr hr0 hne
    obtain ⟨p, hadj⟩ := h.adj_left hr hl hne (h.lo_pos hl (Nat.le_of_lt hr) hr0)
    have hgf := ((h.spec hr hl).getFrom p).2 hadj
    have hp : E.prv l 4 r = some p := by
      show (if (E.info r (l + 1)).getFrom.isSome = true then (E.info r (l + 1)).getFrom else none) = _
      rw [hgf]; rfl
    have hpP : p < E.P := by have := hadj.1; omega
    rw [hs3]
    simp only
    rw [afterEx_u_ghost hp, hx4]
    simp only
    have hsp := h.spec hpP hl
    have ho := h.off_add hl (Nat.le_of_lt hpP)
    have a3 := hadj.2.2.1
    have a5 := hadj.2.2.2.2
    have hlast : (E.info p (l + 1)).idx.getLastD 0
        = lo E.ts E.P (l + 1) (p + 1) - 1 - off E.ts E.P (l + 1) p := by
      rw [hsp.idx, range'_getLastD (by omega)]
      omega
    rw [hlast, (hR2.loc p hpP).u (l + 1) _ hl (by omega) (by omega), a5]
  -- v := u
  set s4 : Nat → PState V N := fun r =>
    { s3 r with v := Function.update (s3 r).v (l + 1) ((s3 r).u (l + 1)) } with hs4
  have hR4 : ∀ r, r < E.P → E.LRep ⟨G1.u, G1.v, G.g⟩ r (s4 r) := by
    intro r hr
    have hL := hR3.loc r hr
    constructor
    · exact hL.u
    · intro l' i hl' a b
      show Function.update (s3 r).v (l + 1) ((s3 r).u (l + 1)) l' _ = G1.v l' i
      by_cases he : l' = l + 1
      · subst he
        rw [Function.update_self, hL.u (l + 1) i hl' a b, hG1, Sys.fasResidual_v_eq]
      · rw [Function.update_of_ne he, hL.v l' i hl' a b, hG1, Sys.fasResidual_v_ne G he]
    · exact hL.g
    · exact hL.sf
  have hloop : ∀ r, r < E.P → ∃ x, E.fasLoop r l (s4 r) = (s4 r).setGLvl (l + 1) x ∧
      ∀ k, lo E.ts E.P (l + 1) r ≤ k → k < lo E.ts E.P (l + 1) (r + 1) →
        x (k - off E.ts E.P (l + 1) r) = G1.g (l + 1) k := by
    intro r hr
    refine fasLoop_local h hr hl (hR4 r hr) ?_ ?_
    · intro hf
      show (s3 r).u l 0 = _
      rw [hs3]
      simp only
      rw [afterEx_u_lvl (by omega), hgh2 r hr hf]
      show G1.u l _ = _
      rw [hul]
    · intro hr0 hne
      show Function.update (s3 r).v (l + 1) ((s3 r).u (l + 1)) (l + 1) 0 = _
      rw [Function.update_self, hg3 r hr hr0 hne]
  refine ⟨fun r => E.fasLoop r l (s4 r), ⟨?_, ?_⟩, ?_, ?_⟩
  · intro r hr
    obtain ⟨x, hx, hv⟩ := hloop r hr
    show E.LRep _ r (E.fasLoop r l (s4 r))
    rw [hx]
    have hL := hR4 r hr
    constructor
    · exact hL.u
    · exact hL.v
    · intro l' i hl' a b
      show Function.update (s4 r).g (l + 1) x l' _ = _
      by_cases he : l' = l + 1
      · subst he
        rw [Function.update_self]; exact hv i a b
      · rw [Function.update_of_ne he, hL.g l' i hl' a b, hG1, Sys.fasResidual_g_ne G he]
    · exact hL.sf
  · intro l' op p q hl' hp hn
    have hq := ((h.chain hl').up p q hp hn).2
    obtain ⟨x, hx, _⟩ := hloop p hp
    obtain ⟨y, hy, _⟩ := hloop q hq
    show (E.fasLoop p l (s4 p)).tagS l' op = (E.fasLoop q l (s4 q)).tagR l' op
    rw [hx, hy]
    exact hR3.tags l' op p q hl' hp hn
  · intro r hr
    obtain ⟨x, hx, _⟩ := hloop r hr
    refine ((hS1 r hr).trans (hS2 r hr)).trans ?_
    show Same (s2 r) (E.fasLoop r l (s4 r))
    rw [hx]
    have : Same (s2 r) (s3 r) := afterEx_same
    exact ⟨this.saved, this.conv, this.fin, this.finIt, this.pre, this.preIt, this.solveIter,
      this.outs⟩
  · have r12 := hrun1.bind (g := fun r s => exP E l 3 l r (s.u l (E.len r l - 1)) s) hrun2
    have r123 := r12.bind (g := fun r s =>
      exP E l 4 (l + 1) r (s.u (l + 1) ((E.info r (l + 1)).idx.getLastD 0)) s) hrun3
    have := r123.bind (g := fun r s => Prog.ret (E.fasLoop r l
      { s with v := Function.update s.v (l + 1) (s.u (l + 1)) })) (Runs.ret _)
    refine this.congr (fun r hr => ?_) (fun _ _ => rfl)
    unfold fasResidualP exP
    simp only [Prog.bind_assoc, Prog.ret_bind]
    rfl

/-! ### Cycles -/

omit [LinearOrder T] [Inhabited T] [Add V] in
theorem timesP_phase [LinearOrder T] [Inhabited T]
    {f : Nat → PState V N → Prog (Msg V N) (PState V N)} {F : GState V → GState V}
    (hf : Phase E f F) (k : Nat) :
    Phase E (fun r s => timesP (f r) k s) (Sys.times F k) := by
  induction k with
  | zero => exact Phase.id
  | succ k ih => exact hf.comp ih

variable [Sub V] [SMul K V] [One K] [Sub K]

theorem down_phase (h : E.Good) {l it : Nat} {firstF : Bool} (hl : l + 1 < E.ts.length) :
    Phase E (fun r s =>
      ((if (0 < l ∨ (it = 0 ∧ l = 0)) ∧ firstF then E.fRelaxP r l s else .ret s).bind fun s =>
      (timesP (fun s => (E.cRelaxP r l s).bind (E.fRelaxP r l)) (E.cf l) s)).bind fun s =>
      (E.fasResidualP r l s))
      (fun G => E.sys.fasResidual l (Sys.times (fun G => E.sys.fRelax l (E.sys.cRelax l G)) (E.cf l)
        (if (0 < l ∨ (it = 0 ∧ l = 0)) ∧ firstF then E.sys.fRelax l G else G))) := by
  have p1 : Phase E (fun r s => if (0 < l ∨ (it = 0 ∧ l = 0)) ∧ firstF then E.fRelaxP r l s
      else .ret s) (fun G => if (0 < l ∨ (it = 0 ∧ l = 0)) ∧ firstF then E.sys.fRelax l G else G) :=
    Phase.ite (fun _ => fRelax_phase h hl) (fun _ => Phase.id)
  have p2 := timesP_phase ((cRelax_phase h hl).comp (fRelax_phase h hl)) (E.cf l)
  exact (p1.comp p2).comp (fasResidual_phase h hl)

theorem up_phase (h : E.Good) {l : Nat} (hl : l + 1 < E.ts.length) :
    Phase E (fun r s => E.fRelaxP r l (E.errorCorrectionP r l s))
      (fun G => E.sys.fRelax l (E.sys.errorCorrection l G)) :=
  (errorCorrection_phase h hl).comp (fRelax_phase h hl)

theorem vcyc_phase (h : E.Good) (d l it : Nat) (firstF : Bool) (hd : l + d + 1 = E.ts.length) :
    Phase E (fun r => E.vcycP r d l it firstF) (E.sys.vcyc E.sys.forwardSolve d l it firstF) := by
  induction d generalizing l firstF with
  | zero => exact forwardSolve_phase h (by omega)
  | succ d ih =>
    have p := ((down_phase h (l := l) (it := it) (firstF := firstF) (by omega)).comp
      (ih (l + 1) true (by omega))).comp (up_phase h (l := l) (by omega))
    intro G s hR
    obtain ⟨s', a, b, c⟩ := p G s hR
    refine ⟨s', a, b, c.congr (fun r hr => ?_) (fun _ _ => rfl)⟩
    simp only [Cfg.vcycP, Prog.bind_assoc]

theorem iteration_phase (h : E.Good) (d l : Nat) (cyc : Sys.Cycle) (it : Nat) (firstF : Bool)
    (hd : l + d + 1 = E.ts.length) :
    Phase E (fun r => E.iterationP r d l cyc it firstF)
      (E.sys.iteration E.sys.forwardSolve d l cyc it firstF) := by
  induction d generalizing l firstF with
  | zero => exact forwardSolve_phase h (by omega)
  | succ d ih =>
    have p := (((down_phase h (l := l) (it := it) (firstF := firstF) (by omega)).comp
      (ih (l + 1) true (by omega))).comp (up_phase h (l := l) (by omega))).comp
      (Phase.ite (c := l ≠ 0 ∧ cyc = Sys.Cycle.F)
        (fun _ => vcyc_phase h (d + 1) l it false (by omega)) (fun _ => Phase.id))
    intro G s hR
    obtain ⟨s', a, b, c⟩ := p G s hR
    refine ⟨s', a, b, c.congr (fun r hr => ?_) (fun _ _ => rfl)⟩
    simp only [Cfg.iterationP, Prog.bind_assoc]

theorem nestedLoop_phase (h : E.Good) (l : Nat) (hl : l + 1 ≤ E.ts.length) :
    Phase E (fun r => E.nestedLoopP r l) (E.sys.nestedLoop E.sys.forwardSolve l) := by
  induction l with
  | zero => exact Phase.id
  | succ l ih =>
    have p := ((interpolate_phase h (l := l) (by omega)).comp
      (Phase.ite (c := 0 < l)
        (fun _ => iteration_phase h (E.ts.length - 1 - l) l Sys.Cycle.V 0 true (by omega))
        (fun _ => Phase.id))).comp (ih (by omega))
    intro G s hR
    obtain ⟨s', a, b, c⟩ := p G s hR
    refine ⟨s', a, b, c.congr (fun r hr => ?_) (fun _ _ => rfl)⟩
    simp only [Cfg.nestedLoopP, Prog.bind_assoc, Prog.ret_bind]
    rfl

theorem nestedIteration_phase (h : E.Good) :
    Phase E (fun r => E.nestedIterationP r) (E.sys.nestedIteration E.sys.forwardSolve) := by
  have := h.valid.pos
  exact (forwardSolve_phase h (l := E.ts.length - 1) (by omega)).comp
    (nestedLoop_phase h (E.ts.length - 1) (by omega))

/-- One iteration on the finest level.  With one level the ghost points are up to date afterwards. -/
theorem fineIteration_ghost (h : E.Good) (it : Nat) (G : GState V) (s : Nat → PState V N)
    (hR : E.Rep G s) :
    ∃ s', E.Rep (E.sys.fineIteration E.sys.forwardSolve E.cyc it G) s' ∧
      (∀ r, r < E.P → Same (s r) (s' r)) ∧
      (E.ts.length = 1 → GhostOK E 0 (E.sys.fineIteration E.sys.forwardSolve E.cyc it G) s') ∧
      Runs E.P (fun r => E.iterationP r (E.L - 1) 0 E.cyc it true (s r)) s' := by
  have hp := h.valid.pos
  by_cases h1 : E.ts.length = 1
  · have e1 : E.L - 1 = 0 := by unfold L; omega
    have e2 : E.sys.L - 1 = 0 := by show E.ts.length - 1 = 0; omega
    unfold Sys.fineIteration
    rw [e2]
    obtain ⟨s', a, b, c, d⟩ := forwardSolve_ghost h (l := 0) (by omega) G s hR
    refine ⟨s', a, b, fun _ => c, ?_⟩
    rw [e1]
    exact d
  · obtain ⟨s', a, b, c⟩ := iteration_phase h (E.ts.length - 1) 0 E.cyc it true (by omega) G s hR
    exact ⟨s', a, b, fun hc => absurd hc h1, c⟩

end ops
end Cfg
end Pymgrit
