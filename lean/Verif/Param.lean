import Verif.SweepFacts

/-!
# Relations preserved by the algorithm

Two systems on the same grids, possibly with values in different spaces, and three families of
relations between their values (one per level): `P` for values of the solution, `D` for differences of
such values, `M` for values of the form "difference minus value".  If steps, transfers and the vector
operations respect the relations, so do the iterates.  Used in `Verif.PropsParam`.
-/

set_option linter.unusedSectionVars false

namespace Pymgrit
namespace Sys

variable {V K V' K' : Type}

section
variable [Add V] [Sub V] [SMul K V] [One K] [Sub K] [Add V'] [Sub V'] [SMul K' V'] [One K'] [Sub K']

/-- The relations are respected by everything the algorithm applies to values.  (A specification, no
part of the code is modelled here.) -/
structure Respects (S : Sys V K) (S' : Sys V' K') (P D M : Nat → V → V' → Prop) : Prop where
  L : S'.L = S.L
  n : S'.n = S.n
  C : S'.C = S.C
  F : S'.F = S.F
  cf : S'.cf = S.cf
  step : ∀ l i x x', l < S.L → 1 ≤ i → i < S.n l → P l x x' → P l (S.Φ l i x) (S'.Φ l i x')
  relax : ∀ l x x' y y', l + 1 < S.L → P l x x' → P l y y' →
    P l (S.w • x + (1 - S.w) • y) (S'.w • x' + (1 - S'.w) • y')
  dif : ∀ l x x' y y', P l x x' → P l y y' → D l (x - y) (x' - y')
  difAdd : ∀ l d d' x x', D l d d' → P l x x' → P l (d + x) (d' + x')
  addDif : ∀ l x x' d d', P l x x' → D l d d' → P l (x + d) (x' + d')
  difSub : ∀ l d d' x x', D l d d' → P l x x' → M l (d - x) (d' - x')
  subAdd : ∀ l a a' x x', M l a a' → P l x x' → D l (a + x) (a' + x')
  restrict : ∀ l x x', l + 1 < S.L → P l x x' → P (l + 1) (S.R l x) (S'.R l x')
  restrictDif : ∀ l x x', l + 1 < S.L → D l x x' → D (l + 1) (S.R l x) (S'.R l x')
  interpDif : ∀ l x x', l + 1 < S.L → D (l + 1) x x' → D l (S.I l x) (S'.I l x')

end

section
variable {S : Sys V K} {S' : Sys V' K'} {P D M : Nat → V → V' → Prop}

/-- All values of level `l` are related. -/
def URel (S : Sys V K) (P : Nat → V → V' → Prop) (l : Nat) (s : GState V) (s' : GState V') : Prop :=
  ∀ i, i < S.n l → P l (s.u l i) (s'.u l i)

/-- The values at the C-points of level `l` are related. -/
def CRel (S : Sys V K) (P : Nat → V → V' → Prop) (l : Nat) (s : GState V) (s' : GState V') : Prop :=
  ∀ i, i ∈ S.C l → P l (s.u l i) (s'.u l i)

/-- The right-hand sides of level `l > 0` are related. -/
def GRel (S : Sys V K) (D : Nat → V → V' → Prop) (l : Nat) (s : GState V) (s' : GState V') : Prop :=
  l ≠ 0 → ∀ i, 1 ≤ i → i < S.n l → D l (s.g l i) (s'.g l i)

variable [Add V] [Sub V] [SMul K V] [One K] [Sub K] [Add V'] [Sub V'] [SMul K' V'] [One K'] [Sub K']

theorem Respects.wf (c : Respects S S' P D M) (h : S.WF) : S'.WF where
  Lpos := by rw [c.L]; exact h.Lpos
  npos := by rw [c.L, c.n]; exact h.npos
  C_sorted := by rw [c.L, c.C]; exact h.C_sorted
  C_zero := by rw [c.L, c.C]; exact h.C_zero
  C_len := by rw [c.L, c.C, c.n]; exact h.C_len
  C_lt := by rw [c.L, c.C, c.n]; exact h.C_lt
  C_last := by rw [c.L, c.C, c.n]; exact h.C_last
  F_mem := by rw [c.L, c.C, c.F, c.n]; exact h.F_mem
  F_compat := by rw [c.L, c.F]; exact h.F_compat

theorem Respects.prop_rel (c : Respects S S' P D M) {l i : Nat} (hl : l < S.L) (h1 : 1 ≤ i)
    (hi : i < S.n l) {s : GState V} {s' : GState V'} (hG : GRel S D l s s') {x : V} {x' : V'}
    (hx : P l x x') : P l (S.prop s.g l i x) (S'.prop s'.g l i x') := by
  unfold prop
  split
  · exact c.step l i x x' hl h1 hi hx
  · next h0 => exact c.difAdd l _ _ _ _ (hG h0 i h1 hi) (c.step l i x x' hl h1 hi hx)

theorem URel.c (h : S.WF) {l : Nat} (hl : l + 1 < S.L) {s : GState V} {s' : GState V'}
    (hU : URel S P l s s') : CRel S P l s s' := fun i hi => hU i (h.C_lt l hl i hi)

theorem Respects.fRelax_rel (c : Respects S S' P D M) (h : S.WF) {l : Nat} (hl : l + 1 < S.L)
    {s : GState V} {s' : GState V'} (hC : CRel S P l s s') (hG : GRel S D l s s') :
    URel S P l (S.fRelax l s) (S'.fRelax l s') := by
  have h' := c.wf h
  have hl' : l + 1 < S'.L := by rw [c.L]; exact hl
  intro i
  induction i with
  | zero =>
    intro _
    rw [h.fRelax_C hl s (h.zero_mem_C hl), h'.fRelax_C hl' s' (h'.zero_mem_C hl')]
    exact hC 0 (h.zero_mem_C hl)
  | succ i ih =>
    intro hi
    by_cases hm : i + 1 ∈ S.C l
    · rw [h.fRelax_C hl s hm, h'.fRelax_C hl' s' (by rw [c.C]; exact hm)]
      exact hC _ hm
    · rw [h.fRelax_F hl s hi hm, h'.fRelax_F hl' s' (by rw [c.n]; exact hi) (by rw [c.C]; exact hm)]
      exact c.prop_rel (by omega) (by omega) hi hG (ih (by omega))

theorem Respects.cRelax_rel (c : Respects S S' P D M) (h : S.WF) {l : Nat} (hl : l + 1 < S.L)
    {s : GState V} {s' : GState V'} (hU : URel S P l s s') (hG : GRel S D l s s') :
    URel S P l (S.cRelax l s) (S'.cRelax l s') := by
  have h' := c.wf h
  have hl' : l + 1 < S'.L := by rw [c.L]; exact hl
  intro i
  induction i with
  | zero =>
    intro hi
    rw [cRelax_zero, cRelax_zero]
    exact hU 0 hi
  | succ i ih =>
    intro hi
    by_cases hm : i + 1 ∈ S.C l
    · rw [h.cRelax_C hl s hm (by omega), h'.cRelax_C hl' s' (by rw [c.C]; exact hm) (by omega)]
      exact c.relax l _ _ _ _ hl (c.prop_rel (by omega) (by omega) hi hG (ih (by omega))) (hU _ hi)
    · rw [cRelax_not_C s hm, cRelax_not_C s' (by rw [c.C]; exact hm)]
      exact hU _ hi

theorem Respects.times_rel (c : Respects S S' P D M) (h : S.WF) {l : Nat} (hl : l + 1 < S.L) (k : Nat)
    {s : GState V} {s' : GState V'} (hU : URel S P l s s') (hG : GRel S D l s s') :
    URel S P l (times (fun s => S.fRelax l (S.cRelax l s)) k s)
      (times (fun s => S'.fRelax l (S'.cRelax l s)) k s') := by
  induction k generalizing s s' with
  | zero => exact hU
  | succ k ih => exact ih (c.fRelax_rel h hl (URel.c h hl (c.cRelax_rel h hl hU hG)) hG) hG

theorem times_fc_g (l k : Nat) (s : GState V) :
    (times (fun s => S.fRelax l (S.cRelax l s)) k s).g = s.g := by
  induction k generalizing s with
  | zero => rfl
  | succ k ih => simp only [times]; rw [ih]; rfl

theorem Respects.fas_rel (c : Respects S S' P D M) (h : S.WF) {l : Nat} (hl : l + 1 < S.L)
    {s : GState V} {s' : GState V'} (hU : URel S P l s s') (hG : GRel S D l s s') :
    URel S P (l + 1) (S.fasResidual l s) (S'.fasResidual l s') ∧
    GRel S D (l + 1) (S.fasResidual l s) (S'.fasResidual l s') := by
  have h' := c.wf h
  have hl' : l + 1 < S'.L := by rw [c.L]; exact hl
  have ecpt : ∀ k, S'.cpt l k = S.cpt l k := by intro k; unfold cpt; rw [c.C]
  have hb : ∀ k, k < S.n (l + 1) → S.cpt l k < S.n l := fun k hk =>
    h.C_lt l hl _ (cpt_mem (by rw [h.C_len l hl]; exact hk))
  have hu : URel S P (l + 1) (S.fasResidual l s) (S'.fasResidual l s') := by
    intro k hk
    rw [h.fasResidual_u hl s hk, h'.fasResidual_u hl' s' (by rw [c.n]; exact hk), ecpt]
    exact c.restrict l _ _ hl (hU _ (hb k hk))
  refine ⟨hu, fun _ k h1 hk => ?_⟩
  rw [h.fasResidual_g hl s hk (by omega), h'.fasResidual_g hl' s' (by rw [c.n]; exact hk) (by omega),
    ecpt]
  refine c.dif _ _ _ _ _ (c.difAdd _ _ _ _ _ ?_ (hu k hk))
    (c.step _ _ _ _ hl h1 hk (hu (k - 1) (by omega)))
  have hpos : 1 ≤ S.cpt l k := by
    have := h.cpt_lt hl (k := 0) (k' := k) (by omega) hk
    omega
  have hΦ := c.step l (S.cpt l k) _ _ (by omega) hpos (hb k hk)
    (hU (S.cpt l k - 1) (by have := hb k hk; omega))
  unfold fasRes
  split
  · exact c.restrictDif l _ _ hl (c.dif _ _ _ _ _ hΦ (hU _ (hb k hk)))
  · next h0 =>
    exact c.restrictDif l _ _ hl
      (c.subAdd _ _ _ _ _ (c.difSub _ _ _ _ _ (hG h0 _ hpos (hb k hk)) (hU _ (hb k hk))) hΦ)

theorem Respects.correct_rel (c : Respects S S' P D M) (h : S.WF) {l : Nat} (hl : l + 1 < S.L)
    {s : GState V} {s' : GState V'} (hU : URel S P l s s') (hU1 : URel S P (l + 1) s s')
    (hV : ∀ k, k < S.n (l + 1) → P (l + 1) (s.v (l + 1) k) (s'.v (l + 1) k)) :
    CRel S P l (S.errorCorrection l s) (S'.errorCorrection l s') := by
  have h' := c.wf h
  have hl' : l + 1 < S'.L := by rw [c.L]; exact hl
  have ecpt : ∀ k, S'.cpt l k = S.cpt l k := by intro k; unfold cpt; rw [c.C]
  intro i hi
  obtain ⟨k, hk, rfl⟩ := (h.mem_C_iff hl).1 hi
  have hin := h.C_lt l hl _ hi
  by_cases h0 : k = 0
  · subst h0
    rw [h.errorCorrection_not hl s (Or.inr (h.cpt_zero hl)),
      h'.errorCorrection_not hl' s' (Or.inr (h.cpt_zero hl))]
    exact hU _ hin
  · have e' := h'.errorCorrection_C hl' s' (k := k) (by rw [c.n]; exact hk) h0
    rw [ecpt] at e'
    rw [h.errorCorrection_C hl s hk h0, e']
    exact c.addDif _ _ _ _ _ (hU _ hin) (c.interpDif l _ _ hl (c.dif _ _ _ _ _ (hU1 k hk) (hV k hk)))

/-- What a coarsest-level solver has to satisfy. -/
structure CoarseRel (S : Sys V K) (P D : Nat → V → V' → Prop) (co : Nat → GState V → GState V)
    (co' : Nat → GState V' → GState V') : Prop where
  keeps : ∀ s, Keeps (S.L - 1) s (co (S.L - 1) s)
  keeps' : ∀ s, Keeps (S.L - 1) s (co' (S.L - 1) s)
  rel : ∀ s s', URel S P (S.L - 1) s s' → GRel S D (S.L - 1) s s' →
    URel S P (S.L - 1) (co (S.L - 1) s) (co' (S.L - 1) s')

variable {co : Nat → GState V → GState V} {co' : Nat → GState V' → GState V'}

/-- The part of a cycle around the recursive call. -/
theorem Respects.body_rel (c : Respects S S' P D M) (h : S.WF) {l : Nat} (hl : l + 1 < S.L)
    {f : GState V → GState V} {f' : GState V' → GState V'}
    (hk : ∀ s, Keeps (l + 1) s (f s)) (hk' : ∀ s, Keeps (l + 1) s (f' s))
    (hf : ∀ s s', URel S P (l + 1) s s' → GRel S D (l + 1) s s' → URel S P (l + 1) (f s) (f' s'))
    (b : Prop) [Decidable b] {s : GState V} {s' : GState V'} (hC : CRel S P l s s')
    (hU : b ∨ URel S P l s s') (hG : GRel S D l s s') :
    URel S P l
      (S.fRelax l (S.errorCorrection l (f (S.fasResidual l
        (times (fun s => S.fRelax l (S.cRelax l s)) (S.cf l) (if b then S.fRelax l s else s))))))
      (S'.fRelax l (S'.errorCorrection l (f' (S'.fasResidual l
        (times (fun s => S'.fRelax l (S'.cRelax l s)) (S'.cf l)
          (if b then S'.fRelax l s' else s')))))) := by
  have h' := c.wf h
  have hb : URel S P l (if b then S.fRelax l s else s) (if b then S'.fRelax l s' else s') := by
    split
    · exact c.fRelax_rel h hl hC hG
    · next hn => exact hU.resolve_left hn
  have hg : (if b then S.fRelax l s else s).g = s.g := by split <;> rfl
  have hg' : (if b then S'.fRelax l s' else s').g = s'.g := by split <;> rfl
  have hG1 : GRel S D l (if b then S.fRelax l s else s) (if b then S'.fRelax l s' else s') := by
    unfold GRel; rw [hg, hg']; exact hG
  have h2 := c.times_rel h hl (S.cf l) hb hG1
  have hG2 : GRel S D l
      (times (fun s => S.fRelax l (S.cRelax l s)) (S.cf l) (if b then S.fRelax l s else s))
      (times (fun s => S'.fRelax l (S'.cRelax l s)) (S.cf l) (if b then S'.fRelax l s' else s')) := by
    unfold GRel; rw [times_fc_g, times_fc_g]; exact hG1
  rw [c.cf]
  generalize times (fun s => S.fRelax l (S.cRelax l s)) (S.cf l) (if b then S.fRelax l s else s) = t
    at h2 hG2
  generalize times (fun s => S'.fRelax l (S'.cRelax l s)) (S.cf l)
    (if b then S'.fRelax l s' else s') = t' at h2 hG2
  obtain ⟨hu1, hg1⟩ := c.fas_rel h hl h2 hG2
  have hf1 := hf _ _ hu1 hg1
  refine c.fRelax_rel h hl (c.correct_rel h hl ?_ hf1 ?_) ?_
  · intro i hi
    rw [(hk _).u_lt l (by omega), (hk' _).u_lt l (by omega), fasResidual_u_ne _ (by omega),
      fasResidual_u_ne _ (by omega)]
    exact h2 i hi
  · intro k hkn
    rw [(hk _).v_le (l + 1) (by omega), (hk' _).v_le (l + 1) (by omega), fasResidual_v_eq,
      fasResidual_v_eq]
    exact hu1 k hkn
  · intro h0 i h1 hi
    rw [errorCorrection_g, errorCorrection_g, (hk _).g_le l (by omega), (hk' _).g_le l (by omega),
      fasResidual_g_ne _ (by omega), fasResidual_g_ne _ (by omega)]
    exact hG2 h0 i h1 hi

theorem Respects.coarse_C (h : S.WF) {s : GState V} {s' : GState V'} :
    CRel S P (S.L - 1) s s' ↔ URel S P (S.L - 1) s s' := by
  unfold CRel URel
  rw [h.C_last]
  simp

theorem Respects.vcyc_rel (c : Respects S S' P D M) (h : S.WF) (hco : CoarseRel S P D co co')
    (d l it : Nat) (ff : Bool) (hd : l + d + 1 = S.L) {s : GState V} {s' : GState V'}
    (hC : CRel S P l s s') (hU : ((0 < l ∨ it = 0) ∧ ff = true) ∨ URel S P l s s')
    (hG : GRel S D l s s') :
    URel S P l (S.vcyc co d l it ff s) (S'.vcyc co' d l it ff s') := by
  have h' := c.wf h
  induction d generalizing l ff s s' with
  | zero =>
    have : l = S.L - 1 := by omega
    subst this
    exact hco.rel s s' ((coarse_C h).1 hC) hG
  | succ d ih =>
    have hl : l + 1 < S.L := by omega
    simp only [vcyc]
    refine c.body_rel h hl
      (fun s => by
        rw [← iteration_V_eq_vcyc]
        exact h.keeps_iteration hco.keeps d (l + 1) it Cycle.V true (by omega) s)
      (fun s => by
        rw [← iteration_V_eq_vcyc]
        exact h'.keeps_iteration (by rw [c.L]; exact hco.keeps') d (l + 1) it Cycle.V true
          (by rw [c.L]; omega) s) ?_ _ hC ?_ hG
    · intro s s' hu hg
      rcases Nat.lt_or_ge (l + 1 + 1) S.L with hl2 | hl2
      · exact ih (l + 1) true (by omega) (URel.c h hl2 hu) (Or.inr hu) hg
      · have e : l + 1 = S.L - 1 := by omega
        refine ih (l + 1) true (by omega) ?_ (Or.inr hu) hg
        rw [e] at hu ⊢
        exact (coarse_C h).2 hu
    · rcases hU with ⟨ha, hb⟩ | hU
      · left
        refine ⟨?_, hb⟩
        rcases Nat.eq_zero_or_pos l with rfl | hp
        · rcases ha with ha | ha
          · omega
          · exact Or.inr ⟨ha, rfl⟩
        · exact Or.inl hp
      · exact Or.inr hU

theorem Respects.iteration_rel (c : Respects S S' P D M) (h : S.WF) (hco : CoarseRel S P D co co')
    (d l it : Nat) (cyc : Cycle) (ff : Bool) (hd : l + d + 1 = S.L) {s : GState V} {s' : GState V'}
    (hC : CRel S P l s s') (hU : ((0 < l ∨ it = 0) ∧ ff = true) ∨ URel S P l s s')
    (hG : GRel S D l s s') :
    URel S P l (S.iteration co d l cyc it ff s) (S'.iteration co' d l cyc it ff s') := by
  have h' := c.wf h
  induction d generalizing l ff s s' with
  | zero =>
    have : l = S.L - 1 := by omega
    subst this
    exact hco.rel s s' ((coarse_C h).1 hC) hG
  | succ d ih =>
    have hl : l + 1 < S.L := by omega
    have hk := fun s => h.keeps_iteration hco.keeps d (l + 1) it cyc true (by omega) s
    have hk' := fun s => h'.keeps_iteration (coarse := co') (by rw [c.L]; exact hco.keeps') d (l + 1)
      it cyc true (by rw [c.L]; omega) s
    have hbody := c.body_rel h hl hk hk' (s := s) (s' := s')
      (b := (0 < l ∨ (it = 0 ∧ l = 0)) ∧ ff = true)
      (by
        intro s s' hu hg
        rcases Nat.lt_or_ge (l + 1 + 1) S.L with hl2 | hl2
        · exact ih (l + 1) true (by omega) (URel.c h hl2 hu) (Or.inr hu) hg
        · have e : l + 1 = S.L - 1 := by omega
          refine ih (l + 1) true (by omega) ?_ (Or.inr hu) hg
          rw [e] at hu ⊢
          exact (coarse_C h).2 hu)
      hC
      (by
        rcases hU with ⟨ha, hb⟩ | hU
        · left
          refine ⟨?_, hb⟩
          rcases Nat.eq_zero_or_pos l with rfl | hp
          · rcases ha with ha | ha
            · omega
            · exact Or.inr ⟨ha, rfl⟩
          · exact Or.inl hp
        · exact Or.inr hU) hG
    simp only [iteration]
    split
    · next hF =>
      refine c.vcyc_rel h hco (d + 1) l it false hd (URel.c h hl hbody) (Or.inr hbody) ?_
      intro h0 i h1 hi
      have e1 : ∀ s : GState V, (S.fRelax l (S.errorCorrection l
          (S.iteration co d (l + 1) cyc it true (S.fasResidual l
          (times (fun s => S.fRelax l (S.cRelax l s)) (S.cf l)
          (if (0 < l ∨ it = 0 ∧ l = 0) ∧ ff = true then S.fRelax l s else s)))))).g l = s.g l := by
        intro s
        rw [fRelax_g, errorCorrection_g, (hk _).g_le l (by omega), fasResidual_g_ne _ (by omega),
          times_fc_g]
        split <;> rfl
      have e2 : ∀ s : GState V', (S'.fRelax l (S'.errorCorrection l
          (S'.iteration co' d (l + 1) cyc it true (S'.fasResidual l
          (times (fun s => S'.fRelax l (S'.cRelax l s)) (S'.cf l)
          (if (0 < l ∨ it = 0 ∧ l = 0) ∧ ff = true then S'.fRelax l s else s)))))).g l = s.g l := by
        intro s
        rw [fRelax_g, errorCorrection_g, (hk' _).g_le l (by omega), fasResidual_g_ne _ (by omega),
          times_fc_g]
        split <;> rfl
      rw [e1, e2]
      exact hG h0 i h1 hi
    · exact hbody

theorem Respects.fineIteration_rel (c : Respects S S' P D M) (h : S.WF) (hco : CoarseRel S P D co co')
    (cyc : Cycle) (it : Nat) {s : GState V} {s' : GState V'} (hC : CRel S P 0 s s')
    (hU : it = 0 ∨ URel S P 0 s s') :
    URel S P 0 (S.fineIteration co cyc it s) (S'.fineIteration co' cyc it s') := by
  have := h.Lpos
  unfold fineIteration
  rw [c.L]
  refine c.iteration_rel h hco _ 0 it cyc true (by omega) hC ?_ (fun h0 => absurd rfl h0)
  rcases hU with h0 | hU
  · exact Or.inl ⟨Or.inr h0, rfl⟩
  · exact Or.inr hU

theorem URel.c' (h : S.WF) {l : Nat} (hl : l < S.L) {s : GState V} {s' : GState V'}
    (hU : URel S P l s s') : CRel S P l s s' := by
  rcases Nat.lt_or_ge (l + 1) S.L with h1 | h1
  · exact URel.c h h1 hU
  · have e : l = S.L - 1 := by omega
    subst e
    exact (Respects.coarse_C h).2 hU

theorem Respects.iterates_rel (c : Respects S S' P D M) (h : S.WF) (hco : CoarseRel S P D co co')
    (cyc : Cycle) (m : Nat) {s : GState V} {s' : GState V'} (hC : CRel S P 0 s s') :
    URel S P 0 (iterates S co cyc (m + 1) s) (iterates S' co' cyc (m + 1) s') := by
  induction m with
  | zero => exact c.fineIteration_rel h hco cyc 0 hC (Or.inl rfl)
  | succ m ih => exact c.fineIteration_rel h hco cyc (m + 1) (ih.c' h h.Lpos) (Or.inr ih)

theorem Respects.forward_rel (c : Respects S S' P D M) {l : Nat} (hl : l < S.L) {s : GState V}
    {s' : GState V'} (h0 : P l (s.u l 0) (s'.u l 0)) (hG : GRel S D l s s') :
    URel S P l (S.forwardSolve l s) (S'.forwardSolve l s') := by
  intro i
  induction i with
  | zero => intro _; rw [forwardSolve_zero, forwardSolve_zero]; exact h0
  | succ i ih =>
    intro hi
    rw [forwardSolve_pos s (by omega) hi, forwardSolve_pos s' (by omega) (by rw [c.n]; exact hi)]
    exact c.prop_rel hl (by omega) hi hG (ih (by omega))

theorem Respects.coarse_forward (c : Respects S S' P D M) (h : S.WF) :
    CoarseRel S P D S.forwardSolve S'.forwardSolve where
  keeps := fun s => keeps_forwardSolve s
  keeps' := fun s => keeps_forwardSolve s
  rel := fun s s' hU hG => by
    have := h.Lpos
    exact c.forward_rel (by omega) (hU 0 (h.npos _ (by omega))) hG

/-- Nested iteration, with the coarsest level solved by time stepping. -/
theorem Respects.nested_rel (c : Respects S S' P D M) (h : S.WF)
    (hint : ∀ l x x', l + 1 < S.L → P (l + 1) x x' → P l (S.I l x) (S'.I l x'))
    {s : GState V} {s' : GState V'} (h0 : ∀ l, l < S.L → P l (s.u l 0) (s'.u l 0))
    (hG : ∀ l, l < S.L → GRel S D l s s') :
    CRel S P 0 (S.nestedIteration S.forwardSolve s) (S'.nestedIteration S'.forwardSolve s') := by
  have h' := c.wf h
  have hLp := h.Lpos
  have hco := c.coarse_forward h
  have loop : ∀ l, l < S.L → ∀ (s : GState V) (s' : GState V'),
      (∀ l', l' < l → P l' (s.u l' 0) (s'.u l' 0)) → (∀ l', l' < l → GRel S D l' s s') →
      URel S P l s s' ∨ (l = 0 ∧ CRel S P 0 s s') →
      CRel S P 0 (S.nestedLoop S.forwardSolve l s) (S'.nestedLoop S'.forwardSolve l s') := by
    intro l
    induction l with
    | zero =>
      intro hl s s' _ _ hu
      rcases hu with hu | ⟨_, hu⟩
      · exact hu.c' h hl
      · exact hu
    | succ l ih =>
      intro hl s s' hz hg hu
      have hu : URel S P (l + 1) s s' := by
        rcases hu with hu | ⟨h0, _⟩
        · exact hu
        · omega
      have hl' : l + 1 < S'.L := by rw [c.L]; exact hl
      simp only [nestedLoop]
      have ecpt : ∀ k, S'.cpt l k = S.cpt l k := by intro k; unfold cpt; rw [c.C]
      have hCi : CRel S P l (S.interpolate l s) (S'.interpolate l s') := by
        intro i hi
        obtain ⟨k, hk, rfl⟩ := (h.mem_C_iff hl).1 hi
        by_cases hk0 : k = 0
        · subst hk0
          rw [h.interpolate_not hl s (Or.inr (h.cpt_zero hl)),
            h'.interpolate_not hl' s' (Or.inr (h.cpt_zero hl)), h.cpt_zero hl]
          exact hz l (by omega)
        · have e' := h'.interpolate_C hl' s' (k := k) (by rw [c.n]; exact hk) hk0
          rw [ecpt] at e'
          rw [h.interpolate_C hl s hk hk0, e']
          exact hint l _ _ hl (hu k hk)
      have hGi : ∀ l', l' ≤ l → GRel S D l' (S.interpolate l s) (S'.interpolate l s') :=
        fun l' hll => hg l' (by omega)
      have hzi : ∀ l', l' < l →
          P l' ((S.interpolate l s).u l' 0) ((S'.interpolate l s').u l' 0) := by
        intro l' hll
        rw [interpolate_u_ne _ (by omega), interpolate_u_ne _ (by omega)]
        exact hz l' (by omega)
      by_cases hp : 0 < l
      · simp only [if_pos hp]
        rw [c.L]
        have hk := h.keeps_iteration (coarse := S.forwardSolve) hco.keeps (S.L - 1 - l) l 0 Cycle.V true
          (by omega) (S.interpolate l s)
        have hk' := h'.keeps_iteration (coarse := S'.forwardSolve)
          (by rw [c.L]; exact hco.keeps') (S.L - 1 - l) l 0 Cycle.V true
          (by rw [c.L]; omega) (S'.interpolate l s')
        refine ih (by omega) _ _ ?_ ?_ (Or.inl (c.iteration_rel h hco _ l 0 Cycle.V true (by omega)
          hCi (Or.inl ⟨Or.inl hp, rfl⟩) (hGi l (by omega))))
        · intro l' hll
          rw [hk.u_lt l' hll, hk'.u_lt l' hll]
          exact hzi l' hll
        · intro l' hll hl0 i h1 hi
          rw [hk.g_le l' (by omega), hk'.g_le l' (by omega)]
          exact hGi l' (by omega) hl0 i h1 hi
      · simp only [if_neg hp]
        have : l = 0 := by omega
        subst this
        exact ih (by omega) _ _ (fun l' hll => by omega) (fun l' hll => by omega)
          (Or.inr ⟨rfl, hCi⟩)
  unfold nestedIteration
  rw [c.L]
  refine loop (S.L - 1) (by omega) _ _ ?_ ?_
    (Or.inl (c.forward_rel (by omega) (h0 _ (by omega)) (hG _ (by omega))))
  · intro l' hll
    rw [forwardSolve_u_ne _ (by omega), forwardSolve_u_ne _ (by omega)]
    exact h0 l' (by omega)
  · intro l' hll
    exact hG l' (by omega)

end
end Sys
end Pymgrit
