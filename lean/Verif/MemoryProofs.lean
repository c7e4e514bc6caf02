import Verif.Memory
import Verif.Inexact
import Verif.Dist1

/-!
# Steps with a memory: error bounds

Auxiliary facts for `Verif.PropsMemory`.  Every single operation of the solver with memory is the operation of
`Verif.Seq` for some steps near the ideal ones (`sweepM_eq`, `fasLoopM_eq`), but for other steps in every operation, so the
F-points satisfy the equations only up to `ε` when the next operation begins (`NearRelaxed`).
-/

set_option linter.unusedSectionVars false

namespace Pymgrit
namespace Memory
open Sys

section
variable {𝕜 V σ : Type} [NormedField 𝕜] [AddCommGroup V] [Module 𝕜 V]

/-- Setting: calls with an admissible memory are within `ε` of the ideal steps and leave an admissible memory. -/
structure MHyp (S : Sys V 𝕜) (st : MStep V σ) (Inv : σ → Prop) (p : Seminorm 𝕜 V) (κ ε η : ℝ) : Prop where
  wf : S.WF
  approx : Approx S p κ
  nonneg : 0 ≤ κ
  R : ∀ l, l + 1 < S.L → ∀ x, S.R l x = x
  I : ∀ l, l + 1 < S.L → ∀ x, S.I l x = x
  adj : ∀ l, l + 1 < S.L → S.cf l = 0 ∨ ∀ i, i ∈ S.C l → i + 1 ∉ S.C l
  eps : 0 ≤ ε
  size : ∀ l, l < S.L → (S.n l : ℝ) * ε ≤ η
  near : ∀ m l i x, Inv m → l < S.L → 1 ≤ i → i < S.n l → p ((st m l i x).1 - S.Φ l i x) ≤ ε
  inv : ∀ m l i x, Inv m → l < S.L → 1 ≤ i → i < S.n l → Inv (st m l i x).2

variable {S : Sys V 𝕜} {st : MStep V σ} {Inv : σ → Prop} {p : Seminorm 𝕜 V} {κ ε η : ℝ}

theorem MHyp.nearSelf (H : MHyp S st Inv p κ ε η) : NearSteps S S.Φ p ε η :=
  ⟨H.eps, fun l i x _ _ _ => by rw [sub_self, map_zero]; exact H.eps, H.size⟩

open Classical in
/-- Steps changed at one point for one start value. -/
noncomputable def patch (Φ : Nat → Nat → V → V) (S : Sys V 𝕜) (l i : Nat) (x y : V) : Nat → Nat → V → V :=
  fun l' i' x' => if l' = l ∧ i' = i then (if x' = x then y else S.Φ l' i' x') else Φ l' i' x'

theorem patch_self (Φ : Nat → Nat → V → V) (l i : Nat) (x y : V) : patch Φ S l i x y l i x = y := by
  simp [patch]

theorem patch_ne (Φ : Nat → Nat → V → V) {l i l' i' : Nat} (x y x' : V) (h : ¬ (l' = l ∧ i' = i)) :
    patch Φ S l i x y l' i' x' = Φ l' i' x' := by
  unfold patch
  rw [if_neg h]

theorem patch_near {Φ : Nat → Nat → V → V} (hN : NearSteps S Φ p ε η) {l i : Nat} {x y : V}
    (hy : p (y - S.Φ l i x) ≤ ε) : NearSteps S (patch Φ S l i x y) p ε η := by
  refine ⟨hN.nonneg, fun l' i' x' hl h1 hi => ?_, hN.size⟩
  unfold patch
  split
  · next h =>
    obtain ⟨rfl, rfl⟩ := h
    split
    · next h => subst h; exact hy
    · rw [sub_self, map_zero]; exact hN.nonneg
  · exact hN.step l' i' x' hl h1 hi

/-- A loop with memory is a loop with some steps near the ideal ones. -/
theorem sweepM_eq (H : MHyp S st Inv p κ ε η) {l : Nat} (hl : l < S.L) (f : (Nat → V) → Nat → V → V) :
    ∀ (idx : List Nat), idx.Nodup → (∀ i ∈ idx, 1 ≤ i ∧ i < S.n l) → ∀ (u : Nat → V) (m : σ), Inv m →
      ∃ Φ', NearSteps S Φ' p ε η ∧ (sweepM st l idx f (u, m)).1 = sweep idx (fun u i => f u i (Φ' l i (u (i - 1)))) u ∧
        Inv (sweepM st l idx f (u, m)).2 := by
  intro idx
  induction idx with
  | nil => exact fun _ _ u m hm => ⟨S.Φ, H.nearSelf, rfl, hm⟩
  | cons i idx ih =>
    intro hn hr u m hm
    obtain ⟨h1, h2⟩ := hr i (by simp)
    set r := st m l i (u (i - 1)) with hrd
    have e : sweepM st l (i :: idx) f (u, m) = sweepM st l idx f (Function.update u i (f u i r.1), r.2) := rfl
    obtain ⟨Φ', a1, a2, a3⟩ := ih (List.nodup_cons.1 hn).2 (fun j hj => hr j (by simp [hj]))
      (Function.update u i (f u i r.1)) r.2 (H.inv m l i _ hm hl h1 h2)
    refine ⟨patch Φ' S l i (u (i - 1)) r.1, patch_near a1 (H.near m l i _ hm hl h1 h2), ?_, by rw [e]; exact a3⟩
    rw [e, a2, sweep_cons, patch_self]
    refine sweep_congr _ fun v j hj => ?_
    rw [patch_ne]
    rintro ⟨-, rfl⟩
    exact (List.nodup_cons.1 hn).1 hj

/-- The second loop of `fas_residual`. -/
theorem fasLoopM_eq (H : MHyp S st Inv p κ ε η) {l : Nat} (hl : l + 1 < S.L) (rhs : Nat × Nat → V → V → V)
    (x y : Nat × Nat → V) :
    ∀ (cks : List (Nat × Nat)), (cks.map Prod.fst).Nodup → (cks.map Prod.snd).Nodup →
      (∀ ck ∈ cks, ck.2 ≠ 0 → 1 ≤ ck.1 ∧ ck.1 < S.n l ∧ ck.2 < S.n (l + 1)) → ∀ (g : Nat → V) (m : σ), Inv m →
      ∃ Φ', NearSteps S Φ' p ε η ∧ (fasLoopM st l rhs x y cks (g, m)).1 =
          cks.foldl (fun g ck => if ck.2 = 0 then g else
            Function.update g ck.2 (rhs ck (Φ' l ck.1 (x ck)) (Φ' (l + 1) ck.2 (y ck)))) g ∧
        Inv (fasLoopM st l rhs x y cks (g, m)).2 := by
  intro cks
  induction cks with
  | nil => exact fun _ _ _ g m hm => ⟨S.Φ, H.nearSelf, rfl, hm⟩
  | cons ck cks ih =>
    intro hn hn' hr g m hm
    rw [List.map_cons, List.nodup_cons] at hn hn'
    by_cases h0 : ck.2 = 0
    · have e : fasLoopM st l rhs x y (ck :: cks) (g, m) = fasLoopM st l rhs x y cks (g, m) := by
        unfold fasLoopM
        rw [List.foldl_cons, if_pos h0]
      obtain ⟨Φ', a1, a2, a3⟩ := ih hn.2 hn'.2 (fun c hc => hr c (by simp [hc])) g m hm
      refine ⟨Φ', a1, ?_, by rw [e]; exact a3⟩
      rw [e, a2, List.foldl_cons, if_pos h0]
    · obtain ⟨b1, b2, b3⟩ := hr ck (by simp) h0
      set a := st m l ck.1 (x ck) with ha
      set b := st a.2 (l + 1) ck.2 (y ck) with hb
      have e : fasLoopM st l rhs x y (ck :: cks) (g, m)
          = fasLoopM st l rhs x y cks (Function.update g ck.2 (rhs ck a.1 b.1), b.2) := by
        unfold fasLoopM
        rw [List.foldl_cons, if_neg h0]
      have ia : Inv a.2 := H.inv m l ck.1 _ hm (by omega) b1 b2
      have ib : Inv b.2 := H.inv a.2 (l + 1) ck.2 _ ia hl (by omega) b3
      obtain ⟨Φ', a1, a2, a3⟩ := ih hn.2 hn'.2 (fun c hc => hr c (by simp [hc]))
        (Function.update g ck.2 (rhs ck a.1 b.1)) b.2 ib
      refine ⟨patch (patch Φ' S l ck.1 (x ck) a.1) S (l + 1) ck.2 (y ck) b.1,
        patch_near (patch_near a1 (H.near m l ck.1 _ hm (by omega) b1 b2)) (H.near a.2 (l + 1) ck.2 _ ia hl (by omega) b3),
        ?_, by rw [e]; exact a3⟩
      rw [e, a2, List.foldl_cons, if_neg h0, patch_self, patch_ne _ _ _ _ (by omega), patch_self]
      have key : ∀ (xs : List (Nat × Nat)), (∀ c ∈ xs, c.1 ≠ ck.1 ∧ c.2 ≠ ck.2) → ∀ g : Nat → V,
          xs.foldl (fun g c => if c.2 = 0 then g else
            Function.update g c.2 (rhs c (Φ' l c.1 (x c)) (Φ' (l + 1) c.2 (y c)))) g =
          xs.foldl (fun g c => if c.2 = 0 then g else Function.update g c.2
            (rhs c (patch (patch Φ' S l ck.1 (x ck) a.1) S (l + 1) ck.2 (y ck) b.1 l c.1 (x c))
              (patch (patch Φ' S l ck.1 (x ck) a.1) S (l + 1) ck.2 (y ck) b.1 (l + 1) c.2 (y c)))) g := by
        intro xs
        induction xs with
        | nil => exact fun _ _ => rfl
        | cons c xs ihx =>
          intro hx g
          obtain ⟨d1, d2⟩ := hx c (by simp)
          rw [List.foldl_cons, List.foldl_cons, ihx (fun d hd => hx d (by simp [hd])),
            patch_ne _ _ _ _ (show ¬ (l = l + 1 ∧ c.1 = ck.2) by omega),
            patch_ne _ _ _ _ (show ¬ (l = l ∧ c.1 = ck.1) from fun h => d1 h.2),
            patch_ne _ _ _ _ (show ¬ (l + 1 = l + 1 ∧ c.2 = ck.2) from fun h => d2 h.2),
            patch_ne _ _ _ _ (show ¬ (l + 1 = l ∧ c.2 = ck.1) by omega)]
      refine key cks (fun c hc => ⟨fun h => hn.1 ?_, fun h => hn'.1 ?_⟩) _
      · rw [← h]; exact List.mem_map_of_mem hc
      · rw [← h]; exact List.mem_map_of_mem hc

theorem addG_prop (Φ' : Nat → Nat → V → V) (g : Nat → Nat → V) (l i : Nat) (x : V) :
    addG g l i (Φ' l i x) = (S.withΦ Φ').prop g l i x := rfl

theorem fRelaxM_eq (H : MHyp S st Inv p κ ε η) {l : Nat} (hl : l + 1 < S.L) (s : GState V) {m : σ} (hm : Inv m) :
    ∃ Φ', NearSteps S Φ' p ε η ∧ (fRelaxM S st l (s, m)).1 = (S.withΦ Φ').fRelax l s ∧ Inv (fRelaxM S st l (s, m)).2 := by
  obtain ⟨Φ', a1, a2, a3⟩ := sweepM_eq H (l := l) (by omega) (fun _ i y => addG s.g l i y) (S.F l)
    ((H.wf.F_compat l hl).imp fun h => h.1)
    (fun i hi => ⟨H.wf.F_pos hl i hi, ((H.wf.F_mem l hl i).1 hi).1⟩) (s.u l) m hm
  refine ⟨Φ', a1, ?_, a3⟩
  show s.setU l (sweepM st l (S.F l) (fun _ i y => addG s.g l i y) (s.u l, m)).1 = _
  rw [a2]
  rfl

theorem cRelaxM_eq (H : MHyp S st Inv p κ ε η) {l : Nat} (hl : l + 1 < S.L) (s : GState V) {m : σ} (hm : Inv m) :
    ∃ Φ', NearSteps S Φ' p ε η ∧ (cRelaxM S st l (s, m)).1 = (S.withΦ Φ').cRelax l s ∧ Inv (cRelaxM S st l (s, m)).2 := by
  obtain ⟨Φ', a1, a2, a3⟩ := sweepM_eq H (l := l) (by omega) (fun u i y => S.w • addG s.g l i y + (1 - S.w) • u i)
    ((S.C l).filter (· ≠ 0)) ((H.wf.C_nodup hl).filter _)
    (fun i hi => by
      obtain ⟨h1, h2⟩ := List.mem_filter.1 hi
      exact ⟨Nat.one_le_iff_ne_zero.2 (by simpa using h2), H.wf.C_lt l hl i h1⟩) (s.u l) m hm
  refine ⟨Φ', a1, ?_, a3⟩
  show s.setU l (sweepM st l ((S.C l).filter (· ≠ 0)) (fun u i y => S.w • addG s.g l i y + (1 - S.w) • u i)
    (s.u l, m)).1 = _
  rw [a2]
  rfl

theorem forwardSolveM_eq (H : MHyp S st Inv p κ ε η) {l : Nat} (hl : l < S.L) (s : GState V) {m : σ} (hm : Inv m) :
    ∃ Φ', NearSteps S Φ' p ε η ∧ (forwardSolveM S st l (s, m)).1 = (S.withΦ Φ').forwardSolve l s ∧
      Inv (forwardSolveM S st l (s, m)).2 := by
  obtain ⟨Φ', a1, a2, a3⟩ := sweepM_eq H hl (fun _ i y => addG s.g l i y) (List.range' 1 (S.n l - 1))
    List.nodup_range' (fun i hi => by have := List.mem_range'_1.1 hi; omega) (s.u l) m hm
  refine ⟨Φ', a1, ?_, a3⟩
  show s.setU l (sweepM st l (List.range' 1 (S.n l - 1)) (fun _ i y => addG s.g l i y) (s.u l, m)).1 = _
  rw [a2]
  rfl

theorem fasResidualM_eq (H : MHyp S st Inv p κ ε η) {l : Nat} (hl : l + 1 < S.L) (s : GState V) {m : σ} (hm : Inv m) :
    ∃ Φ', NearSteps S Φ' p ε η ∧ (fasResidualM S st l (s, m)).1 = (S.withΦ Φ').fasResidual l s ∧
      Inv (fasResidualM S st l (s, m)).2 := by
  set u1 : Nat → V := (S.C l).zipIdx.foldl
    (fun (u : Nat → V) ck => Function.update u ck.2 (S.R l (s.u l ck.1))) (s.u (l + 1)) with hu1
  obtain ⟨Φ', a1, a2, a3⟩ := fasLoopM_eq H hl (fasRhs S l s u1) (fun ck => s.u l (ck.1 - 1)) (fun ck => u1 (ck.2 - 1))
    (S.C l).zipIdx (by rw [List.zipIdx_map_fst]; exact H.wf.C_nodup hl) (zipIdx_map_snd_nodup _)
    (fun ck hck h0 => by
      have h1 : (S.C l)[ck.2]? = some ck.1 := by
        have := List.mem_zipIdx_iff_getElem?.1 hck
        simpa using this
      obtain ⟨h2, h3⟩ := List.getElem?_eq_some_iff.1 h1
      have h4 : S.cpt l ck.2 = ck.1 := by rw [cpt_eq h2, h3]
      have h5 : ck.2 < S.n (l + 1) := by rw [← H.wf.C_len l hl]; exact h2
      have h6 := H.wf.cpt_lt hl (show 0 < ck.2 by omega) h5
      exact ⟨by omega, by rw [← h4]; exact H.wf.cpt_bound hl h5, h5⟩) (s.g (l + 1)) m hm
  refine ⟨Φ', a1, ?_, a3⟩
  have e : (fasResidualM S st l (s, m)).1 = { u := Function.update s.u (l + 1) u1
                                              v := Function.update s.v (l + 1) u1
                                              g := Function.update s.g (l + 1) (fasLoopM st l (fasRhs S l s u1)
                                                (fun ck => s.u l (ck.1 - 1)) (fun ck => u1 (ck.2 - 1)) (S.C l).zipIdx
                                                (s.g (l + 1), m)).1 } := rfl
  rw [e, a2]
  rfl


/-- The F-points of level `l` satisfy their equations up to `ε`. -/
def Rel (S : Sys V 𝕜) (p : Seminorm 𝕜 V) (ε η : ℝ) (l : Nat) (s : GState V) : Prop :=
  ∃ Φ', NearSteps S Φ' p ε η ∧ FRelaxed (S.withΦ Φ') l s

/-- What holds after an operation on level `l` that turns the arrays `s` into `r`. -/
structure Out (S : Sys V 𝕜) (Inv : σ → Prop) (p : Seminorm 𝕜 V) (ε η : ℝ) (l : Nat) (s : GState V) (r : GState V × σ)
    (D : ℝ) : Prop where
  err : ErrLe S p l r.1 D
  rel : l + 1 < S.L → Rel S p ε η l r.1
  keeps : Keeps l s r.1
  inv : Inv r.2

theorem Out.mono {l : Nat} {s : GState V} {r : GState V × σ} {D D' : ℝ} (h : Out S Inv p ε η l s r D) (hD : D ≤ D') :
    Out S Inv p ε η l s r D' := ⟨fun i hi => (h.err i hi).trans hD, h.rel, h.keeps, h.inv⟩

theorem Out.trans {l : Nat} {s t : GState V} {r : GState V × σ} {D : ℝ} (h : Out S Inv p ε η l t r D)
    (hk : Keeps l s t) : Out S Inv p ε η l s r D := ⟨h.err, h.rel, hk.trans h.keeps, h.inv⟩

theorem Out.fRelax (H : MHyp S st Inv p κ ε η) {l : Nat} (hl : l + 1 < S.L) {s : GState V} {m : σ} (hm : Inv m) {D : ℝ}
    (hD : CErrLe S p l s D) : Out S Inv p ε η l s (fRelaxM S st l (s, m)) (D + (η - ε)) := by
  obtain ⟨Φ', a1, a2, a3⟩ := fRelaxM_eq H hl s hm
  refine ⟨?_, fun _ => ⟨Φ', a1, ?_⟩, ?_, a3⟩ <;> rw [a2]
  · exact hD.fRelax_near H.wf H.approx a1 hl
  · exact (H.wf.withΦ Φ').fRelax_relaxed hl s
  · exact (H.wf.withΦ Φ').keeps_fRelax hl s

theorem Out.sweeps (H : MHyp S st Inv p κ ε η) {l : Nat} (hl : l + 1 < S.L) (ν : Nat)
    (hadj : ν = 0 ∨ ∀ i, i ∈ S.C l → i + 1 ∉ S.C l) {s : GState V} {m : σ} (hm : Inv m) {D : ℝ}
    (hD : ErrLe S p l s D) (hF : Rel S p ε η l s) :
    Out S Inv p ε η l s (times (fun q => fRelaxM S st l (cRelaxM S st l q)) ν (s, m))
      ((‖S.w‖ + ‖1 - S.w‖) ^ ν * (D + ν * η)) := by
  have hw1 : 1 ≤ ‖S.w‖ + ‖1 - S.w‖ := by
    have := norm_add_le S.w (1 - S.w)
    rwa [add_sub_cancel, norm_one] at this
  have hN := H.nearSelf
  have hη := hN.η_nonneg (l := l) (by omega)
  induction ν generalizing s m D with
  | zero => exact ⟨by simpa [times] using hD, fun _ => hF, Keeps.refl l s, hm⟩
  | succ ν ih =>
    have hadj' : ∀ i, i ∈ S.C l → i + 1 ∉ S.C l := by
      rcases hadj with a | a
      · omega
      · exact a
    obtain ⟨Φ', a1, a2, a3⟩ := cRelaxM_eq H hl s hm
    have hc := hD.cRelax_near H.wf H.approx a1 hl hadj'
    rw [← a2] at hc
    have h1 := Out.fRelax H hl a3 hc
    have hk : Keeps l s (cRelaxM S st l (s, m)).1 := by rw [a2]; exact keeps_cRelax (S := S.withΦ Φ') s
    have h2 := ih (by tauto) h1.inv h1.err (h1.rel hl)
    refine ((h2.trans h1.keeps).trans hk).mono ?_
    rw [pow_succ, mul_assoc]
    refine mul_le_mul_of_nonneg_left ?_ (by positivity)
    set ω := ‖S.w‖ + ‖1 - S.w‖ with hω
    have hD0 := hD.nonneg (H.wf.npos l (by omega))
    have hwle : ‖S.w‖ ≤ ω := le_add_of_nonneg_right (norm_nonneg _)
    have hε := H.eps
    have h2 : ε ≤ η := by
      have := hN.le (l := l) (m := 1) (by omega) (H.wf.npos l (by omega))
      simpa using this
    have t1 : ‖S.w‖ * ε ≤ ω * ε := mul_le_mul_of_nonneg_right hwle hε
    have t2 : η - ε ≤ ω * (η - ε) := le_mul_of_one_le_left (by linarith) hw1
    have t3 : (ν : ℝ) * η ≤ ω * (ν * η) := le_mul_of_one_le_left (by positivity) hw1
    push_cast
    nlinarith

/-- The steps used at the F-points before and by `fas_residual` at the C-points, together. -/
theorem fas_combine {l : Nat} {s : GState V} (hF : Rel S p ε η l s)
    {Φ' : Nat → Nat → V → V} (hN : NearSteps S Φ' p ε η) :
    ∃ Φ₂, NearSteps S Φ₂ p ε η ∧ FRelaxed (S.withΦ Φ₂) l s ∧
      (S.withΦ Φ').fasResidual l s = (S.withΦ Φ₂).fasResidual l s := by
  obtain ⟨Φ₁, b1, b2⟩ := hF
  refine ⟨fun l' i x => if l' = l ∧ i ∉ S.C l then Φ₁ l' i x else Φ' l' i x,
    ⟨hN.nonneg, fun l' i x hl h1 hi => ?_, hN.size⟩, fun i hi hC => ?_, ?_⟩
  · split
    · exact b1.step l' i x hl h1 hi
    · exact hN.step l' i x hl h1 hi
  · rw [b2 i hi hC]
    unfold Sys.prop
    show (if l = 0 then Φ₁ l i _ else s.g l i + Φ₁ l i _) = if l = 0 then (if _ then _ else _) else _ + (if _ then _ else _)
    rw [if_pos (show l = l ∧ i ∉ S.C l from ⟨rfl, hC⟩)]
  · unfold Sys.fasResidual
    dsimp only
    congr 2
    refine List.foldl_ext _ _ _ fun g ck hck => ?_
    have hmem : ck.1 ∈ S.C l := List.fst_mem_of_mem_zipIdx hck
    split
    · rfl
    · congr 1
      have e1 : (S.withΦ Φ').fasRes s l ck.1 = (S.withΦ fun l' i x => if l' = l ∧ i ∉ S.C l then Φ₁ l' i x
          else Φ' l' i x).fasRes s l ck.1 := by
        unfold Sys.fasRes
        show (if l = 0 then S.R l (Φ' l ck.1 _ - _) else S.R l (_ - _ + Φ' l ck.1 _))
          = if l = 0 then S.R l ((if _ then _ else _) - _) else S.R l (_ - _ + if _ then _ else _)
        rw [if_neg (show ¬ (l = l ∧ ck.1 ∉ S.C l) from fun h => h.2 hmem)]
      rw [e1]
      show _ + _ - Φ' (l + 1) ck.2 _ = _ + _ - if l + 1 = l ∧ _ then _ else _
      rw [if_neg (by omega)]
      rfl

/-- One level. -/
theorem levelM (H : MHyp S st Inv p κ ε η) {l : Nat} (hl : l + 1 < S.L) (q : Prop) [Decidable q]
    (f : GState V × σ → GState V × σ) (ρ δ : ℝ)
    (hf : ∀ s m D, Inv m → ErrLe S p (l + 1) s D → Out S Inv p ε η (l + 1) s (f (s, m)) (ρ * D + δ * η))
    {s : GState V} {m : σ} (hm : Inv m) {D : ℝ} (hD : CErrLe S p l s D) (hF : ¬ q → Rel S p ε η l s) :
    Out S Inv p ε η l s (opM S st .fRelax l (opM S st .corr l (f (opM S st .fas l
      (times (fun s => opM S st .fRelax l (opM S st .cRelax l s)) (S.cf l)
        (if q then opM S st .fRelax l (s, m) else (s, m)))))))
      (relaxGrowth S l * (κ + (1 + κ) * ρ) * D
        + (relaxGrowth S l * (κ + (1 + κ) * ρ) * (S.cf l + 1) + (3 + 2 * ρ) + δ) * η) := by
  have hε := H.eps
  have h0 : Out S Inv p ε η l s (if q then opM S st .fRelax l (s, m) else (s, m)) (D + η) := by
    split
    · exact (Out.fRelax H hl hm hD).mono (by linarith)
    · next hq =>
      obtain ⟨Φ', b1, b2⟩ := hF hq
      refine ⟨fun i hi => (hD.relaxed_near H.wf H.approx b1 hl b2 i hi).trans (by linarith), fun _ => hF hq,
        Keeps.refl l s, hm⟩
  generalize (if q then opM S st .fRelax l (s, m) else (s, m)) = r0 at h0
  obtain ⟨s0, m0⟩ := r0
  have h1 := Out.sweeps H hl (S.cf l) (H.adj l hl) h0.inv h0.err (h0.rel hl)
  change Out S Inv p ε η l s0 (times (fun s => opM S st .fRelax l (opM S st .cRelax l s)) (S.cf l) (s0, m0)) _ at h1
  generalize times (fun s => opM S st .fRelax l (opM S st .cRelax l s)) (S.cf l) (s0, m0) = r1 at h1
  obtain ⟨s1, m1⟩ := r1
  obtain ⟨Φ', a1, a2, a3⟩ := fasResidualM_eq H hl s1 h1.inv
  obtain ⟨Φ₂, c1, c2, c3⟩ := fas_combine (h1.rel hl) a1
  rw [c3] at a2
  change (opM S st .fas l (s1, m1)).1 = _ at a2
  change Inv (opM S st .fas l (s1, m1)).2 at a3
  have d1 := fas_err_near H.wf H.approx H.nonneg c1 hl (H.R l hl) (h1.err.toC H.wf hl) c2
  rw [← a2] at d1
  have h2 := hf _ _ _ a3 d1
  change Out S Inv p ε η (l + 1) _ (f (opM S st .fas l (s1, m1))) _ at h2
  rw [a2] at h2
  have d2 := correct_C_near H.wf H.approx H.nonneg c1 hl (H.R l hl) (H.I l hl) (h1.err.toC H.wf hl) c2 h2.keeps h2.err
  have h3 := Out.fRelax H hl h2.inv d2
  have hk : Keeps l s1 ((S.withΦ Φ₂).errorCorrection l (f (opM S st .fas l (s1, m1))).1) :=
    ((keeps_fasResidual (S := S.withΦ Φ₂) s1).trans h2.keeps.down).trans ((H.wf.withΦ Φ₂).keeps_errorCorrection hl _)
  refine (((h3.trans hk).trans h1.keeps).trans h0.keeps).mono ?_
  have hw : 0 ≤ η := H.nearSelf.η_nonneg hl
  refine le_trans (add_le_add le_rfl (show η - ε ≤ η by linarith)) (le_of_eq ?_)
  unfold relaxGrowth
  ring

theorem solve_out (H : MHyp S st Inv p κ ε η) {l : Nat} (hl : l + 1 = S.L) {s : GState V} {m : σ} (hm : Inv m) :
    Out S Inv p ε η l s (opM S st .solve l (s, m)) η := by
  obtain ⟨Φ', a1, a2, a3⟩ := forwardSolveM_eq H (show l < S.L by omega) s hm
  refine ⟨?_, fun h => by omega, ?_, a3⟩
  · show ErrLe S p l (forwardSolveM S st l (s, m)).1 η
    rw [a2]
    exact forwardSolve_near H.approx a1 (by omega) s
  · show Keeps l s (forwardSolveM S st l (s, m)).1
    rw [a2]
    exact keeps_forwardSolve (S := S.withΦ Φ') s

theorem vcycM (H : MHyp S st Inv p κ ε η) (d l it : Nat) (ff : Bool) (hd : l + d + 1 = S.L) {s : GState V} {m : σ}
    (hm : Inv m) {D : ℝ} (hD : CErrLe S p l s D)
    (hF : ¬ ((0 < l ∨ (it = 0 ∧ l = 0)) ∧ ff = true) → 0 < d → Rel S p ε η l s) :
    Out S Inv p ε η l s (Trace.vcyc S.cf (opM S st) d l it ff (s, m))
      (rateV κ (relaxGrowth S) l d * D + pertV κ (relaxGrowth S) (fun l => S.cf l) l d * η) := by
  induction d generalizing l ff s m D with
  | zero =>
    simp only [Trace.vcyc, rateV, pertV, zero_mul, zero_add, one_mul]
    exact solve_out H (by omega) hm
  | succ d ih =>
    have hl : l + 1 < S.L := by omega
    simp only [Trace.vcyc]
    refine levelM H hl _ (Trace.vcyc S.cf (opM S st) d (l + 1) it true) _ _ ?_ hm hD (fun hq => hF hq (by omega))
    intro s m D hm hs
    refine ih (l + 1) true (by omega) hm ?_ (fun hq => absurd (by simp) hq)
    cases d with
    | zero =>
      intro i hi
      refine hs i ?_
      have e : l + 1 = S.L - 1 := by omega
      rw [e, H.wf.C_last] at hi
      rw [e]
      exact List.mem_range.1 hi
    | succ d => exact hs.toC H.wf (by omega)

theorem iterationM_V (cf : Nat → Nat) {α : Type} (op : OpKind → Nat → α → α) (d l it : Nat) (ff : Bool) (s : α) :
    Trace.iteration cf op d l .V it ff s = Trace.vcyc cf op d l it ff s := by
  induction d generalizing l ff s with
  | zero => rfl
  | succ d ih => simp [Trace.iteration, Trace.vcyc, ih]

theorem iterationM_out (H : MHyp S st Inv p κ ε η) (d l it : Nat) (cyc : Cycle) (ff : Bool) (hd : l + d + 1 = S.L)
    {s : GState V} {m : σ} (hm : Inv m) {D : ℝ} (hD : CErrLe S p l s D)
    (hF : ¬ ((0 < l ∨ (it = 0 ∧ l = 0)) ∧ ff = true) → 0 < d → Rel S p ε η l s) :
    Out S Inv p ε η l s (Trace.iteration S.cf (opM S st) d l cyc it ff (s, m))
      (match cyc with
        | .V => rateV κ (relaxGrowth S) l d * D + pertV κ (relaxGrowth S) (fun l => S.cf l) l d * η
        | .F => if l = 0 then rateF κ (relaxGrowth S) l d * D + pertF κ (relaxGrowth S) (fun l => S.cf l) l d * η
                else rateV κ (relaxGrowth S) l d * (rateF κ (relaxGrowth S) l d * D
                    + pertF κ (relaxGrowth S) (fun l => S.cf l) l d * η)
                  + pertV κ (relaxGrowth S) (fun l => S.cf l) l d * η) := by
  cases cyc with
  | V =>
    rw [iterationM_V]
    exact vcycM H d l it ff hd hm hD hF
  | F =>
    induction d generalizing l ff s m D with
    | zero =>
      simp only [Trace.iteration, rateF, rateV, pertF, pertV, zero_mul, zero_add, one_mul, ite_self]
      exact solve_out H (by omega) hm
    | succ d ih =>
      have hl : l + 1 < S.L := by omega
      have key := levelM H hl ((0 < l ∨ it = 0 ∧ l = 0) ∧ ff = true)
        (Trace.iteration S.cf (opM S st) d (l + 1) .F it true)
        (rateF κ (relaxGrowth S) (l + 1) d * rateV κ (relaxGrowth S) (l + 1) d)
        (rateV κ (relaxGrowth S) (l + 1) d * pertF κ (relaxGrowth S) (fun l => S.cf l) (l + 1) d
          + pertV κ (relaxGrowth S) (fun l => S.cf l) (l + 1) d)
        (fun s m D hm hs => by
          have := ih (l + 1) true (by omega) (s := s) (m := m) hm (D := D) ?_ (fun hq => absurd (by simp) hq)
          · simp only [Nat.add_eq_zero_iff, one_ne_zero, and_false, if_false] at this
            refine this.mono (le_of_eq ?_)
            ring
          · cases d with
            | zero =>
              intro i hi
              refine hs i ?_
              have e : l + 1 = S.L - 1 := by omega
              rw [e, H.wf.C_last] at hi
              rw [e]
              exact List.mem_range.1 hi
            | succ d => exact hs.toC H.wf (by omega)) hm hD (fun hq => hF hq (by omega))
      generalize hcore : (opM S st .fRelax l (opM S st .corr l
        (Trace.iteration S.cf (opM S st) d (l + 1) .F it true (opM S st .fas l
        (times (fun s => opM S st .fRelax l (opM S st .cRelax l s)) (S.cf l)
          (if (0 < l ∨ it = 0 ∧ l = 0) ∧ ff = true then opM S st .fRelax l (s, m) else (s, m))))))) = core at key
      have e : Trace.iteration S.cf (opM S st) (d + 1) l .F it ff (s, m)
          = if l ≠ 0 ∧ Cycle.F = Cycle.F then Trace.vcyc S.cf (opM S st) (d + 1) l it false core else core := by
        rw [← hcore]; rfl
      rw [e]
      by_cases h0 : l = 0
      · rw [if_neg (by simp [h0])]
        simp only [h0, if_true]
        subst h0
        exact key
      · rw [if_pos ⟨h0, rfl⟩]
        simp only [h0, if_false]
        exact (vcycM H (d + 1) l it false hd key.inv (key.err.toC H.wf hl) (fun _ _ => key.rel hl)).trans key.keeps

/-- The bound after `m` iterations. -/
noncomputable def bound (S : Sys V 𝕜) (κ η : ℝ) (cyc : Cycle) (m : Nat) (D : ℝ) : ℝ :=
  rate κ (relaxGrowth S) cyc (S.L - 1) ^ m * D
    + (∑ j ∈ Finset.range m, rate κ (relaxGrowth S) cyc (S.L - 1) ^ j)
      * (pert κ (relaxGrowth S) (fun l => S.cf l) cyc (S.L - 1) * η)

/-- One more iteration of `solve`. -/
theorem fineM (H : MHyp S st Inv p κ ε η) (cyc : Cycle) (n : Nat) {s : GState V} {m : σ} (hm : Inv m) {D : ℝ}
    (hD : CErrLe S p 0 s (bound S κ η cyc n D)) (hF : 0 < n → 1 < S.L → Rel S p ε η 0 s) :
    Out S Inv p ε η 0 s (iterationM S st cyc n (s, m)) (bound S κ η cyc (n + 1) D) := by
  have hL := H.wf.Lpos
  refine (iterationM_out H (S.L - 1) 0 n cyc true (by omega) hm hD (fun hq hd => hF ?_ (by omega))).mono (le_of_eq ?_)
  · rcases Nat.eq_zero_or_pos n with h | h
    · exact absurd (by simp [h]) hq
    · exact h
  · unfold bound
    rw [pow_succ, Finset.sum_range_succ']
    simp only [pow_succ, ← Finset.sum_mul]
    cases cyc <;> simp [rate, pert] <;> ring


/-- The operations keep the initial value of the finest level and an admissible memory. -/
theorem opM_keeps (H : MHyp S st Inv p κ ε η) (o : OpKind) {l : Nat} (hl : l + 1 < S.L ∨ l + 1 = S.L ∧ o = .solve)
    {r : GState V × σ} (hm : Inv r.2) : (opM S st o l r).1.u 0 0 = r.1.u 0 0 ∧ Inv (opM S st o l r).2 := by
  obtain ⟨s, m⟩ := r
  have key : Keeps l s (opM S st o l (s, m)).1 ∧ Inv (opM S st o l (s, m)).2 := by
    cases o with
    | fRelax =>
      obtain ⟨Φ', -, a2, a3⟩ := fRelaxM_eq H (show l + 1 < S.L by simpa using hl) s hm
      refine ⟨?_, a3⟩
      change Keeps l s (fRelaxM S st l (s, m)).1
      rw [a2]
      exact (H.wf.withΦ Φ').keeps_fRelax (show l + 1 < S.L by simpa using hl) s
    | cRelax =>
      obtain ⟨Φ', -, a2, a3⟩ := cRelaxM_eq H (show l + 1 < S.L by simpa using hl) s hm
      refine ⟨?_, a3⟩
      change Keeps l s (cRelaxM S st l (s, m)).1
      rw [a2]
      exact keeps_cRelax (S := S.withΦ Φ') s
    | fas =>
      obtain ⟨Φ', -, a2, a3⟩ := fasResidualM_eq H (show l + 1 < S.L by simpa using hl) s hm
      refine ⟨?_, a3⟩
      change Keeps l s (fasResidualM S st l (s, m)).1
      rw [a2]
      exact keeps_fasResidual (S := S.withΦ Φ') s
    | corr => exact ⟨H.wf.keeps_errorCorrection (show l + 1 < S.L by simpa using hl) s, hm⟩
    | solve =>
      obtain ⟨Φ', -, a2, a3⟩ := forwardSolveM_eq H (show l < S.L by omega) s hm
      refine ⟨?_, a3⟩
      change Keeps l s (forwardSolveM S st l (s, m)).1
      rw [a2]
      exact keeps_forwardSolve (S := S.withΦ Φ') s
    | interp => exact ⟨H.wf.keeps_interpolate (show l + 1 < S.L by simpa using hl) s, hm⟩
  refine ⟨?_, key.2⟩
  rcases Nat.eq_zero_or_pos l with h | h
  · subst h; exact key.1.zero
  · exact congrFun (key.1.u_lt 0 h) 0

theorem times_inv {α : Type} {P : α → Prop} {f : α → α} (hf : ∀ a, P a → P (f a)) (k : Nat) {a : α} (ha : P a) :
    P (times f k a) := by
  induction k generalizing a with
  | zero => exact ha
  | succ k ih => exact ih (hf a ha)

section
variable {α : Type} {P : α → Prop} {op : OpKind → Nat → α → α} {L : Nat} (cf : Nat → Nat)
  (hop : ∀ o l a, l + 1 < L ∨ l + 1 = L ∧ o = .solve → P a → P (op o l a))
include hop

theorem vcyc_inv (d l it : Nat) (ff : Bool) (hd : l + d + 1 = L) {a : α} (ha : P a) :
    P (Trace.vcyc cf op d l it ff a) := by
  induction d generalizing l ff a with
  | zero => exact hop _ _ _ (Or.inr ⟨by omega, rfl⟩) ha
  | succ d ih =>
    have hl : l + 1 < L := by omega
    simp only [Trace.vcyc]
    refine hop _ _ _ (Or.inl hl) (hop _ _ _ (Or.inl hl) (ih _ _ (by omega) (hop _ _ _ (Or.inl hl) ?_)))
    refine times_inv (fun a h => hop _ _ _ (Or.inl hl) (hop _ _ _ (Or.inl hl) h)) _ ?_
    split
    · exact hop _ _ _ (Or.inl hl) ha
    · exact ha

theorem iteration_inv (d l : Nat) (cyc : Cycle) (it : Nat) (ff : Bool) (hd : l + d + 1 = L) {a : α} (ha : P a) :
    P (Trace.iteration cf op d l cyc it ff a) := by
  induction d generalizing l ff a with
  | zero => exact hop _ _ _ (Or.inr ⟨by omega, rfl⟩) ha
  | succ d ih =>
    have hl : l + 1 < L := by omega
    simp only [Trace.iteration]
    have h1 : P (op .fRelax l (op .corr l (Trace.iteration cf op d (l + 1) cyc it true (op .fas l
        (times (fun s => op .fRelax l (op .cRelax l s)) (cf l)
          (if (0 < l ∨ (it = 0 ∧ l = 0)) ∧ ff = true then op .fRelax l a else a)))))) := by
      refine hop _ _ _ (Or.inl hl) (hop _ _ _ (Or.inl hl) (ih _ _ (by omega) (hop _ _ _ (Or.inl hl) ?_)))
      refine times_inv (fun a h => hop _ _ _ (Or.inl hl) (hop _ _ _ (Or.inl hl) h)) _ ?_
      split
      · exact hop _ _ _ (Or.inl hl) ha
      · exact ha
    split
    · exact vcyc_inv cf hop (d + 1) l it false hd h1
    · exact h1

theorem nested_inv (hL : 0 < L) {a : α} (ha : P a) : P (Trace.nested L cf op a) := by
  have key : ∀ l, l + 1 ≤ L → ∀ a, P a → P (Trace.nestedLoop L cf op l a) := by
    intro l
    induction l with
    | zero => exact fun _ a ha => ha
    | succ l ih =>
      intro hl a ha
      simp only [Trace.nestedLoop]
      refine ih (by omega) _ ?_
      have h1 := hop .interp l a (Or.inl (by omega)) ha
      split
      · exact iteration_inv cf hop _ _ _ _ _ (by omega) h1
      · exact h1
  exact key _ (by omega) _ (hop _ _ _ (Or.inr ⟨by omega, rfl⟩) ha)

end

/-- Operations that ignore the memory. -/
theorem iteration_pair {α : Type} (cf : Nat → Nat) {op : OpKind → Nat → α → α} {op' : OpKind → Nat → α × σ → α × σ}
    (h : ∀ o l a m, op' o l (a, m) = (op o l a, m)) (d l : Nat) (cyc : Cycle) (it : Nat) (ff : Bool) (a : α) (m : σ) :
    Trace.iteration cf op' d l cyc it ff (a, m) = (Trace.iteration cf op d l cyc it ff a, m) := by
  obtain rfl : op' = fun o l q => (op o l q.1, q.2) := by
    funext o l q
    exact h o l q.1 q.2
  have ht : ∀ k l (a : α), times (fun s : α × σ => (op .fRelax l (op .cRelax l s.1), s.2)) k (a, m)
      = (times (fun s => op .fRelax l (op .cRelax l s)) k a, m) := by
    intro k l
    induction k with
    | zero => intro a; rfl
    | succ k ih => intro a; exact ih _
  have hv : ∀ d l ff (a : α), Trace.vcyc cf (fun o l (q : α × σ) => (op o l q.1, q.2)) d l it ff (a, m)
      = (Trace.vcyc cf op d l it ff a, m) := by
    intro d
    induction d with
    | zero => intro l ff a; rfl
    | succ d ih =>
      intro l ff a
      simp only [Trace.vcyc]
      split <;> rw [ht, ih]
  induction d generalizing l ff a with
  | zero => rfl
  | succ d ih =>
    simp only [Trace.iteration]
    split <;> split <;> simp only [ht, ih, hv]

theorem nested_pair {α : Type} (L : Nat) (cf : Nat → Nat) {op : OpKind → Nat → α → α}
    {op' : OpKind → Nat → α × σ → α × σ}
    (h : ∀ o l a m, op' o l (a, m) = (op o l a, m)) (a : α) (m : σ) :
    Trace.nested L cf op' (a, m) = (Trace.nested L cf op a, m) := by
  have key : ∀ l (a : α), Trace.nestedLoop L cf op' l (a, m) = (Trace.nestedLoop L cf op l a, m) := by
    intro l
    induction l with
    | zero => intro a; rfl
    | succ l ih =>
      intro a
      simp only [Trace.nestedLoop]
      split <;> simp only [h, iteration_pair cf h, ih]
  simp only [Trace.nested, h, key]

theorem sweepM_plain (Φ : Nat → Nat → V → V) (l : Nat) (idx : List Nat) (f : (Nat → V) → Nat → V → V) (u : Nat → V)
    (m : σ) : sweepM (plain Φ) l idx f (u, m) = (sweep idx (fun u i => f u i (Φ l i (u (i - 1)))) u, m) := by
  induction idx generalizing u with
  | nil => rfl
  | cons i idx ih =>
    rw [sweep_cons]
    exact ih _

theorem fasLoopM_plain (Φ : Nat → Nat → V → V) (l : Nat) (rhs : Nat × Nat → V → V → V) (x y : Nat × Nat → V)
    (cks : List (Nat × Nat)) (g : Nat → V) (m : σ) :
    fasLoopM (plain Φ) l rhs x y cks (g, m) = (cks.foldl (fun g ck => if ck.2 = 0 then g else
      Function.update g ck.2 (rhs ck (Φ l ck.1 (x ck)) (Φ (l + 1) ck.2 (y ck)))) g, m) := by
  unfold fasLoopM
  induction cks generalizing g with
  | nil => rfl
  | cons ck cks ih =>
    rw [List.foldl_cons, List.foldl_cons]
    split
    · exact ih _
    · exact ih _

theorem opM_plain (S : Sys V 𝕜) (o : OpKind) (l : Nat) (s : GState V) (m : σ) :
    opM S (plain S.Φ) o l (s, m) = (S.op S.forwardSolve o l s, m) := by
  cases o with
  | fRelax => simp only [opM, fRelaxM, sweepM_plain]; rfl
  | cRelax => simp only [opM, cRelaxM, sweepM_plain]; rfl
  | fas => simp only [opM, fasResidualM, fasLoopM_plain]; rfl
  | corr => rfl
  | solve => simp only [opM, forwardSolveM, sweepM_plain]; rfl
  | interp => rfl

theorem residualsM_near (H : MHyp S st Inv p κ ε η) (hlt : ∀ i ∈ S.C 0, i < S.n 0) (s : GState V) {m : σ} (hm : Inv m) :
    List.Forall₂ (fun a b => p (a - b) ≤ ε) (residualsM S st (s, m)).1 (S.residuals s) ∧
      Inv (residualsM S st (s, m)).2 := by
  have hL := H.wf.Lpos
  have key : ∀ (idx : List Nat), (∀ i ∈ idx, 1 ≤ i ∧ i < S.n 0) → ∀ (as bs : List V) (m : σ), Inv m →
      List.Forall₂ (fun a b => p (a - b) ≤ ε) as bs →
      List.Forall₂ (fun a b => p (a - b) ≤ ε) (idx.foldl (fun q i =>
        let r := st q.2 0 i (s.u 0 (i - 1))
        (q.1 ++ [r.1 - s.u 0 i], r.2)) (as, m)).1 (bs ++ idx.map fun i => S.Φ 0 i (s.u 0 (i - 1)) - s.u 0 i) ∧
      Inv (idx.foldl (fun q i =>
        let r := st q.2 0 i (s.u 0 (i - 1))
        (q.1 ++ [r.1 - s.u 0 i], r.2)) (as, m)).2 := by
    intro idx
    induction idx with
    | nil => intro _ as bs m hm h; simpa using ⟨h, hm⟩
    | cons i idx ih =>
      intro hi as bs m hm h
      obtain ⟨h1, h2⟩ := hi i (by simp)
      have := ih (fun j hj => hi j (by simp [hj])) (as ++ [(st m 0 i (s.u 0 (i - 1))).1 - s.u 0 i])
        (bs ++ [S.Φ 0 i (s.u 0 (i - 1)) - s.u 0 i]) (st m 0 i (s.u 0 (i - 1))).2 (H.inv m 0 i _ hm hL h1 h2)
        (List.rel_append h (List.Forall₂.cons (by
          rw [sub_sub_sub_cancel_right]; exact H.near m 0 i _ hm hL h1 h2) List.Forall₂.nil))
      rw [List.map_cons, List.append_cons]
      exact this
  have := key ((S.C 0).filter (· ≠ 0)) (fun i hi => by
    obtain ⟨h1, h2⟩ := List.mem_filter.1 hi
    exact ⟨Nat.one_le_iff_ne_zero.2 (by simpa using h2), hlt i h1⟩) [] [] m hm List.Forall₂.nil
  exact this

theorem residualsM_plain (S : Sys V 𝕜) (s : GState V) (m : σ) :
    residualsM S (plain S.Φ) (s, m) = (S.residuals s, m) := by
  have key : ∀ (idx : List Nat) (as : List V), idx.foldl (fun q i =>
        let r := plain (σ := σ) S.Φ q.2 0 i (s.u 0 (i - 1))
        (q.1 ++ [r.1 - s.u 0 i], r.2)) (as, m) = (as ++ idx.map fun i => S.Φ 0 i (s.u 0 (i - 1)) - s.u 0 i, m) := by
    intro idx
    induction idx with
    | nil => intro as; simp
    | cons i idx ih =>
      intro as
      rw [List.foldl_cons, List.map_cons, List.append_cons]
      exact ih _
  exact key _ []

section
variable {N : Type} (c : Ctl V N)

theorem convergenceM_st (it : Nat) (r : Run V N × σ) : (convergenceM S st c it r).1.st = r.1.st ∧
    (convergenceM S st c it r).1.iter = r.1.iter := by
  unfold convergenceM
  split <;> exact ⟨rfl, rfl⟩

theorem solveBodyM_st (it : Nat) (r : Run V N × σ) :
    (solveBodyM S st c it r).1.st = (iterationM S st c.cyc it (r.1.st, r.2)).1 ∧
    (solveBodyM S st c it r).1.iter = it + 1 := by
  unfold solveBodyM
  dsimp only
  obtain ⟨h1, h2⟩ := convergenceM_st (S := S) (st := st) c (it + 1)
    ({ r.1 with iter := it + 1, st := (iterationM S st c.cyc it (r.1.st, r.2)).1 },
      (iterationM S st c.cyc it (r.1.st, r.2)).2)
  split
  · exact ⟨h1, h2⟩
  · exact ⟨h1, h2⟩

theorem solveBodyM_inv (H : MHyp S st Inv p κ ε η) (hlt : ∀ i ∈ S.C 0, i < S.n 0) (it : Nat) (r : Run V N × σ)
    (hm : Inv (iterationM S st c.cyc it (r.1.st, r.2)).2) : Inv (solveBodyM S st c it r).2 := by
  have : Inv (convergenceM S st c (it + 1)
    ({ r.1 with iter := it + 1, st := (iterationM S st c.cyc it (r.1.st, r.2)).1 },
      (iterationM S st c.cyc it (r.1.st, r.2)).2)).2 := by
    unfold convergenceM
    split
    · exact (residualsM_near H hlt _ hm).2
    · exact hm
  unfold solveBodyM
  dsimp only
  split
  · exact this
  · exact this

theorem Ctl_lt (H : MHyp S st Inv p κ ε η) : ∀ i ∈ S.C 0, i < S.n 0 := by
  intro i hi
  by_cases hL : 1 < S.L
  · exact H.wf.C_lt 0 hL i hi
  · have e : 0 = S.L - 1 := by have := H.wf.Lpos; omega
    rw [e, H.wf.C_last] at hi
    rw [e]
    exact List.mem_range.1 hi

/-- The loop of `solve` with at least one pass. -/
theorem solveLoopM_out (H : MHyp S st Inv p κ ε η) {s0 : GState V} {D : ℝ} (k it : Nat) (r : Run V N × σ)
    (hk : 0 < k) (hm : Inv r.2) (hD : CErrLe S p 0 r.1.st (bound S κ η c.cyc it D))
    (hF : 0 < it → 1 < S.L → Rel S p ε η 0 r.1.st) (hK : Keeps 0 s0 r.1.st) :
    let q := solveLoopM S st c k it r
    it + 1 ≤ q.1.iter ∧ q.1.iter ≤ it + k ∧
      Out S Inv p ε η 0 s0 (q.1.st, q.2) (bound S κ η c.cyc q.1.iter D) ∧
      (q.1.iter < it + k → stops c (q.1.iter - 1) q.1 = true) ∧
      ∃ r' m', Inv m' ∧ q = solveBodyM S st c (q.1.iter - 1) r' ∧
        m' = (iterationM S st c.cyc (q.1.iter - 1) (r'.1.st, r'.2)).2 := by
  induction k generalizing it r with
  | zero => omega
  | succ k ih =>
    intro q
    have h1 := fineM H c.cyc it hm hD hF
    obtain ⟨e1, e2⟩ := solveBodyM_st (S := S) (st := st) c it r
    have hinv := solveBodyM_inv c H (Ctl_lt H) it r h1.inv
    have hout : Out S Inv p ε η 0 s0 ((solveBodyM S st c it r).1.st, (solveBodyM S st c it r).2)
        (bound S κ η c.cyc (it + 1) D) := by
      refine ⟨?_, ?_, ?_, hinv⟩
      · dsimp only; rw [e1]; exact h1.err
      · dsimp only; rw [e1]; exact h1.rel
      · dsimp only; rw [e1]; exact hK.trans h1.keeps
    have eq : q = if stops c it (solveBodyM S st c it r).1 then solveBodyM S st c it r
      else solveLoopM S st c k (it + 1) (solveBodyM S st c it r) := rfl
    by_cases hs : stops c it (solveBodyM S st c it r).1 = true
    · rw [if_pos hs] at eq
      rw [eq, e2]
      refine ⟨le_rfl, by omega, hout, fun _ => hs, r, _, h1.inv, rfl, rfl⟩
    · rw [if_neg hs] at eq
      rcases Nat.eq_zero_or_pos k with h0 | hpos
      · subst h0
        have eq : q = solveBodyM S st c it r := eq
        rw [eq, e2]
        exact ⟨le_rfl, by omega, hout, fun h => by omega, r, _, h1.inv, rfl, rfl⟩
      · have := ih (it + 1) (solveBodyM S st c it r) hpos hinv (fun i hi => hout.err i (Ctl_lt H i hi))
          (fun _ hL => hout.rel hL) hout.keeps
        rw [← eq] at this
        obtain ⟨a1, a2, a3, a4, a5⟩ := this
        exact ⟨by omega, by omega, a3, fun h => a4 (by omega), a5⟩

end

end
end Memory
end Pymgrit
