import Verif.Depth
import Verif.SeqLemmas
import Verif.Spec
import Verif.PropsAt
import Verif.EndToEnd2
import Mathlib.Algebra.BigOperators.Group.List.Basic

/-!
# Chains of steps: invariants

Upper and lower bounds of the number carried by the vectors, operation by operation.
-/

set_option linter.unusedSectionVars false

namespace Pymgrit
namespace Depth
open Sys Trace

section
variable {V K : Type} [Add V] [Sub V] [SMul K V] [One K] [Sub K]

/-- `dep` counts the steps. -/
structure Counts (S : Sys V K) (dep : V → Nat) : Prop where
  add : ∀ x y, dep (x + y) = max (dep x) (dep y)
  sub : ∀ x y, dep (x - y) = max (dep x) (dep y)
  smul : ∀ (k : K) x, dep (k • x) = dep x
  step : ∀ l i x, dep (S.Φ l i x) = dep x + 1
  R : ∀ l x, dep (S.R l x) = dep x
  I : ∀ l x, dep (S.I l x) = dep x

/-- A position of the points that is the same on all levels. -/
structure Pos (S : Sys V K) (pos : Nat → Nat → Nat) : Prop where
  mono : ∀ l i, l < S.L → i + 1 < S.n l → pos l i ≤ pos l (i + 1)
  cpt : ∀ l k, l + 1 < S.L → k < S.n (l + 1) → pos l (S.cpt l k) = pos (l + 1) k

/-- All numbers are at most `A` plus the position. -/
def Below (S : Sys V K) (dep : V → Nat) (pos : Nat → Nat → Nat) (A : Nat) (s : GState V) : Prop :=
  ∀ l i, l < S.L → i < S.n l → dep (s.u l i) ≤ A + pos l i ∧ dep (s.v l i) ≤ A + pos l i ∧ dep (s.g l i) ≤ A + pos l i

/-- What one operation adds: a sweep over the F-points the longest run of F-points, a sweep over the C-points and the FAS
residual one step; `κ` for the coarsest level. -/
def opCost (m : Nat → Nat) (κ : Nat) : OpKind → Nat → Nat
  | .fRelax, l => m l - 1
  | .cRelax, _ => 1
  | .fas, _ => 1
  | .corr, _ => 0
  | .solve, _ => κ
  | .interp, _ => 0

/-- What a sequence of operations adds. -/
def logCost (m : Nat → Nat) (κ : Nat) (xs : List (OpKind × Nat)) : Nat := (xs.map fun x => opCost m κ x.1 x.2).sum

variable {S : Sys V K} {dep : V → Nat} {pos : Nat → Nat → Nat} {m : Nat → Nat} {A : Nat}

theorem Below.mono {B : Nat} {s : GState V} (h : Below S dep pos A s) (hAB : A ≤ B) : Below S dep pos B s := fun l i hl hi => by
  obtain ⟨a, b, c⟩ := h l i hl hi
  exact ⟨by omega, by omega, by omega⟩

theorem Pos.pred (hp : Pos S pos) {l i : Nat} (hl : l < S.L) (h1 : 1 ≤ i) (hi : i < S.n l) : pos l (i - 1) ≤ pos l i := by
  have := hp.mono l (i - 1) hl (by omega)
  rwa [show i - 1 + 1 = i by omega] at this

theorem prop_dep_le (hc : Counts S dep) (g : Nat → Nat → V) (l i : Nat) (x : V) :
    dep (S.prop g l i x) ≤ max (dep (g l i)) (dep x + 1) := by
  unfold Sys.prop
  split
  · rw [hc.step]; exact le_max_right _ _
  · rw [hc.add, hc.step]

theorem le_prop_dep (hc : Counts S dep) (g : Nat → Nat → V) (l i : Nat) (x : V) : dep x + 1 ≤ dep (S.prop g l i x) := by
  unfold Sys.prop
  split
  · rw [hc.step]
  · rw [hc.add, hc.step]; exact le_max_right _ _

theorem fRelax_below (h : S.WF) (hc : Counts S dep) (hp : Pos S pos)
    (hm : ∀ l, l + 1 < S.L → ∀ i, i < S.n l → ∃ c ∈ S.C l, c ≤ i ∧ i < c + m l) {l : Nat} (hl : l + 1 < S.L) {s : GState V}
    (hs : Below S dep pos A s) : Below S dep pos (A + (m l - 1)) (S.fRelax l s) := by
  intro l' i hl' hi
  obtain ⟨a, b, c⟩ := hs l' i hl' hi
  refine ⟨?_, by rw [fRelax_v]; omega, by rw [fRelax_g]; omega⟩
  by_cases e : l' = l
  · subst e
    have key : ∀ i, i < S.n l' → ∀ c ∈ S.C l', c ≤ i → dep ((S.fRelax l' s).u l' i) ≤ A + (i - c) + pos l' i := by
      intro i
      induction i with
      | zero =>
        intro hi c hcC hci
        rw [h.fRelax_C hl s (h.zero_mem_C hl)]
        have := (hs l' 0 hl' hi).1
        omega
      | succ i ih =>
        intro hi c hcC hci
        by_cases hC : i + 1 ∈ S.C l'
        · rw [h.fRelax_C hl s hC]
          have := (hs l' (i + 1) hl' hi).1
          omega
        · have hne : c ≠ i + 1 := fun e => hC (e ▸ hcC)
          rw [h.fRelax_F hl s hi hC]
          refine (prop_dep_le hc _ _ _ _).trans (max_le ?_ ?_)
          · have := (hs l' (i + 1) hl' hi).2.2
            omega
          · have h1 := ih (by omega) c hcC (by omega)
            have h2 := hp.mono l' i hl' hi
            rw [Nat.add_sub_cancel]
            omega
    obtain ⟨c, hcC, hci, hcm⟩ := hm l' hl i hi
    have := key i hi c hcC hci
    omega
  · rw [fRelax_u_ne s e]; omega

theorem cRelax_below (h : S.WF) (hc : Counts S dep) (hp : Pos S pos) {l : Nat} (hl : l + 1 < S.L)
    (hadj : ∀ i, i ∈ S.C l → i + 1 ∉ S.C l) {s : GState V}
    (hs : Below S dep pos A s) : Below S dep pos (A + 1) (S.cRelax l s) := by
  intro l' i hl' hi
  obtain ⟨a, b, c⟩ := hs l' i hl' hi
  refine ⟨?_, by rw [cRelax_v]; omega, by rw [cRelax_g]; omega⟩
  by_cases e : l' = l
  · subst e
    by_cases hC : i ∈ S.C l' ∧ i ≠ 0
    · obtain ⟨hC, h0⟩ := hC
      rw [h.cRelax_C hl s hC h0, hc.add, hc.smul, hc.smul]
      have hn : i - 1 ∉ S.C l' := fun hm => by
        have := hadj _ hm
        rw [show i - 1 + 1 = i by omega] at this
        exact this hC
      rw [cRelax_not_C s hn]
      refine max_le ((prop_dep_le hc _ _ _ _).trans (max_le (by omega) ?_)) (by omega)
      have h1 := (hs l' (i - 1) hl' (by omega)).1
      have h2 := hp.pred hl' (by omega) hi
      omega
    · by_cases h0 : i = 0
      · subst h0; rw [cRelax_zero]; omega
      · rw [cRelax_not_C s (fun hm => hC ⟨hm, h0⟩)]; omega
  · rw [cRelax_u_ne s e]; omega

theorem fasResidual_g_zero (h : S.WF) {l : Nat} (s : GState V) : (S.fasResidual l s).g (l + 1) 0 = s.g (l + 1) 0 := by
  simp only [fasResidual, Function.update_self]
  rw [foldl_if (S.C l).zipIdx (fun ck => ck.2 = 0)]
  refine foldl_update_not_mem _ Prod.snd (fun ck _ => _) _ ?_
  intro hm
  simp only [List.mem_map, List.mem_filter] at hm
  obtain ⟨ck, ⟨-, h1⟩, h2⟩ := hm
  simp [h2] at h1

theorem fas_below (h : S.WF) (hc : Counts S dep) (hp : Pos S pos) {l : Nat} (hl : l + 1 < S.L) {s : GState V}
    (hs : Below S dep pos A s) : Below S dep pos (A + 1) (S.fasResidual l s) := by
  have hcl : ∀ k, k < S.n (l + 1) → S.cpt l k < S.n l := fun k hk =>
    h.C_lt l hl _ (cpt_mem (by rw [h.C_len l hl]; exact hk))
  have hu : ∀ k, k < S.n (l + 1) → dep ((S.fasResidual l s).u (l + 1) k) ≤ A + pos (l + 1) k := by
    intro k hk
    rw [h.fasResidual_u hl s hk, hc.R, ← hp.cpt l k hl hk]
    exact (hs l _ (by omega) (hcl k hk)).1
  intro l' i hl' hi
  obtain ⟨a, b, c⟩ := hs l' i hl' hi
  by_cases e : l' = l + 1
  · subst e
    have hui := hu i hi
    refine ⟨by omega, by rw [fasResidual_v_eq]; omega, ?_⟩
    by_cases h0 : i = 0
    · subst h0; rw [fasResidual_g_zero h]; omega
    · rw [h.fasResidual_g hl s hi h0, hc.sub, hc.add, hc.step]
      have h1 := hu (i - 1) (by omega)
      have h2 := hp.pred hl' (by omega) hi
      refine max_le (max_le ?_ (by omega)) (by omega)
      have hcp := hcl i hi
      have hpos : 1 ≤ S.cpt l i := by
        have := h.cpt_lt hl (Nat.pos_of_ne_zero h0) hi
        omega
      have e1 := hp.cpt l i hl hi
      have h3 := hs l _ (by omega) hcp
      have h4 := hs l (S.cpt l i - 1) (by omega) (by omega)
      have h5 := hp.pred (show l < S.L by omega) hpos hcp
      unfold fasRes
      split
      · rw [hc.R, hc.sub, hc.step]
        exact max_le (by omega) (by omega)
      · rw [hc.R, hc.add, hc.sub, hc.step]
        exact max_le (max_le (by omega) (by omega)) (by omega)
  · rw [fasResidual_u_ne s e, fasResidual_v_ne s e, fasResidual_g_ne s e]
    exact ⟨by omega, by omega, by omega⟩

theorem corr_below (h : S.WF) (hc : Counts S dep) (hp : Pos S pos) {l : Nat} (hl : l + 1 < S.L) {s : GState V}
    (hs : Below S dep pos A s) : Below S dep pos A (S.errorCorrection l s) := by
  intro l' i hl' hi
  obtain ⟨a, b, c⟩ := hs l' i hl' hi
  refine ⟨?_, b, c⟩
  by_cases e : l' = l
  · subst e
    by_cases hC : i ∈ S.C l' ∧ i ≠ 0
    · obtain ⟨hC, h0⟩ := hC
      obtain ⟨k, hk, rfl⟩ := (h.mem_C_iff hl).1 hC
      have hk0 : k ≠ 0 := by rintro rfl; exact h0 (h.cpt_zero hl)
      rw [h.errorCorrection_C hl s hk hk0, hc.add, hc.I, hc.sub, hp.cpt l' k hl hk]
      rw [hp.cpt l' k hl hk] at a
      have := hs (l' + 1) k hl hk
      exact max_le a (max_le this.1 this.2.1)
    · rw [h.errorCorrection_not hl s (by
        by_cases h0 : i = 0
        · exact Or.inr h0
        · exact Or.inl fun hm => hC ⟨hm, h0⟩)]
      exact a
  · rw [errorCorrection_u_ne s e]; exact a

theorem interp_below (h : S.WF) (hc : Counts S dep) (hp : Pos S pos) {l : Nat} (hl : l + 1 < S.L) {s : GState V}
    (hs : Below S dep pos A s) : Below S dep pos A (S.interpolate l s) := by
  intro l' i hl' hi
  obtain ⟨a, b, c⟩ := hs l' i hl' hi
  refine ⟨?_, b, c⟩
  by_cases e : l' = l
  · subst e
    by_cases hC : i ∈ S.C l' ∧ i ≠ 0
    · obtain ⟨hC, h0⟩ := hC
      obtain ⟨k, hk, rfl⟩ := (h.mem_C_iff hl).1 hC
      have hk0 : k ≠ 0 := by rintro rfl; exact h0 (h.cpt_zero hl)
      rw [h.interpolate_C hl s hk hk0, hc.I, hp.cpt l' k hl hk]
      exact (hs (l' + 1) k hl hk).1
    · rw [h.interpolate_not hl s (by
        by_cases h0 : i = 0
        · exact Or.inr h0
        · exact Or.inl fun hm => hC ⟨hm, h0⟩)]
      exact a
  · rw [interpolate_u_ne s e]; exact a

/-- Positions that go up by one on the coarsest level: the solve on the coarsest level adds nothing. -/
theorem forward_below (h : S.WF) (hc : Counts S dep)
    (hlast : ∀ i, i + 1 < S.n (S.L - 1) → pos (S.L - 1) i + 1 ≤ pos (S.L - 1) (i + 1)) {s : GState V}
    (hs : Below S dep pos A s) : Below S dep pos A (S.forwardSolve (S.L - 1) s) := by
  intro l' i hl' hi
  obtain ⟨a, b, c⟩ := hs l' i hl' hi
  refine ⟨?_, b, c⟩
  by_cases e : l' = S.L - 1
  · subst e
    clear a b c
    induction i with
    | zero => rw [forwardSolve_zero]; exact (hs _ 0 hl' hi).1
    | succ i ih =>
      rw [forwardSolve_pos s (by omega) hi]
      refine (prop_dep_le hc _ _ _ _).trans (max_le (hs _ _ hl' hi).2.2 ?_)
      have h1 := ih (by omega)
      have h2 := hlast i hi
      rw [Nat.add_sub_cancel]
      omega
  · rw [forwardSolve_u_ne s e]; exact a

/-- The local solves of AT-MGRIT: `k - 1` steps each, whatever the position. -/
theorem at_below (hc : Counts S dep) (hp : Pos S pos) (hL : S.L ≠ 1) {k : Nat} (hk : 1 ≤ k) {s : GState V}
    (hs : Below S dep pos A s) : Below S dep pos (A + (k - 1)) (S.atForward k (S.L - 1) s) := by
  obtain ⟨w1, w2, w3, w4, w5⟩ := C35_window_value hL (l := S.L - 1) hk s
  intro l' i hl' hi
  obtain ⟨a, b, c⟩ := hs l' i hl' hi
  rw [w4, w5]
  refine ⟨?_, by omega, by omega⟩
  by_cases e : l' = S.L - 1
  · subst e
    rw [w1 i hi]
    have key : ∀ j, j ≤ min i (k - 1) → dep (stepsFrom (fun i x => s.g (S.L - 1) i + S.Φ (S.L - 1) i x) (i + 1 - k) j
        (s.u (S.L - 1) (i + 1 - k))) ≤ A + j + pos (S.L - 1) (i + 1 - k + j) := by
      intro j
      induction j with
      | zero => intro _; exact (hs _ _ hl' (by omega)).1
      | succ j ih =>
        intro hj
        have h1 := ih (by omega)
        have h2 := (hs (S.L - 1) (i + 1 - k + (j + 1)) hl' (by omega)).2.2
        have h3 := hp.mono (S.L - 1) (i + 1 - k + j) hl' (by omega)
        simp only [stepsFrom]
        rw [hc.add, hc.step]
        have e : i + 1 - k + (j + 1) = i + 1 - k + j + 1 := by omega
        rw [e] at h2 ⊢
        refine max_le ?_ (by omega)
        first
          | (refine le_trans ?_ (show A + pos (S.L - 1) (i + 1 - k + j + 1) ≤ _ by omega); exact h2)
          | omega
    have h1 := key (min i (k - 1)) (Nat.le_refl _)
    rw [show i + 1 - k + min i (k - 1) = i by omega] at h1
    omega
  · rw [w3 l' e]; omega

/-- The solve takes place on the coarsest level, all other operations belong to finer levels. -/
def OkOp (L : Nat) (x : OpKind × Nat) : Prop := x.2 + 1 < L ∧ x.1 ≠ OpKind.solve ∨ x.2 + 1 = L ∧ x.1 = OpKind.solve

theorem cf_ok {L l : Nat} (hl : l + 1 < L) (k : Nat) :
    ∀ x ∈ (List.replicate k [(OpKind.cRelax, l), (OpKind.fRelax, l)]).flatten, OkOp L x := by
  intro x hx
  obtain ⟨ys, hy, hx⟩ := List.mem_flatten.1 hx
  rw [List.eq_of_mem_replicate hy] at hx
  rcases List.mem_cons.1 hx with rfl | hx
  · exact Or.inl ⟨hl, nofun⟩
  · rw [List.mem_singleton] at hx; subst hx; exact Or.inl ⟨hl, nofun⟩

theorem vops_ok (cf : Nat → Nat) (L d l it : Nat) (ff : Bool) (hd : l + d + 1 = L) : ∀ x ∈ vops cf d l it ff, OkOp L x := by
  induction d generalizing l ff with
  | zero =>
    intro x hx
    rw [vops, List.mem_singleton] at hx
    subst hx
    exact Or.inr ⟨by simpa using hd, rfl⟩
  | succ d ih =>
    have hl : l + 1 < L := by omega
    intro x hx
    rw [vops] at hx
    simp only [List.mem_append] at hx
    rcases hx with (((hx | hx) | hx) | hx) | hx
    · split at hx
      · rw [List.mem_singleton] at hx; subst hx; exact Or.inl ⟨hl, nofun⟩
      · simp at hx
    · exact cf_ok hl _ x hx
    · rw [List.mem_singleton] at hx; subst hx; exact Or.inl ⟨hl, nofun⟩
    · exact ih _ _ (by omega) x hx
    · rcases List.mem_cons.1 hx with rfl | hx
      · exact Or.inl ⟨hl, nofun⟩
      · rw [List.mem_singleton] at hx; subst hx; exact Or.inl ⟨hl, nofun⟩

theorem ops_ok (cf : Nat → Nat) (L d l : Nat) (cyc : Cycle) (it : Nat) (ff : Bool) (hd : l + d + 1 = L) :
    ∀ x ∈ ops cf d l cyc it ff, OkOp L x := by
  induction d generalizing l ff with
  | zero =>
    intro x hx
    rw [ops, List.mem_singleton] at hx
    subst hx
    exact Or.inr ⟨by simpa using hd, rfl⟩
  | succ d ih =>
    have hl : l + 1 < L := by omega
    intro x hx
    rw [ops] at hx
    simp only [List.mem_append] at hx
    rcases hx with ((((hx | hx) | hx) | hx) | hx) | hx
    · split at hx
      · rw [List.mem_singleton] at hx; subst hx; exact Or.inl ⟨hl, nofun⟩
      · simp at hx
    · exact cf_ok hl _ x hx
    · rw [List.mem_singleton] at hx; subst hx; exact Or.inl ⟨hl, nofun⟩
    · exact ih _ _ (by omega) x hx
    · rcases List.mem_cons.1 hx with rfl | hx
      · exact Or.inl ⟨hl, nofun⟩
      · rw [List.mem_singleton] at hx; subst hx; exact Or.inl ⟨hl, nofun⟩
    · split at hx
      · exact vops_ok cf L (d + 1) l it false (by omega) x hx
      · simp at hx

theorem nops_ok (cf : Nat → Nat) (L l : Nat) (hl : l < L) : ∀ x ∈ nops L cf l, OkOp L x := by
  induction l with
  | zero => intro x hx; simp [nops] at hx
  | succ l ih =>
    intro x hx
    rw [nops] at hx
    simp only [List.cons_append, List.mem_cons, List.mem_append] at hx
    rcases hx with rfl | hx | hx
    · exact Or.inl ⟨by simpa using hl, nofun⟩
    · split at hx
      · exact ops_ok cf L _ _ _ _ _ (by omega) x hx
      · simp at hx
    · exact ih (by omega) x hx

/-- A sequence of operations. -/
theorem runLog_below (h : S.WF) (hc : Counts S dep) (hp : Pos S pos)
    (hm : ∀ l, l + 1 < S.L → ∀ i, i < S.n l → ∃ c ∈ S.C l, c ≤ i ∧ i < c + m l)
    (hadj : ∀ l, l + 1 < S.L → ∀ i, i ∈ S.C l → i + 1 ∉ S.C l) {κ : Nat} {coarse : Nat → GState V → GState V}
    (hco : ∀ A s, Below S dep pos A s → Below S dep pos (A + κ) (coarse (S.L - 1) s)) (xs : List (OpKind × Nat))
    (hx : ∀ x ∈ xs, OkOp S.L x) {s : GState V} (hs : Below S dep pos A s) :
    Below S dep pos (A + logCost m κ xs) (runLog (S.op coarse) xs s) := by
  induction xs generalizing A s with
  | nil => exact hs
  | cons x xs ih =>
    obtain ⟨o, l⟩ := x
    have h1 : Below S dep pos (A + opCost m κ o l) (S.op coarse o l s) := by
      have hl := hx (o, l) (by simp)
      unfold OkOp at hl
      cases o with
      | solve =>
        have e : l = S.L - 1 := by simp at hl; omega
        subst e
        exact hco A s hs
      | fRelax => exact fRelax_below h hc hp hm (by simpa using hl) hs
      | cRelax => exact cRelax_below h hc hp (by simpa using hl) (hadj l (by simpa using hl)) hs
      | fas => exact fas_below h hc hp (by simpa using hl) hs
      | corr => exact corr_below h hc hp (by simpa using hl) hs
      | interp => exact interp_below h hc hp (by simpa using hl) hs
    have h2 := ih (fun y hy => hx y (by simp [hy])) h1
    rw [Nat.add_assoc] at h2
    simpa [logCost, runLog] using h2

end

/-! ### Costs of the cycles -/

/-- What one visit of level `l` adds without the first F-relaxation: `cf + 1` sweeps over the F-points, `cf` sweeps over the
C-points, the FAS residual. -/
def baseCost (cf m : Nat → Nat) (l : Nat) : Nat := (cf l + 1) * (m l - 1 + 1)

/-- With the first F-relaxation. -/
def visitCost (cf m : Nat → Nat) (l : Nat) : Nat := baseCost cf m l + (m l - 1)

theorem logCost_append (m : Nat → Nat) (κ : Nat) (xs ys : List (OpKind × Nat)) :
    logCost m κ (xs ++ ys) = logCost m κ xs + logCost m κ ys := by simp [logCost]

theorem logCost_cf (m : Nat → Nat) (κ l k : Nat) :
    logCost m κ (List.replicate k [(OpKind.cRelax, l), (OpKind.fRelax, l)]).flatten = k * (m l - 1) + k := by
  induction k with
  | zero => simp [logCost]
  | succ k ih =>
    rw [List.replicate_succ, List.flatten_cons, logCost_append, ih]
    simp only [logCost, opCost, List.map_cons, List.map_nil, List.sum_cons, List.sum_nil]
    rw [Nat.succ_mul]
    omega

/-- The part of a visit around the coarser levels. -/
theorem body_cost' (cf m : Nat → Nat) (κ l it : Nat) (ff : Bool) (xs : List (OpKind × Nat)) :
    logCost m κ ((if (0 < l ∨ (it = 0 ∧ l = 0)) ∧ ff then [(OpKind.fRelax, l)] else []) ++
      (List.replicate (cf l) [(OpKind.cRelax, l), (OpKind.fRelax, l)]).flatten ++
      [(OpKind.fas, l)] ++ xs ++ [(OpKind.corr, l), (OpKind.fRelax, l)])
      = baseCost cf m l + (if (0 < l ∨ (it = 0 ∧ l = 0)) ∧ ff then m l - 1 else 0) + logCost m κ xs := by
  simp only [logCost_append, logCost_cf]
  have h1 : logCost m κ (if (0 < l ∨ (it = 0 ∧ l = 0)) ∧ ff then [(OpKind.fRelax, l)] else [])
      = if (0 < l ∨ (it = 0 ∧ l = 0)) ∧ ff then m l - 1 else 0 := by
    split <;> simp [logCost, opCost]
  have h2 : logCost m κ [(OpKind.fas, l)] = 1 := by simp [logCost, opCost]
  have h3 : logCost m κ [(OpKind.corr, l), (OpKind.fRelax, l)] = m l - 1 := by simp [logCost, opCost]
  rw [h1, h2, h3]
  unfold baseCost
  rw [Nat.mul_succ, Nat.succ_mul]
  omega

theorem body_cost (cf m : Nat → Nat) (κ l it : Nat) (ff : Bool) (xs : List (OpKind × Nat)) :
    logCost m κ ((if (0 < l ∨ (it = 0 ∧ l = 0)) ∧ ff then [(OpKind.fRelax, l)] else []) ++
      (List.replicate (cf l) [(OpKind.cRelax, l), (OpKind.fRelax, l)]).flatten ++
      [(OpKind.fas, l)] ++ xs ++ [(OpKind.corr, l), (OpKind.fRelax, l)]) ≤ visitCost cf m l + logCost m κ xs := by
  rw [body_cost']
  unfold visitCost
  split <;> omega

theorem vops_cost (cf m : Nat → Nat) (κ d l it : Nat) (ff : Bool) :
    logCost m κ (vops cf d l it ff) ≤ ((List.range' l d).map (visitCost cf m)).sum + κ := by
  induction d generalizing l ff with
  | zero => simp [vops, logCost, opCost]
  | succ d ih =>
    rw [vops, List.range'_succ, List.map_cons, List.sum_cons]
    have h1 := body_cost cf m κ l it ff (vops cf d (l + 1) it true)
    have h2 := ih (l + 1) true
    omega

/-- How often an iteration visits level `l` at most: once in a V-cycle, `l + 1` times in an F-cycle. -/
def visits (cyc : Cycle) (l : Nat) : Nat := if cyc = Cycle.F then l + 1 else 1

theorem ops_F_cost (cf m : Nat → Nat) (κ d l it : Nat) (ff : Bool) (hl : 0 < l) :
    logCost m κ (ops cf d l Cycle.F it ff)
      ≤ ((List.range' l d).map fun j => (j - l + 2) * visitCost cf m j).sum + (d + 1) * κ := by
  induction d generalizing l ff with
  | zero => simp [ops, logCost, opCost]
  | succ d ih =>
    rw [ops, logCost_append, if_pos (show l ≠ 0 ∧ Cycle.F = Cycle.F from ⟨by omega, rfl⟩), List.range'_succ, List.map_cons, List.sum_cons]
    have h1 := body_cost cf m κ l it ff (ops cf d (l + 1) Cycle.F it true)
    have h2 := ih (l + 1) true (by omega)
    have h3 := vops_cost cf m κ (d + 1) l it false
    rw [List.range'_succ, List.map_cons, List.sum_cons] at h3
    have e : ((List.range' (l + 1) d).map fun j => (j - l + 2) * visitCost cf m j).sum
        = ((List.range' (l + 1) d).map fun j => (j - (l + 1) + 2) * visitCost cf m j).sum
          + ((List.range' (l + 1) d).map (visitCost cf m)).sum := by
      rw [← List.sum_map_add]
      congr 1
      refine List.map_congr_left fun j hj => ?_
      rw [List.mem_range'_1] at hj
      rw [show j - l + 2 = j - (l + 1) + 2 + 1 by omega, Nat.succ_mul]
    rw [e, Nat.sub_self, Nat.succ_mul (d + 1) κ]
    omega

/-- Costs of one iteration on the finest level; its first F-relaxation is part of the first iteration only. -/
def iterCost (cf m : Nat → Nat) (cyc : Cycle) (d : Nat) : Nat :=
  ((List.range d).map fun l => if l = 0 then baseCost cf m 0 else visits cyc l * visitCost cf m l).sum

theorem iterCost_succ (cf m : Nat → Nat) (cyc : Cycle) (d : Nat) :
    iterCost cf m cyc (d + 1) = baseCost cf m 0 + ((List.range' 1 d).map fun l => visits cyc l * visitCost cf m l).sum := by
  unfold iterCost
  rw [List.range_eq_range', List.range'_succ, List.map_cons, List.sum_cons, if_pos rfl]
  congr 2
  refine List.map_congr_left fun j hj => ?_
  rw [List.mem_range'_1] at hj
  rw [if_neg (by omega)]

theorem ops_cost (cf m : Nat → Nat) (κ d : Nat) (cyc : Cycle) (it : Nat) :
    logCost m κ (ops cf d 0 cyc it true) ≤ (if it = 0 then m 0 - 1 else 0) + iterCost cf m cyc d
      + (if cyc = Cycle.F then max 1 d else 1) * κ := by
  cases d with
  | zero => cases cyc <;> simp [ops, logCost, opCost, iterCost]
  | succ d =>
    rw [iterCost_succ]
    cases cyc with
    | V =>
      rw [ops_V, vops, body_cost']
      have h2 := vops_cost cf m κ d (0 + 1) it true
      rw [show ((List.range' 1 d).map fun l => visits Cycle.V l * visitCost cf m l)
        = (List.range' (0 + 1) d).map (visitCost cf m) from List.map_congr_left fun j _ => by simp [visits]]
      simp only [Nat.lt_irrefl, false_or, and_true, reduceCtorEq, if_false]
      split <;> omega
    | F =>
      rw [ops, if_neg (show ¬ (0 ≠ 0 ∧ Cycle.F = Cycle.F) from fun h => h.1 rfl), List.append_nil, body_cost']
      have h2 := ops_F_cost cf m κ d (0 + 1) it true (by omega)
      have e : ((List.range' (0 + 1) d).map fun j => (j - (0 + 1) + 2) * visitCost cf m j).sum
          = ((List.range' 1 d).map fun l => visits Cycle.F l * visitCost cf m l).sum := by
        congr 1
        refine List.map_congr_left fun j hj => ?_
        rw [List.mem_range'_1] at hj
        rw [show j - (0 + 1) + 2 = visits Cycle.F j by simp [visits]; omega]
      rw [e] at h2
      rw [if_pos rfl, show max 1 (d + 1) = d + 1 by omega]
      simp only [Nat.lt_irrefl, false_or, and_true]
      split <;> omega

/-- Costs of nested iteration: level `l` is visited `l` times. -/
theorem nops_cost (cf m : Nat → Nat) (κ L l : Nat) (hl : l < L) :
    logCost m κ (nops L cf l)
      ≤ ((List.range (L - 1)).map fun j => min j (l - 1) * visitCost cf m j).sum + (l - 1) * κ := by
  induction l with
  | zero => simp [nops, logCost]
  | succ l ih =>
    rw [nops, List.cons_append, show ∀ (o : OpKind × Nat) xs, o :: xs = [o] ++ xs from fun _ _ => rfl, logCost_append,
      logCost_append]
    have h0 : logCost m κ [(OpKind.interp, l)] = 0 := by simp [logCost, opCost]
    have h1 := ih (by omega)
    rw [h0, Nat.zero_add, Nat.add_sub_cancel]
    by_cases hl0 : 0 < l
    · rw [if_pos hl0, ops_V]
      have h2 := vops_cost cf m κ (L - 1 - l) l 0 true
      have e : ((List.range (L - 1)).map fun j => min j l * visitCost cf m j).sum
          = ((List.range (L - 1)).map fun j => min j (l - 1) * visitCost cf m j).sum
            + ((List.range' l (L - 1 - l)).map (visitCost cf m)).sum := by
        have hsplit : List.range (L - 1) = List.range l ++ List.range' l (L - 1 - l) := by
          rw [List.range_eq_range', List.range_eq_range']
          have := List.range'_append_1 (s := 0) (m := l) (n := L - 1 - l)
          rw [Nat.zero_add] at this
          rw [this]
          congr 1
          omega
        rw [hsplit, List.map_append, List.map_append, List.sum_append, List.sum_append, Nat.add_assoc]
        congr 1
        · congr 1
          refine List.map_congr_left fun j hj => ?_
          rw [List.mem_range] at hj
          rw [show min j l = min j (l - 1) by omega]
        · rw [← List.sum_map_add]
          congr 1
          refine List.map_congr_left fun j hj => ?_
          rw [List.mem_range'_1] at hj
          rw [show min j l = min j (l - 1) + 1 by omega, Nat.succ_mul]
      obtain ⟨l, rfl⟩ : ∃ k, l = k + 1 := ⟨l - 1, by omega⟩
      rw [e, Nat.add_sub_cancel, Nat.succ_mul]
      rw [Nat.add_sub_cancel] at h1
      omega
    · rw [if_neg hl0]
      obtain rfl : l = 0 := by omega
      simpa [logCost, nops] using h1

/-! ### Lower bound -/

section
variable {V K : Type} [Add V] [Sub V] [SMul K V] [One K] [Sub K] {S : Sys V K} {dep : V → Nat} {pos : Nat → Nat → Nat}

/-- Behind the correction and an F-relaxation: at least the position, if this holds on the next level. -/
theorem corr_above (h : S.WF) (hc : Counts S dep) (hp : Pos S pos) (hz : ∀ l, l < S.L → pos l 0 = 0)
    (hF : ∀ l i, l + 1 < S.L → i + 1 < S.n l → i + 1 ∉ S.C l → pos l (i + 1) ≤ pos l i + 1) {l : Nat} (hl : l + 1 < S.L)
    {s : GState V} (hs : ∀ k, k < S.n (l + 1) → pos (l + 1) k ≤ dep (s.u (l + 1) k)) :
    ∀ i, i < S.n l → pos l i ≤ dep ((S.fRelax l (S.errorCorrection l s)).u l i) := by
  intro i
  induction i with
  | zero => intro _; rw [hz l (by omega)]; exact Nat.zero_le _
  | succ i ih =>
    intro hi
    by_cases hC : i + 1 ∈ S.C l
    · rw [h.fRelax_C hl _ hC]
      obtain ⟨k, hk, e⟩ := (h.mem_C_iff hl).1 hC
      have hk0 : k ≠ 0 := by
        rintro rfl
        rw [h.cpt_zero hl] at e
        omega
      rw [e, h.errorCorrection_C hl s hk hk0, hc.add, hc.I, hc.sub, hp.cpt l k hl hk]
      exact (hs k hk).trans ((le_max_left _ _).trans (le_max_right _ _))
    · rw [h.fRelax_F hl _ hi hC]
      refine le_trans ?_ (le_prop_dep hc _ _ _ _)
      rw [Nat.add_sub_cancel]
      have := ih (by omega)
      have := hF l i hl hi hC
      omega

theorem forward_above (hc : Counts S dep) (hz : ∀ l, l < S.L → pos l 0 = 0)
    (hlast : ∀ i, i + 1 < S.n (S.L - 1) → pos (S.L - 1) (i + 1) ≤ pos (S.L - 1) i + 1) (h : S.WF) (s : GState V) :
    ∀ i, i < S.n (S.L - 1) → pos (S.L - 1) i ≤ dep ((S.forwardSolve (S.L - 1) s).u (S.L - 1) i) := by
  have := h.Lpos
  intro i
  induction i with
  | zero => intro _; rw [hz _ (by omega)]; exact Nat.zero_le _
  | succ i ih =>
    intro hi
    rw [forwardSolve_pos s (by omega) hi]
    refine le_trans ?_ (le_prop_dep hc _ _ _ _)
    rw [Nat.add_sub_cancel]
    have := ih (by omega)
    have := hlast i hi
    omega

theorem vcyc_above (h : S.WF) (hc : Counts S dep) (hp : Pos S pos) (hz : ∀ l, l < S.L → pos l 0 = 0)
    (hF : ∀ l i, l + 1 < S.L → i + 1 < S.n l → i + 1 ∉ S.C l → pos l (i + 1) ≤ pos l i + 1)
    (hlast : ∀ i, i + 1 < S.n (S.L - 1) → pos (S.L - 1) (i + 1) ≤ pos (S.L - 1) i + 1) (d l it : Nat) (ff : Bool)
    (hd : l + d + 1 = S.L) (s : GState V) :
    ∀ i, i < S.n l → pos l i ≤ dep ((S.vcyc S.forwardSolve d l it ff s).u l i) := by
  induction d generalizing l ff s with
  | zero =>
    obtain rfl : l = S.L - 1 := by omega
    exact forward_above hc hz hlast h s
  | succ d ih =>
    simp only [Sys.vcyc]
    exact corr_above h hc hp hz hF (by omega) (ih (l + 1) true (by omega) _)

theorem iteration_above (h : S.WF) (hc : Counts S dep) (hp : Pos S pos) (hz : ∀ l, l < S.L → pos l 0 = 0)
    (hF : ∀ l i, l + 1 < S.L → i + 1 < S.n l → i + 1 ∉ S.C l → pos l (i + 1) ≤ pos l i + 1)
    (hlast : ∀ i, i + 1 < S.n (S.L - 1) → pos (S.L - 1) (i + 1) ≤ pos (S.L - 1) i + 1) (d l : Nat) (cyc : Cycle) (it : Nat)
    (ff : Bool) (hd : l + d + 1 = S.L) (s : GState V) :
    ∀ i, i < S.n l → pos l i ≤ dep ((S.iteration S.forwardSolve d l cyc it ff s).u l i) := by
  induction d generalizing l ff s with
  | zero =>
    obtain rfl : l = S.L - 1 := by omega
    exact forward_above hc hz hlast h s
  | succ d ih =>
    simp only [Sys.iteration]
    split
    · exact vcyc_above h hc hp hz hF hlast (d + 1) l it false (by omega) _
    · exact corr_above h hc hp hz hF (by omega) (ih (l + 1) true (by omega) _)

end

/-! ### Forgetting the numbers -/

section
variable {V K N : Type}

/-- The values. -/
def forgetG (s : GState (DV V)) : GState V where
  u := fun l i => (s.u l i).val
  v := fun l i => (s.v l i).val
  g := fun l i => (s.g l i).val

/-- The values of a run. -/
def forgetR (r : Run (DV V) N) : Run V N where
  st := forgetG r.st
  saved := fun i => (r.saved i).val
  conv := r.conv
  iter := r.iter
  outs := r.outs.map fun o => (o.1, fun i => (o.2 i).val)

theorem update_val (u : Nat → DV V) (i : Nat) (x : DV V) :
    (fun j => (Function.update u i x j).val) = Function.update (fun j => (u j).val) i x.val := by
  funext j
  by_cases e : j = i
  · subst e; simp
  · simp [e]

theorem update2_val (a : Nat → Nat → DV V) (l : Nat) (x : Nat → DV V) :
    (fun k j => (Function.update a l x k j).val) = Function.update (fun k j => (a k j).val) l (fun j => (x j).val) := by
  funext k j
  by_cases e : k = l
  · subst e; simp
  · simp [e]

/-- A loop that writes into an array, without the numbers. -/
theorem foldl_val {α : Type} (xs : List α) (f : (Nat → DV V) → α → (Nat → DV V)) (f' : (Nat → V) → α → (Nat → V))
    (hf : ∀ u a, (fun j => (f u a j).val) = f' (fun j => (u j).val) a) (u : Nat → DV V) :
    (fun j => (xs.foldl f u j).val) = xs.foldl f' (fun j => (u j).val) := by
  induction xs generalizing u with
  | nil => rfl
  | cons a xs ih => rw [List.foldl_cons, List.foldl_cons, ih, hf]

theorem setU_val (s : GState (DV V)) (l : Nat) (x : Nat → DV V) :
    forgetG (s.setU l x) = (forgetG s).setU l (fun j => (x j).val) := by
  unfold forgetG GState.setU
  congr 1
  exact update2_val _ _ _

end

section
variable {V K T N : Type} [LinearOrder T] [Inhabited T] [Add V] [Sub V] [SMul K V] [One K] [Sub K] (E : Cfg V K T N)

theorem prop_val (g : Nat → Nat → DV V) (l i : Nat) (x : DV V) :
    ((tag E).sys.prop g l i x).val = E.sys.prop (fun l i => (g l i).val) l i x.val := by
  unfold Sys.prop
  split <;> rfl

theorem fRelax_val (l : Nat) (s : GState (DV V)) : forgetG ((tag E).sys.fRelax l s) = E.sys.fRelax l (forgetG s) := by
  unfold Sys.fRelax
  rw [setU_val]
  congr 1
  refine foldl_val _ _ _ (fun u i => ?_) _
  rw [update_val, prop_val]
  rfl

theorem forward_val (l : Nat) (s : GState (DV V)) :
    forgetG ((tag E).sys.forwardSolve l s) = E.sys.forwardSolve l (forgetG s) := by
  unfold Sys.forwardSolve
  rw [setU_val]
  congr 1
  refine foldl_val _ _ _ (fun u i => ?_) _
  rw [update_val, prop_val]
  rfl

theorem cRelax_val (l : Nat) (s : GState (DV V)) : forgetG ((tag E).sys.cRelax l s) = E.sys.cRelax l (forgetG s) := by
  unfold Sys.cRelax
  rw [setU_val]
  congr 1
  refine foldl_val _ _ _ (fun u i => ?_) _
  rw [update_val]
  show Function.update (fun j => (u j).val) i ((tag E).sys.w • ((tag E).sys.prop s.g l i (u (i - 1))).val + (1 - (tag E).sys.w) • (u i).val) = _
  rw [prop_val]
  rfl

theorem fasRes_val (s : GState (DV V)) (l c : Nat) : ((tag E).sys.fasRes s l c).val = E.sys.fasRes (forgetG s) l c := by
  unfold Sys.fasRes
  split <;> rfl

theorem fas_val (l : Nat) (s : GState (DV V)) : forgetG ((tag E).sys.fasResidual l s) = E.sys.fasResidual l (forgetG s) := by
  have hu : (fun j => (((tag E).sys.C l).zipIdx.foldl (fun (u : Nat → DV V) ck =>
      Function.update u ck.2 ((tag E).sys.R l (s.u l ck.1))) (s.u (l + 1)) j).val)
      = (E.sys.C l).zipIdx.foldl (fun (u : Nat → V) ck => Function.update u ck.2 (E.sys.R l ((forgetG s).u l ck.1)))
        ((forgetG s).u (l + 1)) :=
    foldl_val _ _ _ (fun u ck => by rw [update_val]; rfl) _
  unfold Sys.fasResidual
  dsimp only
  rw [← hu]
  unfold forgetG
  dsimp only
  rw [update2_val, update2_val, update2_val]
  congr 2
  refine foldl_val _ _ _ (fun g ck => ?_) _
  split
  · rfl
  · rw [update_val]
    congr 1
    show ((tag E).sys.fasRes s l ck.1).val + _ - _ = _
    rw [fasRes_val]
    rfl

theorem corr_val (l : Nat) (s : GState (DV V)) :
    forgetG ((tag E).sys.errorCorrection l s) = E.sys.errorCorrection l (forgetG s) := by
  unfold Sys.errorCorrection
  rw [setU_val]
  congr 1
  refine foldl_val _ _ _ (fun u ck => ?_) _
  split
  · rfl
  · rw [update_val]; rfl

theorem interp_val (l : Nat) (s : GState (DV V)) :
    forgetG ((tag E).sys.interpolate l s) = E.sys.interpolate l (forgetG s) := by
  unfold Sys.interpolate
  rw [setU_val]
  congr 1
  refine foldl_val _ _ _ (fun u ck => ?_) _
  split
  · rfl
  · rw [update_val]; rfl

theorem op_val (o : OpKind) (l : Nat) (s : GState (DV V)) :
    forgetG ((tag E).sys.op (tag E).sys.forwardSolve o l s) = E.sys.op E.sys.forwardSolve o l (forgetG s) := by
  cases o
  · exact fRelax_val E l s
  · exact cRelax_val E l s
  · exact fas_val E l s
  · exact corr_val E l s
  · exact forward_val E l s
  · exact interp_val E l s

theorem runLog_val (xs : List (OpKind × Nat)) (s : GState (DV V)) :
    forgetG (runLog ((tag E).sys.op (tag E).sys.forwardSolve) xs s)
      = runLog (E.sys.op E.sys.forwardSolve) xs (forgetG s) := by
  induction xs generalizing s with
  | nil => rfl
  | cons x xs ih =>
    show forgetG (runLog _ xs ((tag E).sys.op (tag E).sys.forwardSolve x.1 x.2 s)) = runLog _ xs _
    rw [ih, op_val]

theorem fineIteration_val (cyc : Cycle) (it : Nat) (s : GState (DV V)) :
    forgetG ((tag E).sys.fineIteration (tag E).sys.forwardSolve cyc it s)
      = E.sys.fineIteration E.sys.forwardSolve cyc it (forgetG s) := by
  unfold Sys.fineIteration
  rw [iteration_log, iteration_log]
  exact runLog_val E _ s

theorem residuals_val (s : GState (DV V)) :
    ((tag E).sys.residuals s).map (tag E).norm = (E.sys.residuals (forgetG s)).map E.norm := by
  unfold Sys.residuals
  rw [List.map_map, List.map_map]
  rfl

theorem jumps_val (saved : Nat → DV V) (s : GState (DV V)) :
    ((tag E).sys.jumps saved s).map (tag E).norm = (E.sys.jumps (fun i => (saved i).val) (forgetG s)).map E.norm := by
  unfold Sys.jumps
  rw [List.map_map, List.map_map]
  rfl

theorem output_val (r : Run (DV V) N) : forgetR r.output = (forgetR r).output := by
  unfold Run.output forgetR
  simp only [List.map_append, List.map_cons, List.map_nil]
  rfl

theorem convergence_val (it : Nat) (r : Run (DV V) N) :
    forgetR ((tag E).sys.convergence (tag E).ctl it r) = E.sys.convergence E.ctl it (forgetR r) := by
  unfold Sys.convergence
  by_cases h : E.convCrit = 0
  · rw [if_pos (show (tag E).ctl.convCrit = 0 from h), if_pos (show E.ctl.convCrit = 0 from h)]
    have := residuals_val E r.st
    unfold forgetR
    dsimp only
    rw [← show (tag E).ctl.tnorm (((tag E).sys.residuals r.st).map (tag E).ctl.norm)
      = E.ctl.tnorm ((E.sys.residuals (forgetG r.st)).map E.ctl.norm) from congrArg E.tnorm this]
  · rw [if_neg (show ¬ (tag E).ctl.convCrit = 0 from h), if_neg (show ¬ E.ctl.convCrit = 0 from h)]
    have := jumps_val E r.saved r.st
    unfold forgetR
    dsimp only
    rw [← show (tag E).ctl.tnorm (((tag E).sys.jumps r.saved r.st).map (tag E).ctl.norm)
      = E.ctl.tnorm ((E.sys.jumps (fun i => (r.saved i).val) (forgetG r.st)).map E.ctl.norm) from congrArg E.tnorm this]
    rfl

theorem solveBody_val (it : Nat) (r : Run (DV V) N) :
    forgetR ((tag E).sys.solveBody (tag E).ctl (tag E).sys.forwardSolve it r)
      = E.sys.solveBody E.ctl E.sys.forwardSolve it (forgetR r) := by
  have key : forgetR ((tag E).sys.convergence (tag E).ctl (it + 1)
      { r with iter := it + 1, st := (tag E).sys.fineIteration (tag E).sys.forwardSolve (tag E).ctl.cyc it r.st })
      = E.sys.convergence E.ctl (it + 1)
        { forgetR r with iter := it + 1, st := E.sys.fineIteration E.sys.forwardSolve E.ctl.cyc it (forgetR r).st } := by
    rw [convergence_val]
    congr 1
    unfold forgetR
    dsimp only
    rw [fineIteration_val]
    rfl
  unfold Sys.solveBody
  dsimp only
  by_cases h : E.outLvl = 2
  · rw [if_pos (show (tag E).ctl.outLvl = 2 from h), if_pos (show E.ctl.outLvl = 2 from h), output_val, key]
  · rw [if_neg (show ¬ (tag E).ctl.outLvl = 2 from h), if_neg (show ¬ E.ctl.outLvl = 2 from h), key]

theorem solveLoop_val (k it : Nat) (r : Run (DV V) N) :
    forgetR ((tag E).sys.solveLoop (tag E).ctl (tag E).sys.forwardSolve k it r)
      = E.sys.solveLoop E.ctl E.sys.forwardSolve k it (forgetR r) := by
  induction k generalizing it r with
  | zero => rfl
  | succ k ih =>
    simp only [Sys.solveLoop]
    rw [← solveBody_val]
    by_cases h : Sys.stops (tag E).ctl it ((tag E).sys.solveBody (tag E).ctl (tag E).sys.forwardSolve it r) = true
    · rw [if_pos h, if_pos (show Sys.stops E.ctl it (forgetR _) = true from h)]
    · rw [if_neg h, if_neg (show ¬ Sys.stops E.ctl it (forgetR _) = true from h)]
      exact ih _ _

theorem solve_val (r : Run (DV V) N) :
    forgetR ((tag E).sys.solve (tag E).ctl (tag E).sys.forwardSolve r)
      = E.sys.solve E.ctl E.sys.forwardSolve (forgetR r) := by
  unfold Sys.solve
  dsimp only
  have key := solveLoop_val E E.maxIter 0 r
  by_cases h : E.outLvl = 1
  · rw [if_pos (show (tag E).ctl.outLvl = 1 from h), if_pos (show E.ctl.outLvl = 1 from h), output_val]
    exact congrArg Run.output key
  · rw [if_neg (show ¬ (tag E).ctl.outLvl = 1 from h), if_neg (show ¬ E.ctl.outLvl = 1 from h)]
    exact key

theorem setup_val (r : Run (DV V) N) :
    forgetR ((tag E).sys.setup (tag E).ctl (tag E).sys.forwardSolve r)
      = E.sys.setup E.ctl E.sys.forwardSolve (forgetR r) := by
  have hn : forgetG ((tag E).sys.nestedIteration (tag E).sys.forwardSolve r.st)
      = E.sys.nestedIteration E.sys.forwardSolve (forgetG r.st) := by
    rw [nested_log, nested_log]
    exact runLog_val E _ _
  have h1 : forgetR (if (tag E).ctl.nested then { r with st := (tag E).sys.nestedIteration (tag E).sys.forwardSolve r.st } else r)
      = (if E.ctl.nested then { forgetR r with st := E.sys.nestedIteration E.sys.forwardSolve (forgetR r).st } else forgetR r) := by
    by_cases h : E.nested = true
    · rw [if_pos (show (tag E).ctl.nested = true from h), if_pos (show E.ctl.nested = true from h)]
      unfold forgetR
      dsimp only
      rw [hn]
    · rw [if_neg (show ¬ (tag E).ctl.nested = true from h), if_neg (show ¬ E.ctl.nested = true from h)]
  unfold Sys.setup
  dsimp only
  rw [← h1]
  generalize (if (tag E).ctl.nested then { r with st := (tag E).sys.nestedIteration (tag E).sys.forwardSolve r.st } else r) = r1
  have h2 : forgetR (if (tag E).ctl.convCrit = 1 then { r1 with saved := r1.st.u 0 } else r1)
      = (if E.ctl.convCrit = 1 then { forgetR r1 with saved := (forgetR r1).st.u 0 } else forgetR r1) := by
    by_cases h : E.convCrit = 1
    · rw [if_pos (show (tag E).ctl.convCrit = 1 from h), if_pos (show E.ctl.convCrit = 1 from h)]
      rfl
    · rw [if_neg (show ¬ (tag E).ctl.convCrit = 1 from h), if_neg (show ¬ E.ctl.convCrit = 1 from h)]
  rw [← h2]
  generalize (if (tag E).ctl.convCrit = 1 then { r1 with saved := r1.st.u 0 } else r1) = r2
  by_cases h : E.outLvl = 2
  · rw [if_pos (show (tag E).ctl.outLvl = 2 from h), if_pos (show E.ctl.outLvl = 2 from h), output_val]
  · rw [if_neg (show ¬ (tag E).ctl.outLvl = 2 from h), if_neg (show ¬ E.ctl.outLvl = 2 from h)]

theorem init_val [Zero N] : forgetR (Run.init (N := N) (tag E).start (tag E).zero (tag E).guess)
    = Run.init E.start E.zero E.guess := by
  unfold Run.init forgetR forgetG
  congr 2
  funext l i
  dsimp only
  split
  · rfl
  · split <;> rfl

end

end Depth
end Pymgrit
