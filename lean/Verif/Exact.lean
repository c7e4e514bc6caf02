import Verif.SeqLemmas
import Mathlib.Algebra.Module.Defs
import Mathlib.Tactic.Abel

/-! Exactness of prefixes: lemmas for the fixed-point and finite-termination properties. -/

set_option linter.unusedSectionVars false

namespace Pymgrit
namespace Sys

variable {V K : Type} {S : Sys V K}

/-- `s'` differs from `s` only in what an operation on level `l` may write: `u` on levels `≥ l`
except for the initial value on level `l`, and `v`, `g` on levels `> l`. -/
structure Keeps (l : Nat) (s s' : GState V) : Prop where
  u_lt : ∀ l', l' < l → s'.u l' = s.u l'
  v_le : ∀ l', l' ≤ l → s'.v l' = s.v l'
  g_le : ∀ l', l' ≤ l → s'.g l' = s.g l'
  zero : s'.u l 0 = s.u l 0

theorem Keeps.refl (l : Nat) (s : GState V) : Keeps l s s :=
  ⟨fun _ _ => rfl, fun _ _ => rfl, fun _ _ => rfl, rfl⟩

theorem Keeps.trans {l : Nat} {a b c : GState V} (h1 : Keeps l a b) (h2 : Keeps l b c) :
    Keeps l a c :=
  ⟨fun l' h => (h2.u_lt l' h).trans (h1.u_lt l' h), fun l' h => (h2.v_le l' h).trans (h1.v_le l' h),
   fun l' h => (h2.g_le l' h).trans (h1.g_le l' h), h2.zero.trans h1.zero⟩

theorem Keeps.down {l : Nat} {a b : GState V} (h : Keeps (l + 1) a b) : Keeps l a b :=
  ⟨fun l' hl => h.u_lt l' (by omega), fun l' hl => h.v_le l' (by omega),
   fun l' hl => h.g_le l' (by omega), by rw [h.u_lt l (by omega)]⟩

section keeps
variable [Add V] [Sub V] [SMul K V] [One K] [Sub K]

theorem WF.keeps_fRelax (h : S.WF) {l : Nat} (hl : l + 1 < S.L) (s : GState V) :
    Keeps l s (S.fRelax l s) :=
  ⟨fun l' hl' => fRelax_u_ne s (by omega), fun _ _ => rfl, fun _ _ => rfl,
   h.fRelax_C hl s (h.zero_mem_C hl)⟩

theorem keeps_cRelax {l : Nat} (s : GState V) : Keeps l s (S.cRelax l s) :=
  ⟨fun l' hl' => cRelax_u_ne s (by omega), fun _ _ => rfl, fun _ _ => rfl, cRelax_zero s⟩

theorem keeps_fasResidual {l : Nat} (s : GState V) : Keeps l s (S.fasResidual l s) :=
  ⟨fun l' hl' => fasResidual_u_ne s (by omega), fun l' hl' => fasResidual_v_ne s (by omega),
   fun l' hl' => fasResidual_g_ne s (by omega), by rw [fasResidual_u_ne s (by omega)]⟩

theorem WF.keeps_errorCorrection (h : S.WF) {l : Nat} (hl : l + 1 < S.L) (s : GState V) :
    Keeps l s (S.errorCorrection l s) :=
  ⟨fun l' hl' => errorCorrection_u_ne s (by omega), fun _ _ => rfl, fun _ _ => rfl,
   h.errorCorrection_not hl s (Or.inr rfl)⟩

theorem WF.keeps_interpolate (h : S.WF) {l : Nat} (hl : l + 1 < S.L) (s : GState V) :
    Keeps l s (S.interpolate l s) :=
  ⟨fun l' hl' => interpolate_u_ne s (by omega), fun _ _ => rfl, fun _ _ => rfl,
   h.interpolate_not hl s (Or.inr rfl)⟩

theorem keeps_forwardSolve {l : Nat} (s : GState V) : Keeps l s (S.forwardSolve l s) :=
  ⟨fun l' hl' => forwardSolve_u_ne s (by omega), fun _ _ => rfl, fun _ _ => rfl,
   forwardSolve_zero l s⟩

theorem times_keeps {l : Nat} {f : GState V → GState V} (hf : ∀ s, Keeps l s (f s)) (k : Nat)
    (s : GState V) : Keeps l s (times f k s) := by
  induction k generalizing s with
  | zero => exact Keeps.refl l s
  | succ k ih => exact (hf s).trans (ih _)

/-- Invariant transfer for a cycle: any relation `P l s s'` that is reflexive, transitive and holds
of each building block holds of the whole cycle. -/
theorem WF.vcyc_induct (h : S.WF) {coarse : Nat → GState V → GState V}
    (P : Nat → GState V → GState V → Prop)
    (hrefl : ∀ l s, P l s s) (htrans : ∀ l a b c, P l a b → P l b c → P l a c)
    (hcoarse : ∀ s, P (S.L - 1) s (coarse (S.L - 1) s))
    (hf : ∀ l s, l + 1 < S.L → P l s (S.fRelax l s))
    (hc : ∀ l s, l + 1 < S.L → P l s (S.cRelax l s))
    (hcgc : ∀ l s (f : GState V → GState V), l + 1 < S.L → (∀ s, P (l + 1) s (f s)) →
      P l s (S.errorCorrection l (f (S.fasResidual l s))))
    (d l it : Nat) (ff : Bool) (hd : l + d + 1 = S.L) (s : GState V) :
    P l s (S.vcyc coarse d l it ff s) := by
  induction d generalizing l ff s with
  | zero =>
    have : l = S.L - 1 := by omega
    subst this
    exact hcoarse s
  | succ d ih =>
    have hl : l + 1 < S.L := by omega
    simp only [vcyc]
    refine htrans _ _ _ _ ?_ (hf l _ hl)
    have h1 : ∀ s, P l s (times (fun s => S.fRelax l (S.cRelax l s)) (S.cf l) s) := by
      intro s
      generalize S.cf l = k
      induction k generalizing s with
      | zero => exact hrefl _ _
      | succ k ihk =>
        exact htrans _ _ _ _ (htrans _ _ _ _ (hc l s hl) (hf l _ hl)) (ihk _)
    refine htrans _ _ _ _ ?_ (hcgc l _ _ hl fun s => ih (l + 1) true (by omega) s)
    refine htrans _ _ _ _ ?_ (h1 _)
    split
    · exact hf l s hl
    · exact hrefl _ _

theorem WF.iteration_induct (h : S.WF) {coarse : Nat → GState V → GState V}
    (P : Nat → GState V → GState V → Prop)
    (hrefl : ∀ l s, P l s s) (htrans : ∀ l a b c, P l a b → P l b c → P l a c)
    (hcoarse : ∀ s, P (S.L - 1) s (coarse (S.L - 1) s))
    (hf : ∀ l s, l + 1 < S.L → P l s (S.fRelax l s))
    (hc : ∀ l s, l + 1 < S.L → P l s (S.cRelax l s))
    (hcgc : ∀ l s (f : GState V → GState V), l + 1 < S.L → (∀ s, P (l + 1) s (f s)) →
      P l s (S.errorCorrection l (f (S.fasResidual l s))))
    (d l it : Nat) (cyc : Cycle) (ff : Bool) (hd : l + d + 1 = S.L) (s : GState V) :
    P l s (S.iteration coarse d l cyc it ff s) := by
  induction d generalizing l ff s with
  | zero =>
    have : l = S.L - 1 := by omega
    subst this
    exact hcoarse s
  | succ d ih =>
    have hl : l + 1 < S.L := by omega
    have h1 : ∀ s, P l s (times (fun s => S.fRelax l (S.cRelax l s)) (S.cf l) s) := by
      intro s
      generalize S.cf l = k
      induction k generalizing s with
      | zero => exact hrefl _ _
      | succ k ihk =>
        exact htrans _ _ _ _ (htrans _ _ _ _ (hc l s hl) (hf l _ hl)) (ihk _)
    have key : ∀ s, P l s (S.fRelax l (S.errorCorrection l
        (S.iteration coarse d (l + 1) cyc it true (S.fasResidual l
        (times (fun s => S.fRelax l (S.cRelax l s)) (S.cf l)
        (if (0 < l ∨ it = 0 ∧ l = 0) ∧ ff = true then S.fRelax l s else s)))))) := by
      intro s
      refine htrans _ _ _ _ ?_ (hf l _ hl)
      refine htrans _ _ _ _ ?_ (hcgc l _ _ hl fun s => ih (l + 1) true (by omega) s)
      refine htrans _ _ _ _ ?_ (h1 _)
      split
      · exact hf l s hl
      · exact hrefl _ _
    simp only [iteration]
    split
    · exact htrans _ _ _ _ (key s)
        (h.vcyc_induct P hrefl htrans hcoarse hf hc hcgc (d + 1) l it false hd _)
    · exact key s

/-- The recursion equation of the code (mgrit.py:261-290): on the coarsest level solve, otherwise
pre-relaxation, FAS residual, recursion with the same cycle type, correction, F-relaxation and, for
an F-cycle below the finest level, a V-cycle from the same level without leading F-relaxation. -/
theorem iteration_V_eq_vcyc (coarse : Nat → GState V → GState V) (d l it : Nat) (ff : Bool)
    (s : GState V) : S.iteration coarse d l Cycle.V it ff s = S.vcyc coarse d l it ff s := by
  induction d generalizing l ff s with
  | zero => rfl
  | succ d ih => simp [iteration, vcyc, ih]

theorem iteration_eq (coarse : Nat → GState V → GState V) (d l it : Nat) (cyc : Cycle) (ff : Bool)
    (s : GState V) : S.iteration coarse d l cyc it ff s =
      if d = 0 then coarse l s else
        let s := if (0 < l ∨ (it = 0 ∧ l = 0)) ∧ ff then S.fRelax l s else s
        let s := times (fun s => S.fRelax l (S.cRelax l s)) (S.cf l) s
        let s := S.fasResidual l s
        let s := S.iteration coarse (d - 1) (l + 1) cyc it true s
        let s := S.errorCorrection l s
        let s := S.fRelax l s
        if l ≠ 0 ∧ cyc = Cycle.F then S.iteration coarse d l Cycle.V it false s else s := by
  cases d with
  | zero => rfl
  | succ d =>
    simp only [iteration_V_eq_vcyc]
    rfl

theorem WF.keeps_iteration (h : S.WF) {coarse : Nat → GState V → GState V}
    (hcoarse : ∀ s, Keeps (S.L - 1) s (coarse (S.L - 1) s))
    (d l it : Nat) (cyc : Cycle) (ff : Bool) (hd : l + d + 1 = S.L) (s : GState V) :
    Keeps l s (S.iteration coarse d l cyc it ff s) := by
  refine h.iteration_induct Keeps Keeps.refl (fun l a b c => Keeps.trans) hcoarse
    (fun l s hl => h.keeps_fRelax hl s) (fun l s _ => keeps_cRelax s) ?_ d l it cyc ff hd s
  intro l s f hl hf
  exact ((keeps_fasResidual s).trans (hf _).down).trans (h.keeps_errorCorrection hl _)

end keeps

/-! ### Exact prefixes -/

section exact
variable [AddCommGroup V]

/-- The (FAS) time-stepping recurrence holds on level `l` at all points `1, ..., p`. -/
def Exact (S : Sys V K) (l : Nat) (s : GState V) (p : Nat) : Prop :=
  ∀ i, 1 ≤ i → i ≤ p → i < S.n l → s.u l i = S.prop s.g l i (s.u l (i - 1))

/-- `s` and `s'` have the same values on level `l` at all points up to `p`. -/
def SamePre (S : Sys V K) (l p : Nat) (s s' : GState V) : Prop :=
  ∀ i, i ≤ p → i < S.n l → s'.u l i = s.u l i

theorem SamePre.refl (l p : Nat) (s : GState V) : SamePre S l p s s := fun _ _ _ => rfl
theorem SamePre.trans {l p : Nat} {a b c : GState V} (h1 : SamePre S l p a b)
    (h2 : SamePre S l p b c) : SamePre S l p a c :=
  fun i hi hn => (h2 i hi hn).trans (h1 i hi hn)

theorem prop_congr {g g' : Nat → Nat → V} {l : Nat} (h : g' l = g l) (i : Nat) (x : V) :
    S.prop g' l i x = S.prop g l i x := by simp [prop, h]

theorem Exact.transfer {l p : Nat} {s s' : GState V} (he : Exact S l s p) (hk : Keeps l s s')
    (hs : SamePre S l p s s') : Exact S l s' p := by
  intro i h1 hp hn
  rw [hs i hp hn, hs (i - 1) (by omega) (by omega), prop_congr (hk.g_le l (Nat.le_refl l))]
  exact he i h1 hp hn

theorem Exact.mono {l p p' : Nat} {s : GState V} (he : Exact S l s p) (h : p' ≤ p) :
    Exact S l s p' := fun i h1 hp hn => he i h1 (by omega) hn

/-- What a level-`l` operation must preserve: nothing but level-`l` data is read back, and exact
prefixes are kept unchanged. -/
def Pres (S : Sys V K) (l : Nat) (s s' : GState V) : Prop :=
  Keeps l s s' ∧ ∀ p, Exact S l s p → SamePre S l p s s'

theorem Pres.refl (l : Nat) (s : GState V) : Pres S l s s :=
  ⟨Keeps.refl l s, fun p _ => SamePre.refl l p s⟩

theorem Pres.trans {l : Nat} {a b c : GState V} (h1 : Pres S l a b) (h2 : Pres S l b c) :
    Pres S l a c :=
  ⟨h1.1.trans h2.1, fun p he => (h1.2 p he).trans (h2.2 p (he.transfer h1.1 (h1.2 p he)))⟩

theorem Pres.exact {l p : Nat} {s s' : GState V} (h : Pres S l s s') (he : Exact S l s p) :
    Exact S l s' p := he.transfer h.1 (h.2 p he)

theorem WF.pres_fRelax [Sub K] [SMul K V] [One K] (h : S.WF) {l : Nat} (hl : l + 1 < S.L) (s : GState V) :
    Pres S l s (S.fRelax l s) := by
  refine ⟨h.keeps_fRelax hl s, fun p he i => ?_⟩
  induction i with
  | zero => intro _ _; exact h.fRelax_C hl s (h.zero_mem_C hl)
  | succ i ih =>
    intro hp hn
    by_cases hC : i + 1 ∈ S.C l
    · exact h.fRelax_C hl s hC
    · rw [h.fRelax_F hl s hn hC, Nat.add_sub_cancel, ih (by omega) (by omega)]
      exact (he (i + 1) (by omega) hp hn).symm

theorem WF.pres_cRelax [Ring K] [Module K V] (h : S.WF) {l : Nat} (hl : l + 1 < S.L)
    (s : GState V) : Pres S l s (S.cRelax l s) := by
  refine ⟨keeps_cRelax s, fun p he i => ?_⟩
  induction i with
  | zero => intro _ _; exact cRelax_zero s
  | succ i ih =>
    intro hp hn
    by_cases hC : i + 1 ∈ S.C l
    · rw [h.cRelax_C hl s hC (by omega), Nat.add_sub_cancel, ih (by omega) (by omega)]
      have := he (i + 1) (by omega) hp hn
      rw [Nat.add_sub_cancel] at this
      rw [← this, ← add_smul, add_sub_cancel, one_smul]
    · exact cRelax_not_C s hC

theorem fasRes_eq (s : GState V) (l c : Nat) :
    S.fasRes s l c = S.R l (S.prop s.g l c (s.u l (c - 1)) - s.u l c) := by
  unfold fasRes prop
  split
  · rfl
  · congr 1; abel

/-- Before the coarse-grid correction the coarse system is exact on the C-points of the exact
prefix. -/
theorem WF.fas_exact (h : S.WF) {l : Nat} (hl : l + 1 < S.L) (hR : S.R l 0 = 0)
    {s : GState V} {p q : Nat} (he : Exact S l s p) (hq : q < S.n (l + 1)) (hqp : S.cpt l q ≤ p) :
    Exact S (l + 1) (S.fasResidual l s) q := by
  intro k h1 hkq hk
  have hc0 : S.cpt l 0 = 0 := h.cpt_zero hl
  have hcpos : 1 ≤ S.cpt l k := by
    have := h.cpt_lt hl (show 0 < k by omega) hk
    omega
  have hck : S.cpt l k ≤ S.cpt l q := (h.cpt_le_iff hl hk hq).2 hkq
  have hcn : S.cpt l k < S.n l := h.C_lt l hl _ (cpt_mem (by rw [h.C_len l hl]; exact hk))
  have hr : S.fasRes s l (S.cpt l k) = 0 := by
    rw [fasRes_eq, ← he (S.cpt l k) hcpos (by omega) hcn, sub_self, hR]
  have hg := h.fasResidual_g hl s hk (by omega)
  rw [hr] at hg
  unfold prop
  rw [if_neg (by omega), hg]
  abel

theorem WF.pres_cgc [Sub K] [SMul K V] [One K] (h : S.WF) {l : Nat} (hl : l + 1 < S.L) (hR : S.R l 0 = 0) (hI : S.I l 0 = 0)
    (f : GState V → GState V) (hf : ∀ s, Pres S (l + 1) s (f s)) (s : GState V) :
    Pres S l s (S.errorCorrection l (f (S.fasResidual l s))) := by
  have hkeep : Keeps l s (S.errorCorrection l (f (S.fasResidual l s))) :=
    ((keeps_fasResidual s).trans (hf _).1.down).trans (h.keeps_errorCorrection hl _)
  refine ⟨hkeep, fun p he i hp hn => ?_⟩
  have hu : (f (S.fasResidual l s)).u l = s.u l := by
    rw [(hf (S.fasResidual l s)).1.u_lt l (by omega), fasResidual_u_ne s (by omega)]
  by_cases hi : i ∈ S.C l ∧ i ≠ 0
  · obtain ⟨k, hk, rfl⟩ := (h.mem_C_iff hl).1 hi.1
    have hk0 : k ≠ 0 := by rintro rfl; exact hi.2 (h.cpt_zero hl)
    rw [h.errorCorrection_C hl _ hk hk0, hu]
    have hex := h.fas_exact hl hR he hk hp
    have hsame := (hf (S.fasResidual l s)).2 k hex k (Nat.le_refl k) hk
    have hv : (f (S.fasResidual l s)).v (l + 1) k = (S.fasResidual l s).u (l + 1) k := by
      rw [(hf (S.fasResidual l s)).1.v_le (l + 1) (Nat.le_refl _), fasResidual_v_eq]
    rw [hsame, hv, sub_self, hI, add_zero]
  · rw [h.errorCorrection_not hl _ (by tauto), hu]

/-- **Exact prefixes survive every cycle.** -/
theorem WF.pres_iteration [Ring K] [Module K V] (h : S.WF)
    (hR : ∀ l, l + 1 < S.L → S.R l 0 = 0) (hI : ∀ l, l + 1 < S.L → S.I l 0 = 0)
    {coarse : Nat → GState V → GState V}
    (hcoarse : ∀ s, Pres S (S.L - 1) s (coarse (S.L - 1) s))
    (d l it : Nat) (cyc : Cycle) (ff : Bool) (hd : l + d + 1 = S.L) (s : GState V) :
    Pres S l s (S.iteration coarse d l cyc it ff s) :=
  h.iteration_induct (Pres S) Pres.refl (fun _ _ _ _ => Pres.trans) hcoarse
    (fun _ s hl => h.pres_fRelax hl s) (fun _ s hl => h.pres_cRelax hl s)
    (fun l s f hl hf => h.pres_cgc hl (hR l hl) (hI l hl) f hf s) d l it cyc ff hd s

theorem WF.pres_vcyc [Ring K] [Module K V] (h : S.WF)
    (hR : ∀ l, l + 1 < S.L → S.R l 0 = 0) (hI : ∀ l, l + 1 < S.L → S.I l 0 = 0)
    {coarse : Nat → GState V → GState V}
    (hcoarse : ∀ s, Pres S (S.L - 1) s (coarse (S.L - 1) s))
    (d l it : Nat) (ff : Bool) (hd : l + d + 1 = S.L) (s : GState V) :
    Pres S l s (S.vcyc coarse d l it ff s) :=
  h.vcyc_induct (Pres S) Pres.refl (fun _ _ _ _ => Pres.trans) hcoarse
    (fun _ s hl => h.pres_fRelax hl s) (fun _ s hl => h.pres_cRelax hl s)
    (fun l s f hl hf => h.pres_cgc hl (hR l hl) (hI l hl) f hf s) d l it ff hd s

theorem exact_forwardSolve (l : Nat) (s : GState V) (p : Nat) :
    Exact S l (S.forwardSolve l s) p := fun _ h1 _ hn => forwardSolve_pos s h1 hn

theorem pres_forwardSolve [Sub K] [SMul K V] [One K] (l : Nat) (s : GState V) : Pres S l s (S.forwardSolve l s) := by
  refine ⟨keeps_forwardSolve s, fun p he i => ?_⟩
  induction i with
  | zero => intro _ _; exact forwardSolve_zero l s
  | succ i ih =>
    intro hp hn
    rw [forwardSolve_pos s (by omega) hn, Nat.add_sub_cancel, ih (by omega) (by omega)]
    exact (he (i + 1) (by omega) hp hn).symm

/-! ### Growth of the exact prefix -/

theorem WF.fRelax_grow [Sub K] [SMul K V] [One K] (h : S.WF) {l p : Nat} (hl : l + 1 < S.L) {s : GState V}
    (he : Exact S l s p) (hC : p + 1 ∉ S.C l) : Exact S l (S.fRelax l s) (p + 1) := by
  intro i h1 hp hn
  rcases Nat.lt_or_eq_of_le hp with h2 | rfl
  · exact (h.pres_fRelax hl s).exact he i h1 (by omega) hn
  · exact h.fRelax_F hl s hn hC

theorem WF.cRelax_grow [Ring K] [Module K V] (h : S.WF) (hw : S.w = 1) {l p : Nat}
    (hl : l + 1 < S.L) {s : GState V} (he : Exact S l s p) (hC : p + 1 ∈ S.C l) :
    Exact S l (S.cRelax l s) (p + 1) := by
  intro i h1 hp hn
  rcases Nat.lt_or_eq_of_le hp with h2 | rfl
  · exact (h.pres_cRelax hl s).exact he i h1 (by omega) hn
  · rw [h.cRelax_C hl s hC (by omega), hw, one_smul, sub_self, zero_smul, add_zero]
    rfl

/-- A coarse-level operation that extends exact prefixes by at least one point. -/
def Grows (S : Sys V K) (l : Nat) (s s' : GState V) : Prop :=
  ∀ p, Exact S l s p → Exact S l s' (p + 1)

theorem WF.cgc_grow [Sub K] [SMul K V] [One K] (h : S.WF) {l : Nat} (hl : l + 1 < S.L) (hR : S.R l 0 = 0) (hI : S.I l 0 = 0)
    (hIR : ∀ x, S.I l (S.R l x) = x) (f : GState V → GState V)
    (hf : ∀ s, Pres S (l + 1) s (f s)) (hg : ∀ s, Grows S (l + 1) s (f s)) {s : GState V}
    {p : Nat} (he : Exact S l s p) (hC : p + 1 ∈ S.C l) :
    Exact S l (S.errorCorrection l (f (S.fasResidual l s))) (p + 1) := by
  have hpres := h.pres_cgc hl hR hI f hf s
  intro i h1 hp hn
  rcases Nat.lt_or_eq_of_le hp with h2 | rfl
  · exact hpres.exact he i h1 (by omega) hn
  rw [Nat.add_sub_cancel, hpres.2 p he p (Nat.le_refl p) (by omega),
    prop_congr (hpres.1.g_le l (Nat.le_refl l))]
  obtain ⟨k, hk, hpk⟩ := (h.mem_C_iff hl).1 hC
  have hk0 : k ≠ 0 := by rintro rfl; rw [h.cpt_zero hl] at hpk; omega
  obtain ⟨q, rfl⟩ : ∃ q, k = q + 1 := ⟨k - 1, by omega⟩
  have hqp : S.cpt l q ≤ p := by
    have := h.cpt_lt hl (show q < q + 1 by omega) hk
    omega
  have hex := h.fas_exact hl hR he (by omega) hqp
  have hgrow := hg (S.fasResidual l s) q hex (q + 1) (by omega) (Nat.le_refl _) hk
  have hsame := (hf (S.fasResidual l s)).2 q hex q (Nat.le_refl q) (by omega)
  rw [Nat.add_sub_cancel, hsame, prop_congr ((hf (S.fasResidual l s)).1.g_le (l + 1) (Nat.le_refl _)),
    prop, if_neg (by omega), h.fasResidual_g hl s hk hk0, Nat.add_sub_cancel, sub_add_cancel]
    at hgrow
  have hu : (f (S.fasResidual l s)).u l = s.u l := by
    rw [(hf (S.fasResidual l s)).1.u_lt l (by omega), fasResidual_u_ne s (by omega)]
  have hv : (f (S.fasResidual l s)).v (l + 1) (q + 1) = (S.fasResidual l s).u (l + 1) (q + 1) := by
    rw [(hf (S.fasResidual l s)).1.v_le (l + 1) (Nat.le_refl _), fasResidual_v_eq]
  rw [hpk, h.errorCorrection_C hl _ hk hk0, hu, hgrow, hv, add_sub_cancel_right, fasRes_eq, hIR,
    ← hpk, Nat.add_sub_cancel, add_sub_cancel]

theorem WF.grow_vcyc [Ring K] [Module K V] (h : S.WF)
    (hR : ∀ l, l + 1 < S.L → S.R l 0 = 0) (hI : ∀ l, l + 1 < S.L → S.I l 0 = 0)
    (hIR : ∀ l, l + 1 < S.L → ∀ x, S.I l (S.R l x) = x)
    {coarse : Nat → GState V → GState V}
    (hcoarse : ∀ s, Pres S (S.L - 1) s (coarse (S.L - 1) s))
    (hgc : ∀ s, Grows S (S.L - 1) s (coarse (S.L - 1) s))
    (d l it : Nat) (ff : Bool) (hd : l + d + 1 = S.L) (s : GState V) :
    Grows S l s (S.vcyc coarse d l it ff s) := by
  induction d generalizing l ff s with
  | zero =>
    have : l = S.L - 1 := by omega
    subst this
    exact hgc s
  | succ d ih =>
    have hl : l + 1 < S.L := by omega
    intro p he
    simp only [vcyc]
    have h1 : ∀ k s, Pres S l s (times (fun s => S.fRelax l (S.cRelax l s)) k s) := by
      intro k
      induction k with
      | zero => exact fun s => Pres.refl _ _
      | succ k ihk =>
        exact fun s => ((h.pres_cRelax hl s).trans (h.pres_fRelax hl _)).trans (ihk _)
    set s0 := (if (0 < l ∨ it = 0 ∧ l = 0) ∧ ff = true then S.fRelax l s else s) with hs0
    have he0 : Exact S l s0 p := by
      rw [hs0]; split
      · exact (h.pres_fRelax hl s).exact he
      · exact he
    have he1 := (h1 (S.cf l) s0).exact he0
    set s1 := times (fun s => S.fRelax l (S.cRelax l s)) (S.cf l) s0
    have hpf := fun s => h.pres_vcyc hR hI hcoarse d (l + 1) it true (by omega) s
    have hgf := fun s => ih (l + 1) true (by omega) s
    by_cases hC : p + 1 ∈ S.C l
    · exact (h.pres_fRelax hl _).exact
        (h.cgc_grow hl (hR l hl) (hI l hl) (hIR l hl) _ hpf hgf he1 hC)
    · exact h.fRelax_grow hl ((h.pres_cgc hl (hR l hl) (hI l hl) _ hpf s1).exact he1) hC

/-- **Every cycle on every level extends the exact prefix by at least one point.** -/
theorem WF.grow_iteration [Ring K] [Module K V] (h : S.WF)
    (hR : ∀ l, l + 1 < S.L → S.R l 0 = 0) (hI : ∀ l, l + 1 < S.L → S.I l 0 = 0)
    (hIR : ∀ l, l + 1 < S.L → ∀ x, S.I l (S.R l x) = x)
    {coarse : Nat → GState V → GState V}
    (hcoarse : ∀ s, Pres S (S.L - 1) s (coarse (S.L - 1) s))
    (hgc : ∀ s, Grows S (S.L - 1) s (coarse (S.L - 1) s))
    (d l it : Nat) (cyc : Cycle) (ff : Bool) (hd : l + d + 1 = S.L) (s : GState V) :
    Grows S l s (S.iteration coarse d l cyc it ff s) := by
  induction d generalizing l ff s with
  | zero =>
    have : l = S.L - 1 := by omega
    subst this
    exact hgc s
  | succ d ih =>
    have hl : l + 1 < S.L := by omega
    intro p he
    simp only [iteration]
    have h1 : ∀ k s, Pres S l s (times (fun s => S.fRelax l (S.cRelax l s)) k s) := by
      intro k
      induction k with
      | zero => exact fun s => Pres.refl _ _
      | succ k ihk =>
        exact fun s => ((h.pres_cRelax hl s).trans (h.pres_fRelax hl _)).trans (ihk _)
    set s0 := (if (0 < l ∨ it = 0 ∧ l = 0) ∧ ff = true then S.fRelax l s else s) with hs0
    have he0 : Exact S l s0 p := by
      rw [hs0]; split
      · exact (h.pres_fRelax hl s).exact he
      · exact he
    have he1 := (h1 (S.cf l) s0).exact he0
    set s1 := times (fun s => S.fRelax l (S.cRelax l s)) (S.cf l) s0
    have hpf := fun s => h.pres_iteration hR hI hcoarse d (l + 1) it cyc true (by omega) s
    have hgf := fun s => ih (l + 1) true (by omega) s
    have hmain : Exact S l (S.fRelax l (S.errorCorrection l
        (S.iteration coarse d (l + 1) cyc it true (S.fasResidual l s1)))) (p + 1) := by
      by_cases hC : p + 1 ∈ S.C l
      · exact (h.pres_fRelax hl _).exact
          (h.cgc_grow hl (hR l hl) (hI l hl) (hIR l hl) _ hpf hgf he1 hC)
      · exact h.fRelax_grow hl ((h.pres_cgc hl (hR l hl) (hI l hl) _ hpf s1).exact he1) hC
    split
    · exact (h.pres_vcyc hR hI hcoarse (d + 1) l it false hd _).exact hmain
    · exact hmain

/-! ### Growth by whole coarse intervals -/

/-- Last index of the `j`-th coarse interval: the point before C-point `j+1`, or beyond the end. -/
def intEnd (S : Sys V K) (l j : Nat) : Nat :=
  if j + 1 < S.n (l + 1) then S.cpt l (j + 1) - 1 else S.n l

theorem WF.fRelax_interval [Sub K] [SMul K V] [One K] (h : S.WF) {l j : Nat} (hl : l + 1 < S.L) {s : GState V}
    (he : j < S.n (l + 1) → Exact S l s (S.cpt l j)) (hj : S.n (l + 1) ≤ j → Exact S l s (S.n l)) :
    Exact S l (S.fRelax l s) (S.intEnd l j) := by
  by_cases hjn : j < S.n (l + 1)
  · have he := he hjn
    intro i h1 hi hn
    by_cases hC : i ∈ S.C l
    · obtain ⟨k, hk, rfl⟩ := (h.mem_C_iff hl).1 hC
      have hkj : k ≤ j := by
        by_contra hlt
        unfold intEnd at hi
        rw [if_pos (by omega)] at hi
        have := (h.cpt_le_iff hl (show j + 1 < S.n (l + 1) by omega) hk).2 (by omega)
        have := h.cpt_lt hl (show 0 < j + 1 by omega) (by omega)
        omega
      exact (h.pres_fRelax hl s).exact he _ h1 ((h.cpt_le_iff hl hk hjn).2 hkj) hn
    · exact h.fRelax_F hl s hn hC
  · have he := (h.pres_fRelax hl s).exact (hj (by omega))
    refine he.mono ?_
    unfold intEnd
    rw [if_neg (by omega)]

theorem WF.intEnd_succ_mem (h : S.WF) {l j : Nat} (hl : l + 1 < S.L) (hj : j + 1 < S.n (l + 1)) :
    S.intEnd l j + 1 = S.cpt l (j + 1) ∧ S.intEnd l j + 1 ∈ S.C l := by
  have hpos := h.cpt_lt hl (show 0 < j + 1 by omega) hj
  have : S.intEnd l j + 1 = S.cpt l (j + 1) := by
    unfold intEnd; rw [if_pos hj]; omega
  exact ⟨this, this ▸ cpt_mem (by rw [h.C_len l hl]; exact hj)⟩

theorem intEnd_ge {l j : Nat} (hj : S.n (l + 1) ≤ j + 1) : S.intEnd l j = S.n l := by
  unfold intEnd; rw [if_neg (by omega)]

theorem WF.cf_interval [Ring K] [Module K V] (h : S.WF) (hw : S.w = 1) {l : Nat}
    (hl : l + 1 < S.L) (k j : Nat) (s : GState V) (he : Exact S l s (S.intEnd l j)) :
    Exact S l (times (fun s => S.fRelax l (S.cRelax l s)) k s) (S.intEnd l (j + k)) := by
  induction k generalizing j s with
  | zero => exact he
  | succ k ih =>
    have : j + (k + 1) = (j + 1) + k := by omega
    rw [this]
    refine ih (j + 1) _ ?_
    refine h.fRelax_interval hl (fun hj => ?_) (fun hj => ?_)
    · obtain ⟨h1, h2⟩ := h.intEnd_succ_mem hl hj
      rw [← h1]
      exact h.cRelax_grow hw hl he h2
    · rw [intEnd_ge (by omega)] at he
      exact (h.pres_cRelax hl s).exact he

/-- **One iteration extends the exact prefix by `cf + 1` coarse intervals** (unit weight). -/
theorem WF.interval_iteration [Ring K] [Module K V] (h : S.WF) (hw : S.w = 1)
    (hR : ∀ l, l + 1 < S.L → S.R l 0 = 0) (hI : ∀ l, l + 1 < S.L → S.I l 0 = 0)
    (hIR : ∀ l, l + 1 < S.L → ∀ x, S.I l (S.R l x) = x)
    {coarse : Nat → GState V → GState V}
    (hcoarse : ∀ s, Pres S (S.L - 1) s (coarse (S.L - 1) s))
    (hgc : ∀ s, Grows S (S.L - 1) s (coarse (S.L - 1) s))
    (d l it : Nat) (cyc : Cycle) (ff : Bool) (hd : l + (d + 1) + 1 = S.L) (s : GState V) (j : Nat)
    (he : Exact S l s (S.intEnd l j)) :
    Exact S l (S.iteration coarse (d + 1) l cyc it ff s) (S.intEnd l (j + S.cf l + 1)) := by
  have hl : l + 1 < S.L := by omega
  simp only [iteration]
  set s0 := (if (0 < l ∨ it = 0 ∧ l = 0) ∧ ff = true then S.fRelax l s else s) with hs0
  have he0 : Exact S l s0 (S.intEnd l j) := by
    rw [hs0]; split
    · exact (h.pres_fRelax hl s).exact he
    · exact he
  have he1 := h.cf_interval hw hl (S.cf l) j s0 he0
  set s1 := times (fun s => S.fRelax l (S.cRelax l s)) (S.cf l) s0
  have hpf := fun s => h.pres_iteration hR hI hcoarse d (l + 1) it cyc true (by omega) s
  have hgf := fun s => h.grow_iteration hR hI hIR hcoarse hgc d (l + 1) it cyc true (by omega) s
  have hmain : Exact S l (S.fRelax l (S.errorCorrection l
      (S.iteration coarse d (l + 1) cyc it true (S.fasResidual l s1))))
      (S.intEnd l (j + S.cf l + 1)) := by
    refine h.fRelax_interval hl (fun hj => ?_) (fun hj => ?_)
    · obtain ⟨h1, h2⟩ := h.intEnd_succ_mem hl hj
      rw [← h1]
      exact h.cgc_grow hl (hR l hl) (hI l hl) (hIR l hl) _ hpf hgf he1 h2
    · rw [intEnd_ge (by omega)] at he1
      exact (h.pres_cgc hl (hR l hl) (hI l hl) _ hpf s1).exact he1
  split
  · exact (h.pres_vcyc hR hI hcoarse (d + 1) l it false hd _).exact hmain
  · exact hmain

/-- The same for an arbitrary relaxation weight: at least one coarse interval per iteration. -/
theorem WF.interval_iteration_anyw [Ring K] [Module K V] (h : S.WF)
    (hR : ∀ l, l + 1 < S.L → S.R l 0 = 0) (hI : ∀ l, l + 1 < S.L → S.I l 0 = 0)
    (hIR : ∀ l, l + 1 < S.L → ∀ x, S.I l (S.R l x) = x)
    {coarse : Nat → GState V → GState V}
    (hcoarse : ∀ s, Pres S (S.L - 1) s (coarse (S.L - 1) s))
    (hgc : ∀ s, Grows S (S.L - 1) s (coarse (S.L - 1) s))
    (d l it : Nat) (cyc : Cycle) (ff : Bool) (hd : l + (d + 1) + 1 = S.L) (s : GState V) (j : Nat)
    (he : Exact S l s (S.intEnd l j)) :
    Exact S l (S.iteration coarse (d + 1) l cyc it ff s) (S.intEnd l (j + 1)) := by
  have hl : l + 1 < S.L := by omega
  have h1 : ∀ k s, Pres S l s (times (fun s => S.fRelax l (S.cRelax l s)) k s) := by
    intro k
    induction k with
    | zero => exact fun s => Pres.refl _ _
    | succ k ihk =>
      exact fun s => ((h.pres_cRelax hl s).trans (h.pres_fRelax hl _)).trans (ihk _)
  simp only [iteration]
  set s0 := (if (0 < l ∨ it = 0 ∧ l = 0) ∧ ff = true then S.fRelax l s else s) with hs0
  have he0 : Exact S l s0 (S.intEnd l j) := by
    rw [hs0]; split
    · exact (h.pres_fRelax hl s).exact he
    · exact he
  have he1 := (h1 (S.cf l) s0).exact he0
  set s1 := times (fun s => S.fRelax l (S.cRelax l s)) (S.cf l) s0
  have hpf := fun s => h.pres_iteration hR hI hcoarse d (l + 1) it cyc true (by omega) s
  have hgf := fun s => h.grow_iteration hR hI hIR hcoarse hgc d (l + 1) it cyc true (by omega) s
  have hmain : Exact S l (S.fRelax l (S.errorCorrection l
      (S.iteration coarse d (l + 1) cyc it true (S.fasResidual l s1))))
      (S.intEnd l (j + 1)) := by
    refine h.fRelax_interval hl (fun hj => ?_) (fun hj => ?_)
    · obtain ⟨h1, h2⟩ := h.intEnd_succ_mem hl hj
      rw [← h1]
      exact h.cgc_grow hl (hR l hl) (hI l hl) (hIR l hl) _ hpf hgf he1 h2
    · rw [intEnd_ge (by omega)] at he1
      exact (h.pres_cgc hl (hR l hl) (hI l hl) _ hpf s1).exact he1
  split
  · exact (h.pres_vcyc hR hI hcoarse (d + 1) l it false hd _).exact hmain
  · exact hmain

end exact
end Sys
end Pymgrit
