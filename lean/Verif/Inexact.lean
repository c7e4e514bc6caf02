import Verif.Multi

/-!
# Contraction of multilevel iterations with inexact steps

Auxiliary facts for `Verif.PropsInexact`.  The algorithm uses steps `Φ'` that differ from the steps of a system `S`
by at most `ε`; errors are measured against the exact solution of `S`.
-/

set_option linter.unusedSectionVars false

namespace Pymgrit
open Sys

/-- What inexact steps add in a V-cycle started on level `l` with `d` coarser levels, in units of the number of time
points times `ε`; `c` is the number of CF-relaxations. -/
def pertV (κ : ℝ) (a c : Nat → ℝ) : Nat → Nat → ℝ
  | _, 0 => 1
  | l, d + 1 => rateV κ a l (d + 1) * (c l + 1) + (3 + 2 * rateV κ a (l + 1) d) + pertV κ a c (l + 1) d

/-- The same for an F-cycle, up to the point before the additional V-cycle of level `l`. -/
def pertF (κ : ℝ) (a c : Nat → ℝ) : Nat → Nat → ℝ
  | _, 0 => 1
  | l, d + 1 => rateF κ a l (d + 1) * (c l + 1) + (3 + 2 * (rateF κ a (l + 1) d * rateV κ a (l + 1) d))
      + (rateV κ a (l + 1) d * pertF κ a c (l + 1) d + pertV κ a c (l + 1) d)

/-- One iteration of `solve`. -/
noncomputable def pert (κ : ℝ) (a c : Nat → ℝ) (cyc : Cycle) (d : Nat) : ℝ :=
  match cyc with
  | .V => pertV κ a c 0 d
  | .F => pertF κ a c 0 d

theorem pertV_nonneg {κ : ℝ} {a c : Nat → ℝ} (hκ : 0 ≤ κ) (ha : ∀ l, 0 ≤ a l) (hc : ∀ l, 0 ≤ c l) (l d : Nat) :
    0 ≤ pertV κ a c l d := by
  induction d generalizing l with
  | zero => exact zero_le_one
  | succ d ih =>
    have := ih (l + 1)
    have := rateV_nonneg hκ ha l (d + 1)
    have := rateV_nonneg hκ ha (l + 1) d
    have := hc l
    simp only [pertV]
    positivity

theorem pertF_nonneg {κ : ℝ} {a c : Nat → ℝ} (hκ : 0 ≤ κ) (ha : ∀ l, 0 ≤ a l) (hc : ∀ l, 0 ≤ c l) (l d : Nat) :
    0 ≤ pertF κ a c l d := by
  induction d generalizing l with
  | zero => exact zero_le_one
  | succ d ih =>
    have := ih (l + 1)
    have := pertV_nonneg hκ ha hc (l + 1) d
    have := rateF_nonneg hκ ha l (d + 1)
    have := rateF_nonneg hκ ha (l + 1) d
    have := rateV_nonneg hκ ha (l + 1) d
    have := hc l
    simp only [pertF]
    positivity

theorem pert_nonneg {κ : ℝ} {a c : Nat → ℝ} (hκ : 0 ≤ κ) (ha : ∀ l, 0 ≤ a l) (hc : ∀ l, 0 ≤ c l) (cyc : Cycle)
    (d : Nat) : 0 ≤ pert κ a c cyc d := by
  cases cyc
  · exact pertV_nonneg hκ ha hc 0 d
  · exact pertF_nonneg hκ ha hc 0 d

section
variable {𝕜 V : Type} [NormedField 𝕜] [AddCommGroup V] [Module 𝕜 V]

/-- The system with other steps. -/
def Sys.withΦ (S : Sys V 𝕜) (Φ' : Nat → Nat → V → V) : Sys V 𝕜 := { S with Φ := Φ' }

variable {S : Sys V 𝕜} {Φ' : Nat → Nat → V → V} {p : Seminorm 𝕜 V} {κ ε η : ℝ}

theorem Sys.WF.withΦ (h : S.WF) (Φ' : Nat → Nat → V → V) : (S.withΦ Φ').WF :=
  ⟨h.Lpos, h.npos, h.C_sorted, h.C_zero, h.C_len, h.C_lt, h.C_last, h.F_mem, h.F_compat⟩

/-- Steps within `ε`; `η` bounds `ε` times the number of points of every level. -/
structure NearSteps (S : Sys V 𝕜) (Φ' : Nat → Nat → V → V) (p : Seminorm 𝕜 V) (ε η : ℝ) : Prop where
  nonneg : 0 ≤ ε
  step : ∀ l i x, l < S.L → 1 ≤ i → i < S.n l → p (Φ' l i x - S.Φ l i x) ≤ ε
  size : ∀ l, l < S.L → (S.n l : ℝ) * ε ≤ η

theorem NearSteps.prop (hN : NearSteps S Φ' p ε η) (g : Nat → Nat → V) {l i : Nat} (hl : l < S.L) (h1 : 1 ≤ i)
    (hi : i < S.n l) (x : V) : p ((S.withΦ Φ').prop g l i x - S.prop g l i x) ≤ ε := by
  have e : (S.withΦ Φ').prop g l i x - S.prop g l i x = Φ' l i x - S.Φ l i x := by
    unfold Sys.prop
    split
    · rfl
    · show g l i + Φ' l i x - _ = _
      abel
  rw [e]
  exact hN.step l i x hl h1 hi

theorem NearSteps.prop_err (hN : NearSteps S Φ' p ε η) (hA : Approx S p κ) (g : Nat → Nat → V) {l i : Nat}
    (hl : l < S.L) (h1 : 1 ≤ i) (hi : i < S.n l) (x y : V) :
    p ((S.withΦ Φ').prop g l i x - S.prop g l i y) ≤ p (x - y) + ε := by
  have e : (S.withΦ Φ').prop g l i x - S.prop g l i y
      = (S.prop g l i x - S.prop g l i y) + ((S.withΦ Φ').prop g l i x - S.prop g l i x) := by abel
  rw [e]
  refine (map_add_le_add p _ _).trans (add_le_add ?_ (hN.prop g hl h1 hi x))
  rw [prop_sub]
  exact hA.step l i x y hl h1 hi

theorem NearSteps.le (hN : NearSteps S Φ' p ε η) {l m : Nat} (hl : l < S.L) (hm : m ≤ S.n l) : (m : ℝ) * ε ≤ η :=
  (mul_le_mul_of_nonneg_right (Nat.cast_le.2 hm) hN.nonneg).trans (hN.size l hl)

theorem NearSteps.η_nonneg (hN : NearSteps S Φ' p ε η) {l : Nat} (hl : l < S.L) : 0 ≤ η := by
  have := hN.le hl (Nat.zero_le _)
  simpa using this

theorem NearSteps.stepsFrom (hN : NearSteps S Φ' p ε η) (hA : Approx S p κ) (g : Nat → Nat → V) {l : Nat}
    (hl : l < S.L) (c m : Nat) (hm : c + m < S.n l) (x : V) :
    p (stepsFrom ((S.withΦ Φ').prop g l) c m x - stepsFrom (S.prop g l) c m x) ≤ m * ε := by
  induction m with
  | zero => simp [Pymgrit.stepsFrom]
  | succ m ih =>
    simp only [Pymgrit.stepsFrom]
    refine (hN.prop_err hA g hl (by omega) hm _ _).trans ?_
    have := ih (by omega)
    push_cast
    linarith

/-- On a level F-relaxed with the inexact steps. -/
theorem CErrLe.relaxed_near (h : S.WF) (hA : Approx S p κ) (hN : NearSteps S Φ' p ε η) {l : Nat} (hl : l + 1 < S.L)
    {s : GState V} {D : ℝ} (hD : CErrLe S p l s D) (hF : FRelaxed (S.withΦ Φ') l s) :
    ErrLe S p l s (D + (η - ε)) := by
  have key : ∀ i, i < S.n l → p (s.u l i - exactSol S l s i) ≤ D + i * ε := by
    intro i
    induction i with
    | zero => intro _; simpa using hD 0 (h.zero_mem_C hl)
    | succ i ih =>
      intro hi
      by_cases hC : i + 1 ∈ S.C l
      · refine (hD _ hC).trans (le_add_of_nonneg_right (mul_nonneg (Nat.cast_nonneg _) hN.nonneg))
      · rw [hF (i + 1) hi hC, Nat.add_sub_cancel]
        show p (_ - S.prop s.g l (i + 1) (exactSol S l s i)) ≤ _
        refine (hN.prop_err hA s.g (by omega) (by omega) hi _ _).trans ?_
        have := ih (by omega)
        push_cast
        linarith
  intro i hi
  have h1 := key i hi
  have h2 := hN.le (l := l) (m := i + 1) (by omega) hi
  push_cast at h2
  linarith

theorem CErrLe.fRelax_near (h : S.WF) (hA : Approx S p κ) (hN : NearSteps S Φ' p ε η) {l : Nat} (hl : l + 1 < S.L)
    {s : GState V} {D : ℝ} (hD : CErrLe S p l s D) : ErrLe S p l ((S.withΦ Φ').fRelax l s) (D + (η - ε)) := by
  have h' := h.withΦ Φ'
  refine CErrLe.relaxed_near h hA hN hl ?_ (h'.fRelax_relaxed hl s)
  intro i hi
  rw [exactSol_keeps (h'.keeps_fRelax hl s), h'.fRelax_C hl s hi]
  exact hD i hi

theorem ErrLe.cRelax_near (h : S.WF) (hA : Approx S p κ) (hN : NearSteps S Φ' p ε η) {l : Nat} (hl : l + 1 < S.L)
    (hadj : ∀ i, i ∈ S.C l → i + 1 ∉ S.C l) {s : GState V} {D : ℝ}
    (hD : ErrLe S p l s D) :
    CErrLe S p l ((S.withΦ Φ').cRelax l s) ((‖S.w‖ + ‖1 - S.w‖) * D + ‖S.w‖ * ε) := by
  have h' := h.withΦ Φ'
  have hD0 := hD.nonneg (h.npos l (by omega))
  have hw1 : 1 ≤ ‖S.w‖ + ‖1 - S.w‖ := by
    have := norm_add_le S.w (1 - S.w)
    rwa [add_sub_cancel, norm_one] at this
  set X := exactSol S l s with hX
  set s' := (S.withΦ Φ').cRelax l s with hs'
  have hwε : 0 ≤ ‖S.w‖ * ε := mul_nonneg (norm_nonneg _) hN.nonneg
  have hzero : p (s'.u l 0 - X 0) ≤ D := by
    rw [hs', cRelax_zero s]
    exact hD 0 (h.npos l (by omega))
  intro i hiC
  rw [hs', exactSol_keeps (keeps_cRelax s), ← hs', ← hX]
  have hi := h.C_lt l hl i hiC
  cases i with
  | zero => exact hzero.trans ((le_mul_of_one_le_left hD0 hw1).trans (le_add_of_nonneg_right hwε))
  | succ i =>
    have hprev : p (s'.u l i - X i) ≤ D := by
      by_cases h0 : i = 0
      · subst h0; exact hzero
      · rw [hs', cRelax_not_C (S := S.withΦ Φ') s (fun hC => hadj i hC hiC)]
        exact hD i (by omega)
    have ec : s'.u l (i + 1) = S.w • (S.withΦ Φ').prop s.g l (i + 1) (s'.u l i) + (1 - S.w) • s.u l (i + 1) := by
      have := h'.cRelax_C hl s hiC (by omega)
      rw [Nat.add_sub_cancel] at this
      exact this
    rw [ec]
    have e : S.w • (S.withΦ Φ').prop s.g l (i + 1) (s'.u l i) + (1 - S.w) • s.u l (i + 1) - X (i + 1)
        = S.w • ((S.withΦ Φ').prop s.g l (i + 1) (s'.u l i) - S.prop s.g l (i + 1) (X i))
          + (1 - S.w) • (s.u l (i + 1) - X (i + 1)) := by
      have : X (i + 1) = S.prop s.g l (i + 1) (X i) := rfl
      rw [← this, smul_sub, smul_sub, sub_smul 1 S.w (X (i + 1)), one_smul]
      abel
    rw [e]
    refine (map_add_le_add p _ _).trans ?_
    rw [map_smul_eq_mul, map_smul_eq_mul]
    have b1 := mul_le_mul_of_nonneg_left
      ((hN.prop_err hA s.g (l := l) (by omega) (by omega) hi (s'.u l i) (X i)).trans
        (add_le_add hprev (le_refl ε))) (norm_nonneg S.w)
    have b2 := mul_le_mul_of_nonneg_left (hD (i + 1) hi) (norm_nonneg (1 - S.w))
    calc _ ≤ ‖S.w‖ * (D + ε) + ‖1 - S.w‖ * D := add_le_add b1 b2
      _ = _ := by ring

/-- Pre-relaxation. -/
theorem ErrLe.sweeps_near (h : S.WF) (hA : Approx S p κ) (hN : NearSteps S Φ' p ε η) {l : Nat} (hl : l + 1 < S.L)
    (ν : Nat) (hadj : ν = 0 ∨ ∀ i, i ∈ S.C l → i + 1 ∉ S.C l) {s : GState V} {D : ℝ}
    (hD : ErrLe S p l s D) (hF : FRelaxed (S.withΦ Φ') l s) :
    let s' := times (fun s => (S.withΦ Φ').fRelax l ((S.withΦ Φ').cRelax l s)) ν s
    ErrLe S p l s' ((‖S.w‖ + ‖1 - S.w‖) ^ ν * (D + ν * η)) ∧ FRelaxed (S.withΦ Φ') l s' ∧ Keeps l s s' := by
  have hw1 : 1 ≤ ‖S.w‖ + ‖1 - S.w‖ := by
    have := norm_add_le S.w (1 - S.w)
    rwa [add_sub_cancel, norm_one] at this
  have hη := hN.η_nonneg (l := l) (by omega)
  induction ν generalizing s D with
  | zero => simpa [times] using ⟨hD, hF, Keeps.refl l s⟩
  | succ ν ih =>
    have hadj' : ∀ i, i ∈ S.C l → i + 1 ∉ S.C l := by
      rcases hadj with a | a
      · omega
      · exact a
    have h1 := (hD.cRelax_near h hA hN hl hadj').fRelax_near h hA hN hl
    obtain ⟨b1, b2, b3⟩ := ih (by tauto) h1 ((h.withΦ Φ').fRelax_relaxed hl _)
    refine ⟨fun i hi => (b1 i hi).trans ?_, b2, ((keeps_cRelax s).trans ((h.withΦ Φ').keeps_fRelax hl _)).trans b3⟩
    rw [pow_succ, mul_assoc]
    refine mul_le_mul_of_nonneg_left ?_ (by positivity)
    set ω := ‖S.w‖ + ‖1 - S.w‖ with hω
    have hD0 := hD.nonneg (h.npos l (by omega))
    have hwle : ‖S.w‖ ≤ ω := le_add_of_nonneg_right (norm_nonneg _)
    have hε := hN.nonneg
    have h2 : ε ≤ η := by
      have := hN.le (l := l) (m := 1) (by omega) (h.npos l (by omega))
      simpa using this
    have t1 : ‖S.w‖ * ε ≤ ω * ε := mul_le_mul_of_nonneg_right hwle hε
    have t2 : η - ε ≤ ω * (η - ε) := le_mul_of_one_le_left (by linarith) hw1
    have t3 : (ν : ℝ) * η ≤ ω * (ν * η) := le_mul_of_one_le_left (by positivity) hw1
    push_cast
    nlinarith

theorem fas_close_near (h : S.WF) (hA : Approx S p κ) (hκ : 0 ≤ κ) (hN : NearSteps S Φ' p ε η) {l : Nat}
    (hl : l + 1 < S.L) (hR : ∀ x, S.R l x = x)
    {s : GState V} {D : ℝ} (hD : CErrLe S p l s D) (hF : FRelaxed (S.withΦ Φ') l s) (k : Nat)
    (hk : k < S.n (l + 1)) :
    p (exactSol S (l + 1) ((S.withΦ Φ').fasResidual l s) k - exactSol S l s (S.cpt l k)) ≤ κ * D + 2 * η := by
  have h' := h.withΦ Φ'
  have hD0 := hD.nonneg h hl
  have hε := hN.nonneg
  have key : p (exactSol S (l + 1) ((S.withΦ Φ').fasResidual l s) k - exactSol S l s (S.cpt l k))
      ≤ κ * D + (S.cpt l k + k : ℕ) * ε := by
    induction k with
    | zero =>
      have e : exactSol S (l + 1) ((S.withΦ Φ').fasResidual l s) 0 = exactSol S l s (S.cpt l 0) := by
        rw [h.cpt_zero hl]
        show ((S.withΦ Φ').fasResidual l s).u (l + 1) 0 = s.u l 0
        rw [h'.fasResidual_u hl s hk]
        show S.R l (s.u l (S.cpt l 0)) = _
        rw [hR, h.cpt_zero hl]
      rw [e, sub_self, map_zero]
      positivity
    | succ k ih =>
      have ih := ih (by omega)
      obtain ⟨β, hβ0, hβ1, hβ, hκβ⟩ := hA.coarse l (k + 1) hl (by omega) hk
      set t := (S.withΦ Φ').fasResidual l s with ht
      have hlt : S.cpt l k < S.cpt l (k + 1) := h.cpt_lt hl (by omega) hk
      have hb : S.cpt l (k + 1) < S.n l := h.cpt_bound hl hk
      have hu : ∀ j, j < S.n (l + 1) → t.u (l + 1) j = s.u l (S.cpt l j) := by
        intro j hj
        have := h'.fasResidual_u hl s hj
        rw [← ht] at this
        rw [this]
        exact hR _
      have hg : t.g (l + 1) (k + 1)
          = stepsFrom ((S.withΦ Φ').prop s.g l) (S.cpt l k) (S.cpt l (k + 1) - S.cpt l k) (s.u l (S.cpt l k))
            - Φ' (l + 1) (k + 1) (s.u l (S.cpt l k)) := by
        have e := h'.fasResidual_g hl s hk (by omega)
        rw [← ht, fasRes_eq] at e
        rw [e, hu _ hk, Nat.add_sub_cancel, hu _ (by omega)]
        have := relaxed_interval h' hl hF hk (by omega)
        rw [Nat.add_sub_cancel] at this
        show S.R l ((S.withΦ Φ').prop s.g l (S.cpt l (k + 1)) (s.u l (S.cpt l (k + 1) - 1)) - _) + _ - _ = _
        rw [hR]
        change (S.withΦ Φ').prop s.g l (S.cpt l (k + 1)) (s.u l (S.cpt l (k + 1) - 1))
          = stepsFrom _ (S.cpt l k) (S.cpt l (k + 1) - S.cpt l k) (s.u l (S.cpt l k)) at this
        rw [this]
        show _ - s.u l (S.cpt l (k + 1)) + s.u l (S.cpt l (k + 1)) - Φ' (l + 1) (k + 1) (s.u l (S.cpt l k)) = _
        abel
      have e1 : exactSol S (l + 1) t (k + 1)
          = t.g (l + 1) (k + 1) + S.Φ (l + 1) (k + 1) (exactSol S (l + 1) t k) := by
        show S.prop _ (l + 1) (k + 1) _ = _
        unfold prop
        rw [if_neg (by omega)]
        rfl
      have e2 := exactSol_cpt h hl s hk (by omega)
      simp only [Nat.add_sub_cancel] at e2 hκβ
      set Z := exactSol S (l + 1) t k
      set X := exactSol S l s (S.cpt l k)
      set x := s.u l (S.cpt l k) with hx
      set m := S.cpt l (k + 1) - S.cpt l k with hm
      have e3 : exactSol S (l + 1) t (k + 1) - exactSol S l s (S.cpt l (k + 1))
          = (S.Φ (l + 1) (k + 1) Z - S.Φ (l + 1) (k + 1) X)
            + ((stepsFrom (S.prop s.g l) (S.cpt l k) m x - S.Φ (l + 1) (k + 1) x)
              - (stepsFrom (S.prop s.g l) (S.cpt l k) m X - S.Φ (l + 1) (k + 1) X))
            + ((stepsFrom ((S.withΦ Φ').prop s.g l) (S.cpt l k) m x - stepsFrom (S.prop s.g l) (S.cpt l k) m x)
              - (Φ' (l + 1) (k + 1) x - S.Φ (l + 1) (k + 1) x)) := by
        rw [e1, e2, hg]; abel
      rw [e3]
      refine (map_add_le_add p _ _).trans ((add_le_add (map_add_le_add p _ _) (map_sub_le_add p _ _)).trans ?_)
      have c1 := (hβ Z X).trans (mul_le_mul_of_nonneg_left ih hβ0)
      have hc : S.cpt l k ∈ S.C l := (h.mem_C_iff hl).2 ⟨k, by omega, rfl⟩
      have c2 := (hκβ s.g x X).trans
        (mul_le_mul_of_nonneg_left (hD _ hc) (mul_nonneg hκ (by linarith)))
      have c3 := hN.stepsFrom hA s.g (l := l) (by omega) (S.cpt l k) m (by omega) x
      have c4 := hN.step (l + 1) (k + 1) x hl (by omega) hk
      have c5 : β * ((S.cpt l k + k : ℕ) * ε) ≤ (S.cpt l k + k : ℕ) * ε :=
        mul_le_of_le_one_left (by positivity) hβ1
      have c6 : ((S.cpt l (k + 1) + (k + 1) : ℕ) : ℝ) = (S.cpt l k + k : ℕ) + m + 1 := by
        rw [show S.cpt l (k + 1) + (k + 1) = (S.cpt l k + k) + m + 1 by omega]
        push_cast; ring
      rw [c6]
      have c7 : β * (κ * D + (S.cpt l k + k : ℕ) * ε) + κ * (1 - β) * D = κ * D + β * ((S.cpt l k + k : ℕ) * ε) := by
        ring
      linarith
  refine key.trans ?_
  have b1 := hN.le (l := l) (m := S.cpt l k) (by omega) (h.cpt_bound hl hk).le
  have b2 := hN.le (l := l + 1) (m := k) hl hk.le
  push_cast
  linarith

theorem fas_err_near (h : S.WF) (hA : Approx S p κ) (hκ : 0 ≤ κ) (hN : NearSteps S Φ' p ε η) {l : Nat}
    (hl : l + 1 < S.L) (hR : ∀ x, S.R l x = x) {s : GState V} {D : ℝ} (hD : CErrLe S p l s D)
    (hF : FRelaxed (S.withΦ Φ') l s) :
    ErrLe S p (l + 1) ((S.withΦ Φ').fasResidual l s) ((1 + κ) * D + 2 * η) := by
  intro k hk
  have hc : S.cpt l k ∈ S.C l := (h.mem_C_iff hl).2 ⟨k, hk, rfl⟩
  have c := fas_close_near h hA hκ hN hl hR hD hF k hk
  have d := hD _ hc
  have hu : ((S.withΦ Φ').fasResidual l s).u (l + 1) k = s.u l (S.cpt l k) :=
    ((h.withΦ Φ').fasResidual_u hl s hk).trans (hR _)
  rw [hu]
  have e : s.u l (S.cpt l k) - exactSol S (l + 1) ((S.withΦ Φ').fasResidual l s) k
      = (s.u l (S.cpt l k) - exactSol S l s (S.cpt l k))
        - (exactSol S (l + 1) ((S.withΦ Φ').fasResidual l s) k - exactSol S l s (S.cpt l k)) := by abel
  rw [e]
  refine (map_sub_le_add p _ _).trans ?_
  linarith

/-- The values at the C-points after the correction. -/
theorem correct_C_near (h : S.WF) (hA : Approx S p κ) (hκ : 0 ≤ κ) (hN : NearSteps S Φ' p ε η) {l : Nat}
    (hl : l + 1 < S.L) (hR : ∀ x, S.R l x = x) (hI : ∀ x, S.I l x = x) {s t : GState V} {D D' : ℝ}
    (hD : CErrLe S p l s D) (hF : FRelaxed (S.withΦ Φ') l s)
    (hk : Keeps (l + 1) ((S.withΦ Φ').fasResidual l s) t) (hD' : ErrLe S p (l + 1) t D') :
    CErrLe S p l ((S.withΦ Φ').errorCorrection l t) (κ * D + D' + 2 * η) := by
  have h' := h.withΦ Φ'
  have hkeep : Keeps l s ((S.withΦ Φ').errorCorrection l t) :=
    ((keeps_fasResidual s).trans hk.down).trans (h'.keeps_errorCorrection hl t)
  have hD0 := hD.nonneg h hl
  have hD'0 := hD'.nonneg (h.npos (l + 1) hl)
  have hη := hN.η_nonneg hl
  have hε := hN.nonneg
  intro i hi
  rw [exactSol_keeps hkeep]
  obtain ⟨k, hkn, rfl⟩ := (h.mem_C_iff hl).1 hi
  by_cases h0 : k = 0
  · subst h0
    have : p (((S.withΦ Φ').errorCorrection l t).u l (S.cpt l 0) - exactSol S l s (S.cpt l 0)) = 0 := by
      rw [h.cpt_zero hl, hkeep.zero]
      show p (s.u l 0 - s.u l 0) = 0
      rw [sub_self, map_zero]
    rw [this]
    positivity
  · have hu : t.u l = s.u l := by rw [hk.u_lt l (by omega), fasResidual_u_ne s (by omega)]
    have hv : t.v (l + 1) k = s.u l (S.cpt l k) := by
      rw [hk.v_le (l + 1) le_rfl, fasResidual_v_eq]
      exact (h'.fasResidual_u hl s hkn).trans (hR _)
    have ec : ((S.withΦ Φ').errorCorrection l t).u l (S.cpt l k)
        = s.u l (S.cpt l k) + (t.u (l + 1) k - s.u l (S.cpt l k)) := by
      have := h'.errorCorrection_C hl t hkn h0
      rw [hu, hv] at this
      refine this.trans ?_
      congr 1
      exact hI _
    rw [ec]
    have c := fas_close_near h hA hκ hN hl hR hD hF k hkn
    have d := hD' k hkn
    rw [exactSol_keeps hk] at d
    have e : s.u l (S.cpt l k) + (t.u (l + 1) k - s.u l (S.cpt l k)) - exactSol S l s (S.cpt l k)
        = (t.u (l + 1) k - exactSol S (l + 1) ((S.withΦ Φ').fasResidual l s) k)
          + (exactSol S (l + 1) ((S.withΦ Φ').fasResidual l s) k - exactSol S l s (S.cpt l k)) := by abel
    rw [e]
    refine (map_add_le_add p _ _).trans ?_
    linarith

theorem correct_err_near (h : S.WF) (hA : Approx S p κ) (hκ : 0 ≤ κ) (hN : NearSteps S Φ' p ε η) {l : Nat}
    (hl : l + 1 < S.L) (hR : ∀ x, S.R l x = x) (hI : ∀ x, S.I l x = x) {s t : GState V} {D D' : ℝ}
    (hD : CErrLe S p l s D) (hF : FRelaxed (S.withΦ Φ') l s)
    (hk : Keeps (l + 1) ((S.withΦ Φ').fasResidual l s) t) (hD' : ErrLe S p (l + 1) t D') :
    ErrLe S p l ((S.withΦ Φ').fRelax l ((S.withΦ Φ').errorCorrection l t)) (κ * D + D' + 3 * η) := by
  refine fun i hi => ((correct_C_near h hA hκ hN hl hR hI hD hF hk hD').fRelax_near h hA hN hl i hi).trans ?_
  have hε := hN.nonneg
  linarith

theorem forwardSolve_near (hA : Approx S p κ) (hN : NearSteps S Φ' p ε η) {l : Nat} (hl : l < S.L)
    (s : GState V) : ErrLe S p l ((S.withΦ Φ').forwardSolve l s) η := by
  intro i hi
  have key : p (((S.withΦ Φ').forwardSolve l s).u l i - exactSol S l ((S.withΦ Φ').forwardSolve l s) i) ≤ i * ε := by
    induction i with
    | zero =>
      have : ((S.withΦ Φ').forwardSolve l s).u l 0 - exactSol S l ((S.withΦ Φ').forwardSolve l s) 0 = 0 := sub_self _
      rw [this, map_zero]
      simp
    | succ i ih =>
      rw [forwardSolve_pos (S := S.withΦ Φ') s (by omega) hi, Nat.add_sub_cancel]
      show p (_ - S.prop ((S.withΦ Φ').forwardSolve l s).g l (i + 1)
        (exactSol S l ((S.withΦ Φ').forwardSolve l s) i)) ≤ _
      have := ih (by omega)
      refine (hN.prop_err hA s.g hl (by omega) hi _ _).trans ?_
      push_cast
      linarith
  exact key.trans (hN.le hl hi.le)

/-- Setting. -/
structure NearHyp (S : Sys V 𝕜) (Φ' : Nat → Nat → V → V) (p : Seminorm 𝕜 V) (κ ε η : ℝ) : Prop where
  wf : S.WF
  approx : Approx S p κ
  nonneg : 0 ≤ κ
  R : ∀ l, l + 1 < S.L → ∀ x, S.R l x = x
  I : ∀ l, l + 1 < S.L → ∀ x, S.I l x = x
  adj : ∀ l, l + 1 < S.L → S.cf l = 0 ∨ ∀ i, i ∈ S.C l → i + 1 ∉ S.C l
  near : NearSteps S Φ' p ε η

theorem level_near (H : NearHyp S Φ' p κ ε η) {l : Nat} (hl : l + 1 < S.L) (q : Prop) [Decidable q]
    (f : GState V → GState V) (ρ δ : ℝ) (hf : ∀ s, Keeps (l + 1) s (f s))
    (hρ : ∀ s D, ErrLe S p (l + 1) s D → ErrLe S p (l + 1) (f s) (ρ * D + δ * η)) {s : GState V} {D : ℝ}
    (hD : CErrLe S p l s D) (hF : ¬ q → FRelaxed (S.withΦ Φ') l s) :
    ErrLe S p l ((S.withΦ Φ').fRelax l ((S.withΦ Φ').errorCorrection l (f ((S.withΦ Φ').fasResidual l
      (times (fun s => (S.withΦ Φ').fRelax l ((S.withΦ Φ').cRelax l s)) (S.cf l)
        (if q then (S.withΦ Φ').fRelax l s else s))))))
      (relaxGrowth S l * (κ + (1 + κ) * ρ) * D
        + (relaxGrowth S l * (κ + (1 + κ) * ρ) * (S.cf l + 1) + (3 + 2 * ρ) + δ) * η) := by
  have hε := H.near.nonneg
  have h0 : ErrLe S p l (if q then (S.withΦ Φ').fRelax l s else s) (D + (η - ε)) ∧
      FRelaxed (S.withΦ Φ') l (if q then (S.withΦ Φ').fRelax l s else s) := by
    split
    · exact ⟨hD.fRelax_near H.wf H.approx H.near hl, (H.wf.withΦ Φ').fRelax_relaxed hl s⟩
    · next hq => exact ⟨hD.relaxed_near H.wf H.approx H.near hl (hF hq), hF hq⟩
  have h1 : ErrLe S p l (if q then (S.withΦ Φ').fRelax l s else s) (D + η) :=
    fun i hi => (h0.1 i hi).trans (by linarith)
  obtain ⟨b1, b2, -⟩ := h1.sweeps_near H.wf H.approx H.near hl (S.cf l) (H.adj l hl) h0.2
  set s2 := times (fun s => (S.withΦ Φ').fRelax l ((S.withΦ Φ').cRelax l s)) (S.cf l)
    (if q then (S.withΦ Φ').fRelax l s else s)
  have c1 := hρ _ _ (fas_err_near H.wf H.approx H.nonneg H.near hl (H.R l hl) (b1.toC H.wf hl) b2)
  have c2 := correct_err_near H.wf H.approx H.nonneg H.near hl (H.R l hl) (H.I l hl) (b1.toC H.wf hl) b2
    (hf ((S.withΦ Φ').fasResidual l s2)) c1
  refine fun i hi => (c2 i hi).trans (le_of_eq ?_)
  unfold relaxGrowth
  ring

theorem vcyc_near (H : NearHyp S Φ' p κ ε η) (d l it : Nat) (ff : Bool) (hd : l + d + 1 = S.L) {s : GState V} {D : ℝ}
    (hD : CErrLe S p l s D)
    (hF : ¬ ((0 < l ∨ (it = 0 ∧ l = 0)) ∧ ff = true) → 0 < d → FRelaxed (S.withΦ Φ') l s) :
    ErrLe S p l ((S.withΦ Φ').vcyc (S.withΦ Φ').forwardSolve d l it ff s)
      (rateV κ (relaxGrowth S) l d * D + pertV κ (relaxGrowth S) (fun l => S.cf l) l d * η) := by
  induction d generalizing l ff s D with
  | zero =>
    simp only [vcyc, rateV, pertV, zero_mul, zero_add, one_mul]
    exact forwardSolve_near H.approx H.near (by omega) s
  | succ d ih =>
    have hl : l + 1 < S.L := by omega
    simp only [vcyc]
    refine level_near H hl _ ((S.withΦ Φ').vcyc (S.withΦ Φ').forwardSolve d (l + 1) it true) _ _ ?_ ?_ hD
      (fun hq => hF hq (by omega))
    · intro s
      rw [← iteration_V_eq_vcyc]
      exact (H.wf.withΦ Φ').keeps_iteration keeps_coarse d (l + 1) it Cycle.V true (by show _ = S.L; omega) s
    · intro s D hs
      refine ih (l + 1) true (by omega) ?_ (fun hq => absurd (by simp) hq)
      cases d with
      | zero =>
        intro i hi
        refine hs i ?_
        have e : l + 1 = S.L - 1 := by omega
        rw [e, H.wf.C_last] at hi
        rw [e]
        exact List.mem_range.1 hi
      | succ d => exact hs.toC H.wf (by omega)

theorem iteration_near (H : NearHyp S Φ' p κ ε η) (d l it : Nat) (cyc : Cycle) (ff : Bool) (hd : l + d + 1 = S.L)
    {s : GState V} {D : ℝ} (hD : CErrLe S p l s D)
    (hF : ¬ ((0 < l ∨ (it = 0 ∧ l = 0)) ∧ ff = true) → 0 < d → FRelaxed (S.withΦ Φ') l s) :
    ErrLe S p l ((S.withΦ Φ').iteration (S.withΦ Φ').forwardSolve d l cyc it ff s)
      (match cyc with
        | .V => rateV κ (relaxGrowth S) l d * D + pertV κ (relaxGrowth S) (fun l => S.cf l) l d * η
        | .F => if l = 0 then rateF κ (relaxGrowth S) l d * D + pertF κ (relaxGrowth S) (fun l => S.cf l) l d * η
                else rateV κ (relaxGrowth S) l d * (rateF κ (relaxGrowth S) l d * D
                    + pertF κ (relaxGrowth S) (fun l => S.cf l) l d * η)
                  + pertV κ (relaxGrowth S) (fun l => S.cf l) l d * η) := by
  cases cyc with
  | V =>
    rw [iteration_V_eq_vcyc]
    exact vcyc_near H d l it ff hd hD hF
  | F =>
    induction d generalizing l ff s D with
    | zero =>
      simp only [iteration, rateF, rateV, pertF, pertV, zero_mul, zero_add, one_mul, ite_self]
      exact forwardSolve_near H.approx H.near (by omega) s
    | succ d ih =>
      have hl : l + 1 < S.L := by omega
      have key := level_near H hl ((0 < l ∨ it = 0 ∧ l = 0) ∧ ff = true)
        ((S.withΦ Φ').iteration (S.withΦ Φ').forwardSolve d (l + 1) .F it true)
        (rateF κ (relaxGrowth S) (l + 1) d * rateV κ (relaxGrowth S) (l + 1) d)
        (rateV κ (relaxGrowth S) (l + 1) d * pertF κ (relaxGrowth S) (fun l => S.cf l) (l + 1) d
          + pertV κ (relaxGrowth S) (fun l => S.cf l) (l + 1) d)
        (fun s => (H.wf.withΦ Φ').keeps_iteration keeps_coarse d (l + 1) it .F true (by show _ = S.L; omega) s)
        (fun s D hs => by
          have := ih (l + 1) true (by omega) (s := s) (D := D) ?_ (fun hq => absurd (by simp) hq)
          · simp only [Nat.add_eq_zero_iff, one_ne_zero, and_false, if_false] at this
            refine fun i hi => (this i hi).trans (le_of_eq ?_)
            ring
          · cases d with
            | zero =>
              intro i hi
              refine hs i ?_
              have e : l + 1 = S.L - 1 := by omega
              rw [e, H.wf.C_last] at hi
              rw [e]
              exact List.mem_range.1 hi
            | succ d => exact hs.toC H.wf (by omega)) hD (fun hq => hF hq (by omega))
      generalize hcore : (S.withΦ Φ').fRelax l ((S.withΦ Φ').errorCorrection l
        ((S.withΦ Φ').iteration (S.withΦ Φ').forwardSolve d (l + 1) .F it true
        ((S.withΦ Φ').fasResidual l (times (fun s => (S.withΦ Φ').fRelax l ((S.withΦ Φ').cRelax l s)) (S.cf l)
          (if (0 < l ∨ it = 0 ∧ l = 0) ∧ ff = true then (S.withΦ Φ').fRelax l s else s))))) = core at key
      have hrel : FRelaxed (S.withΦ Φ') l core := by rw [← hcore]; exact (H.wf.withΦ Φ').fRelax_relaxed hl _
      have e : (S.withΦ Φ').iteration (S.withΦ Φ').forwardSolve (d + 1) l .F it ff s
          = if l ≠ 0 ∧ Cycle.F = Cycle.F then (S.withΦ Φ').vcyc (S.withΦ Φ').forwardSolve (d + 1) l it false core
            else core := by
        rw [← hcore]; rfl
      rw [e]
      by_cases h0 : l = 0
      · rw [if_neg (by simp [h0])]
        simp only [h0, if_true]
        subst h0
        exact key
      · rw [if_pos ⟨h0, rfl⟩]
        simp only [h0, if_false]
        exact vcyc_near H (d + 1) l it false hd (key.toC H.wf hl) (fun _ _ => hrel)

/-- `m` iterations of `solve`. -/
theorem iterates_near (H : NearHyp S Φ' p κ ε η) (hL : 1 < S.L) (cyc : Cycle) (m : Nat) (s : GState V) (D : ℝ)
    (hD : CErrLe S p 0 s D) :
    let q := rate κ (relaxGrowth S) cyc (S.L - 1)
    let b := q ^ m * D + (∑ j ∈ Finset.range m, q ^ j) * (pert κ (relaxGrowth S) (fun l => S.cf l) cyc (S.L - 1) * η)
    CErrLe S p 0 (iterates (S.withΦ Φ') (S.withΦ Φ').forwardSolve cyc m s) b ∧
    (1 ≤ m → ErrLe S p 0 (iterates (S.withΦ Φ') (S.withΦ Φ').forwardSolve cyc m s) b) ∧
    Keeps 0 s (iterates (S.withΦ Φ') (S.withΦ Φ').forwardSolve cyc m s) := by
  have h' := H.wf.withΦ Φ'
  induction m with
  | zero => exact ⟨by simpa [iterates] using hD, fun h => by omega, Keeps.refl 0 s⟩
  | succ m ih =>
    obtain ⟨i1, -, i3⟩ := ih
    have hstep : ErrLe S p 0 (iterates (S.withΦ Φ') (S.withΦ Φ').forwardSolve cyc (m + 1) s)
        (rate κ (relaxGrowth S) cyc (S.L - 1) ^ (m + 1) * D
          + (∑ j ∈ Finset.range (m + 1), rate κ (relaxGrowth S) cyc (S.L - 1) ^ j)
            * (pert κ (relaxGrowth S) (fun l => S.cf l) cyc (S.L - 1) * η)) := by
      have := iteration_near H (S.L - 1) 0 m cyc true (by omega) i1 (fun hq _ => by
        cases m with
        | zero => exact absurd (by simp) hq
        | succ m => exact h'.fineIteration_relaxed (S.withΦ Φ').forwardSolve cyc m _ hL)
      refine fun i hi => (this i hi).trans (le_of_eq ?_)
      rw [pow_succ, Finset.sum_range_succ']
      simp only [pow_succ, ← Finset.sum_mul]
      cases cyc <;> simp [rate, pert] <;> ring
    exact ⟨hstep.toC H.wf hL, fun _ => hstep, i3.trans (h'.fineIteration_keeps keeps_coarse cyc m _)⟩

end

end Pymgrit
