import Verif.PropsAlgo
import Verif.Causal
import Mathlib.Analysis.Seminorm

/-!
# Contraction of multilevel iterations

Auxiliary facts for `Verif.PropsConv`.  The error of a level is measured against the exact solution of the
equations of that level (including the right-hand sides `g` set by the coarse-grid correction).
-/

set_option linter.unusedSectionVars false

namespace Pymgrit
open Sys

/-- Bound of the factor by which a V-cycle started on level `l`, with `d` coarser levels, reduces errors:
`κ` bounds the deviation of coarse from fine propagation, `a l` the growth by the relaxation on level `l`. -/
def rateV (κ : ℝ) (a : Nat → ℝ) : Nat → Nat → ℝ
  | _, 0 => 0
  | l, d + 1 => a l * (κ + (1 + κ) * rateV κ a (l + 1) d)

/-- The same for an F-cycle, up to the point before the additional V-cycle of level `l`. -/
def rateF (κ : ℝ) (a : Nat → ℝ) : Nat → Nat → ℝ
  | _, 0 => 0
  | l, d + 1 => a l * (κ + (1 + κ) * (rateF κ a (l + 1) d * rateV κ a (l + 1) d))

/-- Factor of one iteration of `solve`. -/
noncomputable def rate (κ : ℝ) (a : Nat → ℝ) (cyc : Cycle) (d : Nat) : ℝ :=
  match cyc with
  | .V => rateV κ a 0 d
  | .F => rateF κ a 0 d

/-- Error bound of nested iteration on level `l` with `d` coarser levels, relative to the initial value. -/
def rateN (κ : ℝ) (a : Nat → ℝ) : Nat → Nat → ℝ
  | _, 0 => 0
  | l, d + 1 => rateV κ a l (d + 1) * (rateN κ a (l + 1) d + κ)

section
variable {κ : ℝ} {a : Nat → ℝ}

theorem rateV_nonneg (hκ : 0 ≤ κ) (ha : ∀ l, 0 ≤ a l) (l d : Nat) : 0 ≤ rateV κ a l d := by
  induction d generalizing l with
  | zero => exact le_rfl
  | succ d ih =>
    have := ih (l + 1)
    have := ha l
    simp only [rateV]
    positivity

theorem rateF_nonneg (hκ : 0 ≤ κ) (ha : ∀ l, 0 ≤ a l) (l d : Nat) : 0 ≤ rateF κ a l d := by
  induction d generalizing l with
  | zero => exact le_rfl
  | succ d ih =>
    have := ih (l + 1)
    have := rateV_nonneg hκ ha (l + 1) d
    have := ha l
    simp only [rateF]
    positivity

theorem rate_nonneg {κ : ℝ} {a : Nat → ℝ} (hκ : 0 ≤ κ) (ha : ∀ l, 0 ≤ a l) (cyc : Cycle) (d : Nat) :
    0 ≤ rate κ a cyc d := by
  cases cyc
  · exact rateV_nonneg hκ ha 0 d
  · exact rateF_nonneg hκ ha 0 d

theorem rateN_nonneg (hκ : 0 ≤ κ) (ha : ∀ l, 0 ≤ a l) (l d : Nat) : 0 ≤ rateN κ a l d := by
  induction d generalizing l with
  | zero => exact le_rfl
  | succ d ih =>
    have := ih (l + 1)
    have := rateV_nonneg hκ ha l (d + 1)
    simp only [rateN]
    positivity

end

section
variable {𝕜 V : Type} [NormedField 𝕜] [AddCommGroup V] [Module 𝕜 V] {S : Sys V 𝕜}

/-- The exact solution of the equations of level `l`. -/
def exactSol (S : Sys V 𝕜) (l : Nat) (s : GState V) : Nat → V := seqSol (S.prop s.g l) (s.u l 0)

theorem exactSol_keeps {l : Nat} {s s' : GState V} (hk : Keeps l s s') :
    exactSol S l s' = exactSol S l s := by
  unfold exactSol
  rw [hk.zero]
  congr 1
  funext i x
  exact prop_congr (hk.g_le l le_rfl) i x

def ErrLe (S : Sys V 𝕜) (p : Seminorm 𝕜 V) (l : Nat) (s : GState V) (D : ℝ) : Prop :=
  ∀ i, i < S.n l → p (s.u l i - exactSol S l s i) ≤ D

def CErrLe (S : Sys V 𝕜) (p : Seminorm 𝕜 V) (l : Nat) (s : GState V) (D : ℝ) : Prop :=
  ∀ i, i ∈ S.C l → p (s.u l i - exactSol S l s i) ≤ D

/-- What the time stepper must satisfy: steps do not increase differences, and on every coarse interval the
difference of fine and coarse propagation is at most `κ` times what the coarse step lacks to one. -/
structure Approx (S : Sys V 𝕜) (p : Seminorm 𝕜 V) (κ : ℝ) : Prop where
  step : ∀ l i x y, l < S.L → 1 ≤ i → i < S.n l → p (S.Φ l i x - S.Φ l i y) ≤ p (x - y)
  coarse : ∀ l k, l + 1 < S.L → 1 ≤ k → k < S.n (l + 1) → ∃ β : ℝ, 0 ≤ β ∧ β ≤ 1 ∧
    (∀ x y, p (S.Φ (l + 1) k x - S.Φ (l + 1) k y) ≤ β * p (x - y)) ∧
    ∀ (g : Nat → Nat → V) (x y : V),
      p ((stepsFrom (S.prop g l) (S.cpt l (k - 1)) (S.cpt l k - S.cpt l (k - 1)) x - S.Φ (l + 1) k x)
        - (stepsFrom (S.prop g l) (S.cpt l (k - 1)) (S.cpt l k - S.cpt l (k - 1)) y - S.Φ (l + 1) k y))
        ≤ κ * (1 - β) * p (x - y)

variable {p : Seminorm 𝕜 V} {κ : ℝ}

theorem prop_sub (g : Nat → Nat → V) (l i : Nat) (x y : V) :
    S.prop g l i x - S.prop g l i y = S.Φ l i x - S.Φ l i y := by
  unfold prop
  split
  · rfl
  · abel

theorem ErrLe.nonneg {l : Nat} {s : GState V} {D : ℝ} (hD : ErrLe S p l s D) (hn : 0 < S.n l) : 0 ≤ D :=
  (apply_nonneg p _).trans (hD 0 hn)

theorem ErrLe.toC (h : S.WF) {l : Nat} (hl : l + 1 < S.L) {s : GState V} {D : ℝ} (hD : ErrLe S p l s D) :
    CErrLe S p l s D := fun i hi => hD i (h.C_lt l hl i hi)

theorem CErrLe.nonneg (h : S.WF) {l : Nat} (hl : l + 1 < S.L) {s : GState V} {D : ℝ}
    (hD : CErrLe S p l s D) : 0 ≤ D :=
  (apply_nonneg p _).trans (hD 0 (h.zero_mem_C hl))

/-- On an F-relaxed level the errors at the coarse points bound all errors. -/
theorem CErrLe.relaxed (h : S.WF) (hA : Approx S p κ) {l : Nat} (hl : l + 1 < S.L) {s : GState V} {D : ℝ}
    (hD : CErrLe S p l s D) (hF : FRelaxed S l s) : ErrLe S p l s D := by
  intro i
  induction i with
  | zero => intro _; exact hD 0 (h.zero_mem_C hl)
  | succ i ih =>
    intro hi
    by_cases hC : i + 1 ∈ S.C l
    · exact hD _ hC
    · rw [hF (i + 1) hi hC, Nat.add_sub_cancel]
      show p (_ - S.prop s.g l (i + 1) (exactSol S l s i)) ≤ D
      rw [prop_sub]
      exact (hA.step l _ _ _ (by omega) (by omega) hi).trans (ih (by omega))

theorem CErrLe.fRelax (h : S.WF) (hA : Approx S p κ) {l : Nat} (hl : l + 1 < S.L) {s : GState V} {D : ℝ}
    (hD : CErrLe S p l s D) : ErrLe S p l (S.fRelax l s) D := by
  refine CErrLe.relaxed h hA hl ?_ (h.fRelax_relaxed hl s)
  intro i hi
  rw [exactSol_keeps (h.keeps_fRelax hl s), h.fRelax_C hl s hi]
  exact hD i hi

/-- C-relaxation multiplies the error bound by `|w| + |1 - w|`. -/
theorem ErrLe.cRelax (h : S.WF) (hA : Approx S p κ) {l : Nat} (hl : l + 1 < S.L)
    (hadj : ‖S.w‖ + ‖1 - S.w‖ = 1 ∨ ∀ i, i ∈ S.C l → i + 1 ∉ S.C l) {s : GState V} {D : ℝ}
    (hD : ErrLe S p l s D) : CErrLe S p l (S.cRelax l s) ((‖S.w‖ + ‖1 - S.w‖) * D) := by
  have hD0 := hD.nonneg (h.npos l (by omega))
  have hw1 : 1 ≤ ‖S.w‖ + ‖1 - S.w‖ := by
    have := norm_add_le S.w (1 - S.w)
    rwa [add_sub_cancel, norm_one] at this
  set X := exactSol S l s with hX
  set ω := ‖S.w‖ + ‖1 - S.w‖ with hω
  -- one update
  have upd : ∀ i, i + 1 ∈ S.C l → i + 1 < S.n l → p ((S.cRelax l s).u l i - X i) ≤ D →
      p ((S.cRelax l s).u l (i + 1) - X (i + 1)) ≤ ω * D := by
    intro i hC hi hprev
    rw [h.cRelax_C hl s hC (by omega), Nat.add_sub_cancel]
    have e : S.w • S.prop s.g l (i + 1) ((S.cRelax l s).u l i) + (1 - S.w) • s.u l (i + 1) - X (i + 1)
        = S.w • (S.prop s.g l (i + 1) ((S.cRelax l s).u l i) - S.prop s.g l (i + 1) (X i))
          + (1 - S.w) • (s.u l (i + 1) - X (i + 1)) := by
      have : X (i + 1) = S.prop s.g l (i + 1) (X i) := rfl
      rw [← this, smul_sub, smul_sub, sub_smul 1 S.w (X (i + 1)), one_smul]
      abel
    rw [e, prop_sub]
    refine (map_add_le_add p _ _).trans ?_
    rw [map_smul_eq_mul, map_smul_eq_mul]
    have b1 := mul_le_mul_of_nonneg_left
      ((hA.step l (i + 1) ((S.cRelax l s).u l i) (X i) (by omega) (by omega) hi).trans hprev) (norm_nonneg S.w)
    have b2 := mul_le_mul_of_nonneg_left (hD (i + 1) hi) (norm_nonneg (1 - S.w))
    calc _ ≤ ‖S.w‖ * D + ‖1 - S.w‖ * D := add_le_add b1 b2
      _ = ω * D := by rw [hω]; ring
  have hnot : ∀ i, i ∉ S.C l → i < S.n l → p ((S.cRelax l s).u l i - X i) ≤ D := by
    intro i hC hi
    rw [cRelax_not_C s hC]
    exact hD i hi
  have hzero : p ((S.cRelax l s).u l 0 - X 0) ≤ D := by
    rw [cRelax_zero s]
    exact hD 0 (h.npos l (by omega))
  intro i hiC
  rw [exactSol_keeps (keeps_cRelax s)]
  have hi := h.C_lt l hl i hiC
  rcases hadj with hadj | hadj
  · have all : ∀ i, i < S.n l → p ((S.cRelax l s).u l i - X i) ≤ D := by
      intro i
      induction i with
      | zero => intro _; exact hzero
      | succ i ih =>
        intro hi
        by_cases hC : i + 1 ∈ S.C l
        · have := upd i hC hi (ih (by omega))
          rwa [hadj, one_mul] at this
        · exact hnot _ hC hi
    have := all i hi
    rwa [hadj, one_mul]
  · cases i with
    | zero => exact hzero.trans (le_mul_of_one_le_left hD0 hw1)
    | succ i =>
      by_cases h0 : i = 0
      · subst h0; exact upd 0 hiC hi hzero
      · exact upd i hiC hi (hnot i (fun hC => hadj i hC hiC) (by omega))

/-- Pre-relaxation on an F-relaxed level. -/
theorem ErrLe.sweeps (h : S.WF) (hA : Approx S p κ) {l : Nat} (hl : l + 1 < S.L) (ν : Nat)
    (hadj : ‖S.w‖ + ‖1 - S.w‖ = 1 ∨ ν = 0 ∨ ∀ i, i ∈ S.C l → i + 1 ∉ S.C l) {s : GState V} {D : ℝ}
    (hD : ErrLe S p l s D) (hF : FRelaxed S l s) :
    let s' := times (fun s => S.fRelax l (S.cRelax l s)) ν s
    ErrLe S p l s' ((‖S.w‖ + ‖1 - S.w‖) ^ ν * D) ∧ FRelaxed S l s' ∧ Keeps l s s' := by
  induction ν generalizing s D with
  | zero => simpa [times] using ⟨hD, hF, Keeps.refl l s⟩
  | succ ν ih =>
    have hadj' : ‖S.w‖ + ‖1 - S.w‖ = 1 ∨ ∀ i, i ∈ S.C l → i + 1 ∉ S.C l := by
      rcases hadj with a | a | a
      · exact Or.inl a
      · omega
      · exact Or.inr a
    have h1 := (hD.cRelax h hA hl hadj').fRelax h hA hl
    obtain ⟨b1, b2, b3⟩ := ih (by tauto) h1 (h.fRelax_relaxed hl _)
    refine ⟨?_, b2, ((keeps_cRelax s).trans (h.keeps_fRelax hl _)).trans b3⟩
    rw [pow_succ, mul_assoc]
    exact b1

/-- From one coarse point to the next on an F-relaxed level. -/
theorem relaxed_interval (h : S.WF) {l : Nat} (hl : l + 1 < S.L) {s : GState V} (hF : FRelaxed S l s) {k : Nat}
    (hk : k < S.n (l + 1)) (hk1 : 1 ≤ k) :
    S.prop s.g l (S.cpt l k) (s.u l (S.cpt l k - 1))
      = stepsFrom (S.prop s.g l) (S.cpt l (k - 1)) (S.cpt l k - S.cpt l (k - 1)) (s.u l (S.cpt l (k - 1))) := by
  have hlt : S.cpt l (k - 1) < S.cpt l k := h.cpt_lt hl (by omega) hk
  have hb : S.cpt l k < S.n l := h.cpt_bound hl hk
  have key : ∀ m, S.cpt l (k - 1) + m < S.cpt l k →
      s.u l (S.cpt l (k - 1) + m) = stepsFrom (S.prop s.g l) (S.cpt l (k - 1)) m (s.u l (S.cpt l (k - 1))) := by
    intro m
    induction m with
    | zero => intro _; rfl
    | succ m ih =>
      intro hm
      have hC : S.cpt l (k - 1) + (m + 1) ∉ S.C l := by
        intro hC
        obtain ⟨q, hq, e⟩ := (h.mem_C_iff hl).1 hC
        have h1 : k - 1 < q := by
          by_contra hle
          push Not at hle
          have := (h.cpt_le_iff hl hq (show k - 1 < S.n (l + 1) by omega)).2 hle
          omega
        have h2 := (h.cpt_le_iff hl hk hq).2 (show k ≤ q by omega)
        omega
      rw [hF _ (by omega) hC]
      show S.prop s.g l (S.cpt l (k - 1) + m + 1) (s.u l (S.cpt l (k - 1) + m)) = _
      rw [ih (by omega)]
      rfl
  obtain ⟨m, hm⟩ : ∃ m, S.cpt l k = S.cpt l (k - 1) + (m + 1) := ⟨S.cpt l k - S.cpt l (k - 1) - 1, by omega⟩
  rw [show S.cpt l k - S.cpt l (k - 1) = m + 1 by omega]
  conv_lhs => rw [hm]
  show S.prop s.g l (S.cpt l (k - 1) + m + 1) (s.u l (S.cpt l (k - 1) + m)) = _
  rw [key m (by omega)]
  rfl

theorem exactSol_cpt (h : S.WF) {l : Nat} (hl : l + 1 < S.L) (s : GState V) {k : Nat}
    (hk : k < S.n (l + 1)) (hk1 : 1 ≤ k) :
    exactSol S l s (S.cpt l k) = stepsFrom (S.prop s.g l) (S.cpt l (k - 1)) (S.cpt l k - S.cpt l (k - 1))
      (exactSol S l s (S.cpt l (k - 1))) := by
  have hlt : S.cpt l (k - 1) < S.cpt l k := h.cpt_lt hl (by omega) hk
  unfold exactSol
  conv_lhs => rw [← Nat.add_sub_cancel' hlt.le]
  exact seqSol_add _ _ _ _

/-- The equations set on the next coarser level: their exact solution is within `κ` times the present
error of the exact solution of the finer level. -/
theorem fas_close (h : S.WF) (hA : Approx S p κ) (hκ : 0 ≤ κ) {l : Nat} (hl : l + 1 < S.L)
    (hR : ∀ x, S.R l x = x)
    {s : GState V} {D : ℝ} (hD : CErrLe S p l s D) (hF : FRelaxed S l s) (k : Nat) (hk : k < S.n (l + 1)) :
    p (exactSol S (l + 1) (S.fasResidual l s) k - exactSol S l s (S.cpt l k)) ≤ κ * D := by
  have hD0 := hD.nonneg h hl
  induction k with
  | zero =>
    have e : exactSol S (l + 1) (S.fasResidual l s) 0 = exactSol S l s (S.cpt l 0) := by
      rw [h.cpt_zero hl]
      show (S.fasResidual l s).u (l + 1) 0 = s.u l 0
      rw [h.fasResidual_u hl s hk, hR, h.cpt_zero hl]
    rw [e, sub_self, map_zero]
    positivity
  | succ k ih =>
    have ih := ih (by omega)
    obtain ⟨β, hβ0, hβ1, hβ, hκβ⟩ := hA.coarse l (k + 1) hl (by omega) hk
    have hg : (S.fasResidual l s).g (l + 1) (k + 1)
        = stepsFrom (S.prop s.g l) (S.cpt l k) (S.cpt l (k + 1) - S.cpt l k) (s.u l (S.cpt l k))
          - S.Φ (l + 1) (k + 1) (s.u l (S.cpt l k)) := by
      rw [h.fasResidual_g hl s hk (by omega), fasRes_eq, hR, h.fasResidual_u hl s hk, Nat.add_sub_cancel,
        h.fasResidual_u hl s (by omega), hR, hR]
      have := relaxed_interval h hl hF hk (by omega)
      rw [Nat.add_sub_cancel] at this
      rw [this]
      abel
    have e1 : exactSol S (l + 1) (S.fasResidual l s) (k + 1)
        = (S.fasResidual l s).g (l + 1) (k + 1)
          + S.Φ (l + 1) (k + 1) (exactSol S (l + 1) (S.fasResidual l s) k) := by
      show S.prop _ (l + 1) (k + 1) _ = _
      unfold prop
      rw [if_neg (by omega)]
      rfl
    have e2 := exactSol_cpt h hl s hk (by omega)
    simp only [Nat.add_sub_cancel] at e2 hκβ
    set Z := exactSol S (l + 1) (S.fasResidual l s) k
    set X := exactSol S l s (S.cpt l k)
    have e3 : exactSol S (l + 1) (S.fasResidual l s) (k + 1) - exactSol S l s (S.cpt l (k + 1))
        = (S.Φ (l + 1) (k + 1) Z - S.Φ (l + 1) (k + 1) X)
          + ((stepsFrom (S.prop s.g l) (S.cpt l k) (S.cpt l (k + 1) - S.cpt l k) (s.u l (S.cpt l k))
              - S.Φ (l + 1) (k + 1) (s.u l (S.cpt l k)))
            - (stepsFrom (S.prop s.g l) (S.cpt l k) (S.cpt l (k + 1) - S.cpt l k) X
              - S.Φ (l + 1) (k + 1) X)) := by
      rw [e1, e2, hg]; abel
    rw [e3]
    refine (map_add_le_add p _ _).trans ?_
    have c1 := (hβ Z X).trans (mul_le_mul_of_nonneg_left ih hβ0)
    have hc : S.cpt l k ∈ S.C l := (h.mem_C_iff hl).2 ⟨k, by omega, rfl⟩
    have c2 := (hκβ s.g (s.u l (S.cpt l k)) X).trans
      (mul_le_mul_of_nonneg_left (hD _ hc) (mul_nonneg hκ (by linarith)))
    calc _ ≤ β * (κ * D) + κ * (1 - β) * D := add_le_add c1 c2
      _ = κ * D := by ring

/-- Error with which the coarser level starts. -/
theorem fas_err (h : S.WF) (hA : Approx S p κ) (hκ : 0 ≤ κ) {l : Nat} (hl : l + 1 < S.L)
    (hR : ∀ x, S.R l x = x) {s : GState V} {D : ℝ} (hD : CErrLe S p l s D) (hF : FRelaxed S l s) :
    ErrLe S p (l + 1) (S.fasResidual l s) ((1 + κ) * D) := by
  intro k hk
  have hc : S.cpt l k ∈ S.C l := (h.mem_C_iff hl).2 ⟨k, hk, rfl⟩
  have c := fas_close h hA hκ hl hR hD hF k hk
  have d := hD _ hc
  rw [h.fasResidual_u hl s hk, hR]
  have e : s.u l (S.cpt l k) - exactSol S (l + 1) (S.fasResidual l s) k
      = (s.u l (S.cpt l k) - exactSol S l s (S.cpt l k))
        - (exactSol S (l + 1) (S.fasResidual l s) k - exactSol S l s (S.cpt l k)) := by abel
  rw [e]
  refine (map_sub_le_add p _ _).trans ?_
  linarith

/-- Coarse-grid correction and F-relaxation, given the error left by the coarser level. -/
theorem correct_err (h : S.WF) (hA : Approx S p κ) (hκ : 0 ≤ κ) {l : Nat} (hl : l + 1 < S.L)
    (hR : ∀ x, S.R l x = x) (hI : ∀ x, S.I l x = x) {s t : GState V} {D D' : ℝ} (hD : CErrLe S p l s D)
    (hF : FRelaxed S l s) (hk : Keeps (l + 1) (S.fasResidual l s) t) (hD' : ErrLe S p (l + 1) t D') :
    ErrLe S p l (S.fRelax l (S.errorCorrection l t)) (κ * D + D') := by
  have hkeep : Keeps l s (S.errorCorrection l t) :=
    ((keeps_fasResidual s).trans hk.down).trans (h.keeps_errorCorrection hl t)
  have hD0 := hD.nonneg h hl
  have hD'0 := hD'.nonneg (h.npos (l + 1) hl)
  refine CErrLe.fRelax h hA hl ?_
  intro i hi
  rw [exactSol_keeps hkeep]
  obtain ⟨k, hkn, rfl⟩ := (h.mem_C_iff hl).1 hi
  by_cases h0 : k = 0
  · subst h0
    have : p ((S.errorCorrection l t).u l (S.cpt l 0) - exactSol S l s (S.cpt l 0)) = 0 := by
      rw [h.cpt_zero hl, hkeep.zero]
      show p (s.u l 0 - s.u l 0) = 0
      rw [sub_self, map_zero]
    rw [this]
    positivity
  · have hu : t.u l = s.u l := by rw [hk.u_lt l (by omega), fasResidual_u_ne s (by omega)]
    have hv : t.v (l + 1) k = s.u l (S.cpt l k) := by
      rw [hk.v_le (l + 1) le_rfl, fasResidual_v_eq, h.fasResidual_u hl s hkn, hR]
    rw [h.errorCorrection_C hl t hkn h0, hI, hu, hv]
    have c := fas_close h hA hκ hl hR hD hF k hkn
    have d := hD' k hkn
    rw [exactSol_keeps hk] at d
    have e : s.u l (S.cpt l k) + (t.u (l + 1) k - s.u l (S.cpt l k)) - exactSol S l s (S.cpt l k)
        = (t.u (l + 1) k - exactSol S (l + 1) (S.fasResidual l s) k)
          + (exactSol S (l + 1) (S.fasResidual l s) k - exactSol S l s (S.cpt l k)) := by abel
    rw [e]
    refine (map_add_le_add p _ _).trans ?_
    linarith

theorem forwardSolve_err (l : Nat) (s : GState V) : ErrLe S p l (S.forwardSolve l s) 0 := by
  intro i hi
  have : (S.forwardSolve l s).u l i = exactSol S l (S.forwardSolve l s) i := by
    induction i with
    | zero => rfl
    | succ i ih =>
      rw [forwardSolve_pos s (by omega) hi, Nat.add_sub_cancel, ih (by omega)]
      rfl
  rw [this, sub_self, map_zero]

/-- Growth of the error by the relaxation on level `l`. -/
noncomputable def relaxGrowth (S : Sys V 𝕜) (l : Nat) : ℝ := (‖S.w‖ + ‖1 - S.w‖) ^ S.cf l

theorem relaxGrowth_nonneg (S : Sys V 𝕜) (l : Nat) : 0 ≤ relaxGrowth S l := by
  unfold relaxGrowth; positivity

/-- Setting of the convergence proof. -/
structure MultiHyp (S : Sys V 𝕜) (p : Seminorm 𝕜 V) (κ : ℝ) : Prop where
  wf : S.WF
  approx : Approx S p κ
  nonneg : 0 ≤ κ
  R : ∀ l, l + 1 < S.L → ∀ x, S.R l x = x
  I : ∀ l, l + 1 < S.L → ∀ x, S.I l x = x
  adj : ∀ l, l + 1 < S.L →
    ‖S.w‖ + ‖1 - S.w‖ = 1 ∨ S.cf l = 0 ∨ ∀ i, i ∈ S.C l → i + 1 ∉ S.C l

theorem rate_zero (a : Nat → ℝ) (cyc : Cycle) (d : Nat) : rate 0 a cyc d = 0 := by
  have hV : ∀ d l, rateV 0 a l d = 0 := by
    intro d
    induction d with
    | zero => intro l; rfl
    | succ d ih => intro l; simp [rateV, ih]
  have hF : ∀ d l, rateF 0 a l d = 0 := by
    intro d
    induction d with
    | zero => intro l; rfl
    | succ d ih => intro l; simp [rateF, ih]
  cases cyc
  · exact hV d 0
  · exact hF d 0

theorem keeps_coarse : ∀ s, Keeps (S.L - 1) s (S.forwardSolve (S.L - 1) s) := fun s => keeps_forwardSolve s

/-- The part common to V- and F-cycles: relaxation, coarse-grid correction with any coarse solver that
reduces errors by the factor `ρ`, and F-relaxation. -/
theorem level_err (H : MultiHyp S p κ) {l : Nat} (hl : l + 1 < S.L) (q : Prop) [Decidable q]
    (f : GState V → GState V) (ρ : ℝ) (hf : ∀ s, Keeps (l + 1) s (f s))
    (hρ : ∀ s D, ErrLe S p (l + 1) s D → ErrLe S p (l + 1) (f s) (ρ * D)) {s : GState V} {D : ℝ}
    (hD : CErrLe S p l s D) (hF : ¬ q → FRelaxed S l s) :
    ErrLe S p l (S.fRelax l (S.errorCorrection l (f (S.fasResidual l
      (times (fun s => S.fRelax l (S.cRelax l s)) (S.cf l) (if q then S.fRelax l s else s))))))
      (relaxGrowth S l * (κ + (1 + κ) * ρ) * D) := by
  have h0 : ErrLe S p l (if q then S.fRelax l s else s) D ∧ FRelaxed S l (if q then S.fRelax l s else s) := by
    split
    · exact ⟨hD.fRelax H.wf H.approx hl, H.wf.fRelax_relaxed hl s⟩
    · next hq => exact ⟨hD.relaxed H.wf H.approx hl (hF hq), hF hq⟩
  obtain ⟨b1, b2, -⟩ := h0.1.sweeps H.wf H.approx hl (S.cf l) (H.adj l hl) h0.2
  set s2 := times (fun s => S.fRelax l (S.cRelax l s)) (S.cf l) (if q then S.fRelax l s else s)
  have c1 := hρ _ _ (fas_err H.wf H.approx H.nonneg hl (H.R l hl) (b1.toC H.wf hl) b2)
  have c2 := correct_err H.wf H.approx H.nonneg hl (H.R l hl) (H.I l hl) (b1.toC H.wf hl) b2
    (hf (S.fasResidual l s2)) c1
  have e : κ * ((‖S.w‖ + ‖1 - S.w‖) ^ S.cf l * D)
      + ρ * ((1 + κ) * ((‖S.w‖ + ‖1 - S.w‖) ^ S.cf l * D))
      = relaxGrowth S l * (κ + (1 + κ) * ρ) * D := by unfold relaxGrowth; ring
  rw [e] at c2
  exact c2

/-- V-cycle. -/
theorem vcyc_err (H : MultiHyp S p κ) (d l it : Nat) (ff : Bool) (hd : l + d + 1 = S.L) {s : GState V} {D : ℝ}
    (hD : CErrLe S p l s D) (hF : ¬ ((0 < l ∨ (it = 0 ∧ l = 0)) ∧ ff = true) → 0 < d → FRelaxed S l s) :
    ErrLe S p l (S.vcyc S.forwardSolve d l it ff s) (rateV κ (relaxGrowth S) l d * D) := by
  induction d generalizing l ff s D with
  | zero =>
    simp only [vcyc, rateV, zero_mul]
    exact forwardSolve_err l s
  | succ d ih =>
    have hl : l + 1 < S.L := by omega
    simp only [vcyc, rateV]
    refine level_err H hl _ (S.vcyc S.forwardSolve d (l + 1) it true) _ ?_ ?_ hD
      (fun hq => hF hq (by omega))
    · intro s
      rw [← iteration_V_eq_vcyc]
      exact H.wf.keeps_iteration keeps_coarse d (l + 1) it Cycle.V true (by omega) s
    · intro s D hs
      refine ih (l + 1) true (by omega) ?_ (fun hq => absurd (by simp) hq)
      cases d with
      | zero =>
        intro i hi
        refine hs i ?_
        have e : l + 1 = S.L - 1 := by omega
        rw [e, H.wf.C_last] at hi
        rw [e]
        exact List.mem_range.1 hi
      | succ d => exact hs.toC H.wf (by omega)

/-- V- and F-cycle as called on a level below the finest. -/
theorem iteration_err (H : MultiHyp S p κ) (d l it : Nat) (cyc : Cycle) (ff : Bool) (hd : l + d + 1 = S.L)
    {s : GState V} {D : ℝ} (hD : CErrLe S p l s D)
    (hF : ¬ ((0 < l ∨ (it = 0 ∧ l = 0)) ∧ ff = true) → 0 < d → FRelaxed S l s) :
    ErrLe S p l (S.iteration S.forwardSolve d l cyc it ff s)
      ((match cyc with
        | .V => rateV κ (relaxGrowth S) l d
        | .F => if l = 0 then rateF κ (relaxGrowth S) l d
                else rateF κ (relaxGrowth S) l d * rateV κ (relaxGrowth S) l d) * D) := by
  cases cyc with
  | V =>
    rw [iteration_V_eq_vcyc]
    exact vcyc_err H d l it ff hd hD hF
  | F =>
    induction d generalizing l ff s D with
    | zero =>
      simp only [iteration, rateF, rateV, zero_mul, ite_self]
      exact forwardSolve_err l s
    | succ d ih =>
      have hl : l + 1 < S.L := by omega
      have key := level_err H hl ((0 < l ∨ it = 0 ∧ l = 0) ∧ ff = true)
        (S.iteration S.forwardSolve d (l + 1) .F it true)
        (rateF κ (relaxGrowth S) (l + 1) d * rateV κ (relaxGrowth S) (l + 1) d)
        (fun s => H.wf.keeps_iteration keeps_coarse d (l + 1) it .F true (by omega) s)
        (fun s D hs => by
          have := ih (l + 1) true (by omega) (s := s) (D := D) ?_ (fun hq => absurd (by simp) hq)
          · simpa using this
          · cases d with
            | zero =>
              intro i hi
              refine hs i ?_
              have e : l + 1 = S.L - 1 := by omega
              rw [e, H.wf.C_last] at hi
              rw [e]
              exact List.mem_range.1 hi
            | succ d => exact hs.toC H.wf (by omega)) hD (fun hq => hF hq (by omega))
      generalize hcore : S.fRelax l (S.errorCorrection l (S.iteration S.forwardSolve d (l + 1) .F it true
        (S.fasResidual l (times (fun s => S.fRelax l (S.cRelax l s)) (S.cf l)
          (if (0 < l ∨ it = 0 ∧ l = 0) ∧ ff = true then S.fRelax l s else s))))) = core at key
      have hrel : FRelaxed S l core := by rw [← hcore]; exact H.wf.fRelax_relaxed hl _
      have e : S.iteration S.forwardSolve (d + 1) l .F it ff s
          = if l ≠ 0 ∧ Cycle.F = Cycle.F then S.vcyc S.forwardSolve (d + 1) l it false core else core := by
        rw [← hcore]; rfl
      rw [e]
      by_cases h0 : l = 0
      · rw [if_neg (by simp [h0])]
        simp only [h0, if_true]
        subst h0
        exact key
      · rw [if_pos ⟨h0, rfl⟩]
        simp only [h0, if_false]
        have := vcyc_err H (d + 1) l it false hd (key.toC H.wf hl) (fun _ _ => hrel)
        refine fun i hi => (this i hi).trans (le_of_eq ?_)
        simp only [rateF]
        ring

/-- `m` iterations of `solve`. -/
theorem iterates_err (H : MultiHyp S p κ) (hL : 1 < S.L) (cyc : Cycle) (m : Nat) (s : GState V) (D : ℝ)
    (hD : CErrLe S p 0 s D) :
    CErrLe S p 0 (iterates S S.forwardSolve cyc m s) (rate κ (relaxGrowth S) cyc (S.L - 1) ^ m * D) ∧
    (1 ≤ m → ErrLe S p 0 (iterates S S.forwardSolve cyc m s) (rate κ (relaxGrowth S) cyc (S.L - 1) ^ m * D)) ∧
    Keeps 0 s (iterates S S.forwardSolve cyc m s) := by
  induction m with
  | zero => exact ⟨by simpa [iterates] using hD, fun h => by omega, Keeps.refl 0 s⟩
  | succ m ih =>
    obtain ⟨i1, -, i3⟩ := ih
    have hstep : ErrLe S p 0 (iterates S S.forwardSolve cyc (m + 1) s)
        (rate κ (relaxGrowth S) cyc (S.L - 1) ^ (m + 1) * D) := by
      have := iteration_err H (S.L - 1) 0 m cyc true (by omega) i1 (fun hq _ => by
        cases m with
        | zero => exact absurd (by simp) hq
        | succ m => exact H.wf.fineIteration_relaxed S.forwardSolve cyc m _ hL)
      refine fun i hi => (this i hi).trans (le_of_eq ?_)
      rw [pow_succ]
      cases cyc <;> simp [rate] <;> ring
    exact ⟨hstep.toC H.wf hL, fun _ => hstep, i3.trans (H.wf.fineIteration_keeps keeps_coarse cyc m _)⟩

/-! ### Nested iteration -/

/-- Without source: nothing is added by a step. -/
def NoSource (S : Sys V 𝕜) (p : Seminorm 𝕜 V) : Prop :=
  ∀ l i, l < S.L → 1 ≤ i → i < S.n l → p (S.Φ l i 0) = 0

theorem NoSource.step (hA : Approx S p κ) (h0 : NoSource S p) {l i : Nat} (hl : l < S.L) (h1 : 1 ≤ i)
    (hi : i < S.n l) (x : V) : p (S.Φ l i x) ≤ p x := by
  have := hA.step l i x 0 hl h1 hi
  rw [sub_zero] at this
  have e : S.Φ l i x = (S.Φ l i x - S.Φ l i 0) + S.Φ l i 0 := by abel
  rw [e]
  refine (map_add_le_add p _ _).trans ?_
  rw [h0 l i hl h1 hi]
  linarith

theorem NoSource.seq (hA : Approx S p κ) (h0 : NoSource S p) {l : Nat} (hl : l < S.L) (x : V) (i : Nat)
    (hi : i < S.n l) : p (seqSol (S.Φ l) x i) ≤ p x := by
  induction i with
  | zero => exact le_rfl
  | succ i ih => exact (h0.step hA hl (by omega) hi _).trans (ih (by omega))

/-- The sequential solutions on neighbouring levels. -/
theorem NoSource.levels (h : S.WF) (hA : Approx S p κ) (hκ : 0 ≤ κ) (h0 : NoSource S p) {l : Nat}
    (hl : l + 1 < S.L) (x : V) (k : Nat) (hk : k < S.n (l + 1)) :
    p (seqSol (S.Φ (l + 1)) x k - seqSol (S.Φ l) x (S.cpt l k)) ≤ κ * p x := by
  have hx0 : 0 ≤ p x := apply_nonneg p x
  induction k with
  | zero =>
    rw [h.cpt_zero hl]
    show p (x - x) ≤ _
    rw [sub_self, map_zero]
    positivity
  | succ k ih =>
    have ih := ih (by omega)
    obtain ⟨β, hβ0, hβ1, hβ, hκβ⟩ := hA.coarse l (k + 1) hl (by omega) hk
    have hlt : S.cpt l k < S.cpt l (k + 1) := h.cpt_lt hl (by omega) hk
    have hb : S.cpt l (k + 1) < S.n l := h.cpt_bound hl hk
    have hprop : S.prop (fun _ _ => (0 : V)) l = S.Φ l := by
      funext i y
      unfold prop
      split
      · rfl
      · exact zero_add _
    have hκβ := hκβ (fun _ _ => 0)
    rw [hprop, Nat.add_sub_cancel] at hκβ
    have hz : ∀ m, S.cpt l k + m < S.n l → p (stepsFrom (S.Φ l) (S.cpt l k) m 0) = 0 := by
      intro m
      induction m with
      | zero => intro _; exact map_zero p
      | succ m ihm =>
        intro hm
        refine le_antisymm ?_ (apply_nonneg p _)
        rw [← ihm (by omega)]
        exact h0.step hA (by omega) (by omega) (by omega) _
    have e2 : seqSol (S.Φ l) x (S.cpt l (k + 1))
        = stepsFrom (S.Φ l) (S.cpt l k) (S.cpt l (k + 1) - S.cpt l k) (seqSol (S.Φ l) x (S.cpt l k)) := by
      conv_lhs => rw [← Nat.add_sub_cancel' hlt.le]
      exact seqSol_add _ _ _ _
    set Z := seqSol (S.Φ (l + 1)) x k
    set X := seqSol (S.Φ l) x (S.cpt l k) with hXdef
    have hXle : p X ≤ p x := h0.seq hA (by omega) x _ (by omega)
    set SF := stepsFrom (S.Φ l) (S.cpt l k) (S.cpt l (k + 1) - S.cpt l k)
    have e3 : seqSol (S.Φ (l + 1)) x (k + 1) - seqSol (S.Φ l) x (S.cpt l (k + 1))
        = (S.Φ (l + 1) (k + 1) Z - S.Φ (l + 1) (k + 1) X)
          - (((SF X - S.Φ (l + 1) (k + 1) X) - (SF 0 - S.Φ (l + 1) (k + 1) 0))
            + (SF 0 - S.Φ (l + 1) (k + 1) 0)) := by
      rw [e2]
      show S.Φ (l + 1) (k + 1) Z - _ = _
      abel
    rw [e3]
    have hsmall : p (SF 0 - S.Φ (l + 1) (k + 1) 0) ≤ 0 := by
      refine (map_sub_le_add p _ _).trans ?_
      rw [hz _ (by omega), h0 (l + 1) (k + 1) hl (by omega) hk, add_zero]
    refine (map_sub_le_add p _ _).trans ?_
    have c1 := (hβ Z X).trans (mul_le_mul_of_nonneg_left ih hβ0)
    have c2 := hκβ X 0
    rw [sub_zero] at c2
    have c2 := c2.trans (mul_le_mul_of_nonneg_left hXle (mul_nonneg hκ (by linarith)))
    have c3 := (map_add_le_add p ((SF X - S.Φ (l + 1) (k + 1) X) - (SF 0 - S.Φ (l + 1) (k + 1) 0))
      (SF 0 - S.Φ (l + 1) (k + 1) 0))
    calc _ ≤ β * (κ * p x) + (κ * (1 - β) * p x + 0) :=
          add_le_add c1 (c3.trans (add_le_add c2 hsmall))
      _ = κ * p x := by ring

theorem exactSol_zero {l : Nat} {s : GState V} (hg : l ≠ 0 → ∀ i, s.g l i = 0) :
    exactSol S l s = seqSol (S.Φ l) (s.u l 0) := by
  unfold exactSol
  congr 1
  funext i x
  unfold prop
  split
  · rfl
  · next h => rw [hg h, zero_add]

/-- Loop of nested iteration. -/
theorem nestedLoop_err (H : MultiHyp S p κ) (h0 : NoSource S p) (x : V) (l d : Nat)
    (hd : l + d + 1 = S.L) (s : GState V) (hx : ∀ l', l' ≤ l → s.u l' 0 = x)
    (hg : ∀ l' i, l' ≠ 0 → l' < l → s.g l' i = 0)
    (he : ∀ i, i < S.n l → p (s.u l i - seqSol (S.Φ l) x i)
      ≤ rateN κ (relaxGrowth S) l d * p x) (i : Nat) (hi : 0 < l → i ∈ S.C 0) (hi0 : l = 0 → i < S.n 0) :
    p ((S.nestedLoop S.forwardSolve l s).u 0 i - seqSol (S.Φ 0) x i)
      ≤ (if l = 0 then rateN κ (relaxGrowth S) 0 d else rateN κ (relaxGrowth S) 1 (S.L - 2) + κ) * p x := by
  induction l generalizing d s with
  | zero => simpa [nestedLoop] using he i (hi0 rfl)
  | succ l ih =>
    have hl : l + 1 < S.L := by omega
    -- interpolation
    have hk1 := H.wf.keeps_interpolate hl s
    have hCerr : ∀ i, i ∈ S.C l → p ((S.interpolate l s).u l i - seqSol (S.Φ l) x i)
        ≤ (rateN κ (relaxGrowth S) (l + 1) d + κ) * p x := by
      intro i hi
      obtain ⟨k, hk, rfl⟩ := (H.wf.mem_C_iff hl).1 hi
      have c := h0.levels H.wf H.approx H.nonneg hl x k hk
      have e1 := he k hk
      have e2 : (S.interpolate l s).u l (S.cpt l k) = s.u (l + 1) k := by
        by_cases hk0 : k = 0
        · subst hk0
          rw [H.wf.cpt_zero hl, hk1.zero, hx l (by omega), hx (l + 1) le_rfl]
        · rw [H.wf.interpolate_C hl s hk hk0, H.I l hl]
      rw [e2]
      have e3 : s.u (l + 1) k - seqSol (S.Φ l) x (S.cpt l k)
          = (s.u (l + 1) k - seqSol (S.Φ (l + 1)) x k)
            + (seqSol (S.Φ (l + 1)) x k - seqSol (S.Φ l) x (S.cpt l k)) := by abel
      rw [e3]
      refine (map_add_le_add p _ _).trans ?_
      linarith
    simp only [nestedLoop]
    by_cases hl0 : l = 0
    · subst hl0
      simp only [lt_irrefl, if_false, nestedLoop]
      have := hCerr i (hi (by omega))
      rw [if_neg (by omega), show S.L - 2 = d by omega]
      exact this
    · rw [if_pos (by omega), if_neg (by omega)]
      have hu0 : (S.interpolate l s).u l 0 = x := by rw [hk1.zero]; exact hx l (by omega)
      have hsol : exactSol S l (S.interpolate l s) = seqSol (S.Φ l) x := by
        rw [exactSol_zero (fun hne i => by rw [hk1.g_le l le_rfl]; exact hg l i hne (by omega)), hu0]
      have hC : CErrLe S p l (S.interpolate l s) ((rateN κ (relaxGrowth S) (l + 1) d + κ) * p x) := by
        intro i hi
        rw [hsol]
        exact hCerr i hi
      have hit := iteration_err H (d + 1) l 0 .V true (by omega) hC
        (fun hq => absurd ⟨Or.inl (by omega), rfl⟩ hq)
      have hk2 := H.wf.keeps_iteration keeps_coarse (d + 1) l 0 .V true (by omega) (S.interpolate l s)
      have hk := hk1.trans hk2
      rw [show S.L - 1 - l = d + 1 by omega]
      have := ih (d + 1) (by omega) (S.iteration S.forwardSolve (d + 1) l .V 0 true (S.interpolate l s))
        (fun l' hl' => by
          rcases Nat.lt_or_ge l' l with hlt | hge
          · rw [hk.u_lt l' hlt]; exact hx l' (by omega)
          · have : l' = l := by omega
            subst this
            rw [hk.zero]; exact hx l' (by omega))
        (fun l' i hne hlt => by rw [hk.g_le l' (by omega)]; exact hg l' i hne (by omega))
        (fun i hi => by
          have := hit i hi
          rw [exactSol_keeps hk2, hsol] at this
          refine this.trans (le_of_eq ?_)
          simp only [rateN]
          ring)
        (fun _ => hi (by omega)) (fun h => absurd h hl0)
      rwa [if_neg hl0] at this

/-- Initial guess left by nested iteration on the finest level. -/
theorem nested_err (H : MultiHyp S p κ) (h0 : NoSource S p) (hL : 1 < S.L) (s : GState V) (x : V)
    (hx : ∀ l, l < S.L → s.u l 0 = x) (hg : ∀ l i, l ≠ 0 → l < S.L → s.g l i = 0) (i : Nat) (hi : i ∈ S.C 0) :
    p ((S.nestedIteration S.forwardSolve s).u 0 i - seqSol (S.Φ 0) x i)
      ≤ (rateN κ (relaxGrowth S) 1 (S.L - 2) + κ) * p x := by
  have hk : Keeps (S.L - 1) s (S.forwardSolve (S.L - 1) s) := keeps_forwardSolve s
  have := nestedLoop_err H h0 x (S.L - 1) 0 (by omega) (S.forwardSolve (S.L - 1) s)
    (fun l' hl' => by
      rcases Nat.lt_or_ge l' (S.L - 1) with hlt | hge
      · rw [hk.u_lt l' hlt]; exact hx l' (by omega)
      · have : l' = S.L - 1 := by omega
        subst this
        rw [hk.zero]; exact hx _ (by omega))
    (fun l' i hne hlt => by rw [hk.g_le l' (by omega)]; exact hg l' i hne (by omega))
    (fun i hi => by
      have := forwardSolve_err (S := S) (p := p) (S.L - 1) s i hi
      rw [exactSol_keeps hk, exactSol_zero (fun hne i => hg _ i hne (by omega)), hx _ (by omega)] at this
      simpa [rateN] using this)
    i (fun _ => hi) (fun h => by omega)
  rwa [if_neg (by omega)] at this

end

end Pymgrit
