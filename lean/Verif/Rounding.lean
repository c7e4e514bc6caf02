import Verif.Inexact

/-!
# Contraction of multilevel iterations in rounded arithmetic

Auxiliary facts for `Verif.PropsRounding`.  The vectors of the machine are elements of an arbitrary type `V` with
arbitrary operations; `val` gives the real vector an element stands for.  Every operation on vectors of seminorm at most
`M` has an error of at most `ε`; nothing is assumed about others (overflow).  Errors are measured against the exact
solution of an ideal system of real vectors.
-/

set_option linter.unusedSectionVars false

namespace Pymgrit
open Sys

/-- What the numbers of the next coarser level may grow by; `c` is the number of CF-relaxations. -/
def growth (κ : ℝ) (a c : Nat → ℝ) (l : Nat) : ℝ :=
  (6 + κ) * (1 + a l * (c l + 2)) + (1 + κ) * (a l * (c l + 2)) + 4

/-- The range of numbers needed by a V-cycle started on level `l` with `d` coarser levels, in units of the size of the
solution plus the size of the errors. -/
def roomV (κ : ℝ) (a c : Nat → ℝ) : Nat → Nat → ℝ
  | _, 0 => 1
  | l, d + 1 => growth κ a c l * (8 + rateV κ a (l + 1) d + pertV κ a c (l + 1) d + roomV κ a c (l + 1) d)

/-- The same for an F-cycle, up to the point before the additional V-cycle of level `l`. -/
def roomF (κ : ℝ) (a c : Nat → ℝ) : Nat → Nat → ℝ
  | _, 0 => 1
  | l, d + 1 => growth κ a c l * (8 + rateF κ a (l + 1) d * rateV κ a (l + 1) d
      + (rateV κ a (l + 1) d * pertF κ a c (l + 1) d + pertV κ a c (l + 1) d)
      + (roomF κ a c (l + 1) d + roomV κ a c (l + 1) d * (1 + rateF κ a (l + 1) d + pertF κ a c (l + 1) d)))

/-- One iteration of `solve`. -/
noncomputable def room (κ : ℝ) (a c : Nat → ℝ) (cyc : Cycle) (d : Nat) : ℝ :=
  match cyc with
  | .V => roomV κ a c 0 d
  | .F => roomF κ a c 0 d

theorem growth_nonneg {κ : ℝ} {a c : Nat → ℝ} (hκ : 0 ≤ κ) (ha : ∀ l, 0 ≤ a l) (hc : ∀ l, 0 ≤ c l) (l : Nat) :
    4 ≤ growth κ a c l := by
  have := ha l
  have := hc l
  unfold growth
  have : 0 ≤ (6 + κ) * (1 + a l * (c l + 2)) + (1 + κ) * (a l * (c l + 2)) := by positivity
  linarith

theorem roomV_pos {κ : ℝ} {a c : Nat → ℝ} (hκ : 0 ≤ κ) (ha : ∀ l, 0 ≤ a l) (hc : ∀ l, 0 ≤ c l) (l d : Nat) :
    0 < roomV κ a c l d := by
  induction d generalizing l with
  | zero => exact zero_lt_one
  | succ d ih =>
    have := ih (l + 1)
    have := growth_nonneg hκ ha hc l
    have := rateV_nonneg hκ ha (l + 1) d
    have := pertV_nonneg hκ ha hc (l + 1) d
    simp only [roomV]
    have : 0 < growth κ a c l := by linarith
    positivity

theorem roomF_pos {κ : ℝ} {a c : Nat → ℝ} (hκ : 0 ≤ κ) (ha : ∀ l, 0 ≤ a l) (hc : ∀ l, 0 ≤ c l) (l d : Nat) :
    0 < roomF κ a c l d := by
  induction d generalizing l with
  | zero => exact zero_lt_one
  | succ d ih =>
    have := ih (l + 1)
    have := growth_nonneg hκ ha hc l
    have := rateV_nonneg hκ ha (l + 1) d
    have := rateF_nonneg hκ ha (l + 1) d
    have := pertV_nonneg hκ ha hc (l + 1) d
    have := pertF_nonneg hκ ha hc (l + 1) d
    have := roomV_pos hκ ha hc (l + 1) d
    simp only [roomF]
    have : 0 < growth κ a c l := by linarith
    positivity

theorem room_pos {κ : ℝ} {a c : Nat → ℝ} (hκ : 0 ≤ κ) (ha : ∀ l, 0 ≤ a l) (hc : ∀ l, 0 ≤ c l) (cyc : Cycle) (d : Nat) :
    0 < room κ a c cyc d := by
  cases cyc
  · exact roomV_pos hκ ha hc 0 d
  · exact roomF_pos hκ ha hc 0 d

section
variable {V K W : Type}

/-- The values of a state. -/
def GState.map (val : V → W) (s : GState V) : GState W where
  u := fun l i => val (s.u l i)
  v := fun l i => val (s.v l i)
  g := fun l i => val (s.g l i)

theorem Sys.Keeps.map {l : Nat} {s s' : GState V} (h : Keeps l s s') (val : V → W) : Keeps l (s.map val) (s'.map val) where
  u_lt := fun l' hl => by funext i; exact congrArg val (congrFun (h.u_lt l' hl) i)
  v_le := fun l' hl => by funext i; exact congrArg val (congrFun (h.v_le l' hl) i)
  g_le := fun l' hl => by funext i; exact congrArg val (congrFun (h.g_le l' hl) i)
  zero := congrArg val h.zero

/-- The ideal system: same grids and relaxation, copying transfers, real steps and weight. -/
def Sys.over (A : Sys V K) (Φ : Nat → Nat → W → W) (ω : ℝ) : Sys W ℝ where
  L := A.L
  n := A.n
  C := A.C
  F := A.F
  Φ := Φ
  R := fun _ x => x
  I := fun _ x => x
  cf := A.cf
  w := ω

theorem Sys.WF.over {A : Sys V K} (h : A.WF) (Φ : Nat → Nat → W → W) (ω : ℝ) : (A.over Φ ω).WF :=
  ⟨h.Lpos, h.npos, h.C_sorted, h.C_zero, h.C_len, h.C_lt, h.C_last, h.F_mem, h.F_compat⟩

/-- From one coarse point to the next on an F-relaxed level; no laws of arithmetic. -/
theorem relaxed_chain [Add V] {A : Sys V K} (h : A.WF) {l : Nat} (hl : l + 1 < A.L) {s : GState V}
    (hF : FRelaxed A l s) {k : Nat} (hk : k + 1 < A.n (l + 1)) (m : Nat) (hm : A.cpt l k + m < A.cpt l (k + 1)) :
    s.u l (A.cpt l k + m) = stepsFrom (A.prop s.g l) (A.cpt l k) m (s.u l (A.cpt l k)) := by
  have hb : A.cpt l (k + 1) < A.n l := h.cpt_bound hl hk
  induction m with
  | zero => rfl
  | succ m ih =>
    have hC : A.cpt l k + (m + 1) ∉ A.C l := by
      intro hC
      obtain ⟨q, hq, e⟩ := (h.mem_C_iff hl).1 hC
      have h1 : k < q := by
        by_contra hle
        push Not at hle
        have := (h.cpt_le_iff hl hq (show k < A.n (l + 1) by omega)).2 hle
        omega
      have h2 := (h.cpt_le_iff hl hk hq).2 (show k + 1 ≤ q by omega)
      omega
    rw [hF _ (by omega) hC]
    show A.prop s.g l (A.cpt l k + m + 1) (s.u l (A.cpt l k + m)) = _
    rw [ih (by omega)]
    rfl

end

section
variable {W : Type} [AddCommGroup W] [Module ℝ W] {S : Sys W ℝ} {p : Seminorm ℝ W} {κ : ℝ}

theorem chain_lip (hA : ∀ l i x y, l < S.L → 1 ≤ i → i < S.n l → p (S.Φ l i x - S.Φ l i y) ≤ p (x - y)) (g : Nat → Nat → W) {l : Nat} (hl : l < S.L) (c m : Nat) (hm : c + m < S.n l)
    (x y : W) : p (stepsFrom (S.prop g l) c m x - stepsFrom (S.prop g l) c m y) ≤ p (x - y) := by
  induction m with
  | zero => exact le_rfl
  | succ m ih =>
    simp only [stepsFrom]
    rw [prop_sub]
    exact (hA l _ _ _ hl (by omega) hm).trans (ih (by omega))

theorem size_of_near (x y : W) {D Q : ℝ} (h1 : p (x - y) ≤ D) (h2 : p y ≤ Q) : p x ≤ Q + D := by
  have e : x = y + (x - y) := by abel
  rw [e]
  exact (map_add_le_add p _ _).trans (add_le_add h2 h1)

end

section
variable {V K W : Type} [Add V] [Sub V] [SMul K V] [One K] [Sub K] [AddCommGroup W] [Module ℝ W]

/-- Setting: errors of the operations and range `M` in which they hold.  Sizes and errors are measured in `p`, the
supremum of seminorms `q f` for each of which coarse and fine steps fit together (components in an eigenbasis). -/
structure RoundHyp (A : Sys V K) (Φ : Nat → Nat → W → W) (ω : ℝ) (val : V → W) (p : Seminorm ℝ W)
    {ι : Type} (q : ι → Seminorm ℝ W) (κ φ M ε η : ℝ) : Prop where
  wf : A.WF
  below : ∀ f x, q f x ≤ p x
  above : ∀ x c, 0 ≤ c → (∀ f, q f x ≤ c) → p x ≤ c
  approx : ∀ f, Approx (A.over Φ ω) (q f) κ
  nonneg : 0 ≤ κ
  R : ∀ l, l + 1 < A.L → ∀ x, val (A.R l x) = val x
  I : ∀ l, l + 1 < A.L → ∀ x, val (A.I l x) = val x
  adj : ∀ l, l + 1 < A.L → A.cf l = 0 ∨ ∀ i, i ∈ A.C l → i + 1 ∉ A.C l
  eps : 0 ≤ ε
  src : 0 ≤ φ
  zero : ∀ l i, l < A.L → 1 ≤ i → i < A.n l → p (Φ l i 0) ≤ φ
  step : ∀ l i x, l < A.L → 1 ≤ i → i < A.n l → p (val x) ≤ M → p (val (A.Φ l i x) - Φ l i (val x)) ≤ ε
  add : ∀ x y, p (val x) ≤ M → p (val y) ≤ M → p (val (x + y) - (val x + val y)) ≤ ε
  sub : ∀ x y, p (val x) ≤ M → p (val y) ≤ M → p (val (x - y) - (val x - val y)) ≤ ε
  relax : ∀ x y, p (val x) ≤ M → p (val y) ≤ M →
    p (val (A.w • x + (1 - A.w) • y) - (ω • val x + (1 - ω) • val y)) ≤ ε
  size : ∀ l, l < A.L → (A.n l : ℝ) * (6 * ε) ≤ η

/-- Bound of the exact solution and of the right-hand side of level `l`. -/
structure Sz (A : Sys V K) (Φ : Nat → Nat → W → W) (ω : ℝ) (val : V → W) (p : Seminorm ℝ W) (l : Nat) (s : GState V)
    (Q : ℝ) : Prop where
  sol : ∀ i, i < A.n l → p (exactSol (A.over Φ ω) l (s.map val) i) ≤ Q
  rhs : l ≠ 0 → ∀ i, 1 ≤ i → i < A.n l → p (val (s.g l i)) ≤ Q

variable {A : Sys V K} {Φ : Nat → Nat → W → W} {ω : ℝ} {val : V → W} {p : Seminorm ℝ W}
  {ι : Type} {q : ι → Seminorm ℝ W} {κ φ M ε η : ℝ}

theorem Sz.keeps {l : Nat} {s s' : GState V} {Q : ℝ} (h : Sz A Φ ω val p l s Q) (hk : Keeps l s s') :
    Sz A Φ ω val p l s' Q where
  sol := by rw [exactSol_keeps (hk.map val)]; exact h.sol
  rhs := by rw [hk.g_le l le_rfl]; exact h.rhs

theorem Sz.nonneg {l : Nat} {s : GState V} {Q : ℝ} (h : Sz A Φ ω val p l s Q) (hn : 0 < A.n l) : 0 ≤ Q :=
  (apply_nonneg p _).trans (h.sol 0 hn)

namespace RoundHyp

theorem le (H : RoundHyp A Φ ω val p q κ φ M ε η) {l m : Nat} (hl : l < A.L) (hm : m ≤ A.n l) : (m : ℝ) * (6 * ε) ≤ η :=
  (mul_le_mul_of_nonneg_right (Nat.cast_le.2 hm) (by have := H.eps; linarith)).trans (H.size l hl)

theorem six (H : RoundHyp A Φ ω val p q κ φ M ε η) : 6 * ε ≤ η := by
  have := H.le (l := 0) (m := 1) H.wf.Lpos (H.wf.npos 0 H.wf.Lpos)
  simpa using this

theorem eta (H : RoundHyp A Φ ω val p q κ φ M ε η) : 0 ≤ η := by
  have := H.six
  have := H.eps
  linarith

theorem lip (H : RoundHyp A Φ ω val p q κ φ M ε η) (l i : Nat) (x y : W) (hl : l < A.L) (h1 : 1 ≤ i)
    (hi : i < A.n l) : p (Φ l i x - Φ l i y) ≤ p (x - y) :=
  H.above _ _ (apply_nonneg p _) fun f => ((H.approx f).step l i x y hl h1 hi).trans (H.below f _)

theorem phi (H : RoundHyp A Φ ω val p q κ φ M ε η) {l i : Nat} (hl : l < A.L) (h1 : 1 ≤ i) (hi : i < A.n l) (x : W) :
    p (Φ l i x) ≤ φ + p x := by
  have h2 := H.lip l i x 0 hl h1 hi
  rw [sub_zero] at h2
  exact size_of_near (p := p) (Φ l i x) (Φ l i 0) h2 (H.zero l i hl h1 hi)

theorem phi_machine (H : RoundHyp A Φ ω val p q κ φ M ε η) {l i : Nat} (hl : l < A.L) (h1 : 1 ≤ i) (hi : i < A.n l)
    {x : V} {B : ℝ} (hx : p (val x) ≤ B) (hB : B ≤ M) : p (val (A.Φ l i x)) ≤ B + φ + ε := by
  have h2 := H.step l i x hl h1 hi (hx.trans hB)
  have h3 := size_of_near _ _ h2 (H.phi hl h1 hi (val x))
  linarith

/-- One update. -/
theorem prop (H : RoundHyp A Φ ω val p q κ φ M ε η) {g : Nat → Nat → V} {l i : Nat} (hl : l < A.L) (h1 : 1 ≤ i)
    (hi : i < A.n l) {x : V} {y : W} {D Q : ℝ} (hx : p (val x - y) ≤ D) (hy : p y ≤ Q)
    (hg : l ≠ 0 → p (val (g l i)) ≤ Q) (hM : Q + D + φ + ε ≤ M) :
    p (val (A.prop g l i x) - (A.over Φ ω).prop (fun l i => val (g l i)) l i y) ≤ D + 2 * ε := by
  have hε := H.eps
  have hφ := H.src
  have hD0 : 0 ≤ D := (apply_nonneg p _).trans hx
  have hxs := size_of_near _ _ hx hy
  have e1 := H.step l i x hl h1 hi (by linarith)
  have e2 := (H.lip l i (val x) y hl h1 hi).trans hx
  have e3 : p (val (A.Φ l i x) - Φ l i y) ≤ D + ε := by
    have e : val (A.Φ l i x) - Φ l i y = (val (A.Φ l i x) - Φ l i (val x)) + (Φ l i (val x) - Φ l i y) := by abel
    rw [e]
    refine (map_add_le_add p _ _).trans ?_
    have : p (Φ l i (val x) - Φ l i y) ≤ D := e2
    linarith
  unfold Sys.prop
  split
  · exact e3.trans (by linarith)
  · next h0 =>
    have e4 := H.add (g l i) (A.Φ l i x) ((hg h0).trans (by linarith))
      ((H.phi_machine hl h1 hi hxs (by linarith)).trans (by linarith))
    have e : val (g l i + A.Φ l i x) - (val (g l i) + Φ l i y)
        = (val (g l i + A.Φ l i x) - (val (g l i) + val (A.Φ l i x))) + (val (A.Φ l i x) - Φ l i y) := by abel
    show p (val (g l i + A.Φ l i x) - (val (g l i) + Φ l i y)) ≤ _
    rw [e]
    refine (map_add_le_add p _ _).trans ?_
    linarith

theorem relaxed (H : RoundHyp A Φ ω val p q κ φ M ε η) {l : Nat} (hl : l + 1 < A.L) {s : GState V} {D Q : ℝ}
    (hD : CErrLe (A.over Φ ω) p l (s.map val) D) (hQ : Sz A Φ ω val p l s Q) (hF : FRelaxed A l s)
    (hM : Q + D + φ + η ≤ M) : ErrLe (A.over Φ ω) p l (s.map val) (D + (η - 6 * ε)) := by
  have hε := H.eps
  have key : ∀ i, i < A.n l → p (val (s.u l i) - exactSol (A.over Φ ω) l (s.map val) i) ≤ D + i * (2 * ε) := by
    intro i
    induction i with
    | zero =>
      intro _
      have := hD 0 (H.wf.zero_mem_C hl)
      rw [Nat.cast_zero, zero_mul, add_zero]
      exact this
    | succ i ih =>
      intro hi
      by_cases hC : i + 1 ∈ A.C l
      · exact (hD _ hC).trans (le_add_of_nonneg_right (mul_nonneg (Nat.cast_nonneg _) (by linarith)))
      · rw [hF (i + 1) hi hC, Nat.add_sub_cancel]
        have h1 := H.le (l := l) (m := i + 1) (by omega) (by omega)
        have h2 : (0 : ℝ) ≤ i * ε := mul_nonneg (Nat.cast_nonneg _) hε
        push_cast at h1
        refine (H.prop (g := s.g) (l := l) (by omega) (by omega) hi (ih (by omega)) (hQ.sol i (by omega))
          (fun h0 => hQ.rhs h0 _ (by omega) hi) (by linarith)).trans ?_
        push_cast
        linarith
  intro i hi
  refine (key i hi).trans ?_
  have h1 := H.le (l := l) (m := i + 1) (by omega) (by exact hi)
  have h2 : (0 : ℝ) ≤ i * ε := mul_nonneg (Nat.cast_nonneg _) hε
  push_cast at h1
  linarith

theorem fRelax (H : RoundHyp A Φ ω val p q κ φ M ε η) {l : Nat} (hl : l + 1 < A.L) {s : GState V} {D Q : ℝ}
    (hD : CErrLe (A.over Φ ω) p l (s.map val) D) (hQ : Sz A Φ ω val p l s Q) (hM : Q + D + φ + η ≤ M) :
    ErrLe (A.over Φ ω) p l ((A.fRelax l s).map val) (D + (η - 6 * ε)) := by
  refine H.relaxed hl ?_ (hQ.keeps (H.wf.keeps_fRelax hl s)) (H.wf.fRelax_relaxed hl s) hM
  intro i hi
  rw [exactSol_keeps ((H.wf.keeps_fRelax hl s).map val)]
  show p (val ((A.fRelax l s).u l i) - _) ≤ _
  rw [H.wf.fRelax_C hl s hi]
  exact hD i hi

theorem cRelax (H : RoundHyp A Φ ω val p q κ φ M ε η) {l : Nat} (hl : l + 1 < A.L)
    (hadj : ∀ i, i ∈ A.C l → i + 1 ∉ A.C l) {s : GState V} {D Q : ℝ}
    (hD : ErrLe (A.over Φ ω) p l (s.map val) D) (hQ : Sz A Φ ω val p l s Q) (hM : Q + D + φ + η ≤ M) :
    CErrLe (A.over Φ ω) p l ((A.cRelax l s).map val) ((‖ω‖ + ‖1 - ω‖) * (D + 3 * ε)) := by
  have hε := H.eps
  have hφ := H.src
  have h6 := H.six
  have hD0 : 0 ≤ D := hD.nonneg (H.wf.npos l (by omega))
  have hw1 : 1 ≤ ‖ω‖ + ‖1 - ω‖ := by
    have := norm_add_le ω (1 - ω)
    rwa [add_sub_cancel, norm_one] at this
  set X := exactSol (A.over Φ ω) l (s.map val) with hX
  set s' := A.cRelax l s with hs'
  have hzero : p (val (s'.u l 0) - X 0) ≤ D := by
    rw [hs', cRelax_zero s]
    exact hD 0 (H.wf.npos l (by omega))
  intro i hiC
  rw [hs', exactSol_keeps ((keeps_cRelax (S := A) s).map val), ← hs', ← hX]
  have hi : i < A.n l := H.wf.C_lt l hl i hiC
  cases i with
  | zero =>
    refine hzero.trans ?_
    exact (show D ≤ D + 3 * ε by linarith).trans (le_mul_of_one_le_left (by linarith) hw1)
  | succ i =>
    have hprev : p (val (s'.u l i) - X i) ≤ D := by
      by_cases h0 : i = 0
      · subst h0; exact hzero
      · rw [hs', cRelax_not_C (S := A) s (fun hC => hadj i hC hiC)]
        exact hD i (by show i < A.n l; omega)
    have ec : s'.u l (i + 1) = A.w • A.prop s.g l (i + 1) (s'.u l i) + (1 - A.w) • s.u l (i + 1) := by
      have := H.wf.cRelax_C hl s hiC (by omega)
      rw [Nat.add_sub_cancel] at this
      exact this
    show p (val (s'.u l (i + 1)) - X (i + 1)) ≤ _
    rw [ec]
    have hP := H.prop (g := s.g) (l := l) (by omega) (by omega) hi hprev (hQ.sol i (by omega))
      (fun h0 => hQ.rhs h0 _ (by omega) hi) (by linarith)
    have hXs' : (A.over Φ ω).prop (fun l i => val (s.g l i)) l (i + 1) (X i) = X (i + 1) := rfl
    rw [hXs'] at hP
    have hu : p (val (s.u l (i + 1)) - X (i + 1)) ≤ D := hD (i + 1) hi
    have sP := size_of_near _ _ hP (hQ.sol (i + 1) hi)
    have su := size_of_near _ _ hu (hQ.sol (i + 1) hi)
    have er := H.relax _ _ (sP.trans (by linarith)) (su.trans (by linarith))
    set P := A.prop s.g l (i + 1) (s'.u l i)
    set y := s.u l (i + 1)
    have e : val (A.w • P + (1 - A.w) • y) - X (i + 1)
        = (val (A.w • P + (1 - A.w) • y) - (ω • val P + (1 - ω) • val y))
          + (ω • (val P - X (i + 1)) + (1 - ω) • (val y - X (i + 1))) := by
      rw [smul_sub, smul_sub, sub_smul 1 ω (X (i + 1)), one_smul]
      abel
    rw [e]
    refine (map_add_le_add p _ _).trans ((add_le_add er (map_add_le_add p _ _)).trans ?_)
    rw [map_smul_eq_mul, map_smul_eq_mul]
    have b1 := mul_le_mul_of_nonneg_left hP (norm_nonneg ω)
    have b2 := mul_le_mul_of_nonneg_left hu (norm_nonneg (1 - ω))
    have b3 : ε ≤ (‖ω‖ + ‖1 - ω‖) * ε := le_mul_of_one_le_left hε hw1
    have b4 : 0 ≤ ‖1 - ω‖ * ε := mul_nonneg (norm_nonneg _) hε
    linarith

/-- Pre-relaxation. -/
theorem sweeps (H : RoundHyp A Φ ω val p q κ φ M ε η) {l : Nat} (hl : l + 1 < A.L) (ν : Nat)
    (hadj : ν = 0 ∨ ∀ i, i ∈ A.C l → i + 1 ∉ A.C l) {s : GState V} {D Q : ℝ}
    (hD : ErrLe (A.over Φ ω) p l (s.map val) D) (hQ : Sz A Φ ω val p l s Q) (hF : FRelaxed A l s)
    (hM : Q + (‖ω‖ + ‖1 - ω‖) ^ ν * (D + ν * η) + φ + η ≤ M) :
    let s' := times (fun s => A.fRelax l (A.cRelax l s)) ν s
    ErrLe (A.over Φ ω) p l (s'.map val) ((‖ω‖ + ‖1 - ω‖) ^ ν * (D + ν * η)) ∧ FRelaxed A l s' ∧ Keeps l s s' := by
  have hw1 : 1 ≤ ‖ω‖ + ‖1 - ω‖ := by
    have := norm_add_le ω (1 - ω)
    rwa [add_sub_cancel, norm_one] at this
  have hη := H.eta
  have hε := H.eps
  have h6 := H.six
  set b := ‖ω‖ + ‖1 - ω‖ with hb
  induction ν generalizing s D with
  | zero => simpa [times] using ⟨hD, hF, Keeps.refl l s⟩
  | succ ν ih =>
    have hadj' : ∀ i, i ∈ A.C l → i + 1 ∉ A.C l := by
      rcases hadj with a | a
      · omega
      · exact a
    have hD0 : 0 ≤ D := hD.nonneg (H.wf.npos l (by omega))
    have hν : (0 : ℝ) ≤ ν * η := mul_nonneg (Nat.cast_nonneg _) hη
    have k0 : b * (D + η) + ν * η ≤ b * (D + (ν + 1 : ℕ) * η) := by
      push_cast
      have : (ν : ℝ) * η ≤ b * (ν * η) := le_mul_of_one_le_left hν hw1
      nlinarith
    have k1 : b ^ ν * (b * (D + η) + ν * η) ≤ b ^ (ν + 1) * (D + (ν + 1 : ℕ) * η) := by
      rw [pow_succ, mul_assoc]
      exact mul_le_mul_of_nonneg_left k0 (by positivity)
    have k2 : b * (D + η) ≤ b ^ ν * (b * (D + η) + ν * η) :=
      (show b * (D + η) ≤ b * (D + η) + ν * η by linarith).trans
        (le_mul_of_one_le_left (by positivity) (one_le_pow₀ hw1))
    have k3 : D + η ≤ b * (D + η) := le_mul_of_one_le_left (by positivity) hw1
    have k4 : b * (D + 3 * ε) ≤ b * (D + η) := mul_le_mul_of_nonneg_left (by linarith) (by linarith)
    have h1 := H.cRelax hl hadj' hD hQ (by linarith)
    have h2 := H.fRelax hl h1 (hQ.keeps (keeps_cRelax s)) (by linarith)
    have k5 : b * (D + 3 * ε) + (η - 6 * ε) ≤ b * (D + η) := by
      have : η - 6 * ε ≤ b * (η - 6 * ε) := le_mul_of_one_le_left (by linarith) hw1
      have : 0 ≤ b * ε := by positivity
      nlinarith
    obtain ⟨b1, b2, b3⟩ := ih (by tauto) (s := A.fRelax l (A.cRelax l s)) (D := b * (D + η))
      (fun i hi => (h2 i hi).trans k5)
      (hQ.keeps ((keeps_cRelax s).trans (H.wf.keeps_fRelax hl _))) (H.wf.fRelax_relaxed hl _) (by linarith)
    exact ⟨fun i hi => (b1 i hi).trans k1, b2, ((keeps_cRelax s).trans (H.wf.keeps_fRelax hl _)).trans b3⟩

theorem forwardSolve (H : RoundHyp A Φ ω val p q κ φ M ε η) {l : Nat} (hl : l < A.L) {s : GState V} {Q : ℝ}
    (hQ : Sz A Φ ω val p l s Q) (hM : Q + φ + η ≤ M) :
    ErrLe (A.over Φ ω) p l ((A.forwardSolve l s).map val) η := by
  have hε := H.eps
  have hQ' := hQ.keeps (keeps_forwardSolve (S := A) s)
  intro i hi
  replace hi : i < A.n l := hi
  have key : p (val ((A.forwardSolve l s).u l i) - exactSol (A.over Φ ω) l ((A.forwardSolve l s).map val) i)
      ≤ i * (2 * ε) := by
    induction i with
    | zero =>
      have : val ((A.forwardSolve l s).u l 0) - exactSol (A.over Φ ω) l ((A.forwardSolve l s).map val) 0 = 0 :=
        sub_self _
      rw [this, map_zero]
      simp
    | succ i ih =>
      rw [forwardSolve_pos (S := A) s (by omega) hi, Nat.add_sub_cancel]
      have h1 := H.le (l := l) (m := i + 1) hl (by omega)
      have h2 : (0 : ℝ) ≤ i * ε := mul_nonneg (Nat.cast_nonneg _) hε
      push_cast at h1
      refine (H.prop (g := (A.forwardSolve l s).g) hl (by omega) hi (ih (by omega)) (hQ'.sol i (by omega))
        (fun h0 => hQ'.rhs h0 _ (by omega) hi) (by linarith)).trans ?_
      push_cast
      linarith
  have h1 := H.le (l := l) (m := i) hl hi.le
  have h2 : (0 : ℝ) ≤ i * ε := mul_nonneg (Nat.cast_nonneg _) hε
  show p (val ((A.forwardSolve l s).u l i) - _) ≤ _
  linarith

theorem chain (H : RoundHyp A Φ ω val p q κ φ M ε η) {g : Nat → Nat → V} {l : Nat} (hl : l < A.L) (c m : Nat)
    (hm : c + m < A.n l) (x : V) {Q : ℝ}
    (hQ : ∀ j, j ≤ m → p (stepsFrom ((A.over Φ ω).prop (fun l i => val (g l i)) l) c j (val x)) ≤ Q)
    (hg : l ≠ 0 → ∀ i, 1 ≤ i → i < A.n l → p (val (g l i)) ≤ Q) (hM : Q + φ + η ≤ M) :
    p (val (stepsFrom (A.prop g l) c m x) - stepsFrom ((A.over Φ ω).prop (fun l i => val (g l i)) l) c m (val x))
      ≤ m * (2 * ε) := by
  have hε := H.eps
  induction m with
  | zero => simp [stepsFrom]
  | succ m ih =>
    have h1 := H.le (l := l) (m := m + 1) hl (by omega)
    have h2 : (0 : ℝ) ≤ m * ε := mul_nonneg (Nat.cast_nonneg _) hε
    push_cast at h1
    simp only [stepsFrom]
    refine (H.prop hl (by omega) hm (ih (by omega) fun j hj => hQ j (by omega)) (hQ m (by omega))
      (fun h0 => hg h0 _ (by omega) hm) (by linarith)).trans ?_
    push_cast
    linarith

/-- The restricted residual of one coarse point. -/
theorem fasRes (H : RoundHyp A Φ ω val p q κ φ M ε η) {l : Nat} (hl : l + 1 < A.L) {s : GState V} {c : Nat} (h1 : 1 ≤ c)
    (hc : c < A.n l) {y : W} {d B : ℝ} (hy : p (val (s.u l (c - 1)) - y) ≤ d) (hB1 : p (val (s.u l (c - 1))) ≤ B)
    (hB2 : p (val (s.u l c)) ≤ B) (hg : l ≠ 0 → p (val (s.g l c)) ≤ B) (hM : 3 * B + φ + 3 * ε ≤ M) :
    p (val (A.fasRes s l c) - ((A.over Φ ω).prop (fun l i => val (s.g l i)) l c y - val (s.u l c))) ≤ d + 3 * ε ∧
      p (val (A.fasRes s l c)) ≤ 3 * B + φ + 3 * ε := by
  have hε := H.eps
  have hφ := H.src
  have hB0 : 0 ≤ B := (apply_nonneg p _).trans hB1
  have e1 := H.step l c (s.u l (c - 1)) (by omega) h1 hc (by linarith)
  have e2 : p (Φ l c (val (s.u l (c - 1))) - Φ l c y) ≤ d :=
    (H.lip l c _ y (show l < A.L by omega) h1 hc).trans hy
  have s1 := H.phi_machine (l := l) (by omega) h1 hc hB1 (by linarith)
  set x := s.u l c
  set z := A.Φ l c (s.u l (c - 1))
  set w := Φ l c (val (s.u l (c - 1)))
  unfold Sys.fasRes Sys.prop
  by_cases h0 : l = 0
  · rw [if_pos h0, if_pos h0, H.R l hl]
    have e3 := H.sub z x (by linarith) (by linarith)
    constructor
    · have e : val (z - x) - ((A.over Φ ω).Φ l c y - val x)
          = (val (z - x) - (val z - val x)) + ((val z - w) + (w - Φ l c y)) := by
        show val (z - x) - (Φ l c y - val x) = _
        abel
      show p (val (z - x) - ((A.over Φ ω).Φ l c y - val x)) ≤ _
      rw [e]
      refine (map_add_le_add p _ _).trans ((add_le_add le_rfl (map_add_le_add p _ _)).trans ?_)
      linarith
    · have := size_of_near _ _ e3 ((map_sub_le_add p _ _).trans (add_le_add s1 hB2))
      show p (val (z - x)) ≤ _
      linarith
  · rw [if_neg h0, if_neg h0, H.R l hl]
    have hg := hg h0
    have e3 := H.sub (s.g l c) x (by linarith) (by linarith)
    have s3 := size_of_near _ _ e3 ((map_sub_le_add p _ _).trans (add_le_add hg hB2))
    have e4 := H.add (s.g l c - x) z (by linarith) (by linarith)
    constructor
    · have e : val (s.g l c - x + z) - ((val (s.g l c) + (A.over Φ ω).Φ l c y) - val x)
          = (val (s.g l c - x + z) - (val (s.g l c - x) + val z)) + ((val (s.g l c - x) - (val (s.g l c) - val x))
            + ((val z - w) + (w - Φ l c y))) := by
        show val (s.g l c - x + z) - ((val (s.g l c) + Φ l c y) - val x) = _
        abel
      show p (val (s.g l c - x + z) - ((val (s.g l c) + (A.over Φ ω).Φ l c y) - val x)) ≤ _
      rw [e]
      refine (map_add_le_add p _ _).trans ((add_le_add le_rfl (map_add_le_add p _ _)).trans
        ((add_le_add le_rfl (add_le_add le_rfl (map_add_le_add p _ _))).trans ?_))
      linarith
    · have := size_of_near _ _ e4 ((map_add_le_add p _ _).trans (add_le_add s3 s1))
      show p (val (s.g l c - x + z)) ≤ _
      linarith

/-- Value on the next coarser level. -/
theorem fas_u (H : RoundHyp A Φ ω val p q κ φ M ε η) {l : Nat} (hl : l + 1 < A.L) (s : GState V) {k : Nat}
    (hk : k < A.n (l + 1)) : val ((A.fasResidual l s).u (l + 1) k) = val (s.u l (A.cpt l k)) := by
  rw [H.wf.fasResidual_u hl s hk, H.R l hl]

/-- Right-hand side of the next coarser level. -/
theorem fas_g (H : RoundHyp A Φ ω val p q κ φ M ε η) {l : Nat} (hl : l + 1 < A.L) {s : GState V} {D Q : ℝ}
    (hD : ErrLe (A.over Φ ω) p l (s.map val) D) (hQ : Sz A Φ ω val p l s Q) (hF : FRelaxed A l s)
    (hM : 8 * (Q + D + φ + η) ≤ M) {k : Nat} (hk : k + 1 < A.n (l + 1)) :
    p (val ((A.fasResidual l s).g (l + 1) (k + 1))
        - (stepsFrom ((A.over Φ ω).prop (fun l i => val (s.g l i)) l) (A.cpt l k) (A.cpt l (k + 1) - A.cpt l k)
            (val (s.u l (A.cpt l k))) - Φ (l + 1) (k + 1) (val (s.u l (A.cpt l k)))))
      ≤ (A.cpt l (k + 1) - A.cpt l k : ℕ) * (6 * ε) ∧
    p (val ((A.fasResidual l s).g (l + 1) (k + 1))) ≤ 6 * (Q + D + φ + η) := by
  have hε := H.eps
  have hφ := H.src
  have hη := H.eta
  have h6 := H.six
  have hD0 : 0 ≤ D := hD.nonneg (H.wf.npos l (by omega))
  have hQ0 := hQ.nonneg (H.wf.npos l (by omega))
  have hlt : A.cpt l k < A.cpt l (k + 1) := H.wf.cpt_lt hl (by omega) hk
  have hb : A.cpt l (k + 1) < A.n l := H.wf.cpt_bound hl hk
  have su : ∀ i, i < A.n l → p (val (s.u l i)) ≤ Q + D := fun i hi =>
    size_of_near _ _ (show p (val (s.u l i) - exactSol (A.over Φ ω) l (s.map val) i) ≤ D from hD i hi) (hQ.sol i hi)
  obtain ⟨m, hm⟩ : ∃ m, A.cpt l (k + 1) = A.cpt l k + (m + 1) := ⟨A.cpt l (k + 1) - A.cpt l k - 1, by omega⟩
  rw [show A.cpt l (k + 1) - A.cpt l k = m + 1 by omega]
  set c := A.cpt l k with hc
  set x := s.u l c with hx
  set Ψ := (A.over Φ ω).prop (fun l i => val (s.g l i)) l with hΨ
  -- the ideal chain
  have hchain : ∀ j, j ≤ m → p (stepsFrom Ψ c j (val x)) ≤ Q + D := by
    intro j hj
    have h1 := chain_lip (S := A.over Φ ω) (p := p) H.lip (fun l i => val (s.g l i)) (l := l) (show l < A.L by omega) c j
      (show c + j < A.n l by omega) (val x) (exactSol (A.over Φ ω) l (s.map val) c)
    have h2 : stepsFrom Ψ c j (exactSol (A.over Φ ω) l (s.map val) c) = exactSol (A.over Φ ω) l (s.map val) (c + j) :=
      (seqSol_add _ _ _ _).symm
    rw [← hΨ, h2] at h1
    refine size_of_near _ _ (h1.trans ?_) (hQ.sol (c + j) (by omega))
    exact hD c (show c < A.n l by omega)
  have h1 := H.chain (g := s.g) (l := l) (by omega) c m (by omega) x hchain
    (fun h0 i a b => (hQ.rhs h0 i a b).trans (by linarith)) (by linarith)
  have hprev := relaxed_chain H.wf hl hF hk m (by omega)
  rw [← hc, ← hx] at hprev
  rw [← hprev] at h1
  have e0 : A.cpt l (k + 1) - 1 = c + m := by omega
  obtain ⟨r1, r2⟩ := H.fasRes hl (s := s) (c := A.cpt l (k + 1)) (by omega) hb
    (y := stepsFrom Ψ c m (val x)) (d := m * (2 * ε)) (B := Q + D) (by rw [e0]; exact h1)
    (su _ (by omega)) (su _ hb) (fun h0 => (hQ.rhs h0 _ (by omega) hb).trans (by linarith)) (by linarith)
  have e1 : (A.over Φ ω).prop (fun l i => val (s.g l i)) l (A.cpt l (k + 1)) (stepsFrom Ψ c m (val x))
      = stepsFrom Ψ c (m + 1) (val x) := by
    rw [hm]; rfl
  rw [e1] at r1
  have hg := H.wf.fasResidual_g hl s hk (by omega)
  rw [hg, Nat.add_sub_cancel]
  set t := A.fasResidual l s with ht
  have hu1 : val (t.u (l + 1) (k + 1)) = val (s.u l (A.cpt l (k + 1))) := H.fas_u hl s hk
  have hu0 : val (t.u (l + 1) k) = val x := H.fas_u hl s (by omega)
  have s1 : p (val (t.u (l + 1) (k + 1))) ≤ Q + D := by rw [hu1]; exact su _ hb
  have s0 : p (val (t.u (l + 1) k)) ≤ Q + D := by rw [hu0]; exact su _ (by omega)
  have a1 := H.add (A.fasRes s l (A.cpt l (k + 1))) (t.u (l + 1) (k + 1)) (by linarith) (by linarith)
  have s2 := size_of_near _ _ a1 ((map_add_le_add p _ _).trans (add_le_add r2 s1))
  have s3 := H.phi_machine (l := l + 1) (i := k + 1) hl (by omega) hk s0 (by linarith)
  have a2 := H.step (l + 1) (k + 1) (t.u (l + 1) k) hl (by omega) hk (by linarith)
  have a3 := H.sub (A.fasRes s l (A.cpt l (k + 1)) + t.u (l + 1) (k + 1)) (A.Φ (l + 1) (k + 1) (t.u (l + 1) k))
    (by linarith) (by linarith)
  rw [hu0] at a2
  rw [hu1] at a1
  set r := A.fasRes s l (A.cpt l (k + 1))
  set v := t.u (l + 1) (k + 1)
  set f := A.Φ (l + 1) (k + 1) (t.u (l + 1) k)
  set xc := s.u l (A.cpt l (k + 1))
  constructor
  · have e : val (r + v - f) - (stepsFrom Ψ c (m + 1) (val x) - Φ (l + 1) (k + 1) (val x))
        = (val (r + v - f) - (val (r + v) - val f)) + ((val (r + v) - (val r + val xc))
          + ((val r - (stepsFrom Ψ c (m + 1) (val x) - val xc)) - (val f - Φ (l + 1) (k + 1) (val x)))) := by abel
    rw [e]
    refine (map_add_le_add p _ _).trans ((add_le_add le_rfl (map_add_le_add p _ _)).trans
      ((add_le_add le_rfl (add_le_add le_rfl (map_sub_le_add p _ _))).trans ?_))
    have h2 : (0 : ℝ) ≤ m * ε := mul_nonneg (Nat.cast_nonneg _) hε
    push_cast
    linarith
  · have := size_of_near _ _ a3 ((map_sub_le_add p _ _).trans (add_le_add s2 s3))
    linarith

theorem fas_close (H : RoundHyp A Φ ω val p q κ φ M ε η) {l : Nat} (hl : l + 1 < A.L) {s : GState V} {D Q : ℝ}
    (hD : ErrLe (A.over Φ ω) p l (s.map val) D) (hQ : Sz A Φ ω val p l s Q) (hF : FRelaxed A l s)
    (hM : 8 * (Q + D + φ + η) ≤ M) (k : Nat) (hk : k < A.n (l + 1)) :
    p (exactSol (A.over Φ ω) (l + 1) ((A.fasResidual l s).map val) k
        - exactSol (A.over Φ ω) l (s.map val) (A.cpt l k)) ≤ κ * D + (A.cpt l k + k : ℕ) * (6 * ε) := by
  have hε := H.eps
  have hκ := H.nonneg
  have hD0 : 0 ≤ D := hD.nonneg (H.wf.npos l (by omega))
  refine H.above _ _ (by positivity) fun f => ?_
  induction k with
  | zero =>
    have e : exactSol (A.over Φ ω) (l + 1) ((A.fasResidual l s).map val) 0
        = exactSol (A.over Φ ω) l (s.map val) (A.cpt l 0) := by
      have h1 := H.fas_u hl s hk
      rw [H.wf.cpt_zero hl] at h1 ⊢
      exact h1
    rw [e, sub_self, map_zero]
    positivity
  | succ k ih =>
    have ih := ih (by omega)
    obtain ⟨β, hβ0, hβ1, hβ, hκβ⟩ := (H.approx f).coarse l (k + 1) hl (by omega) hk
    have hlt : A.cpt l k < A.cpt l (k + 1) := H.wf.cpt_lt hl (by omega) hk
    have hb : A.cpt l (k + 1) < A.n l := H.wf.cpt_bound hl hk
    have hg := (H.below f _).trans (H.fas_g hl hD hQ hF hM hk).1
    set t := A.fasResidual l s with ht
    have e1 : exactSol (A.over Φ ω) (l + 1) (t.map val) (k + 1)
        = val (t.g (l + 1) (k + 1)) + Φ (l + 1) (k + 1) (exactSol (A.over Φ ω) (l + 1) (t.map val) k) := by
      show (A.over Φ ω).prop _ (l + 1) (k + 1) _ = _
      unfold Sys.prop
      rw [if_neg (by omega)]
      rfl
    have e2 := exactSol_cpt (S := A.over Φ ω) (H.wf.over Φ ω) hl (s.map val) hk (by omega)
    replace hκβ := hκβ (fun l i => val (s.g l i)) (val (s.u l (A.cpt l k)))
      (exactSol (A.over Φ ω) l (s.map val) (A.cpt l k))
    simp only [Nat.add_sub_cancel] at e2 hκβ
    have hcc : ∀ k, (A.over Φ ω).cpt l k = A.cpt l k := fun _ => rfl
    simp only [hcc] at e2 hκβ
    have hgg : (s.map val).g = fun l i => val (s.g l i) := rfl
    rw [hgg] at e2
    set Z := exactSol (A.over Φ ω) (l + 1) (t.map val) k
    set X := exactSol (A.over Φ ω) l (s.map val) (A.cpt l k)
    set x := val (s.u l (A.cpt l k)) with hx
    set m := A.cpt l (k + 1) - A.cpt l k with hm
    set Ψ := (A.over Φ ω).prop (fun l i => val (s.g l i)) l
    have e3 : exactSol (A.over Φ ω) (l + 1) (t.map val) (k + 1)
          - exactSol (A.over Φ ω) l (s.map val) (A.cpt l (k + 1))
        = (Φ (l + 1) (k + 1) Z - Φ (l + 1) (k + 1) X)
          + ((stepsFrom Ψ (A.cpt l k) m x - Φ (l + 1) (k + 1) x)
            - (stepsFrom Ψ (A.cpt l k) m X - Φ (l + 1) (k + 1) X))
          + (val (t.g (l + 1) (k + 1)) - (stepsFrom Ψ (A.cpt l k) m x - Φ (l + 1) (k + 1) x)) := by
      rw [e1, e2]; abel
    rw [e3]
    refine (map_add_le_add (q f) _ _).trans ((add_le_add (map_add_le_add (q f) _ _) le_rfl).trans ?_)
    have c1 : q f (Φ (l + 1) (k + 1) Z - Φ (l + 1) (k + 1) X) ≤ β * (κ * D + (A.cpt l k + k : ℕ) * (6 * ε)) :=
      (hβ Z X).trans (mul_le_mul_of_nonneg_left ih hβ0)
    have c2 : q f ((stepsFrom Ψ (A.cpt l k) m x - Φ (l + 1) (k + 1) x)
        - (stepsFrom Ψ (A.cpt l k) m X - Φ (l + 1) (k + 1) X)) ≤ κ * (1 - β) * D :=
      hκβ.trans (mul_le_mul_of_nonneg_left ((H.below f _).trans (hD _ (show A.cpt l k < A.n l by omega))) (mul_nonneg hκ (by linarith)))
    have c5 : β * ((A.cpt l k + k : ℕ) * (6 * ε)) ≤ (A.cpt l k + k : ℕ) * (6 * ε) :=
      mul_le_of_le_one_left (by positivity) hβ1
    have c6 : ((A.cpt l (k + 1) + (k + 1) : ℕ) : ℝ) = (A.cpt l k + k : ℕ) + m + 1 := by
      rw [show A.cpt l (k + 1) + (k + 1) = (A.cpt l k + k) + m + 1 by omega]
      push_cast; ring
    rw [c6]
    have c7 : β * (κ * D + (A.cpt l k + k : ℕ) * (6 * ε)) + κ * (1 - β) * D
        = κ * D + β * ((A.cpt l k + k : ℕ) * (6 * ε)) := by ring
    linarith

/-- Errors and sizes after the FAS residual. -/
theorem fas (H : RoundHyp A Φ ω val p q κ φ M ε η) {l : Nat} (hl : l + 1 < A.L) {s : GState V} {D Q : ℝ}
    (hD : ErrLe (A.over Φ ω) p l (s.map val) D) (hQ : Sz A Φ ω val p l s Q) (hF : FRelaxed A l s)
    (hM : 8 * (Q + D + φ + η) ≤ M) :
    ErrLe (A.over Φ ω) p (l + 1) ((A.fasResidual l s).map val) ((1 + κ) * D + 2 * η) ∧
      Sz A Φ ω val p (l + 1) (A.fasResidual l s) ((6 + κ) * (Q + D + φ + η)) := by
  have hε := H.eps
  have hφ := H.src
  have hη := H.eta
  have hκ := H.nonneg
  have hD0 : 0 ≤ D := hD.nonneg (H.wf.npos l (by omega))
  have hQ0 := hQ.nonneg (H.wf.npos l (by omega))
  have close : ∀ k, k < A.n (l + 1) → p (exactSol (A.over Φ ω) (l + 1) ((A.fasResidual l s).map val) k
      - exactSol (A.over Φ ω) l (s.map val) (A.cpt l k)) ≤ κ * D + 2 * η := by
    intro k hk
    refine (H.fas_close hl hD hQ hF hM k hk).trans ?_
    have b1 := H.le (l := l) (m := A.cpt l k) (by omega) (H.wf.cpt_bound hl hk).le
    have b2 := H.le (l := l + 1) (m := k) hl hk.le
    push_cast
    linarith
  have hp1 : 0 ≤ κ * Q := mul_nonneg hκ hQ0
  have hp2 : 0 ≤ κ * φ := mul_nonneg hκ hφ
  have hp3 : 0 ≤ κ * η := mul_nonneg hκ hη
  have hp4 : 0 ≤ κ * D := mul_nonneg hκ hD0
  refine ⟨fun k hk => ?_, fun k hk => ?_, fun _ k hk1 hk => ?_⟩
  · have c := close k hk
    have d : p (val (s.u l (A.cpt l k)) - exactSol (A.over Φ ω) l (s.map val) (A.cpt l k)) ≤ D :=
      hD (A.cpt l k) (H.wf.cpt_bound hl hk)
    show p (val ((A.fasResidual l s).u (l + 1) k) - _) ≤ _
    rw [H.fas_u hl s hk]
    have e : val (s.u l (A.cpt l k)) - exactSol (A.over Φ ω) (l + 1) ((A.fasResidual l s).map val) k
        = (val (s.u l (A.cpt l k)) - exactSol (A.over Φ ω) l (s.map val) (A.cpt l k))
          - (exactSol (A.over Φ ω) (l + 1) ((A.fasResidual l s).map val) k
            - exactSol (A.over Φ ω) l (s.map val) (A.cpt l k)) := by abel
    rw [e]
    refine (map_sub_le_add p _ _).trans ?_
    linarith
  · have := size_of_near _ _ (close k hk) (hQ.sol _ (H.wf.cpt_bound hl hk))
    linarith
  · obtain ⟨k, rfl⟩ : ∃ j, k = j + 1 := ⟨k - 1, by omega⟩
    have := (H.fas_g hl hD hQ hF hM hk).2
    linarith

theorem correct (H : RoundHyp A Φ ω val p q κ φ M ε η) {l : Nat} (hl : l + 1 < A.L) {s t : GState V} {D D' Q : ℝ}
    (hD : ErrLe (A.over Φ ω) p l (s.map val) D) (hQ : Sz A Φ ω val p l s Q) (hF : FRelaxed A l s)
    (hM : 8 * (Q + D + φ + η) ≤ M) (hk : Keeps (l + 1) (A.fasResidual l s) t)
    (hD' : ErrLe (A.over Φ ω) p (l + 1) (t.map val) D')
    (hM' : (6 + κ) * (Q + D + φ + η) + D' + (Q + D + φ + η) ≤ M) :
    ErrLe (A.over Φ ω) p l ((A.fRelax l (A.errorCorrection l t)).map val) (κ * D + D' + 3 * η) := by
  have hkeep : Keeps l s (A.errorCorrection l t) :=
    ((keeps_fasResidual s).trans hk.down).trans (H.wf.keeps_errorCorrection hl t)
  have hε := H.eps
  have hφ := H.src
  have hη := H.eta
  have hκ := H.nonneg
  have h6 := H.six
  have hD0 : 0 ≤ D := hD.nonneg (H.wf.npos l (by omega))
  have hD'0 : 0 ≤ D' := hD'.nonneg (H.wf.npos (l + 1) hl)
  have hQ0 := hQ.nonneg (H.wf.npos l (by omega))
  have hp1 : 0 ≤ κ * Q := mul_nonneg hκ hQ0
  have hp2 : 0 ≤ κ * φ := mul_nonneg hκ hφ
  have hp3 : 0 ≤ κ * η := mul_nonneg hκ hη
  have hp4 : 0 ≤ κ * D := mul_nonneg hκ hD0
  have main : CErrLe (A.over Φ ω) p l ((A.errorCorrection l t).map val) (κ * D + D' + 2 * η) := by
    intro i hi
    rw [exactSol_keeps (hkeep.map val)]
    obtain ⟨k, hkn, rfl⟩ := (H.wf.mem_C_iff hl).1 hi
    by_cases h0 : k = 0
    · subst h0
      have e : ((A.errorCorrection l t).map val).u l (A.cpt l 0) - exactSol (A.over Φ ω) l (s.map val) (A.cpt l 0)
          = 0 := by
        rw [H.wf.cpt_zero hl]
        show val ((A.errorCorrection l t).u l 0) - val (s.u l 0) = 0
        rw [hkeep.zero, sub_self]
      rw [e, map_zero]
      positivity
    · have hb : A.cpt l k < A.n l := H.wf.cpt_bound hl hkn
      have hu : t.u l = s.u l := by rw [hk.u_lt l (by omega), fasResidual_u_ne s (by omega)]
      have hv : val (t.v (l + 1) k) = val (s.u l (A.cpt l k)) := by
        rw [hk.v_le (l + 1) le_rfl, fasResidual_v_eq]
        exact H.fas_u hl s hkn
      have ec := H.wf.errorCorrection_C hl t hkn h0
      rw [hu] at ec
      have c := H.fas_close hl hD hQ hF hM k hkn
      have d : p (val (t.u (l + 1) k) - exactSol (A.over Φ ω) (l + 1) (t.map val) k) ≤ D' := hD' k hkn
      rw [exactSol_keeps (hk.map val)] at d
      have sX := hQ.sol (A.cpt l k) hb
      have su := size_of_near _ _
        (show p (val (s.u l (A.cpt l k)) - exactSol (A.over Φ ω) l (s.map val) (A.cpt l k)) ≤ D from hD _ hb) sX
      have sX' := (H.fas hl hD hQ hF hM).2.sol k hkn
      have st := size_of_near _ _ d sX'
      have sv : p (val (t.v (l + 1) k)) ≤ Q + D := by rw [hv]; exact su
      have a1 := H.sub (t.u (l + 1) k) (t.v (l + 1) k) (by linarith) (by linarith)
      have s1 := size_of_near _ _ a1 ((map_sub_le_add p _ _).trans (add_le_add st sv))
      have hI := H.I l hl (t.u (l + 1) k - t.v (l + 1) k)
      have a2 := H.add (s.u l (A.cpt l k)) (A.I l (t.u (l + 1) k - t.v (l + 1) k)) (by linarith)
        (by rw [hI]; linarith)
      rw [hI] at a2
      rw [hv] at a1
      show p (val ((A.errorCorrection l t).u l (A.cpt l k)) - exactSol (A.over Φ ω) l (s.map val) (A.cpt l k)) ≤ _
      rw [ec]
      set X := exactSol (A.over Φ ω) l (s.map val) (A.cpt l k)
      set Z := exactSol (A.over Φ ω) (l + 1) ((A.fasResidual l s).map val) k
      set x := s.u l (A.cpt l k)
      set y := t.u (l + 1) k
      set v := t.v (l + 1) k
      have e : val (x + A.I l (y - v)) - X
          = (val (x + A.I l (y - v)) - (val x + val (y - v))) + ((val (y - v) - (val y - val x))
            + ((val y - Z) + (Z - X))) := by abel
      rw [e]
      refine (map_add_le_add p _ _).trans ((add_le_add le_rfl (map_add_le_add p _ _)).trans
        ((add_le_add le_rfl (add_le_add le_rfl (map_add_le_add p _ _))).trans ?_))
      have b1 := H.le (l := l) (m := A.cpt l k + 1) (by omega) hb
      have b2 := H.le (l := l + 1) (m := k) hl hkn.le
      push_cast at b1 c
      linarith
  refine fun i hi => (H.fRelax hl main (hQ.keeps hkeep) (by linarith) i hi).trans ?_
  linarith

/-- The part common to V- and F-cycles; the coarse solver `f` maps errors `D` to `ρ D + δ η` if there is room. -/
theorem level (H : RoundHyp A Φ ω val p q κ φ M ε η) {l : Nat} (hl : l + 1 < A.L) (b : Prop) [Decidable b]
    (f : GState V → GState V) (ρ δ Rm : ℝ) (hρ0 : 0 ≤ ρ) (hδ0 : 0 ≤ δ) (hRm : 0 ≤ Rm)
    (hf : ∀ s, Keeps (l + 1) s (f s))
    (hρ : ∀ s D Q, ErrLe (A.over Φ ω) p (l + 1) (s.map val) D → Sz A Φ ω val p (l + 1) s Q →
      Rm * (Q + D + φ + η) ≤ M → ErrLe (A.over Φ ω) p (l + 1) ((f s).map val) (ρ * D + δ * η)) {s : GState V} {D Q : ℝ}
    (hD : CErrLe (A.over Φ ω) p l (s.map val) D) (hQ : Sz A Φ ω val p l s Q) (hF : ¬ b → FRelaxed A l s)
    (hM : growth κ (relaxGrowth (A.over Φ ω)) (fun l => A.cf l) l * (8 + ρ + δ + Rm) * (Q + D + φ + η) ≤ M) :
    ErrLe (A.over Φ ω) p l ((A.fRelax l (A.errorCorrection l (f (A.fasResidual l
      (times (fun s => A.fRelax l (A.cRelax l s)) (A.cf l) (if b then A.fRelax l s else s)))))).map val)
      (relaxGrowth (A.over Φ ω) l * (κ + (1 + κ) * ρ) * D
        + (relaxGrowth (A.over Φ ω) l * (κ + (1 + κ) * ρ) * (A.cf l + 1) + (3 + 2 * ρ) + δ) * η) := by
  have hε := H.eps
  have hφ := H.src
  have hη := H.eta
  have hκ := H.nonneg
  have hD0 : 0 ≤ D := hD.nonneg (H.wf.over Φ ω) hl
  have hQ0 := hQ.nonneg (H.wf.npos l (by omega))
  have hw1 : 1 ≤ ‖ω‖ + ‖1 - ω‖ := by
    have := norm_add_le ω (1 - ω)
    rwa [add_sub_cancel, norm_one] at this
  have ha1 : 1 ≤ relaxGrowth (A.over Φ ω) l := one_le_pow₀ hw1
  have ea : relaxGrowth (A.over Φ ω) l = (‖ω‖ + ‖1 - ω‖) ^ A.cf l := rfl
  rw [show growth κ (relaxGrowth (A.over Φ ω)) (fun l => A.cf l) l
    = (6 + κ) * (1 + relaxGrowth (A.over Φ ω) l * ((A.cf l : ℝ) + 2))
      + (1 + κ) * (relaxGrowth (A.over Φ ω) l * ((A.cf l : ℝ) + 2)) + 4 from rfl] at hM
  set a := relaxGrowth (A.over Φ ω) l with ha
  have hν0 : (0 : ℝ) ≤ A.cf l := Nat.cast_nonneg _
  set ν : ℝ := (A.cf l : ℝ) with hν
  set T := Q + D + φ + η with hT
  have hT0 : 0 ≤ T := by positivity
  set D1 := a * (D + (ν + 1) * η) with hD1
  set G := a * (ν + 2) with hG
  have hG0 : 0 ≤ G := by positivity
  have hD10 : 0 ≤ D1 := by positivity
  have t1 : D1 ≤ G * T := by
    rw [hD1, hG, mul_assoc]
    refine mul_le_mul_of_nonneg_left ?_ (by linarith)
    have : (ν + 1) * η ≤ (ν + 1) * T := mul_le_mul_of_nonneg_left (by linarith) (by linarith)
    linarith
  set B := (6 + κ) * (1 + G) + (1 + κ) * G + 4 with hB
  have hB0 : 0 ≤ B := by positivity
  have t2 : Q + D1 + φ + η ≤ (1 + G) * T := by linarith
  have t3 : (6 + κ) * (Q + D1 + φ + η) ≤ (6 + κ) * ((1 + G) * T) := mul_le_mul_of_nonneg_left t2 (by linarith)
  have t4 : (1 + κ) * D1 ≤ (1 + κ) * (G * T) := mul_le_mul_of_nonneg_left t1 (by linarith)
  have eB : B * T = (6 + κ) * ((1 + G) * T) + (1 + κ) * (G * T) + 4 * T := by rw [hB]; ring
  have hBT : 0 ≤ B * T := by positivity
  have t5 : (6 + κ) * (Q + D1 + φ + η) + ((1 + κ) * D1 + 2 * η) + φ + η ≤ B * T := by
    rw [eB]; linarith
  have eM : B * (8 + ρ + δ + Rm) * T = 8 * (B * T) + ρ * (B * T) + δ * (B * T) + Rm * (B * T) := by ring
  rw [eM] at hM
  have m1 : 0 ≤ ρ * (B * T) := by positivity
  have m2 : 0 ≤ δ * (B * T) := by positivity
  have m3 : 0 ≤ Rm * (B * T) := by positivity
  have p1 : 0 ≤ (1 + κ) * D1 := by positivity
  have p2 : 0 ≤ κ * (Q + D1 + φ + η) := by positivity
  have t6 : Q + D1 + φ + η ≤ B * T := by linarith
  have t7 : 8 * (Q + D1 + φ + η) ≤ M := by linarith
  have hDD1 : D + η ≤ D1 := by
    have h1 : D + (ν + 1) * η ≤ D1 := le_mul_of_one_le_left (by positivity) ha1
    have h2 : 0 ≤ ν * η := by positivity
    linarith
  have h6 := H.six
  have h0 : ErrLe (A.over Φ ω) p l ((if b then A.fRelax l s else s).map val) (D + (η - 6 * ε)) ∧
      FRelaxed A l (if b then A.fRelax l s else s) ∧ Keeps l s (if b then A.fRelax l s else s) := by
    split
    · exact ⟨H.fRelax hl hD hQ (by linarith), H.wf.fRelax_relaxed hl s, H.wf.keeps_fRelax hl s⟩
    · next hq => exact ⟨H.relaxed hl hD hQ (hF hq) (by linarith), hF hq, Keeps.refl l s⟩
  have h1 : ErrLe (A.over Φ ω) p l ((if b then A.fRelax l s else s).map val) (D + η) :=
    fun i hi => (h0.1 i hi).trans (by linarith)
  have eD1 : (‖ω‖ + ‖1 - ω‖) ^ A.cf l * (D + η + (A.cf l : ℝ) * η) = D1 := by
    rw [hD1, ea, hν]; ring
  obtain ⟨b1, b2, b3⟩ := H.sweeps hl (A.cf l) (H.adj l hl) h1 (hQ.keeps h0.2.2) h0.2.1
    (by rw [eD1]; linarith)
  rw [eD1] at b1
  set s2 := times (fun s => A.fRelax l (A.cRelax l s)) (A.cf l) (if b then A.fRelax l s else s)
  have hQ2 := (hQ.keeps h0.2.2).keeps b3
  obtain ⟨f1, f2⟩ := H.fas hl b1 hQ2 b2 t7
  have c1 := hρ _ _ _ f1 f2 (by
    have : Rm * ((6 + κ) * (Q + D1 + φ + η) + ((1 + κ) * D1 + 2 * η) + φ + η) ≤ Rm * (B * T) :=
      mul_le_mul_of_nonneg_left t5 hRm
    linarith)
  have u1 : ρ * ((1 + κ) * D1 + 2 * η) ≤ ρ * (B * T) := mul_le_mul_of_nonneg_left (by linarith) hρ0
  have u2 : δ * η ≤ δ * (B * T) := mul_le_mul_of_nonneg_left (by linarith) hδ0
  have c2 := H.correct hl b1 hQ2 b2 t7 (hf (A.fasResidual l s2)) c1 (by linarith)
  refine fun i hi => (c2 i hi).trans (le_of_eq ?_)
  rw [hD1]
  ring

theorem toC (H : RoundHyp A Φ ω val p q κ φ M ε η) {l d : Nat} (hd : l + d + 1 = A.L) {s : GState W} {D : ℝ}
    (hs : ErrLe (A.over Φ ω) p l s D) : CErrLe (A.over Φ ω) p l s D := by
  cases d with
  | zero =>
    intro i hi
    refine hs i ?_
    have e : l = A.L - 1 := by omega
    have hi' : i ∈ A.C l := hi
    rw [e, H.wf.C_last] at hi'
    show i < A.n l
    rw [e]
    exact List.mem_range.1 hi'
  | succ d => exact hs.toC (H.wf.over Φ ω) (show l + 1 < A.L by omega)

theorem vcyc (H : RoundHyp A Φ ω val p q κ φ M ε η) (d l it : Nat) (ff : Bool) (hd : l + d + 1 = A.L) {s : GState V}
    {D Q : ℝ} (hD : CErrLe (A.over Φ ω) p l (s.map val) D) (hQ : Sz A Φ ω val p l s Q)
    (hF : ¬ ((0 < l ∨ (it = 0 ∧ l = 0)) ∧ ff = true) → 0 < d → FRelaxed A l s)
    (hM : roomV κ (relaxGrowth (A.over Φ ω)) (fun l => A.cf l) l d * (Q + D + φ + η) ≤ M) :
    ErrLe (A.over Φ ω) p l ((A.vcyc A.forwardSolve d l it ff s).map val)
      (rateV κ (relaxGrowth (A.over Φ ω)) l d * D
        + pertV κ (relaxGrowth (A.over Φ ω)) (fun l => A.cf l) l d * η) := by
  have ha := relaxGrowth_nonneg (A.over Φ ω)
  have hc : ∀ l, (0 : ℝ) ≤ (fun l => (A.cf l : ℝ)) l := fun l => Nat.cast_nonneg _
  induction d generalizing l ff s D Q with
  | zero =>
    simp only [Sys.vcyc, rateV, pertV, zero_mul, zero_add, one_mul]
    have hD0 : 0 ≤ D := by
      have h0 : 0 ∈ A.C l := by
        have e : l = A.L - 1 := by omega
        rw [e, H.wf.C_last]
        exact List.mem_range.2 (H.wf.npos _ (by omega))
      exact (apply_nonneg p _).trans (hD 0 h0)
    simp only [roomV, one_mul] at hM
    exact H.forwardSolve (by omega) hQ (by linarith)
  | succ d ih =>
    have hl : l + 1 < A.L := by omega
    simp only [Sys.vcyc]
    refine H.level hl _ (A.vcyc A.forwardSolve d (l + 1) it true) _ _
      (roomV κ (relaxGrowth (A.over Φ ω)) (fun l => A.cf l) (l + 1) d) (rateV_nonneg H.nonneg ha _ _)
      (pertV_nonneg H.nonneg ha hc _ _) (roomV_pos H.nonneg ha hc _ _).le ?_ ?_ hD hQ
      (fun hq => hF hq (by omega)) hM
    · intro s
      rw [← iteration_V_eq_vcyc]
      exact H.wf.keeps_iteration (fun s => keeps_forwardSolve s) d (l + 1) it Cycle.V true (by omega) s
    · intro s D Q hs hq hm
      exact ih (l + 1) true (by omega) (H.toC (d := d) (by omega) hs) hq (fun hq => absurd (by simp) hq) hm

theorem iteration (H : RoundHyp A Φ ω val p q κ φ M ε η) (d l it : Nat) (cyc : Cycle) (ff : Bool)
    (hd : l + d + 1 = A.L) {s : GState V} {D Q : ℝ} (hD : CErrLe (A.over Φ ω) p l (s.map val) D)
    (hQ : Sz A Φ ω val p l s Q)
    (hF : ¬ ((0 < l ∨ (it = 0 ∧ l = 0)) ∧ ff = true) → 0 < d → FRelaxed A l s)
    (hM : (match cyc with
      | .V => roomV κ (relaxGrowth (A.over Φ ω)) (fun l => A.cf l) l d
      | .F => if l = 0 then roomF κ (relaxGrowth (A.over Φ ω)) (fun l => A.cf l) l d
          else roomF κ (relaxGrowth (A.over Φ ω)) (fun l => A.cf l) l d
            + roomV κ (relaxGrowth (A.over Φ ω)) (fun l => A.cf l) l d
              * (1 + rateF κ (relaxGrowth (A.over Φ ω)) l d
                + pertF κ (relaxGrowth (A.over Φ ω)) (fun l => A.cf l) l d)) * (Q + D + φ + η) ≤ M) :
    ErrLe (A.over Φ ω) p l ((A.iteration A.forwardSolve d l cyc it ff s).map val)
      (match cyc with
        | .V => rateV κ (relaxGrowth (A.over Φ ω)) l d * D
            + pertV κ (relaxGrowth (A.over Φ ω)) (fun l => A.cf l) l d * η
        | .F => if l = 0 then rateF κ (relaxGrowth (A.over Φ ω)) l d * D
                + pertF κ (relaxGrowth (A.over Φ ω)) (fun l => A.cf l) l d * η
                else rateV κ (relaxGrowth (A.over Φ ω)) l d * (rateF κ (relaxGrowth (A.over Φ ω)) l d * D
                    + pertF κ (relaxGrowth (A.over Φ ω)) (fun l => A.cf l) l d * η)
                  + pertV κ (relaxGrowth (A.over Φ ω)) (fun l => A.cf l) l d * η) := by
  have ha := relaxGrowth_nonneg (A.over Φ ω)
  have hc : ∀ l, (0 : ℝ) ≤ (fun l => (A.cf l : ℝ)) l := fun l => Nat.cast_nonneg _
  have hφ := H.src
  have hη := H.eta
  cases cyc with
  | V =>
    rw [iteration_V_eq_vcyc]
    exact H.vcyc d l it ff hd hD hQ hF hM
  | F =>
    induction d generalizing l ff s D Q with
    | zero =>
      simp only [Sys.iteration, rateF, rateV, pertF, pertV, zero_mul, zero_add, one_mul, ite_self]
      simp only [roomF, roomV, rateF, pertF] at hM
      have hQ0 := hQ.nonneg (H.wf.npos l (by omega))
      have hD0 : 0 ≤ D := by
        have h0 : 0 ∈ A.C l := by
          have e : l = A.L - 1 := by omega
          rw [e, H.wf.C_last]
          exact List.mem_range.2 (H.wf.npos _ (by omega))
        exact (apply_nonneg p _).trans (hD 0 h0)
      refine H.forwardSolve (by omega) hQ ?_
      split at hM <;> linarith
    | succ d ih =>
      have hl : l + 1 < A.L := by omega
      have hQ0 := hQ.nonneg (H.wf.npos l (by omega))
      have hD0 : 0 ≤ D := hD.nonneg (H.wf.over Φ ω) hl
      have r1 := rateV_nonneg H.nonneg ha (l + 1) d
      have r2 := rateF_nonneg H.nonneg ha (l + 1) d
      have r3 := pertV_nonneg H.nonneg ha hc (l + 1) d
      have r4 := pertF_nonneg H.nonneg ha hc (l + 1) d
      have r5 := roomV_pos H.nonneg ha hc (l + 1) d
      have r6 := roomF_pos H.nonneg ha hc (l + 1) d
      have hMF : roomF κ (relaxGrowth (A.over Φ ω)) (fun l => A.cf l) l (d + 1) * (Q + D + φ + η) ≤ M := by
        refine le_trans ?_ hM
        refine mul_le_mul_of_nonneg_right ?_ (by linarith)
        show _ ≤ if l = 0 then _ else _
        have q1 := roomV_pos H.nonneg ha hc l (d + 1)
        have q2 := rateF_nonneg H.nonneg ha l (d + 1)
        have q3 := pertF_nonneg H.nonneg ha hc l (d + 1)
        split
        · exact le_rfl
        · exact le_add_of_nonneg_right (by positivity)
      have key := H.level hl ((0 < l ∨ it = 0 ∧ l = 0) ∧ ff = true)
        (A.iteration A.forwardSolve d (l + 1) .F it true)
        (rateF κ (relaxGrowth (A.over Φ ω)) (l + 1) d * rateV κ (relaxGrowth (A.over Φ ω)) (l + 1) d)
        (rateV κ (relaxGrowth (A.over Φ ω)) (l + 1) d
            * pertF κ (relaxGrowth (A.over Φ ω)) (fun l => A.cf l) (l + 1) d
          + pertV κ (relaxGrowth (A.over Φ ω)) (fun l => A.cf l) (l + 1) d)
        (roomF κ (relaxGrowth (A.over Φ ω)) (fun l => A.cf l) (l + 1) d
          + roomV κ (relaxGrowth (A.over Φ ω)) (fun l => A.cf l) (l + 1) d
            * (1 + rateF κ (relaxGrowth (A.over Φ ω)) (l + 1) d
              + pertF κ (relaxGrowth (A.over Φ ω)) (fun l => A.cf l) (l + 1) d))
        (by positivity) (by positivity) (by positivity)
        (fun s => H.wf.keeps_iteration (fun s => keeps_forwardSolve s) d (l + 1) it .F true (by omega) s)
        (fun s D Q hs hq hm => by
          have := ih (l + 1) true (by omega) (s := s) (D := D) (Q := Q) (H.toC (d := d) (by omega) hs) hq
            (fun hq => absurd (by simp) hq) (by
              show (if l + 1 = 0 then _ else _) * _ ≤ _
              rw [if_neg (by omega)]
              exact hm)
          simp only [Nat.add_eq_zero_iff, one_ne_zero, and_false, if_false] at this
          refine fun i hi => (this i hi).trans (le_of_eq ?_)
          ring) hD hQ (fun hq => hF hq (by omega)) (by
            refine le_trans (le_of_eq ?_) hMF
            simp only [roomF])
      have hkc : Keeps l s (A.fRelax l (A.errorCorrection l
          (A.iteration A.forwardSolve d (l + 1) .F it true
          (A.fasResidual l (times (fun s => A.fRelax l (A.cRelax l s)) (A.cf l)
            (if (0 < l ∨ it = 0 ∧ l = 0) ∧ ff = true then A.fRelax l s else s)))))) := by
        have h1 : Keeps l s (if (0 < l ∨ it = 0 ∧ l = 0) ∧ ff = true then A.fRelax l s else s) := by
          split
          · exact H.wf.keeps_fRelax hl s
          · exact Keeps.refl l s
        have h2 : ∀ ν (s : GState V), Keeps l s (times (fun s => A.fRelax l (A.cRelax l s)) ν s) := by
          intro ν
          induction ν with
          | zero => exact fun s => Keeps.refl l s
          | succ ν ih => exact fun s => ((keeps_cRelax (S := A) s).trans (H.wf.keeps_fRelax hl _)).trans (ih _)
        have h3 := H.wf.keeps_iteration (fun s => keeps_forwardSolve (S := A) s) d (l + 1) it .F true (by omega)
          (A.fasResidual l (times (fun s => A.fRelax l (A.cRelax l s)) (A.cf l)
            (if (0 < l ∨ it = 0 ∧ l = 0) ∧ ff = true then A.fRelax l s else s)))
        exact ((((h1.trans (h2 _ _)).trans (keeps_fasResidual (S := A) _)).trans h3.down).trans
          (H.wf.keeps_errorCorrection hl _)).trans (H.wf.keeps_fRelax hl _)
      generalize hcore : A.fRelax l (A.errorCorrection l
        (A.iteration A.forwardSolve d (l + 1) .F it true
        (A.fasResidual l (times (fun s => A.fRelax l (A.cRelax l s)) (A.cf l)
          (if (0 < l ∨ it = 0 ∧ l = 0) ∧ ff = true then A.fRelax l s else s))))) = core at key hkc
      have hrel : FRelaxed A l core := by rw [← hcore]; exact H.wf.fRelax_relaxed hl _
      have e : A.iteration A.forwardSolve (d + 1) l .F it ff s
          = if l ≠ 0 ∧ Cycle.F = Cycle.F then A.vcyc A.forwardSolve (d + 1) l it false core else core := by
        rw [← hcore]; rfl
      rw [e]
      by_cases h0 : l = 0
      · rw [if_neg (by simp [h0])]
        simp only [h0, if_true]
        subst h0
        exact key
      · rw [if_pos ⟨h0, rfl⟩]
        simp only [h0, if_false]
        refine H.vcyc (d + 1) l it false hd (H.toC (d := d + 1) hd key) (hQ.keeps hkc) (fun _ _ => hrel) ?_
        refine le_trans ?_ hM
        show _ ≤ (if l = 0 then _ else _) * _
        rw [if_neg h0]
        have q0 := roomF_pos H.nonneg ha hc l (d + 1)
        have q1 := roomV_pos H.nonneg ha hc l (d + 1)
        have q2 := rateF_nonneg H.nonneg ha l (d + 1)
        have q3 := pertF_nonneg H.nonneg ha hc l (d + 1)
        generalize roomF κ (relaxGrowth (A.over Φ ω)) (fun l => (A.cf l : ℝ)) l (d + 1) = rF at *
        generalize roomV κ (relaxGrowth (A.over Φ ω)) (fun l => (A.cf l : ℝ)) l (d + 1) = rV at *
        generalize rateF κ (relaxGrowth (A.over Φ ω)) l (d + 1) = x at *
        generalize pertF κ (relaxGrowth (A.over Φ ω)) (fun l => (A.cf l : ℝ)) l (d + 1) = y at *
        have z1 : Q + (x * D + y * η) + φ + η ≤ (1 + x + y) * (Q + D + φ + η) := by
          have : 0 ≤ x * (Q + φ + η) := by positivity
          have : 0 ≤ y * (Q + D + φ) := by positivity
          nlinarith
        have z2 : rV * (Q + (x * D + y * η) + φ + η) ≤ rV * ((1 + x + y) * (Q + D + φ + η)) :=
          mul_le_mul_of_nonneg_left z1 q1.le
        have z3 : 0 ≤ rF * (Q + D + φ + η) := by positivity
        calc _ ≤ rV * ((1 + x + y) * (Q + D + φ + η)) := z2
          _ ≤ (rF + rV * (1 + x + y)) * (Q + D + φ + η) := by linarith

/-- `m` iterations of `solve`; `B` bounds the errors on the way. -/
theorem iterates (H : RoundHyp A Φ ω val p q κ φ M ε η) (hL : 1 < A.L) (cyc : Cycle) (m : Nat) (s : GState V)
    (D Q B : ℝ) (hD : CErrLe (A.over Φ ω) p 0 (s.map val) D) (hQ : Sz A Φ ω val p 0 s Q)
    (hB : ∀ j, j < m → rate κ (relaxGrowth (A.over Φ ω)) cyc (A.L - 1) ^ j * D
      + (∑ k ∈ Finset.range j, rate κ (relaxGrowth (A.over Φ ω)) cyc (A.L - 1) ^ k)
        * (pert κ (relaxGrowth (A.over Φ ω)) (fun l => A.cf l) cyc (A.L - 1) * η) ≤ B)
    (hM : room κ (relaxGrowth (A.over Φ ω)) (fun l => A.cf l) cyc (A.L - 1) * (Q + B + φ + η) ≤ M) :
    let r := rate κ (relaxGrowth (A.over Φ ω)) cyc (A.L - 1)
    let b := r ^ m * D
      + (∑ j ∈ Finset.range m, r ^ j) * (pert κ (relaxGrowth (A.over Φ ω)) (fun l => A.cf l) cyc (A.L - 1) * η)
    CErrLe (A.over Φ ω) p 0 ((Pymgrit.iterates A A.forwardSolve cyc m s).map val) b ∧
    (1 ≤ m → ErrLe (A.over Φ ω) p 0 ((Pymgrit.iterates A A.forwardSolve cyc m s).map val) b) ∧
    Keeps 0 s (Pymgrit.iterates A A.forwardSolve cyc m s) := by
  have ha := relaxGrowth_nonneg (A.over Φ ω)
  have hc : ∀ l, (0 : ℝ) ≤ (fun l => (A.cf l : ℝ)) l := fun l => Nat.cast_nonneg _
  induction m with
  | zero => exact ⟨by simpa [Pymgrit.iterates] using hD, fun h => by omega, Keeps.refl 0 s⟩
  | succ m ih =>
    obtain ⟨i1, -, i3⟩ := ih fun j hj => hB j (by omega)
    have hstep : ErrLe (A.over Φ ω) p 0 ((Pymgrit.iterates A A.forwardSolve cyc (m + 1) s).map val)
        (rate κ (relaxGrowth (A.over Φ ω)) cyc (A.L - 1) ^ (m + 1) * D
          + (∑ j ∈ Finset.range (m + 1), rate κ (relaxGrowth (A.over Φ ω)) cyc (A.L - 1) ^ j)
            * (pert κ (relaxGrowth (A.over Φ ω)) (fun l => A.cf l) cyc (A.L - 1) * η)) := by
      have := H.iteration (A.L - 1) 0 m cyc true (by omega) i1 (hQ.keeps i3) (fun hq _ => by
        cases m with
        | zero => exact absurd (by simp) hq
        | succ m => exact H.wf.fineIteration_relaxed A.forwardSolve cyc m _ hL) (by
          refine le_trans (le_of_eq_of_le ?_ (mul_le_mul_of_nonneg_left
            (add_le_add (add_le_add (add_le_add le_rfl (hB m (by omega))) le_rfl) le_rfl)
            (room_pos H.nonneg ha hc cyc (A.L - 1)).le)) hM
          cases cyc <;> simp [room])
      refine fun i hi => (this i hi).trans (le_of_eq ?_)
      rw [pow_succ, Finset.sum_range_succ']
      simp only [pow_succ, ← Finset.sum_mul]
      cases cyc <;> simp [rate, pert] <;> ring
    exact ⟨hstep.toC (H.wf.over Φ ω) hL, fun _ => hstep,
      i3.trans (H.wf.fineIteration_keeps (fun s => keeps_forwardSolve s) cyc m _)⟩

end RoundHyp

end

end Pymgrit
