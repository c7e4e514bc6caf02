import Verif.GrayScott
import Verif.Box
import Verif.PropsPhase
import Verif.EndToEnd

/-!
# The Gray-Scott application: solvable steps, bounds and balance (C118, C119)
-/

namespace Pymgrit.Petsc
open Apps

/-! ## The difference operator on the periodic grid -/

section lap
variable {K : Type} [Field K]

/-- Specification: five-point Laplacian on the periodic grid. -/
def GS.lap (P : GS K) (g : Fin P.mx × Fin P.my → K) (p : Fin P.mx × Fin P.my) : K :=
  (g (succ p.1, p.2) - 2 * g p + g (pred p.1, p.2)) / P.dx ^ 2
    + (g (p.1, pred p.2) - 2 * g p + g (p.1, succ p.2)) / P.dy ^ 2

/-- The two components of a grid function. -/
def U {P : GS K} (x : Pt P → K) (p : Fin P.mx × Fin P.my) : K := x (p, false)
def W {P : GS K} (x : Pt P → K) (p : Fin P.mx × Fin P.my) : K := x (p, true)

theorem function_eq (P : GS K) (dt : K) (x x0 : Pt P → K) :
    P.function dt x = x0 ↔ ∀ p,
      U x p - dt * (P.du * P.lap (U x) p - U x p * W x p ^ 2 + P.a * (1 - U x p)) = U x0 p ∧
      W x p - dt * (P.dv * P.lap (W x) p + U x p * W x p ^ 2 - P.b * W x p) = W x0 p := by
  constructor
  · rintro rfl p
    exact ⟨rfl, rfl⟩
  · intro h
    funext ⟨p, f⟩
    cases f
    · exact (h p).1
    · exact (h p).2

theorem row_eq (P : GS K) (x : Pt P → K) (p : Fin P.mx × Fin P.my) :
    applyRow (P.spaceRow (p, false)) x = P.du * P.lap (U x) p ∧
    applyRow (P.spaceRow (p, true)) x = P.dv * P.lap (W x) p := by
  constructor <;>
  · simp only [GS.spaceRow, applyRow, List.map_cons, List.map_nil, List.sum_cons, List.sum_nil, GS.lap, U, W,
      Bool.false_eq_true, if_false, if_true]
    ring

theorem imex_eq (P : GS K) (dt : K) (x x0 : Pt P → K) :
    P.Step .IMEX dt x0 x ↔ ∀ p,
      U x p - dt * (P.du * P.lap (U x) p) = U x0 p + dt * (-U x0 p * W x0 p ^ 2 + P.a * (1 - U x0 p)) ∧
      W x p - dt * (P.dv * P.lap (W x) p) = W x0 p + dt * (U x0 p * W x0 p ^ 2 - P.b * W x0 p) := by
  constructor
  · intro h p
    have h1 := h (p, false)
    have h2 := h (p, true)
    rw [(row_eq P x p).1] at h1
    rw [(row_eq P x p).2] at h2
    exact ⟨h1, h2⟩
  · rintro h ⟨p, f⟩
    cases f
    · rw [(row_eq P x p).1]; exact (h p).1
    · rw [(row_eq P x p).2]; exact (h p).2

theorem expl_eq (P : GS K) (dt : K) (x x0 : Pt P → K) :
    P.Step .EXPL dt x0 x ↔ ∀ p,
      U x p = U x0 p + dt * (P.du * P.lap (U x0) p - U x0 p * W x0 p ^ 2 + P.a * (1 - U x0 p)) ∧
      W x p = W x0 p + dt * (P.dv * P.lap (W x0) p + U x0 p * W x0 p ^ 2 - P.b * W x0 p) := by
  constructor
  · intro h p
    have h : x = P.explicit dt x0 := h
    subst h
    rw [← (row_eq P x0 p).1, ← (row_eq P x0 p).2]
    exact ⟨rfl, rfl⟩
  · intro h
    show x = P.explicit dt x0
    funext ⟨p, f⟩
    have := h p
    rw [← (row_eq P x0 p).1, ← (row_eq P x0 p).2] at this
    cases f
    · exact this.1
    · exact this.2

theorem lap_sum (P : GS K) (hx : 3 ≤ P.mx) (hy : 3 ≤ P.my) (g : Fin P.mx × Fin P.my → K) : ∑ p, P.lap g p = 0 := by
  have s1 : ∀ {n : Nat} (_ : 3 ≤ n) (f : Fin n → K), ∑ i, f (succ i) = ∑ i, f i := by
    intro n hn f
    refine Fintype.sum_bijective succ ?_ _ _ fun i => rfl
    refine (Finite.injective_iff_bijective).1 fun i j h => ?_
    have hi := i.isLt
    have hj := j.isLt
    rw [Fin.ext_iff] at h ⊢
    simp only [succ] at h
    split at h <;> split at h <;> omega
  have s2 : ∀ {n : Nat} (_ : 3 ≤ n) (f : Fin n → K), ∑ i, f (pred i) = ∑ i, f i := by
    intro n hn f
    rw [← s1 hn fun i => f (pred i)]
    refine Finset.sum_congr rfl fun i _ => ?_
    congr 1
    exact ((eq_pred_iff (succ i) i).2 rfl).symm
  have e1 : ∑ p : Fin P.mx × Fin P.my, g (succ p.1, p.2) = ∑ p, g p := by
    rw [Fintype.sum_prod_type_right, Fintype.sum_prod_type_right]
    exact Finset.sum_congr rfl fun j _ => s1 hx fun i => g (i, j)
  have e2 : ∑ p : Fin P.mx × Fin P.my, g (pred p.1, p.2) = ∑ p, g p := by
    rw [Fintype.sum_prod_type_right, Fintype.sum_prod_type_right]
    exact Finset.sum_congr rfl fun j _ => s2 hx fun i => g (i, j)
  have e3 : ∑ p : Fin P.mx × Fin P.my, g (p.1, succ p.2) = ∑ p, g p := by
    rw [Fintype.sum_prod_type, Fintype.sum_prod_type]
    exact Finset.sum_congr rfl fun i _ => s1 hy fun j => g (i, j)
  have e4 : ∑ p : Fin P.mx × Fin P.my, g (p.1, pred p.2) = ∑ p, g p := by
    rw [Fintype.sum_prod_type, Fintype.sum_prod_type]
    exact Finset.sum_congr rfl fun i _ => s2 hy fun j => g (i, j)
  unfold GS.lap
  rw [Finset.sum_add_distrib, ← Finset.sum_div, ← Finset.sum_div, Finset.sum_add_distrib, Finset.sum_add_distrib,
    Finset.sum_sub_distrib, Finset.sum_sub_distrib, ← Finset.mul_sum, e1, e2, e3, e4]
  ring

end lap

section order
variable {K : Type} [Field K] [LinearOrder K] [IsStrictOrderedRing K]

theorem lap_at_min (P : GS K) (g : Fin P.mx × Fin P.my → K) (p : Fin P.mx × Fin P.my) (h : ∀ q, g p ≤ g q) :
    0 ≤ P.lap g p := by
  unfold GS.lap
  have h1 := h (succ p.1, p.2)
  have h2 := h (pred p.1, p.2)
  have h3 := h (p.1, pred p.2)
  have h4 := h (p.1, succ p.2)
  exact add_nonneg (div_nonneg (by linarith) (sq_nonneg _)) (div_nonneg (by linarith) (sq_nonneg _))

theorem lap_at_max (P : GS K) (g : Fin P.mx × Fin P.my → K) (p : Fin P.mx × Fin P.my) (h : ∀ q, g q ≤ g p) :
    P.lap g p ≤ 0 := by
  unfold GS.lap
  have h1 := h (succ p.1, p.2)
  have h2 := h (pred p.1, p.2)
  have h3 := h (p.1, pred p.2)
  have h4 := h (p.1, succ p.2)
  exact add_nonpos (div_nonpos_of_nonpos_of_nonneg (by linarith) (sq_nonneg _))
    (div_nonpos_of_nonpos_of_nonneg (by linarith) (sq_nonneg _))

theorem exists_min (P : GS K) (g : Fin P.mx × Fin P.my → K) (q : Fin P.mx × Fin P.my) : ∃ p, ∀ q, g p ≤ g q := by
  obtain ⟨p, -, hp⟩ := Finset.exists_min_image Finset.univ g ⟨q, Finset.mem_univ _⟩
  exact ⟨p, fun q => hp q (Finset.mem_univ q)⟩

theorem exists_max' (P : GS K) (g : Fin P.mx × Fin P.my → K) (q : Fin P.mx × Fin P.my) : ∃ p, ∀ q, g q ≤ g p := by
  obtain ⟨p, -, hp⟩ := Finset.exists_max_image Finset.univ g ⟨q, Finset.mem_univ _⟩
  exact ⟨p, fun q => hp q (Finset.mem_univ q)⟩

/-- Physical parameters: diffusion and rates are not negative. -/
structure GS.Phys (P : GS K) : Prop where
  du : 0 ≤ P.du
  dv : 0 ≤ P.dv
  a : 0 ≤ P.a
  b : 0 ≤ P.b
  mx : 3 ≤ P.mx
  my : 3 ≤ P.my

variable {P : GS K} {dt : K} {x x0 : Pt P → K}

/-! ## Implicit method -/

/-- Implicit method: from concentrations that are not negative, every solution of the equation is not negative, and the
first component stays below `M` if it was and `M ≥ 1`. -/
theorem C119_impl (hP : P.Phys) (hdt : 0 ≤ dt) (h0 : ∀ q, 0 ≤ x0 q) (h : P.Step .IMPL dt x0 x) :
    (∀ q, 0 ≤ x q) ∧ ∀ M, 1 ≤ M → (∀ p, x0 (p, false) ≤ M) → ∀ p, x (p, false) ≤ M := by
  have h := (function_eq P dt x x0).1 h
  have hu : ∀ p, 0 ≤ U x p := by
    intro q
    obtain ⟨p, hp⟩ := exists_min P (U x) q
    refine le_trans ?_ (hp q)
    have e := (h p).1
    have hl := mul_nonneg hdt (mul_nonneg hP.du (lap_at_min P (U x) p hp))
    have e0 : 0 ≤ U x0 p := h0 (p, false)
    have hc : 0 < 1 + dt * W x p ^ 2 + dt * P.a := by
      have := mul_nonneg hdt (sq_nonneg (W x p))
      have := mul_nonneg hdt hP.a
      linarith
    have : 0 ≤ (1 + dt * W x p ^ 2 + dt * P.a) * U x p := by
      have := mul_nonneg hdt hP.a
      have e1 : (1 + dt * W x p ^ 2 + dt * P.a) * U x p = U x0 p + dt * (P.du * P.lap (U x) p) + dt * P.a := by
        rw [← e]; ring
      rw [e1]
      linarith
    exact nonneg_of_mul_nonneg_right this hc
  have hw : ∀ p, 0 ≤ W x p := by
    intro q
    obtain ⟨p, hp⟩ := exists_min P (W x) q
    refine le_trans ?_ (hp q)
    by_contra hneg
    push Not at hneg
    have e := (h p).2
    have hl := mul_nonneg hdt (mul_nonneg hP.dv (lap_at_min P (W x) p hp))
    have e0 : 0 ≤ W x0 p := h0 (p, true)
    have h1 : 0 ≤ dt * (U x p * W x p ^ 2) := mul_nonneg hdt (mul_nonneg (hu p) (sq_nonneg _))
    have h2 : dt * (P.b * W x p) ≤ 0 := mul_nonpos_of_nonneg_of_nonpos hdt
      (mul_nonpos_of_nonneg_of_nonpos hP.b hneg.le)
    have e1 : W x p = W x0 p + dt * (P.dv * P.lap (W x) p) + dt * (U x p * W x p ^ 2) - dt * (P.b * W x p) := by
      rw [← e]; ring
    linarith
  refine ⟨fun ⟨p, f⟩ => ?_, fun M hM hx0 q => ?_⟩
  · cases f
    · exact hu p
    · exact hw p
  · obtain ⟨p, hp⟩ := exists_max' P (U x) q
    refine (hp q).trans ?_
    by_contra hc
    push Not at hc
    have e := (h p).1
    have hl := mul_nonpos_of_nonneg_of_nonpos hdt (mul_nonpos_of_nonneg_of_nonpos hP.du (lap_at_max P (U x) p hp))
    have e0 : U x0 p ≤ M := hx0 p
    have h1 : 0 ≤ dt * (U x p * W x p ^ 2) := mul_nonneg hdt (mul_nonneg (hu p) (sq_nonneg _))
    have h2 : dt * (P.a * (1 - U x p)) ≤ 0 := mul_nonpos_of_nonneg_of_nonpos hdt
      (mul_nonpos_of_nonneg_of_nonpos hP.a (by linarith))
    have e1 : U x p = U x0 p + dt * (P.du * P.lap (U x) p) - dt * (U x p * W x p ^ 2) + dt * (P.a * (1 - U x p)) := by
      rw [← e]; ring
    linarith

/-- Diffusion does not change the total amount. -/
theorem balance_of (hP : P.Phys) {s g g' : Fin P.mx × Fin P.my → K} {α β : K}
    (e : ∀ p, x (p, false) + x (p, true) = (x0 (p, false) + x0 (p, true)) + dt * s p + (α * P.lap g p + β * P.lap g' p)) :
    ∑ p, (x (p, false) + x (p, true)) = ∑ p, (x0 (p, false) + x0 (p, true)) + dt * ∑ p, s p := by
  have hz : ∑ p, (α * P.lap g p + β * P.lap g' p) = 0 := by
    rw [Finset.sum_add_distrib, ← Finset.mul_sum, ← Finset.mul_sum, lap_sum P hP.mx hP.my, lap_sum P hP.mx hP.my]
    ring
  rw [Finset.sum_congr rfl fun p _ => e p, Finset.sum_add_distrib, hz, add_zero, Finset.sum_add_distrib, ← Finset.mul_sum]

/-- Implicit method: feed and loss account exactly for the change of the total amount. -/
theorem C119_impl_balance (hP : P.Phys) (h : P.Step .IMPL dt x0 x) :
    ∑ p, (x (p, false) + x (p, true)) = ∑ p, (x0 (p, false) + x0 (p, true)) +
      dt * ∑ p, (P.a * (1 - x (p, false)) - P.b * x (p, true)) := by
  have h := (function_eq P dt x x0).1 h
  refine balance_of hP (g := U x) (g' := W x) (α := dt * P.du) (β := dt * P.dv) fun p => ?_
  have e1 := (h p).1
  have e2 := (h p).2
  simp only [U, W] at e1 e2 ⊢
  rw [← e1, ← e2]
  ring

/-- Hence a bound of the second component. -/
theorem C119_impl_bound (hP : P.Phys) (hdt : 0 ≤ dt) (h0 : ∀ q, 0 ≤ x0 q) (h : P.Step .IMPL dt x0 x)
    (p : Fin P.mx × Fin P.my) :
    (1 + dt * P.b) * x (p, true) ≤ ∑ p, (x0 (p, false) + x0 (p, true)) + dt * P.a * (P.mx * P.my) := by
  have hn := (C119_impl hP hdt h0 h).1
  have hb := C119_impl_balance hP h
  have e : ∑ p, (P.a * (1 - x (p, false)) - P.b * x (p, true)) =
      P.a * (P.mx * P.my) - P.a * ∑ p, x (p, false) - P.b * ∑ p, x (p, true) := by
    simp only [mul_sub, mul_one, Finset.sum_sub_distrib, ← Finset.mul_sum, Finset.sum_const, Finset.card_univ,
      Fintype.card_prod, Fintype.card_fin, nsmul_eq_mul]
    push_cast
    ring
  rw [e, Finset.sum_add_distrib] at hb
  have hu : 0 ≤ ∑ p, x (p, false) := Finset.sum_nonneg fun p _ => hn (p, false)
  have hv : x (p, true) ≤ ∑ p, x (p, true) :=
    Finset.single_le_sum (f := fun p => x (p, true)) (fun p _ => hn (p, true)) (Finset.mem_univ p)
  have h1 : 0 ≤ dt * P.b := mul_nonneg hdt hP.b
  have h2 : 0 ≤ dt * P.a := mul_nonneg hdt hP.a
  have h3 := mul_le_mul_of_nonneg_left hv (show 0 ≤ 1 + dt * P.b by linarith)
  have h4 := mul_nonneg h2 hu
  refine h3.trans ?_
  nlinarith

/-! ## Implicit-explicit method -/

/-- The operator of the implicit-explicit method: results lie between bounds of the right-hand side. -/
theorem imex_ge (hdt : 0 ≤ dt) {d : K} (hd : 0 ≤ d) {g r : Fin P.mx × Fin P.my → K}
    (h : ∀ p, g p - dt * (d * P.lap g p) = r p) {m : K} (hr : ∀ p, m ≤ r p) (p : Fin P.mx × Fin P.my) : m ≤ g p := by
  obtain ⟨p', hp⟩ := exists_min P g p
  refine le_trans ?_ (hp p)
  have hl := mul_nonneg hdt (mul_nonneg hd (lap_at_min P g p' hp))
  have := h p'
  have := hr p'
  linarith

theorem imex_le (hdt : 0 ≤ dt) {d : K} (hd : 0 ≤ d) {g r : Fin P.mx × Fin P.my → K}
    (h : ∀ p, g p - dt * (d * P.lap g p) = r p) {m : K} (hr : ∀ p, r p ≤ m) (p : Fin P.mx × Fin P.my) : g p ≤ m := by
  obtain ⟨p', hp⟩ := exists_max' P g p
  refine (hp p).trans ?_
  have hl := mul_nonpos_of_nonneg_of_nonpos hdt (mul_nonpos_of_nonneg_of_nonpos hd (lap_at_max P g p' hp))
  have := h p'
  have := hr p'
  linarith

/-- Implicit-explicit method: the same, if the step size is small compared with the rates of the reaction.  (Without that
it fails, see `C119_counterexample`.) -/
theorem C119_imex_partial (hP : P.Phys) (hdt : 0 ≤ dt) (h0 : ∀ q, 0 ≤ x0 q) (hb : dt * P.b ≤ 1)
    (ha : ∀ p, dt * (x0 (p, true) ^ 2 + P.a) ≤ 1) (h : P.Step .IMEX dt x0 x) :
    (∀ q, 0 ≤ x q) ∧ ∀ M, 1 ≤ M → (∀ p, x0 (p, false) ≤ M) → ∀ p, x (p, false) ≤ M := by
  have h := (imex_eq P dt x x0).1 h
  have hda := mul_nonneg hdt hP.a
  refine ⟨fun ⟨p, f⟩ => ?_, fun M hM hx0 p => ?_⟩
  · cases f
    · refine imex_ge hdt hP.du (fun p => (h p).1) (fun p => ?_) p
      have e := mul_nonneg (h0 (p, false)) (sub_nonneg.2 (ha p))
      simp only [U, W]
      nlinarith
    · refine imex_ge hdt hP.dv (fun p => (h p).2) (fun p => ?_) p
      have e := mul_nonneg (h0 (p, true)) (sub_nonneg.2 hb)
      have e' := mul_nonneg hdt (mul_nonneg (h0 (p, false)) (sq_nonneg (x0 (p, true))))
      simp only [U, W]
      nlinarith
  · refine imex_le hdt hP.du (fun p => (h p).1) (fun p => ?_) p
    have e' := mul_nonneg hdt (mul_nonneg (h0 (p, false)) (sq_nonneg (x0 (p, true))))
    have hda1 : dt * P.a ≤ 1 := by
      have := ha p
      have := mul_nonneg hdt (sq_nonneg (x0 (p, true)))
      linarith
    have e1 := mul_le_mul_of_nonneg_left (hx0 p) (sub_nonneg.2 hda1)
    have e2 := mul_le_mul_of_nonneg_left hM hda
    simp only [U, W]
    linarith

theorem C119_imex_balance (hP : P.Phys) (h : P.Step .IMEX dt x0 x) :
    ∑ p, (x (p, false) + x (p, true)) = ∑ p, (x0 (p, false) + x0 (p, true)) +
      dt * ∑ p, (P.a * (1 - x0 (p, false)) - P.b * x0 (p, true)) := by
  have h := (imex_eq P dt x x0).1 h
  refine balance_of hP (g := U x) (g' := W x) (α := dt * P.du) (β := dt * P.dv) fun p => ?_
  have e1 := (h p).1
  have e2 := (h p).2
  simp only [U, W] at e1 e2 ⊢
  linear_combination e1 + e2

/-! ## Explicit method -/

/-- Explicit method: the same for step sizes that are also small compared with diffusion. -/
theorem C119_expl_partial (hP : P.Phys) (hdt : 0 ≤ dt) (h0 : ∀ q, 0 ≤ x0 q)
    (hb : dt * (2 * P.dv * (1 / P.dx ^ 2 + 1 / P.dy ^ 2) + P.b) ≤ 1)
    (ha : ∀ p, dt * (2 * P.du * (1 / P.dx ^ 2 + 1 / P.dy ^ 2) + x0 (p, true) ^ 2 + P.a) ≤ 1)
    (h : P.Step .EXPL dt x0 x) :
    (∀ q, 0 ≤ x q) ∧ ∀ M, 1 ≤ M → (∀ p, x0 (p, false) ≤ M) → ∀ p, x (p, false) ≤ M := by
  have h := (expl_eq P dt x x0).1 h
  have hda := mul_nonneg hdt hP.a
  -- the Laplacian from below and from above
  have hge : ∀ (g : Fin P.mx × Fin P.my → K) (p), (∀ q, 0 ≤ g q) →
      -(2 * (1 / P.dx ^ 2 + 1 / P.dy ^ 2) * g p) ≤ P.lap g p := by
    intro g p hg
    have i1 : 0 ≤ 1 / P.dx ^ 2 := one_div_nonneg.2 (sq_nonneg _)
    have i2 : 0 ≤ 1 / P.dy ^ 2 := one_div_nonneg.2 (sq_nonneg _)
    have e : P.lap g p = (g (succ p.1, p.2) + g (pred p.1, p.2)) * (1 / P.dx ^ 2)
        + (g (p.1, pred p.2) + g (p.1, succ p.2)) * (1 / P.dy ^ 2) - 2 * (1 / P.dx ^ 2 + 1 / P.dy ^ 2) * g p := by
      unfold GS.lap; ring
    have j1 := mul_nonneg (add_nonneg (hg (succ p.1, p.2)) (hg (pred p.1, p.2))) i1
    have j2 := mul_nonneg (add_nonneg (hg (p.1, pred p.2)) (hg (p.1, succ p.2))) i2
    linarith
  refine ⟨fun ⟨p, f⟩ => ?_, fun M hM hx0 p => ?_⟩
  · cases f
    · show 0 ≤ U x p
      rw [(h p).1]
      have e := mul_nonneg (h0 (p, false)) (sub_nonneg.2 (ha p))
      have e1 := mul_le_mul_of_nonneg_left (mul_le_mul_of_nonneg_left (hge (U x0) p fun q => h0 (q, false)) hP.du) hdt
      simp only [U, W] at e1 ⊢
      nlinarith
    · show 0 ≤ W x p
      rw [(h p).2]
      have e := mul_nonneg (h0 (p, true)) (sub_nonneg.2 hb)
      have e' := mul_nonneg hdt (mul_nonneg (h0 (p, false)) (sq_nonneg (x0 (p, true))))
      have e1 := mul_le_mul_of_nonneg_left (mul_le_mul_of_nonneg_left (hge (W x0) p fun q => h0 (q, true)) hP.dv) hdt
      simp only [U, W] at e1 e' ⊢
      nlinarith
  · show U x p ≤ M
    rw [(h p).1]
    have e' := mul_nonneg hdt (mul_nonneg (h0 (p, false)) (sq_nonneg (x0 (p, true))))
    have el : P.lap (fun q => M - U x0 q) p = -P.lap (U x0) p := by unfold GS.lap; ring
    have e1 := mul_le_mul_of_nonneg_left (mul_le_mul_of_nonneg_left
      (hge (fun q => M - U x0 q) p fun q => sub_nonneg.2 (hx0 q)) hP.du) hdt
    rw [el] at e1
    have e2 := mul_nonneg (sub_nonneg.2 (hx0 p)) (sub_nonneg.2 (ha p))
    have e3 := mul_le_mul_of_nonneg_left hM hda
    have e4 := mul_nonneg (sub_nonneg.2 (hx0 p)) (mul_nonneg hdt (sq_nonneg (x0 (p, true))))
    simp only [U, W] at e1 e' ⊢
    nlinarith

theorem C119_expl_balance (hP : P.Phys) (h : P.Step .EXPL dt x0 x) :
    ∑ p, (x (p, false) + x (p, true)) = ∑ p, (x0 (p, false) + x0 (p, true)) +
      dt * ∑ p, (P.a * (1 - x0 (p, false)) - P.b * x0 (p, true)) := by
  have h := (expl_eq P dt x x0).1 h
  refine balance_of hP (g := U x0) (g' := W x0) (α := dt * P.du) (β := dt * P.dv) fun p => ?_
  have e1 := (h p).1
  have e2 := (h p).2
  simp only [U, W] at e1 e2 ⊢
  linear_combination e1 + e2

/-- The implicit-explicit step is determined and exists. -/
theorem C118_imex (hP : P.Phys) (hdt : 0 ≤ dt) : ∃! x, P.Step .IMEX dt x0 x := by
  let A : (Pt P → K) →ₗ[K] (Pt P → K) :=
    { toFun := fun x q => x q - dt * applyRow (P.spaceRow q) x
      map_add' := fun x y => by
        funext q
        simp only [applyRow, GS.spaceRow, List.map_cons, List.map_nil, List.sum_cons, List.sum_nil, Pi.add_apply]
        ring
      map_smul' := fun c x => by
        funext q
        simp only [applyRow, GS.spaceRow, List.map_cons, List.map_nil, List.sum_cons, List.sum_nil, Pi.smul_apply,
          smul_eq_mul, RingHom.id_apply]
        ring }
  have hinj : Function.Injective A := by
    rw [← LinearMap.ker_eq_bot, LinearMap.ker_eq_bot']
    intro y hy
    have h1 : ∀ p, U y p - dt * (P.du * P.lap (U y) p) = 0 := fun p => by
      rw [← (row_eq P y p).1]; exact congrFun hy (p, false)
    have h2 : ∀ p, W y p - dt * (P.dv * P.lap (W y) p) = 0 := fun p => by
      rw [← (row_eq P y p).2]; exact congrFun hy (p, true)
    funext ⟨p, f⟩
    cases f
    · exact le_antisymm (imex_le hdt hP.du h1 (fun _ => le_rfl) p) (imex_ge hdt hP.du h1 (fun _ => le_rfl) p)
    · exact le_antisymm (imex_le hdt hP.dv h2 (fun _ => le_rfl) p) (imex_ge hdt hP.dv h2 (fun _ => le_rfl) p)
  have hsurj := LinearMap.injective_iff_surjective.1 hinj
  obtain ⟨y, hy⟩ := hsurj (P.rhsImex dt x0)
  exact ⟨y, fun q => congrFun hy q, fun z hz => hinj (by rw [hy]; exact funext hz)⟩

/-- At most one solution of the implicit equation has components in `[0, M]` and `[0, V]` if the step size is small
compared with the reaction there. -/
theorem C118_unique (hP : P.Phys) (hdt : 0 ≤ dt) {M V : K} (hlt : dt * (V ^ 2 + 2 * M * V) < 1) {y : Pt P → K}
    (hx : P.Step .IMPL dt x0 x) (hy : P.Step .IMPL dt x0 y)
    (bx : ∀ p, 0 ≤ x (p, false) ∧ x (p, false) ≤ M ∧ 0 ≤ x (p, true) ∧ x (p, true) ≤ V)
    (bY : ∀ p, 0 ≤ y (p, false) ∧ y (p, false) ≤ M ∧ 0 ≤ y (p, true) ∧ y (p, true) ≤ V) : x = y := by
  have hx := (function_eq P dt x x0).1 hx
  have hy := (function_eq P dt y x0).1 hy
  by_contra hne
  obtain ⟨q, hq⟩ : ∃ q, x q ≠ y q := by
    by_contra h
    push Not at h
    exact hne (funext h)
  obtain ⟨⟨p, f⟩, -, hp⟩ := Finset.exists_max_image Finset.univ (fun q => |x q - y q|) ⟨q, Finset.mem_univ q⟩
  have hp : ∀ q, |x q - y q| ≤ |x (p, f) - y (p, f)| := fun q => hp q (Finset.mem_univ q)
  set D := |x (p, f) - y (p, f)| with hD
  have hDpos : 0 < D := lt_of_lt_of_le (abs_pos.2 (sub_ne_zero.2 hq)) (hp q)
  obtain ⟨x1, x2, x3, x4⟩ := bx p
  obtain ⟨y1, y2, y3, y4⟩ := bY p
  have hM : 0 ≤ M := x1.trans x2
  have hV : 0 ≤ V := x3.trans x4
  -- the difference of the reactions
  have hreac : |U x p * W x p ^ 2 - U y p * W y p ^ 2| ≤ (V ^ 2 + 2 * M * V) * D := by
    have e : U x p * W x p ^ 2 - U y p * W y p ^ 2 =
        W x p ^ 2 * (x (p, false) - y (p, false)) + U y p * (W x p + W y p) * (x (p, true) - y (p, true)) := by
      simp only [U, W]; ring
    rw [e]
    have h1 : |W x p ^ 2 * (x (p, false) - y (p, false))| ≤ V ^ 2 * D := by
      rw [abs_mul, abs_of_nonneg (sq_nonneg _)]
      exact mul_le_mul (pow_le_pow_left₀ x3 x4 2) (hp _) (abs_nonneg _) (sq_nonneg _)
    have h2 : |U y p * (W x p + W y p) * (x (p, true) - y (p, true))| ≤ 2 * M * V * D := by
      have hn : 0 ≤ U y p * (W x p + W y p) := mul_nonneg y1 (add_nonneg x3 y3)
      rw [abs_mul, abs_of_nonneg hn]
      refine mul_le_mul ?_ (hp _) (abs_nonneg _) (by positivity)
      have h3 : U y p * (W x p + W y p) ≤ M * (V + V) := mul_le_mul y2 (add_le_add x4 y4) (add_nonneg x3 y3) hM
      linarith
    refine (abs_add_le _ _).trans ?_
    linarith
  have hreac := abs_le.1 hreac
  have hlap : ∀ g g' : Fin P.mx × Fin P.my → K, P.lap (fun q => g q - g' q) p = P.lap g p - P.lap g' p := by
    intro g g'; unfold GS.lap; ring
  have hr1 := mul_le_mul_of_nonneg_left hreac.1 hdt
  have hr2 := mul_le_mul_of_nonneg_left hreac.2 hdt
  have hlt' := mul_lt_mul_of_pos_right hlt hDpos
  cases f
  · have e1 := (hx p).1
    have e2 := (hy p).1
    have ha := mul_nonneg hdt hP.a
    rcases le_total 0 (x (p, false) - y (p, false)) with h0 | h0
    · rw [abs_of_nonneg h0] at hD
      have hl := lap_at_max P (fun q => U x q - U y q) p fun q => by
        have := (le_abs_self _).trans (hp (q, false))
        rw [hD] at this
        exact this
      rw [hlap] at hl
      have hl := mul_nonpos_of_nonneg_of_nonpos hdt (mul_nonpos_of_nonneg_of_nonpos hP.du hl)
      have := mul_nonneg ha h0
      simp only [U, W] at *
      nlinarith
    · rw [abs_of_nonpos h0] at hD
      have hl := lap_at_min P (fun q => U x q - U y q) p fun q => by
        have := (neg_abs_le (x (q, false) - y (q, false)))
        have := hp (q, false)
        simp only [U]
        linarith
      rw [hlap] at hl
      have hl := mul_nonneg hdt (mul_nonneg hP.du hl)
      have := mul_nonneg ha (neg_nonneg.2 h0)
      simp only [U, W] at *
      nlinarith
  · have e1 := (hx p).2
    have e2 := (hy p).2
    have ha := mul_nonneg hdt hP.b
    rcases le_total 0 (x (p, true) - y (p, true)) with h0 | h0
    · rw [abs_of_nonneg h0] at hD
      have hl := lap_at_max P (fun q => W x q - W y q) p fun q => by
        have := (le_abs_self _).trans (hp (q, true))
        rw [hD] at this
        exact this
      rw [hlap] at hl
      have hl := mul_nonpos_of_nonneg_of_nonpos hdt (mul_nonpos_of_nonneg_of_nonpos hP.dv hl)
      have := mul_nonneg ha h0
      simp only [U, W] at *
      nlinarith
    · rw [abs_of_nonpos h0] at hD
      have hl := lap_at_min P (fun q => W x q - W y q) p fun q => by
        have := (neg_abs_le (x (q, true) - y (q, true)))
        have := hp (q, true)
        simp only [W]
        linarith
      rw [hlap] at hl
      have hl := mul_nonneg hdt (mul_nonneg hP.dv hl)
      have := mul_nonneg ha (neg_nonneg.2 h0)
      simp only [U, W] at *
      nlinarith

/-! ## The uniform state -/

/-- Specification: the state without the second substance. -/
def rest : Pt P → K := fun q => if q.2 then 0 else 1

theorem lap_const (P : GS K) (c : K) (p : Fin P.mx × Fin P.my) : P.lap (fun _ => c) p = 0 := by
  unfold GS.lap; ring

/-- It is stationary, for every method and step size. -/
theorem C119_rest (m : GSMethod) (dt : K) : P.Step m dt (rest (P := P)) rest := by
  have hU : U (rest (P := P)) = fun _ => 1 := rfl
  have hW : W (rest (P := P)) = fun _ => 0 := rfl
  cases m
  · refine (function_eq P dt _ _).2 fun p => ?_
    rw [hU, hW, lap_const, lap_const]
    constructor <;> ring
  · refine (imex_eq P dt _ _).2 fun p => ?_
    rw [hU, hW, lap_const, lap_const]
    constructor <;> ring
  · refine (expl_eq P dt _ _).2 fun p => ?_
    rw [hU, hW, lap_const, lap_const]
    constructor <;> ring

theorem mean_aux {u w C B : K} (hdt : 0 ≤ dt) (hu : 0 ≤ u) (hB : 0 ≤ B) (hC : 0 < C) (h1 : B ≤ dt * (u * w))
    (h2 : u * (C + dt * w ^ 2) ≤ C) : 4 * B ^ 2 ≤ dt * C := by
  have h3 : B ^ 2 ≤ (dt * (u * w)) ^ 2 := pow_le_pow_left₀ hB h1 2
  have h4 : 4 * C * (dt * w ^ 2) ≤ (C + dt * w ^ 2) ^ 2 := by
    have := sq_nonneg (C - dt * w ^ 2)
    linarith [show (C + dt * w ^ 2) ^ 2 = 4 * C * (dt * w ^ 2) + (C - dt * w ^ 2) ^ 2 by ring]
  have hk0 : 0 ≤ C + dt * w ^ 2 := add_nonneg hC.le (mul_nonneg hdt (sq_nonneg _))
  have h5 : (u * (C + dt * w ^ 2)) ^ 2 ≤ C ^ 2 := pow_le_pow_left₀ (mul_nonneg hu hk0) h2 2
  have h6 : u ^ 2 * (4 * C * (dt * w ^ 2)) ≤ C ^ 2 :=
    (mul_le_mul_of_nonneg_left h4 (sq_nonneg _)).trans (by rw [← mul_pow]; exact h5)
  have h7 : 4 * (dt * (u * w)) ^ 2 * C ≤ dt * C * C := by
    have := mul_le_mul_of_nonneg_left h6 hdt
    calc 4 * (dt * (u * w)) ^ 2 * C = dt * (u ^ 2 * (4 * C * (dt * w ^ 2))) := by ring
      _ ≤ dt * C ^ 2 := this
      _ = _ := by ring
  have h8 : 4 * (dt * (u * w)) ^ 2 ≤ dt * C := le_of_mul_le_mul_right h7 hC
  linarith

/-- The implicit step from it is determined for small step sizes. -/
theorem C118_rest_unique (hP : P.Phys) (hdt : 0 ≤ dt)
    (hlt : dt * (1 + dt * P.a + 2 * dt * P.du * (1 / P.dx ^ 2 + 1 / P.dy ^ 2)) < 4 * (1 + dt * P.b) ^ 2)
    (h : P.Step .IMPL dt rest x) : x = rest := by
  have hr : ∀ q, (0 : K) ≤ rest (P := P) q := by
    rintro ⟨p, f⟩
    cases f
    · exact zero_le_one
    · exact le_rfl
  obtain ⟨hn, hM⟩ := C119_impl hP hdt hr h
  have hu1 : ∀ p, U x p ≤ 1 := hM 1 le_rfl fun p => le_rfl
  have h := (function_eq P dt x rest).1 h
  have hda := mul_nonneg hdt hP.a
  have hdb := mul_nonneg hdt hP.b
  have hw : ∀ q, W x q = 0 := by
    intro q
    obtain ⟨p, hp⟩ := exists_max' P (W x) q
    have hnp : 0 ≤ W x p := hn (p, true)
    rcases hnp.eq_or_lt with h0 | hpos
    · exact le_antisymm (by rw [h0]; exact hp q) (hn (q, true))
    exfalso
    have e1 := (h p).1
    have e2 := (h p).2
    have hl := mul_nonpos_of_nonneg_of_nonpos hdt (mul_nonpos_of_nonneg_of_nonpos hP.dv (lap_at_max P (W x) p hp))
    have z1 : U (rest (P := P)) p = 1 := rfl
    have z2 : W (rest (P := P)) p = 0 := rfl
    rw [z1] at e1
    rw [z2] at e2
    -- the reaction must replace the loss
    have h1 : (1 + dt * P.b) ≤ dt * (U x p * W x p) := by
      have : (1 + dt * P.b) * W x p ≤ dt * (U x p * W x p) * W x p := by nlinarith
      exact le_of_mul_le_mul_right this hpos
    -- but the first substance is used up
    have hlu : P.lap (U x) p ≤ 2 * (1 / P.dx ^ 2 + 1 / P.dy ^ 2) * (1 - U x p) := by
      have i1 : 0 ≤ 1 / P.dx ^ 2 := one_div_nonneg.2 (sq_nonneg _)
      have i2 : 0 ≤ 1 / P.dy ^ 2 := one_div_nonneg.2 (sq_nonneg _)
      have e : P.lap (U x) p = (U x (succ p.1, p.2) + U x (pred p.1, p.2) - 2) * (1 / P.dx ^ 2)
          + (U x (p.1, pred p.2) + U x (p.1, succ p.2) - 2) * (1 / P.dy ^ 2)
          + 2 * (1 / P.dx ^ 2 + 1 / P.dy ^ 2) * (1 - U x p) := by
        unfold GS.lap; ring
      have j1 := mul_nonpos_of_nonpos_of_nonneg
        (show U x (succ p.1, p.2) + U x (pred p.1, p.2) - 2 ≤ 0 by linarith [hu1 (succ p.1, p.2), hu1 (pred p.1, p.2)]) i1
      have j2 := mul_nonpos_of_nonpos_of_nonneg
        (show U x (p.1, pred p.2) + U x (p.1, succ p.2) - 2 ≤ 0 by linarith [hu1 (p.1, pred p.2), hu1 (p.1, succ p.2)]) i2
      linarith
    have hlu := mul_le_mul_of_nonneg_left (mul_le_mul_of_nonneg_left hlu hP.du) hdt
    set C := 1 + dt * P.a + 2 * dt * P.du * (1 / P.dx ^ 2 + 1 / P.dy ^ 2) with hC
    have hCpos : 0 < C := by
      have : 0 ≤ 1 / P.dx ^ 2 + 1 / P.dy ^ 2 := add_nonneg (one_div_nonneg.2 (sq_nonneg _)) (one_div_nonneg.2 (sq_nonneg _))
      have := mul_nonneg (mul_nonneg (mul_nonneg zero_le_two hdt) hP.du) this
      rw [hC]
      linarith
    have h2 : U x p * (C + dt * W x p ^ 2) ≤ C := by rw [hC]; linarith
    have := mean_aux hdt (hn (p, false)) (show 0 ≤ 1 + dt * P.b by linarith) hCpos h1 h2
    linarith
  have hu : ∀ q, 1 ≤ U x q := by
    intro q
    obtain ⟨p, hp⟩ := exists_min P (U x) q
    refine le_trans ?_ (hp q)
    have hl := mul_nonneg hdt (mul_nonneg hP.du (lap_at_min P (U x) p hp))
    have e1 := (h p).1
    have z1 : U (rest (P := P)) p = 1 := rfl
    rw [z1, hw p] at e1
    by_contra hc
    push Not at hc
    have := mul_nonneg hda (show 0 ≤ 1 - U x p by linarith)
    nlinarith
  funext ⟨p, f⟩
  cases f
  · exact le_antisymm (hu1 p) (hu p)
  · exact hw p

/-- Newton's method from the zero vector, where `snes.solve` starts, finds it in one pass (equal spacings; for different
ones the matrix of `formJacobian` is wrong, see `C63_counterexample`). -/
theorem C118_rest_newton (hP : P.Phys) (hdt : 0 ≤ dt) (hd : P.dx ^ 2 = P.dy ^ 2) :
    P.Newton dt rest (fun _ => 0) x ↔ x = rest := by
  have hda := mul_nonneg hdt hP.a
  have hdb := mul_nonneg hdt hP.b
  have key : P.Newton dt rest (fun _ => 0) x ↔ ∀ p,
      (1 + dt * P.a) * U x p - dt * (P.du * P.lap (U x) p) = 1 + dt * P.a ∧
      (1 + dt * P.b) * W x p - dt * (P.dv * P.lap (W x) p) = 0 := by
    have e1 : ∀ p, applyRow (P.jacRow dt (fun _ => 0) (p, false)) (fun p => x p - 0)
        = (1 + dt * P.a) * U x p - dt * (P.du * P.lap (U x) p) := by
      intro p
      simp only [GS.jacRow, applyRow, List.map_cons, List.map_nil, List.sum_cons, List.sum_nil, GS.lap, U,
        Bool.false_eq_true, if_false, hd]
      ring
    have e2 : ∀ p, applyRow (P.jacRow dt (fun _ => 0) (p, true)) (fun p => x p - 0)
        = (1 + dt * P.b) * W x p - dt * (P.dv * P.lap (W x) p) := by
      intro p
      simp only [GS.jacRow, applyRow, List.map_cons, List.map_nil, List.sum_cons, List.sum_nil, GS.lap, W,
        if_true, hd]
      ring
    have f1 : ∀ p, rest (p, false) - P.function dt (fun _ => 0) (p, false) = 1 + dt * P.a := by
      intro p; simp only [GS.function, rest, Bool.false_eq_true, if_false]; ring
    have f2 : ∀ p, rest (p, true) - P.function dt (fun _ => 0) (p, true) = 0 := by
      intro p; simp only [GS.function, rest, if_true]; ring
    constructor
    · intro h p
      exact ⟨(e1 p).symm.trans ((h (p, false)).trans (f1 p)), (e2 p).symm.trans ((h (p, true)).trans (f2 p))⟩
    · rintro h ⟨p, f⟩
      cases f
      · show applyRow (P.jacRow dt (fun _ => 0) (p, false)) (fun p => x p - 0) = _
        rw [e1, f1]; exact (h p).1
      · show applyRow (P.jacRow dt (fun _ => 0) (p, true)) (fun p => x p - 0) = _
        rw [e2, f2]; exact (h p).2
  rw [key]
  constructor
  · intro h
    funext ⟨p, f⟩
    cases f
    · show U x p = 1
      refine le_antisymm ?_ ?_
      · obtain ⟨q, hq⟩ := exists_max' P (U x) p
        refine (hq p).trans ?_
        have hl := mul_nonpos_of_nonneg_of_nonpos hdt (mul_nonpos_of_nonneg_of_nonpos hP.du (lap_at_max P (U x) q hq))
        have := (h q).1
        by_contra hc
        nlinarith
      · obtain ⟨q, hq⟩ := exists_min P (U x) p
        refine le_trans ?_ (hq p)
        have hl := mul_nonneg hdt (mul_nonneg hP.du (lap_at_min P (U x) q hq))
        have := (h q).1
        by_contra hc
        nlinarith
    · show W x p = 0
      refine le_antisymm ?_ ?_
      · obtain ⟨q, hq⟩ := exists_max' P (W x) p
        refine (hq p).trans ?_
        have hl := mul_nonpos_of_nonneg_of_nonpos hdt (mul_nonpos_of_nonneg_of_nonpos hP.dv (lap_at_max P (W x) q hq))
        have := (h q).2
        by_contra hc
        nlinarith
      · obtain ⟨q, hq⟩ := exists_min P (W x) p
        refine le_trans ?_ (hq p)
        have hl := mul_nonneg hdt (mul_nonneg hP.dv (lap_at_min P (W x) q hq))
        have := (h q).2
        by_contra hc
        nlinarith
  · rintro rfl p
    have hU : U (rest (P := P)) = fun _ => 1 := rfl
    have hW : W (rest (P := P)) = fun _ => 0 := rfl
    rw [hU, hW, lap_const, lap_const]
    constructor <;> ring

/-- Implicit-explicit and explicit method: for every step size there are concentrations from which the first one becomes
negative. -/
theorem C119_counterexample (P : GS K) (m : GSMethod) (hm : m = .IMEX ∨ m = .EXPL) (hdt : 0 < dt)
    (p : Fin P.mx × Fin P.my) :
    ∃ x0 x : Pt P → K, (∀ q, 0 ≤ x0 q) ∧ P.Step m dt x0 x ∧ x (p, false) < 0 := by
  have hpos : 0 < 1 / dt := one_div_pos.2 hdt
  let v : K := 1 + 1 / dt
  have hv : dt * v ^ 2 = dt + 2 + 1 / dt := by
    show dt * (1 + 1 / dt) ^ 2 = _
    field_simp
    ring
  refine ⟨fun q => if q.2 then v else 1, fun q => if q.2 then v + dt * (v ^ 2 - P.b * v) else 1 - dt * v ^ 2, ?_, ?_, ?_⟩
  · rintro ⟨p, f⟩
    cases f
    · exact zero_le_one
    · show 0 ≤ 1 + 1 / dt
      linarith
  · have u1 : U (P := P) (fun q => if q.2 then v else (1 : K)) = fun _ => 1 := rfl
    have w1 : W (P := P) (fun q => if q.2 then v else (1 : K)) = fun _ => v := rfl
    have u2 : U (P := P) (fun q => if q.2 then v + dt * (v ^ 2 - P.b * v) else 1 - dt * v ^ 2) =
      fun _ => 1 - dt * v ^ 2 := rfl
    have w2 : W (P := P) (fun q => if q.2 then v + dt * (v ^ 2 - P.b * v) else 1 - dt * v ^ 2) =
      fun _ => v + dt * (v ^ 2 - P.b * v) := rfl
    rcases hm with rfl | rfl
    · refine (imex_eq P dt _ _).2 fun p => ?_
      rw [u1, w1, u2, w2, lap_const, lap_const]
      constructor <;> ring
    · refine (expl_eq P dt _ _).2 fun p => ?_
      rw [u1, w1, u2, w2, lap_const, lap_const]
      constructor <;> ring
  · show 1 - dt * v ^ 2 < 0
    rw [hv]
    linarith

end order

/-! ## Solvability of the implicit equation -/

section real
variable {P : GS ℝ} {dt : ℝ} {x0 : Pt P → ℝ}

/-- The implicit equation has a solution for every step size and all concentrations that are not negative. -/
theorem C118_exists (hP : P.Phys) (hdt : 0 ≤ dt) (h0 : ∀ q, 0 ≤ x0 q) : ∃ x, P.Step .IMPL dt x0 x := by
  classical
  -- the amount bounds every solution
  set S : ℝ := ∑ p, (x0 (p, false) + x0 (p, true)) + dt * P.a * (P.mx * P.my) with hS
  have hS0 : 0 ≤ S := by
    have := Finset.sum_nonneg fun p (_ : p ∈ (Finset.univ : Finset (Fin P.mx × Fin P.my))) =>
      add_nonneg (h0 (p, false)) (h0 (p, true))
    have := mul_nonneg (mul_nonneg hdt hP.a) (show (0 : ℝ) ≤ P.mx * P.my by positivity)
    linarith
  -- reaction cut off beyond the bound
  let cut : ℝ → ℝ := fun v => min v S
  let M : ℝ := 1 + ∑ q, x0 q
  let V : ℝ := ∑ q, x0 q + dt * (M * S ^ 2)
  have hle : ∀ q, x0 q ≤ ∑ q, x0 q := fun q =>
    Finset.single_le_sum (fun q _ => h0 q) (Finset.mem_univ q)
  have hsum : 0 ≤ ∑ q, x0 q := Finset.sum_nonneg fun q _ => h0 q
  have hM : 1 ≤ M := by show 1 ≤ 1 + _; linarith
  have hV : 0 ≤ V := add_nonneg hsum (mul_nonneg hdt (mul_nonneg (by linarith) (sq_nonneg _)))
  let F : (Pt P → ℝ) → Pt P → ℝ := fun x q =>
    if q.2 then
      W x q.1 - dt * (P.dv * P.lap (W x) q.1 + U x q.1 * cut (W x q.1) ^ 2 - P.b * W x q.1) - x0 q
    else
      U x q.1 - dt * (P.du * P.lap (U x) q.1 - U x q.1 * cut (W x q.1) ^ 2 + P.a * (1 - U x q.1)) - x0 q
  have hF : Continuous F := by
    refine continuous_pi fun ⟨p, f⟩ => ?_
    cases f
    · show Continuous fun x : Pt P → ℝ =>
        U x p - dt * (P.du * P.lap (U x) p - U x p * cut (W x p) ^ 2 + P.a * (1 - U x p)) - x0 (p, false)
      simp only [GS.lap, U, W, cut]
      fun_prop
    · show Continuous fun x : Pt P → ℝ =>
        W x p - dt * (P.dv * P.lap (W x) p + U x p * cut (W x p) ^ 2 - P.b * W x p) - x0 (p, true)
      simp only [GS.lap, U, W, cut]
      fun_prop
  let hi : Pt P → ℝ := fun q => if q.2 then V else M
  obtain ⟨x, hx, e⟩ := Brouwer.exists_zero_box (lo := fun _ => 0) (hi := hi) hF
    (by
      rintro ⟨p, f⟩
      cases f
      · show 0 ≤ M; linarith
      · exact hV)
    (by
      rintro x hx ⟨p, f⟩ e
      cases f
      · have e : U x p = 0 := e
        have hl := mul_nonneg hdt (mul_nonneg hP.du (lap_at_min P (U x) p fun q => by rw [e]; exact (hx (q, false)).1))
        have := h0 (p, false)
        have := mul_nonneg hdt hP.a
        show U x p - dt * (P.du * P.lap (U x) p - U x p * cut (W x p) ^ 2 + P.a * (1 - U x p)) - x0 (p, false) ≤ 0
        rw [e]
        nlinarith
      · have e : W x p = 0 := e
        have hl := mul_nonneg hdt (mul_nonneg hP.dv (lap_at_min P (W x) p fun q => by rw [e]; exact (hx (q, true)).1))
        have := h0 (p, true)
        have hc : cut 0 = 0 := min_eq_left hS0
        show W x p - dt * (P.dv * P.lap (W x) p + U x p * cut (W x p) ^ 2 - P.b * W x p) - x0 (p, true) ≤ 0
        rw [e, hc]
        nlinarith)
    (by
      rintro x hx ⟨p, f⟩ e
      cases f
      · have e : U x p = M := e
        have hl := mul_nonpos_of_nonneg_of_nonpos hdt (mul_nonpos_of_nonneg_of_nonpos hP.du
          (lap_at_max P (U x) p fun q => by rw [e]; exact (hx (q, false)).2))
        have h1 := hle (p, false)
        have h2 := mul_nonneg (mul_nonneg hdt hP.a) (sub_nonneg.2 hM)
        have h3 := mul_nonneg hdt (mul_nonneg (show 0 ≤ M by linarith) (sq_nonneg (cut (W x p))))
        show 0 ≤ U x p - dt * (P.du * P.lap (U x) p - U x p * cut (W x p) ^ 2 + P.a * (1 - U x p)) - x0 (p, false)
        rw [e]
        have h4 : M = 1 + ∑ q, x0 q := rfl
        nlinarith
      · have e : W x p = V := e
        have hl := mul_nonpos_of_nonneg_of_nonpos hdt (mul_nonpos_of_nonneg_of_nonpos hP.dv
          (lap_at_max P (W x) p fun q => by rw [e]; exact (hx (q, true)).2))
        have h1 := hle (p, true)
        have h2 := mul_nonneg (mul_nonneg hdt hP.b) hV
        have hu := hx (p, false)
        have hu1 : 0 ≤ U x p := hu.1
        have hu2 : U x p ≤ M := hu.2
        have hc0 : 0 ≤ cut V := le_min hV hS0
        have h3 : U x p * cut V ^ 2 ≤ M * S ^ 2 :=
          mul_le_mul hu2 (pow_le_pow_left₀ hc0 (min_le_right _ _) 2) (sq_nonneg _) (by linarith)
        have h3 := mul_le_mul_of_nonneg_left h3 hdt
        show 0 ≤ W x p - dt * (P.dv * P.lap (W x) p + U x p * cut (W x p) ^ 2 - P.b * W x p) - x0 (p, true)
        rw [e]
        have h4 : V = ∑ q, x0 q + dt * (M * S ^ 2) := rfl
        nlinarith)
  have eu : ∀ p, U x p - dt * (P.du * P.lap (U x) p - U x p * cut (W x p) ^ 2 + P.a * (1 - U x p)) = U x0 p :=
    fun p => sub_eq_zero.1 (congrFun e (p, false))
  have ev : ∀ p, W x p - dt * (P.dv * P.lap (W x) p + U x p * cut (W x p) ^ 2 - P.b * W x p) = W x0 p :=
    fun p => sub_eq_zero.1 (congrFun e (p, true))
  -- the balance shows that the cut is not active
  have hb := balance_of hP (x := x) (x0 := x0) (dt := dt) (s := fun p => P.a * (1 - x (p, false)) - P.b * x (p, true))
    (g := U x) (g' := W x) (α := dt * P.du) (β := dt * P.dv) fun p => by
      have e1 := eu p
      have e2 := ev p
      simp only [U, W] at e1 e2 ⊢
      linear_combination e1 + e2
  have e1 : ∑ p, (P.a * (1 - x (p, false)) - P.b * x (p, true)) =
      P.a * (P.mx * P.my) - P.a * ∑ p, x (p, false) - P.b * ∑ p, x (p, true) := by
    simp only [mul_sub, mul_one, Finset.sum_sub_distrib, ← Finset.mul_sum, Finset.sum_const, Finset.card_univ,
      Fintype.card_prod, Fintype.card_fin, nsmul_eq_mul]
    push_cast
    ring
  have hcut : ∀ p, cut (W x p) = W x p := by
    intro p
    refine min_eq_left ?_
    have hu : 0 ≤ ∑ p, x (p, false) := Finset.sum_nonneg fun p _ => (hx (p, false)).1
    have hv0 : 0 ≤ ∑ p, x (p, true) := Finset.sum_nonneg fun p _ => (hx (p, true)).1
    have hv : x (p, true) ≤ ∑ p, x (p, true) :=
      Finset.single_le_sum (f := fun p => x (p, true)) (fun p _ => (hx (p, true)).1) (Finset.mem_univ p)
    rw [e1, Finset.sum_add_distrib] at hb
    have h1 := mul_nonneg (mul_nonneg hdt hP.a) hu
    have h2 := mul_nonneg (mul_nonneg hdt hP.b) hv0
    show x (p, true) ≤ S
    rw [hS]
    nlinarith
  refine ⟨x, (function_eq P dt x x0).2 fun p => ⟨?_, ?_⟩⟩
  · have := eu p
    rwa [hcut] at this
  · have := ev p
    rwa [hcut] at this

/-- Large steps from the uniform state are not determined: there is a second solution, with both substances. -/
theorem C118_rest_multiple (hb : 0 ≤ P.b) (hdt : 0 < dt)
    (hge : 4 * (1 + dt * P.b) ^ 2 ≤ dt * (1 + dt * P.a)) :
    ∃ x, P.Step .IMPL dt rest x ∧ ∀ p, 0 < x (p, false) ∧ x (p, false) < 1 ∧ 0 < x (p, true) := by
  set A := 1 + dt * P.a with hA
  set B := 1 + dt * P.b with hB
  have hB1 : 1 ≤ B := by have := mul_nonneg hdt.le hb; rw [hB]; linarith
  have hA0 : 0 < A := by
    by_contra hc
    push Not at hc
    have := mul_nonpos_of_nonneg_of_nonpos hdt.le hc
    nlinarith
  have hdisc : 0 ≤ dt * A * (dt * A - 4 * B ^ 2) := mul_nonneg (mul_nonneg hdt.le hA0.le) (by linarith)
  -- larger zero of `B v² - A v + A B / dt`
  set v := (dt * A + √(dt * A * (dt * A - 4 * B ^ 2))) / (2 * dt * B) with hv
  have hden : 0 < 2 * dt * B := by positivity
  have hv0 : 0 < v := by
    rw [hv]
    have := Real.sqrt_nonneg (dt * A * (dt * A - 4 * B ^ 2))
    have := mul_pos hdt hA0
    positivity
  have hq : dt * (B * v ^ 2) - dt * A * v + A * B = 0 := by
    have hs := Real.sq_sqrt hdisc
    set r := √(dt * A * (dt * A - 4 * B ^ 2))
    have e : 2 * dt * B * v = dt * A + r := by rw [hv]; field_simp
    have e2 : 4 * dt * B * (dt * (B * v ^ 2) - dt * A * v + A * B) = 0 := by
      have e3 : 4 * dt * B * (dt * (B * v ^ 2) - dt * A * v + A * B)
          = (2 * dt * B * v) ^ 2 - 2 * dt * A * (2 * dt * B * v) + 4 * dt * A * B ^ 2 := by ring
      rw [e3, e]
      nlinarith
    exact (mul_eq_zero.1 e2).resolve_left (by positivity)
  set u := B / (dt * v) with hu
  have huv : dt * (u * v) = B := by rw [hu]; field_simp
  have hu0 : 0 < u := by rw [hu]; positivity
  have hAu : A * u + dt * (u * v ^ 2) = A := by
    have e1 : dt * (u * v ^ 2) = B * v := by rw [← huv]; ring
    have e2 : (A * u + dt * (u * v ^ 2) - A) * (dt * v) = 0 := by
      have : (A * u + dt * (u * v ^ 2) - A) * (dt * v) = A * (dt * (u * v)) + dt * (dt * (u * v ^ 2)) * v - dt * A * v := by
        ring
      rw [this, e1, huv]
      linear_combination hq
    have := (mul_eq_zero.1 e2).resolve_right (by positivity)
    linarith
  have hu1 : u < 1 := by
    have : 0 < dt * (u * v ^ 2) := by positivity
    by_contra hc
    push Not at hc
    nlinarith
  refine ⟨fun q => if q.2 then v else u, (function_eq P dt _ _).2 fun p => ?_, fun p => ⟨hu0, hu1, hv0⟩⟩
  have u2 : U (P := P) (fun q => if q.2 then v else u) = fun _ => u := rfl
  have w2 : W (P := P) (fun q => if q.2 then v else u) = fun _ => v := rfl
  have hU : U (rest (P := P)) = fun _ => 1 := rfl
  have hW : W (rest (P := P)) = fun _ => 0 := rfl
  rw [u2, w2, hU, hW, lap_const, lap_const]
  constructor
  · linear_combination hAu
  · linear_combination -v * huv

/-! ## The initial value -/

theorem bump_bounds (x y : ℝ) : 0 ≤ GS.bump x y ∧ GS.bump x y ≤ 1 / 4 := by
  unfold GS.bump
  split
  · have h1 := Real.sin_sq_le_one (4 * Real.pi * x)
    have h2 := Real.sin_sq_le_one (4 * Real.pi * y)
    have h3 := sq_nonneg (Real.sin (4 * Real.pi * x))
    have h4 := sq_nonneg (Real.sin (4 * Real.pi * y))
    constructor
    · positivity
    · nlinarith
  · norm_num

/-- The initial value: concentrations between 0 and 1. -/
theorem C119_initial (P : GS ℝ) (p : Fin P.mx × Fin P.my) :
    0 ≤ P.initialGuess (p, true) ∧ P.initialGuess (p, true) ≤ 1 / 4 ∧
    P.initialGuess (p, false) = 1 - 2 * P.initialGuess (p, true) := by
  have := bump_bounds ((p.1 : Nat) * P.dx) ((p.2 : Nat) * P.dy)
  exact ⟨this.1, this.2, rfl⟩

/-- The initial value differs from the uniform state inside the square `(1, 3/2)²` only. -/
theorem C119_support (P : GS ℝ) {p : Fin P.mx × Fin P.my} (h : P.initialGuess (p, true) ≠ 0) :
    (1 < (p.1 : Nat) * P.dx ∧ (p.1 : Nat) * P.dx < 3 / 2) ∧ 1 < (p.2 : Nat) * P.dy ∧ (p.2 : Nat) * P.dy < 3 / 2 := by
  have key : ∀ x y, GS.bump x y ≠ 0 → (1 < x ∧ x < 3 / 2) ∧ 1 < y ∧ y < 3 / 2 := by
    intro x y h
    have s1 : ∀ z : ℝ, Real.sin (4 * Real.pi * z) ≠ 0 → 1 ≠ z ∧ z ≠ 15 / 10 := by
      intro z hz
      refine ⟨fun e => hz ?_, fun e => hz ?_⟩
      · rw [← e, show 4 * Real.pi * 1 = (4 : ℕ) * Real.pi by push_cast; ring, Real.sin_nat_mul_pi]
      · rw [e, show 4 * Real.pi * (15 / 10) = (6 : ℕ) * Real.pi by push_cast; ring, Real.sin_nat_mul_pi]
    unfold GS.bump at h
    split at h
    · rename_i hr
      obtain ⟨a1, a2, a3, a4⟩ := hr
      have hx : Real.sin (4 * Real.pi * x) ≠ 0 := fun e => h (by rw [e]; ring)
      have hy : Real.sin (4 * Real.pi * y) ≠ 0 := fun e => h (by rw [e]; ring)
      have := lt_of_le_of_ne a1 (s1 x hx).1
      have := lt_of_le_of_ne a2 (s1 x hx).2
      have := lt_of_le_of_ne a3 (s1 y hy).1
      have := lt_of_le_of_ne a4 (s1 y hy).2
      refine ⟨⟨?_, ?_⟩, ?_, ?_⟩ <;> linarith
    · exact absurd rfl h
  exact key _ _ h

/-- On domains up to the default size the initial value is the uniform state. -/
theorem C119_initial_trivial (mx my : Nat) (du dv a b : ℝ) {L : ℝ} (hL : L ≤ 1) :
    (GS.make mx my du dv a b L).initialGuess = rest := by
  have hb : ∀ p : Fin mx × Fin my, GS.bump ((p.1 : Nat) * (L / mx)) ((p.2 : Nat) * (L / my)) = 0 := by
    intro p
    refine if_neg fun h => ?_
    have hp : ((p.1 : Nat) : ℝ) < mx := by exact_mod_cast p.1.isLt
    have hm : (0 : ℝ) < mx := lt_of_le_of_lt (Nat.cast_nonneg _) hp
    have h1 := h.1
    rw [mul_div_assoc', le_div_iff₀ hm, one_mul] at h1
    have h0 : (0 : ℝ) ≤ (p.1 : Nat) := Nat.cast_nonneg _
    nlinarith
  funext ⟨p, f⟩
  cases f
  · show 1 - 2 * GS.bump ((p.1 : Nat) * (L / mx)) ((p.2 : Nat) * (L / my)) = 1
    have := hb p
    linarith
  · exact hb p

/-- Then time stepping stays there, for every method, if the implicit steps are small enough to be determined. -/
theorem C119_trivial_run {C N : Type} (mx my : Nat) (du dv a b : ℝ) {L : ℝ} (hL : L ≤ 1)
    (hP : (GS.make mx my du dv a b L).Phys) (E : Cfg (Pt (GS.make mx my du dv a b L) → ℝ) C ℝ N) (m : GSMethod)
    (hstart : E.start 0 = (GS.make mx my du dv a b L).initialGuess)
    (hgrid : ∀ i, 0 < i → i < (grid E.ts 0).length → tAt (grid E.ts 0) (i - 1) ≤ tAt (grid E.ts 0) i)
    (hstep : ∀ i x, 0 < i → i < (grid E.ts 0).length →
      (GS.make mx my du dv a b L).Step m (tAt (grid E.ts 0) i - tAt (grid E.ts 0) (i - 1)) x
        (E.step 0 x (tAt (grid E.ts 0) (i - 1)) (tAt (grid E.ts 0) i)))
    (hsmall : m = .IMPL → ∀ i, 0 < i → i < (grid E.ts 0).length →
      let dt := tAt (grid E.ts 0) i - tAt (grid E.ts 0) (i - 1)
      dt * (1 + dt * a + 2 * dt * du * (1 / (L / mx) ^ 2 + 1 / (L / my) ^ 2)) < 4 * (1 + dt * b) ^ 2)
    (i : Nat) (hi : i < (grid E.ts 0).length) : timeStepping E i = rest := by
  induction i with
  | zero => exact hstart.trans (C119_initial_trivial mx my du dv a b hL)
  | succ i ih =>
    have e : timeStepping E (i + 1) = E.step 0 (timeStepping E i) (tAt (grid E.ts 0) i) (tAt (grid E.ts 0) (i + 1)) := rfl
    have hs := hstep (i + 1) (timeStepping E i) (by omega) hi
    have hg := hgrid (i + 1) (by omega) hi
    rw [ih (by omega)] at hs e
    rw [e]
    simp only [Nat.add_sub_cancel] at hs hg
    cases m with
    | IMPL => exact C118_rest_unique hP (sub_nonneg.2 hg) (hsmall rfl (i + 1) (by omega) hi) hs
    | IMEX => exact (C118_imex hP (sub_nonneg.2 hg)).unique hs (C119_rest _ _)
    | EXPL =>
      have h1 := hs
      have h2 := C119_rest (P := GS.make mx my du dv a b L) .EXPL
        (tAt (grid E.ts 0) (i + 1) - tAt (grid E.ts 0) i)
      exact Eq.trans h1 (Eq.symm h2)

/-! ## The hypotheses can be met -/

/-- Parameters of `examples/petsc4py/example_gray_scott_2d_petsc.py`: default arguments, 129 times 129 points. -/
noncomputable def exDefault : GS ℝ := GS.make 129 129 1 (1 / 100) (9 / 100) (86 / 1000) 1

theorem exDefault_phys : exDefault.Phys where
  du := by norm_num [exDefault, GS.make]
  dv := by norm_num [exDefault, GS.make]
  a := by norm_num [exDefault, GS.make]
  b := by norm_num [exDefault, GS.make]
  mx := by norm_num [exDefault, GS.make]
  my := by norm_num [exDefault, GS.make]

/-- Its step size 0.1 / 32, and twice that on the coarser levels, are small enough. -/
example : ∀ dt : ℝ, dt = 1 / 320 ∨ dt = 2 / 320 →
    dt * (1 + dt * exDefault.a + 2 * dt * exDefault.du * (1 / exDefault.dx ^ 2 + 1 / exDefault.dy ^ 2))
      < 4 * (1 + dt * exDefault.b) ^ 2 := by
  rintro dt (rfl | rfl) <;> norm_num [exDefault, GS.make]

/-- Steps of size 6 are not determined. -/
example : ∃ x y, exDefault.Step .IMPL 6 rest x ∧ exDefault.Step .IMPL 6 rest y ∧ x ≠ y := by
  obtain ⟨x, hx, h⟩ := C118_rest_multiple (P := exDefault) (dt := 6) exDefault_phys.b (by norm_num)
    (by norm_num [exDefault, GS.make])
  refine ⟨x, rest, hx, C119_rest _ _, fun e => ?_⟩
  have := (h (⟨0, by norm_num [exDefault, GS.make]⟩, ⟨0, by norm_num [exDefault, GS.make]⟩)).2.2
  rw [e] at this
  exact lt_irrefl _ this

/-- A solution of a step of any size from the initial value on a larger domain, with its bounds. -/
example (dt : ℝ) (hdt : 0 ≤ dt) : ∃ x, (GS.make 16 16 1 (1 / 100) (9 / 100) (86 / 1000) (2 : ℝ)).Step .IMPL dt
    (GS.initialGuess _) x ∧ (∀ q, 0 ≤ x q) ∧ ∀ p, x (p, false) ≤ 1 := by
  have hP : (GS.make 16 16 1 (1 / 100) (9 / 100) (86 / 1000) (2 : ℝ)).Phys := by
    constructor <;> norm_num [GS.make]
  have h0 : ∀ q, 0 ≤ (GS.make 16 16 1 (1 / 100) (9 / 100) (86 / 1000) (2 : ℝ)).initialGuess q := by
    rintro ⟨p, f⟩
    have := C119_initial _ p
    cases f
    · rw [this.2.2]; linarith
    · exact this.1
  obtain ⟨x, hx⟩ := C118_exists hP hdt h0
  refine ⟨x, hx, (C119_impl hP hdt h0 hx).1, (C119_impl hP hdt h0 hx).2 1 le_rfl fun p => ?_⟩
  have := C119_initial (GS.make 16 16 1 (1 / 100) (9 / 100) (86 / 1000) (2 : ℝ)) p
  rw [this.2.2]; linarith

/-- There the initial value is not uniform. -/
example : (GS.make 16 16 1 (1 / 100) (9 / 100) (86 / 1000) (2 : ℝ)).initialGuess
    ((⟨9, by norm_num [GS.make]⟩, ⟨9, by norm_num [GS.make]⟩), true) = 1 / 4 := by
  have e : GS.bump (9 / 8) (9 / 8) = 1 / 4 := by
    unfold GS.bump
    rw [if_pos (by norm_num)]
    have : Real.sin (4 * Real.pi * (9 / 8)) = 1 := by
      rw [show 4 * Real.pi * (9 / 8) = Real.pi / 2 + (2 : ℕ) * (2 * Real.pi) by push_cast; ring]
      rw [Real.sin_add_nat_mul_two_pi, Real.sin_pi_div_two]
    rw [this]; norm_num
  show GS.bump ((9 : Nat) * (2 / (16 : Nat))) ((9 : Nat) * (2 / (16 : Nat))) = _
  rw [show ((9 : ℕ) : ℝ) * (2 / (16 : ℕ)) = 9 / 8 by norm_num]
  exact e

/-- Small steps of the other methods, from concentrations up to one half. -/
example : ∀ v : ℝ, 0 ≤ v → v ≤ 1 / 2 → (1 / 2 : ℝ) * (v ^ 2 + 9 / 100) ≤ 1 := by
  intro v h0 h1
  nlinarith

/-- Uniqueness: components up to 1 and 1/2, step size 1/2. -/
example : (1 / 2 : ℝ) * ((1 / 2) ^ 2 + 2 * 1 * (1 / 2)) < 1 := by norm_num

end real
end Pymgrit.Petsc
