import Verif.PropsAccuracy
import Mathlib.Algebra.Order.Chebyshev

/-!
# Property C121: stability and second order of the BDF2 pairs

`Heat1DBDF2` advances pairs of values at the distance `dtau` by two solves of the variable-step BDF2 formula, so the
spacings alternate between `t_stop - t_start - dtau` and `dtau`.  Multiplying the two equations by the increments gives an
energy that does not grow without a source if the ratio of the spacings is between 1/4 and 7; applied to the error it
gives second order in time and space in the maximum norm.
-/

set_option linter.unusedSectionVars false

namespace Pymgrit
open Cfg Sys Taylor Set Lin

/-! ## Sums of differences -/

/-- Sum of products of the differences of neighbours, with zero values at both ends. -/
noncomputable def slopes {n : Nat} (v w : Fin n → ℝ) : ℝ :=
  ∑ k ∈ Finset.range (n + 1), (atZ v (k : Int) - atZ v ((k : Int) - 1)) * (atZ w (k : Int) - atZ w ((k : Int) - 1))

theorem atZ_out {n : Nat} (v : Fin n → ℝ) {k : Int} (h : k < 0 ∨ n ≤ k) : atZ v k = 0 := by
  unfold atZ
  rw [dif_neg (by omega)]

theorem sum_by_parts (V W : Nat → ℝ) (m : Nat) :
    ∑ k ∈ Finset.range (m + 1), (V (k + 1) - V k) * (W (k + 1) - W k) =
      ∑ i ∈ Finset.range m, V (i + 1) * (2 * W (i + 1) - W i - W (i + 2)) + V (m + 1) * (W (m + 1) - W m) -
        V 0 * (W 1 - W 0) := by
  induction m with
  | zero => simp; ring
  | succ m ih =>
    rw [Finset.sum_range_succ, ih, Finset.sum_range_succ _ m]
    ring

theorem slopes_shift {n : Nat} (v w : Fin n → ℝ) : slopes v w =
    ∑ k ∈ Finset.range (n + 1), (atZ v (((k + 1 : Nat) : Int) - 1) - atZ v ((k : Int) - 1)) *
      (atZ w (((k + 1 : Nat) : Int) - 1) - atZ w ((k : Int) - 1)) := by
  unfold slopes
  refine Finset.sum_congr rfl fun k _ => ?_
  rw [show (((k + 1 : Nat) : Int) - 1) = (k : Int) by push_cast; ring]

theorem slopes_eq {n : Nat} (al dx : ℝ) (v w : Fin n → ℝ) :
    ∑ i, v i * (Apps.heatMatrix n al dx).mulVec w i = al / dx ^ 2 * slopes v w := by
  rw [slopes_shift, sum_by_parts (fun k => atZ v ((k : Int) - 1)) (fun k => atZ w ((k : Int) - 1)),
    atZ_out v (k := ((n + 1 : Nat) : Int) - 1) (by omega), atZ_out v (k := ((0 : Nat) : Int) - 1) (by omega),
    zero_mul, zero_mul, add_zero, sub_zero, Finset.mul_sum, ← Fin.sum_univ_eq_sum_range
      (fun i => al / dx ^ 2 * (atZ v (((i + 1 : Nat) : Int) - 1) * (2 * atZ w (((i + 1 : Nat) : Int) - 1) -
        atZ w ((i : Int) - 1) - atZ w (((i + 2 : Nat) : Int) - 1)))) n]
  refine Finset.sum_congr rfl fun i _ => ?_
  rw [Apps.heatMatrix_mulVec, show ((((i : Nat) + 1 : Nat) : Int) - 1) = ((i : Nat) : Int) by push_cast; ring,
    show ((((i : Nat) + 2 : Nat) : Int) - 1) = ((i : Nat) : Int) + 1 by push_cast; ring, atZ_val, atZ_val]
  ring

theorem atZ_add {n : Nat} (v w : Fin n → ℝ) (k : Int) : atZ (v + w) k = atZ v k + atZ w k := by
  unfold atZ
  split <;> simp

theorem atZ_sub {n : Nat} (v w : Fin n → ℝ) (k : Int) : atZ (v - w) k = atZ v k - atZ w k := by
  unfold atZ
  split <;> simp

theorem slopes_nonneg {n : Nat} (v : Fin n → ℝ) : 0 ≤ slopes v v := Finset.sum_nonneg fun _ _ => mul_self_nonneg _

theorem slopes_increment {n : Nat} (x q : Fin n → ℝ) :
    slopes (x - q) x = (slopes x x - slopes q q + slopes (x - q) (x - q)) / 2 := by
  simp only [slopes, atZ_sub]
  rw [eq_div_iff two_ne_zero, Finset.sum_mul, ← Finset.sum_sub_distrib, ← Finset.sum_add_distrib]
  exact Finset.sum_congr rfl fun _ _ => by ring

/-- Discrete Sobolev inequality. -/
theorem sq_le_slopes {n : Nat} (v : Fin n → ℝ) (i : Fin n) : v i ^ 2 ≤ (n + 1) * slopes v v := by
  have tel : ∀ m : Nat, atZ v ((m : Int) - 1) = ∑ k ∈ Finset.range m, (atZ v (k : Int) - atZ v ((k : Int) - 1)) := by
    intro m
    induction m with
    | zero => rw [Finset.sum_range_zero, atZ_out v (by omega)]
    | succ m ih =>
      rw [Finset.sum_range_succ, ← ih, show (((m + 1 : Nat) : Int) - 1) = (m : Int) by push_cast; ring]
      ring
  have h := tel (i + 1)
  rw [show ((((i : Nat) + 1 : Nat) : Int) - 1) = ((i : Nat) : Int) by push_cast; ring, atZ_val] at h
  rw [h]
  refine (sq_sum_le_card_mul_sum_sq (s := Finset.range ((i : Nat) + 1))).trans ?_
  rw [Finset.card_range]
  refine mul_le_mul (by have := i.isLt; exact_mod_cast Nat.succ_le_succ this.le) ?_
    (Finset.sum_nonneg fun _ _ => sq_nonneg _) (by positivity)
  refine (Finset.sum_le_sum_of_subset_of_nonneg (t := Finset.range (n + 1)) (fun k hk => ?_)
    fun _ _ _ => sq_nonneg _).trans (le_of_eq ?_)
  · have := i.isLt
    rw [Finset.mem_range] at hk ⊢
    omega
  · exact Finset.sum_congr rfl fun _ _ => by ring

/-! ## One step -/

/-- Coefficient that remains for the first increment after completing the squares. -/
theorem bdf2_coeff {tau d : ℝ} (hd : 0 < d) (h1 : d / 4 ≤ tau) (h2 : tau ≤ 7 * d) :
    0 ≤ (d + 2 * tau) / (tau * (d + tau)) - 1 / (4 * tau) - 5 * tau ^ 2 / (18 * d * (d + tau) ^ 2) -
      d ^ 2 / (4 * tau ^ 2 * (tau + d)) := by
  have ht : 0 < tau := by linarith
  have hs : 0 < d + tau := by linarith
  have e : (d + 2 * tau) / (tau * (d + tau)) - 1 / (4 * tau) - 5 * tau ^ 2 / (18 * d * (d + tau) ^ 2) -
      d ^ 2 / (4 * tau ^ 2 * (tau + d)) =
      (-(1 / 4) * d ^ 4 + 1 / 2 * tau * d ^ 3 + 5 / 2 * tau ^ 2 * d ^ 2 + 7 / 4 * tau ^ 3 * d - 5 / 18 * tau ^ 4) /
        (tau ^ 2 * d * (d + tau) ^ 2) := by
    rw [show tau + d = d + tau by ring]
    field_simp
    ring
  rw [e]
  refine div_nonneg ?_ (by positivity)
  have a1 : 0 ≤ (7 * d - tau) * tau ^ 3 := mul_nonneg (by linarith) (by positivity)
  have a2 : 0 ≤ (4 * tau - d) * d ^ 3 := mul_nonneg (by linarith) (by positivity)
  have a3 : 0 ≤ (tau - d / 4) * tau * d ^ 2 := mul_nonneg (mul_nonneg (by linarith) ht.le) (by positivity)
  have a4 : 0 ≤ (7 * d - tau) * tau ^ 2 * d := mul_nonneg (mul_nonneg (by linarith) (by positivity)) hd.le
  nlinarith

theorem bdf2_scalar {tau d : ℝ} (hd : 0 < d) (h1 : d / 4 ≤ tau) (h2 : tau ≤ 7 * d) (p q w : ℝ) :
    9 / (10 * d) * (w ^ 2 - p ^ 2) + q ^ 2 / (4 * tau) + w ^ 2 / (10 * d) ≤
      (d + 2 * tau) / (tau * (d + tau)) * q ^ 2 - tau / (d * (d + tau)) * p * q +
        ((tau + 2 * d) / (d * (tau + d)) * w ^ 2 - d / (tau * (tau + d)) * q * w) := by
  have ht : 0 < tau := by linarith
  have hs : 0 < d + tau := by linarith
  have hs' : 0 < tau + d := by linarith
  have e : (d + 2 * tau) / (tau * (d + tau)) * q ^ 2 - tau / (d * (d + tau)) * p * q +
        ((tau + 2 * d) / (d * (tau + d)) * w ^ 2 - d / (tau * (tau + d)) * q * w) -
      (9 / (10 * d) * (w ^ 2 - p ^ 2) + q ^ 2 / (4 * tau) + w ^ 2 / (10 * d)) =
      9 / (10 * d) * (p - 5 * tau / (9 * (d + tau)) * q) ^ 2 + 1 / (tau + d) * (w - d / (2 * tau) * q) ^ 2 +
      ((d + 2 * tau) / (tau * (d + tau)) - 1 / (4 * tau) - 5 * tau ^ 2 / (18 * d * (d + tau) ^ 2) -
        d ^ 2 / (4 * tau ^ 2 * (tau + d))) * q ^ 2 := by
    rw [show tau + d = d + tau by ring]
    field_simp
    ring
  have := mul_nonneg (bdf2_coeff hd h1 h2) (sq_nonneg q)
  have : 0 ≤ 9 / (10 * d) * (p - 5 * tau / (9 * (d + tau)) * q) ^ 2 := by positivity
  have : 0 ≤ 1 / (tau + d) * (w - d / (2 * tau) * q) ^ 2 := by positivity
  linarith

theorem bdf2_scalar_first {tau d : ℝ} (hd : 0 < d) (h1 : d / 4 ≤ tau) (h2 : tau ≤ 7 * d) (p q : ℝ) :
    q ^ 2 / (4 * tau) ≤ (d + 2 * tau) / (tau * (d + tau)) * q ^ 2 - tau / (d * (d + tau)) * p * q +
      9 / (10 * d) * p ^ 2 := by
  have ht : 0 < tau := by linarith
  have hs : 0 < d + tau := by linarith
  have e : (d + 2 * tau) / (tau * (d + tau)) * q ^ 2 - tau / (d * (d + tau)) * p * q + 9 / (10 * d) * p ^ 2 -
      q ^ 2 / (4 * tau) = 9 / (10 * d) * (p - 5 * tau / (9 * (d + tau)) * q) ^ 2 +
      ((d + 2 * tau) / (tau * (d + tau)) - 1 / (4 * tau) - 5 * tau ^ 2 / (18 * d * (d + tau) ^ 2) -
        d ^ 2 / (4 * tau ^ 2 * (tau + d))) * q ^ 2 + d ^ 2 / (4 * tau ^ 2 * (tau + d)) * q ^ 2 := by
    rw [show tau + d = d + tau by ring]
    field_simp
    ring
  have := mul_nonneg (bdf2_coeff hd h1 h2) (sq_nonneg q)
  have : 0 ≤ 9 / (10 * d) * (p - 5 * tau / (9 * (d + tau)) * q) ^ 2 := by positivity
  have : 0 ≤ d ^ 2 / (4 * tau ^ 2 * (tau + d)) * q ^ 2 := by positivity
  linarith

/-- Rows of a BDF2 solve. -/
theorem bdf2Solve_rows {n : Nat} {A : Matrix (Fin n) (Fin n) ℝ} {f first second x : Fin n → ℝ} {tau sig : ℝ}
    (ht : 0 < tau) (hs : 0 < sig) : Apps.bdf2Solve A f first second tau sig x ↔ ∀ i,
    A.mulVec x i + (sig + 2 * tau) / (tau * (sig + tau)) * (x i - second i) -
      tau / (sig * (sig + tau)) * (second i - first i) = f i := by
  have hst : sig + tau ≠ 0 := (add_pos hs ht).ne'
  have h4 : 1 + tau / sig = (sig + tau) / sig := by field_simp
  unfold Apps.bdf2Solve Solves
  simp only
  rw [Matrix.add_mulVec, Matrix.smul_mulVec, Matrix.one_mulVec, funext_iff]
  refine forall_congr' fun i => ?_
  have e : (1 + 2 * (tau / sig)) / (tau * (1 + tau / sig)) * x i
      - (1 + tau / sig) / tau * second i + (tau / sig) ^ 2 / (tau * (1 + tau / sig)) * first i =
      (sig + 2 * tau) / (tau * (sig + tau)) * (x i - second i) - tau / (sig * (sig + tau)) * (second i - first i) := by
    rw [h4]
    field_simp
    ring
  simp only [Pi.add_apply, Pi.sub_apply, Pi.smul_apply, smul_eq_mul]
  constructor
  · intro h; linear_combination h - e
  · intro h; linear_combination h + e

/-- Energy of a pair of values at the distance `d`: slopes in space of the second one and the slope in time. -/
noncomputable def pairEnergy {n : Nat} (al dx d : ℝ) (u : (Fin n → ℝ) × (Fin n → ℝ)) : ℝ :=
  al / (2 * dx ^ 2) * slopes u.2 u.2 + 9 / (10 * d) * ∑ i, (u.2 i - u.1 i) ^ 2

theorem young {a b s : ℝ} (hs : 0 < s) : a * b ≤ b ^ 2 / (4 * s) + s * a ^ 2 := by
  have e : b ^ 2 / (4 * s) + s * a ^ 2 - a * b = (b - 2 * s * a) ^ 2 / (4 * s) := by
    field_simp
    ring
  have : 0 ≤ (b - 2 * s * a) ^ 2 / (4 * s) := by positivity
  linarith

section
variable {n : Nat} {al dx : ℝ} {rhs : ℝ → Fin n → ℝ} {d t0 t1 : ℝ} {u x : (Fin n → ℝ) × (Fin n → ℝ)}

/-- One solve tested with the increment. -/
theorem bdf2_tested (hal : 0 ≤ al) {f first second y : Fin n → ℝ} {tau sig : ℝ} (ht : 0 < tau) (hs : 0 < sig)
    (h : Apps.bdf2Solve (Apps.heatMatrix n al dx) f first second tau sig y) :
    al / (2 * dx ^ 2) * slopes y y + ∑ i, ((sig + 2 * tau) / (tau * (sig + tau)) * (y i - second i) ^ 2 -
      tau / (sig * (sig + tau)) * (second i - first i) * (y i - second i)) ≤
      al / (2 * dx ^ 2) * slopes second second + ∑ i, f i * (y i - second i) := by
  have hr := (bdf2Solve_rows ht hs).1 h
  have e1 := slopes_eq al dx (y - second) y
  rw [slopes_increment] at e1
  have e2 : ∑ i, f i * (y i - second i) = ∑ i, (y - second) i * (Apps.heatMatrix n al dx).mulVec y i +
      ∑ i, ((sig + 2 * tau) / (tau * (sig + tau)) * (y i - second i) ^ 2 -
      tau / (sig * (sig + tau)) * (second i - first i) * (y i - second i)) := by
    rw [← Finset.sum_add_distrib]
    refine Finset.sum_congr rfl fun i _ => ?_
    rw [← hr i, Pi.sub_apply]
    ring
  rw [e2, e1]
  have : 0 ≤ al / dx ^ 2 * slopes (y - second) (y - second) :=
    mul_nonneg (div_nonneg hal (sq_nonneg _)) (slopes_nonneg _)
  have e3 : al / (2 * dx ^ 2) = al / dx ^ 2 / 2 := by rw [div_div, mul_comm]
  rw [e3]
  linarith

theorem pair_energy (hal : 0 ≤ al) (hd : 0 < d) {tau : ℝ} (h1 : d / 4 ≤ tau) (h2 : tau ≤ 7 * d) {f g : Fin n → ℝ}
    (s1 : Apps.bdf2Solve (Apps.heatMatrix n al dx) f u.1 u.2 tau d x.1)
    (s2 : Apps.bdf2Solve (Apps.heatMatrix n al dx) g u.2 x.1 d tau x.2) :
    pairEnergy al dx d x ≤ pairEnergy al dx d u + tau * ∑ i, f i ^ 2 + 5 / 2 * d * ∑ i, g i ^ 2 ∧
    al / (2 * dx ^ 2) * slopes x.1 x.1 ≤ pairEnergy al dx d u + tau * ∑ i, f i ^ 2 := by
  have ht : 0 < tau := by linarith
  have t1 := bdf2_tested hal ht hd s1
  have t2 := bdf2_tested hal hd ht s2
  unfold pairEnergy
  constructor
  · have key : ∑ i, f i * (x.1 i - u.2 i) + ∑ i, g i * (x.2 i - x.1 i) + 9 / (10 * d) * ∑ i, (x.2 i - x.1 i) ^ 2 ≤
        ∑ i, ((d + 2 * tau) / (tau * (d + tau)) * (x.1 i - u.2 i) ^ 2 -
          tau / (d * (d + tau)) * (u.2 i - u.1 i) * (x.1 i - u.2 i)) +
        ∑ i, ((tau + 2 * d) / (d * (tau + d)) * (x.2 i - x.1 i) ^ 2 -
          d / (tau * (tau + d)) * (x.1 i - u.2 i) * (x.2 i - x.1 i)) +
        9 / (10 * d) * ∑ i, (u.2 i - u.1 i) ^ 2 + tau * ∑ i, f i ^ 2 + 5 / 2 * d * ∑ i, g i ^ 2 := by
      simp only [Finset.mul_sum, ← Finset.sum_add_distrib]
      refine Finset.sum_le_sum fun i _ => ?_
      have k1 := bdf2_scalar hd h1 h2 (u.2 i - u.1 i) (x.1 i - u.2 i) (x.2 i - x.1 i)
      have k2 := young (a := f i) (b := x.1 i - u.2 i) ht
      have k3 := young (a := g i) (b := x.2 i - x.1 i) (s := 5 / 2 * d) (by positivity)
      rw [show 4 * (5 / 2 * d) = 10 * d by ring] at k3
      linarith
    linarith
  · have key : ∑ i, f i * (x.1 i - u.2 i) ≤
        ∑ i, ((d + 2 * tau) / (tau * (d + tau)) * (x.1 i - u.2 i) ^ 2 -
          tau / (d * (d + tau)) * (u.2 i - u.1 i) * (x.1 i - u.2 i)) +
        9 / (10 * d) * ∑ i, (u.2 i - u.1 i) ^ 2 + tau * ∑ i, f i ^ 2 := by
      simp only [Finset.mul_sum, ← Finset.sum_add_distrib]
      refine Finset.sum_le_sum fun i _ => ?_
      have k1 := bdf2_scalar_first hd h1 h2 (u.2 i - u.1 i) (x.1 i - u.2 i)
      have k2 := young (a := f i) (b := x.1 i - u.2 i) ht
      linarith
    linarith

/-- C121: with a ratio of the spacings between 1/4 and 7 the energy grows at most by the source; without a source it does
not grow.  The first value of the new pair is bounded in the same way. -/
theorem C121_energy (hal : 0 ≤ al) (hd : 0 < d) (h1 : d / 4 ≤ t1 - t0 - d) (h2 : t1 - t0 - d ≤ 7 * d)
    (h : Apps.bdf2Step al dx rhs d u t0 t1 x) :
    pairEnergy al dx d x ≤ pairEnergy al dx d u + (t1 - t0 - d) * ∑ i, rhs t1 i ^ 2 +
      5 / 2 * d * ∑ i, rhs (t1 + d) i ^ 2 ∧
    al / (2 * dx ^ 2) * slopes x.1 x.1 ≤ pairEnergy al dx d u + (t1 - t0 - d) * ∑ i, rhs t1 i ^ 2 :=
  pair_energy hal hd h1 h2 h.1 h.2

/-- Bound of the values by the slopes; `L` is the length of the interval. -/
theorem abs_le_of_slopes (hal : 0 < al) (hdx : 0 < dx) {L Q R : ℝ} (hL : ((n : ℝ) + 1) * dx = L) (hQ : 0 ≤ Q) (hR : 0 ≤ R)
    {e : Fin n → ℝ} (h : al / (2 * dx ^ 2) * slopes e e ≤ Q * (n * R ^ 2)) (i : Fin n) : |e i| ≤ L * √(2 * Q / al) * R := by
  have hL0 : 0 ≤ L := by rw [← hL]; positivity
  refine abs_le_of_sq_le_sq ?_ (by positivity)
  rw [mul_pow, mul_pow, Real.sq_sqrt (by positivity)]
  refine (sq_le_slopes e i).trans ?_
  have h' : slopes e e ≤ 2 * dx ^ 2 / al * (Q * (n * R ^ 2)) := by
    have := mul_le_mul_of_nonneg_left h (show 0 ≤ 2 * dx ^ 2 / al by positivity)
    refine le_trans (le_of_eq ?_) this
    field_simp
  refine (mul_le_mul_of_nonneg_left h' (by positivity)).trans ?_
  rw [← hL]
  have : ((n : ℝ) + 1) * (2 * dx ^ 2 / al * (Q * (n * R ^ 2))) = (n * (n + 1) * dx ^ 2) * (2 * Q / al) * R ^ 2 := by
    field_simp
  rw [this, mul_pow]
  refine mul_le_mul_of_nonneg_right (mul_le_mul_of_nonneg_right (mul_le_mul_of_nonneg_right ?_ (sq_nonneg _))
    (by positivity)) (sq_nonneg _)
  have : (0 : ℝ) ≤ n := Nat.cast_nonneg _
  nlinarith

end

/-! ## Consistency -/

/-- Second-order expansion to the left. -/
theorem _root_.Pymgrit.Taylor.backward_third {a b : ℝ} {f f1 f2 f3 : ℝ → ℝ} (h1 : Deriv a b f f1) (h2 : Deriv a b f1 f2)
    (h3 : Deriv a b f2 f3) {M : ℝ} (hM : ∀ x ∈ Icc a b, |f3 x| ≤ M) {x h : ℝ} (hh : 0 ≤ h) (ha : a ≤ x - h)
    (hb : x ≤ b) : |f (x - h) - f x + h * f1 x - h ^ 2 / 2 * f2 x| ≤ M / 6 * h ^ 3 := by
  have mm : ∀ s ∈ Icc 0 h, x + (-1) * s ∈ Icc a b := fun s hs => ⟨by linarith [hs.1, hs.2], by linarith [hs.1, hs.2]⟩
  have m1 := h1.subst mm
  have m2 := h2.subst mm
  have m3 := h3.subst mm
  have b3 : ∀ s ∈ Icc 0 h, |f3 (x + (-1) * s) * (-1)| ≤ M * s ^ 0 := by
    intro s hs
    simpa using hM _ (mm s hs)
  have b2 := integrate (f := fun s => f2 (x + (-1) * s) - f2 x)
    ((m3.sub (Deriv.const 0 h (f2 x))).congr' (fun _ _ => rfl) (fun _ _ => by ring)) (by simp) b3
  have b2' : ∀ s ∈ Icc 0 h, |-(f2 (x + (-1) * s) - f2 x)| ≤ M / ((0 : Nat) + 1) * s ^ (0 + 1) := by
    intro s hs; rw [abs_neg]; exact b2 s hs
  have b1 := integrate (f := fun s => f1 (x + (-1) * s) - f1 x + s * f2 x)
    (((m2.sub (Deriv.const 0 h (f1 x))).add ((Deriv.id 0 h).mul (Deriv.const 0 h (f2 x)))).congr' (fun _ _ => rfl)
      (fun _ _ => by ring)) (by simp) b2'
  have b1' : ∀ s ∈ Icc 0 h, |-(f1 (x + (-1) * s) - f1 x + s * f2 x)| ≤
      M / ((0 : Nat) + 1) / (((0 + 1 : Nat) : ℝ) + 1) * s ^ (0 + 1 + 1) := by
    intro s hs; rw [abs_neg]; exact b1 s hs
  have b0 := integrate (f := fun s => f (x + (-1) * s) - f x + s * f1 x - s * (s * (f2 x / 2)))
    ((((m1.sub (Deriv.const 0 h (f x))).add ((Deriv.id 0 h).mul (Deriv.const 0 h (f1 x)))).sub
      ((Deriv.id 0 h).mul ((Deriv.id 0 h).mul (Deriv.const 0 h (f2 x / 2))))).congr' (fun _ _ => rfl)
      (fun _ _ => by ring)) (by simp) b1' h ⟨hh, le_rfl⟩
  rw [show x + (-1) * h = x - h by ring] at b0
  rw [show f (x - h) - f x + h * f1 x - h ^ 2 / 2 * f2 x = f (x - h) - f x + h * f1 x - h * (h * (f2 x / 2)) by ring]
  refine b0.trans (le_of_eq ?_)
  push_cast
  ring

/-- The variable-step BDF2 difference quotient. -/
theorem bdf2_difference {a b : ℝ} {f f1 f2 f3 : ℝ → ℝ} (h1 : Deriv a b f f1) (h2 : Deriv a b f1 f2)
    (h3 : Deriv a b f2 f3) {M : ℝ} (hM : ∀ x ∈ Icc a b, |f3 x| ≤ M) {t tau sig : ℝ} (ht : 0 < tau) (hs : 0 < sig)
    (ha : a ≤ t - tau - sig) (hb : t ≤ b) :
    |(sig + 2 * tau) / (tau * (sig + tau)) * (f t - f (t - tau)) -
      tau / (sig * (sig + tau)) * (f (t - tau) - f (t - tau - sig)) - f1 t| ≤
      M * (tau * (sig + tau) * (2 * tau + sig) / (6 * sig)) := by
  have k1 := Taylor.backward_third h1 h2 h3 hM (x := t) ht.le (by linarith) hb
  have k2 := Taylor.backward_third h1 h2 h3 hM (x := t) (h := tau + sig) (by linarith) (by linarith) hb
  rw [show t - (tau + sig) = t - tau - sig by ring] at k2
  have hst : 0 < sig + tau := by linarith
  have e : (sig + 2 * tau) / (tau * (sig + tau)) * (f t - f (t - tau)) -
      tau / (sig * (sig + tau)) * (f (t - tau) - f (t - tau - sig)) - f1 t =
      -((sig + tau) / (sig * tau)) * (f (t - tau) - f t + tau * f1 t - tau ^ 2 / 2 * f2 t) +
        tau / (sig * (sig + tau)) *
          (f (t - tau - sig) - f t + (tau + sig) * f1 t - (tau + sig) ^ 2 / 2 * f2 t) := by
    field_simp
    ring
  rw [e]
  refine (abs_add_le _ _).trans ?_
  rw [abs_mul, abs_mul, abs_neg, abs_of_pos (show 0 < (sig + tau) / (sig * tau) by positivity),
    abs_of_pos (show 0 < tau / (sig * (sig + tau)) by positivity)]
  refine (add_le_add (mul_le_mul_of_nonneg_left k1 (by positivity))
    (mul_le_mul_of_nonneg_left k2 (by positivity))).trans (le_of_eq ?_)
  field_simp
  ring

/-- `u t x` is a solution of `u_t = al u_xx + f` for `t` in `[t0, T]` and `x` in `[a, b]` with zero boundary
values, with derivatives up to `u_ttt`, bounded by `Mt`, and `u_xxxx`, bounded by `Mx`. -/
def HeatSolution3 (al a b t0 T : ℝ) (f u : ℝ → ℝ → ℝ) (Mt Mx : ℝ) : Prop :=
  ∃ ut utt uttt ux uxx u3 u4 : ℝ → ℝ → ℝ,
    (∀ x ∈ Icc a b, Deriv t0 T (fun t => u t x) (fun t => ut t x) ∧
      Deriv t0 T (fun t => ut t x) (fun t => utt t x) ∧ Deriv t0 T (fun t => utt t x) (fun t => uttt t x)) ∧
    (∀ t ∈ Icc t0 T, Deriv a b (u t) (ux t) ∧ Deriv a b (ux t) (uxx t) ∧ Deriv a b (uxx t) (u3 t) ∧
      Deriv a b (u3 t) (u4 t)) ∧
    (∀ t ∈ Icc t0 T, ∀ x ∈ Icc a b, ut t x = al * uxx t x + f t x ∧ |uttt t x| ≤ Mt ∧ |u4 t x| ≤ Mx) ∧
    ∀ t ∈ Icc t0 T, u t a = 0 ∧ u t b = 0

section
variable {n : Nat} {al a b dx T0 T Mt Mx : ℝ} {f u : ℝ → ℝ → ℝ} {x : List ℝ}

/-- The matrix applied to the values of the solution. -/
theorem matrix_consistent (hal : 0 ≤ al) (hdx : 0 < dx) (hm : Space.MeshOf a b 1 1 x n dx) {φ φ1 φ2 φ3 φ4 : ℝ → ℝ}
    (x1 : Deriv a b φ φ1) (x2 : Deriv a b φ1 φ2) (x3 : Deriv a b φ2 φ3) (x4 : Deriv a b φ3 φ4)
    (hM : ∀ y ∈ Icc a b, |φ4 y| ≤ Mx) (ha : φ a = 0) (hb : φ b = 0) (j : Fin n) :
    x.getD j 0 ∈ Icc a b ∧
    |(Apps.heatMatrix n al dx).mulVec (fun i : Fin n => φ (x.getD i 0)) j + al * φ2 (x.getD j 0)| ≤
      al * dx ^ 2 / 12 * Mx := by
  obtain ⟨e1, e2, e3⟩ := mesh_atZ hm φ ha hb j
  have hj : (j : ℝ) + 1 ≤ n := by exact_mod_cast j.isLt
  have hend := hm.2.1
  push_cast at hend
  have hj0 : (0 : ℝ) ≤ (j : ℝ) := Nat.cast_nonneg _
  have ha1 : a ≤ x.getD j 0 - dx := by rw [e1]; nlinarith
  have hb1 : x.getD j 0 + dx ≤ b := by rw [e1]; nlinarith
  refine ⟨⟨by linarith, by linarith⟩, ?_⟩
  have hsd := second_difference x1 x2 x3 x4 hM hdx.le ha1 hb1
  rw [Apps.heatMatrix_mulVec, e2, e3]
  set y := x.getD j 0
  have split : al / dx ^ 2 * (2 * φ y - φ (y - dx) - φ (y + dx)) + al * φ2 y =
      -(al / dx ^ 2 * (φ (y + dx) - 2 * φ y + φ (y - dx) - dx ^ 2 * φ2 y)) := by
    field_simp
    ring
  rw [split, abs_neg, abs_mul, abs_of_nonneg (by positivity : 0 ≤ al / dx ^ 2)]
  refine (mul_le_mul_of_nonneg_left hsd (by positivity)).trans (le_of_eq ?_)
  field_simp

/-- The error of a BDF2 solve satisfies the same equations with the truncation error as source. -/
theorem bdf2_error (hal : 0 ≤ al) (hdx : 0 < dx) (hm : Space.MeshOf a b 1 1 x n dx)
    (hu : HeatSolution3 al a b T0 T f u Mt Mx) {t tau sig : ℝ} (ht : 0 < tau) (hs : 0 < sig) (h0 : T0 ≤ t - tau - sig)
    (hT : t ≤ T) {first second y : Fin n → ℝ}
    (h : Apps.bdf2Solve (Apps.heatMatrix n al dx) (fun i => f t (x.getD i 0)) first second tau sig y) :
    ∃ r : Fin n → ℝ,
      (∀ i, |r i| ≤ Mt * (tau * (sig + tau) * (2 * tau + sig) / (6 * sig)) + al * dx ^ 2 / 12 * Mx) ∧
      Apps.bdf2Solve (Apps.heatMatrix n al dx) r (first - fun i : Fin n => u (t - tau - sig) (x.getD i 0))
        (second - fun i : Fin n => u (t - tau) (x.getD i 0)) tau sig (y - fun i : Fin n => u t (x.getD i 0)) := by
  obtain ⟨ut, utt, uttt, ux, uxx, u3, u4, ht', hx', hpde, hbd⟩ := hu
  have htm : t ∈ Icc T0 T := ⟨by linarith, hT⟩
  have hrow := (bdf2Solve_rows ht hs).1 h
  obtain ⟨x1, x2, x3, x4⟩ := hx' t htm
  have hmat := matrix_consistent hal hdx hm x1 x2 x3 x4 (fun y hy => (hpde t htm y hy).2.2) (hbd t htm).1 (hbd t htm).2
  refine ⟨fun i => -((Apps.heatMatrix n al dx).mulVec (fun i : Fin n => u t (x.getD i 0)) i +
      al * uxx t (x.getD i 0) + ((sig + 2 * tau) / (tau * (sig + tau)) * (u t (x.getD i 0) - u (t - tau) (x.getD i 0)) -
      tau / (sig * (sig + tau)) * (u (t - tau) (x.getD i 0) - u (t - tau - sig) (x.getD i 0)) - ut t (x.getD i 0))),
    fun i => ?_, (bdf2Solve_rows ht hs).2 fun i => ?_⟩
  · obtain ⟨hxm, hq⟩ := hmat i
    have hd := bdf2_difference (ht' _ hxm).1 (ht' _ hxm).2.1 (ht' _ hxm).2.2 (fun r hr => (hpde r hr _ hxm).2.1) ht hs h0 hT
    rw [abs_neg]
    exact (abs_add_le _ _).trans (by linarith)
  · rw [Matrix.mulVec_sub]
    simp only [Pi.sub_apply]
    have := (hpde t htm _ (hmat i).1).1
    have := hrow i
    linarith

/-- The error of the start pair. -/
theorem bdf2_start_error (hal : 0 ≤ al) (hdx : 0 < dx) (hm : Space.MeshOf a b 1 1 x n dx)
    (hu : HeatSolution3 al a b T0 T f u Mt Mx) {d : ℝ} (hd : 0 < d) (hT : T0 + d ≤ T) {z : (Fin n → ℝ) × (Fin n → ℝ)}
    (h : Apps.bdf2Start al dx (fun t i => f t (x.getD i 0)) d T0 (fun i => u T0 (x.getD i 0)) z) {R : ℝ}
    (hR : Mt / 12 * d ^ 2 + al * dx ^ 2 / 12 * Mx ≤ R) :
    pairEnergy al dx d (z.1 - fun i : Fin n => u T0 (x.getD i 0), z.2 - fun i : Fin n => u (T0 + d) (x.getD i 0)) ≤
      d * (n * R ^ 2) := by
  obtain ⟨ut, utt, uttt, ux, uxx, u3, u4, ht', hx', hpde, hbd⟩ := hu
  have m0 : T0 ∈ Icc T0 T := ⟨le_rfl, by linarith⟩
  have m1 : T0 + d ∈ Icc T0 T := ⟨by linarith, hT⟩
  obtain ⟨hz1, hz2⟩ := h
  obtain ⟨x1, x2, x3, x4⟩ := hx' _ m0
  have q0 := matrix_consistent hal hdx hm x1 x2 x3 x4 (fun y hy => (hpde _ m0 y hy).2.2) (hbd _ m0).1 (hbd _ m0).2
  obtain ⟨y1, y2, y3, y4⟩ := hx' _ m1
  have q1 := matrix_consistent hal hdx hm y1 y2 y3 y4 (fun y hy => (hpde _ m1 y hy).2.2) (hbd _ m1).1 (hbd _ m1).2
  set e : Fin n → ℝ := z.2 - fun i : Fin n => u (T0 + d) (x.getD i 0) with he
  have rows : ∀ i, ∃ r, |r| ≤ R ∧ d / 2 * (Apps.heatMatrix n al dx).mulVec e i + e i = d * r := by
    intro i
    have hz := congrFun hz2 i
    obtain ⟨hxm, p0⟩ := q0 i
    obtain ⟨-, p1⟩ := q1 i
    have tr := trapezoidal (ht' _ hxm).1 (ht' _ hxm).2.1 (ht' _ hxm).2.2 (fun r hr => (hpde r hr _ hxm).2.1) hd.le
      le_rfl hT
    have g0 := (hpde _ m0 _ hxm).1
    have g1 := (hpde _ m1 _ hxm).1
    rw [Apps.step_matrix_mulVec, Matrix.sub_mulVec, Matrix.one_mulVec, Matrix.smul_mulVec] at hz
    simp only [Pi.add_apply, Pi.sub_apply, Pi.smul_apply, smul_eq_mul] at hz
    set A0 := (Apps.heatMatrix n al dx).mulVec (fun i : Fin n => u T0 (x.getD i 0)) i
    have hA : (Apps.heatMatrix n al dx).mulVec e i = (Apps.heatMatrix n al dx).mulVec z.2 i -
        (Apps.heatMatrix n al dx).mulVec (fun i : Fin n => u (T0 + d) (x.getD i 0)) i := by
      rw [he, Matrix.mulVec_sub]; rfl
    set A1 := (Apps.heatMatrix n al dx).mulVec (fun i : Fin n => u (T0 + d) (x.getD i 0)) i
    set y := x.getD i 0
    refine ⟨(-(A0 + al * uxx T0 y) - (A1 + al * uxx (T0 + d) y)) / 2 -
      (u (T0 + d) y - u T0 y - d / 2 * (ut T0 y + ut (T0 + d) y)) / d, ?_, ?_⟩
    · refine le_trans ?_ hR
      refine (abs_sub _ _).trans ?_
      rw [abs_div, abs_div, abs_of_pos hd, abs_of_pos (zero_lt_two' ℝ)]
      have k1 : |-(A0 + al * uxx T0 y) - (A1 + al * uxx (T0 + d) y)| ≤ 2 * (al * dx ^ 2 / 12 * Mx) := by
        refine (abs_sub _ _).trans ?_
        rw [abs_neg]
        linarith
      have k2 : |u (T0 + d) y - u T0 y - d / 2 * (ut T0 y + ut (T0 + d) y)| / d ≤ Mt / 12 * d ^ 2 := by
        rw [div_le_iff₀ hd]
        refine tr.trans (le_of_eq ?_)
        ring
      linarith
    · have e1 : e i = z.2 i - u (T0 + d) y := rfl
      rw [hA, e1]
      field_simp
      rw [g0, g1]
      linear_combination 2 * hz
  choose r hr hrow using rows
  have s0 := slopes_eq al dx e e
  have hz0 : (z.1 - fun i : Fin n => u T0 (x.getD i 0)) = 0 := by rw [hz1]; exact sub_self _
  unfold pairEnergy
  simp only [hz0, Pi.zero_apply, sub_zero]
  have key : ∑ i, (e i * (Apps.heatMatrix n al dx).mulVec e i + 1 / d * e i ^ 2) ≤ ∑ _i : Fin n, d * R ^ 2 := by
    refine Finset.sum_le_sum fun i _ => ?_
    have h1 : e i * (Apps.heatMatrix n al dx).mulVec e i + 1 / d * e i ^ 2 = 2 * r i * e i - e i ^ 2 / d := by
      have := hrow i
      field_simp
      linear_combination 2 * e i * this
    have h2 := young (a := 2 * r i) (b := e i) (s := d / 4) (by positivity)
    rw [show 4 * (d / 4) = d by ring] at h2
    have h3 : d * r i ^ 2 ≤ d * R ^ 2 := mul_le_mul_of_nonneg_left (sq_le_sq' (abs_le.1 (hr i)).1 (abs_le.1 (hr i)).2) hd.le
    linarith
  rw [Finset.sum_add_distrib, ← Finset.mul_sum, s0, Finset.sum_const, Finset.card_univ,
    Fintype.card_fin, nsmul_eq_mul] at key
  have n1 : 0 ≤ al / dx ^ 2 * slopes e e := mul_nonneg (by positivity) (slopes_nonneg e)
  have n2 : 0 ≤ 1 / d * ∑ i, e i ^ 2 := mul_nonneg (by positivity) (Finset.sum_nonneg fun _ _ => sq_nonneg _)
  rw [show al / (2 * dx ^ 2) = al / dx ^ 2 / 2 by rw [div_div, mul_comm],
    show 9 / (10 * d) = 9 / 10 * (1 / d) by field_simp]
  nlinarith

end

/-! ## Time stepping -/

section
variable {n : Nat} {N : Type} [Zero N] {E : Cfg ((Fin n → ℝ) × (Fin n → ℝ)) ℝ ℝ N}

/-- C121: over a run the energy grows at most by 5/2 times the elapsed time times the largest sum of squares of the
source. -/
theorem C121_stable (hs : (grid E.ts 0).Pairwise (· < ·)) {al dx d F : ℝ} {rhs : ℝ → Fin n → ℝ} (hal : 0 ≤ al)
    (hd : 0 < d) (hratio : ∀ i, i + 1 < npts E.ts 0 → 5 / 4 * d ≤ tAt (grid E.ts 0) (i + 1) - tAt (grid E.ts 0) i ∧
      tAt (grid E.ts 0) (i + 1) - tAt (grid E.ts 0) i ≤ 8 * d)
    (hstep : ∀ v t t', t + d < t' → Apps.bdf2Step al dx rhs d v t t' (E.step 0 v t t'))
    (hF : ∀ i, i < npts E.ts 0 → ∑ p, rhs (tAt (grid E.ts 0) i) p ^ 2 ≤ F ∧
      ∑ p, rhs (tAt (grid E.ts 0) i + d) p ^ 2 ≤ F) (i : Nat) (hi : i < npts E.ts 0) :
    pairEnergy al dx d (timeStepping E i) ≤
      pairEnergy al dx d (E.start 0) + (tAt (grid E.ts 0) i - tAt (grid E.ts 0) 0) * (5 / 2 * F) := by
  refine accumulate hs _ (fun i c => pairEnergy al dx d (timeStepping E i) ≤ pairEnergy al dx d (E.start 0) + c)
    ?_ (fun i c hi ht hc => ?_) i hi
  · rw [add_zero]; exact le_rfl
  · obtain ⟨r1, r2⟩ := hratio i hi
    obtain ⟨f1, f2⟩ := hF (i + 1) hi
    have hst : Apps.bdf2Step al dx rhs d (timeStepping E i) (tAt (grid E.ts 0) i) (tAt (grid E.ts 0) (i + 1))
        (timeStepping E (i + 1)) := hstep (timeStepping E i) _ _ (by linarith)
    have h := (C121_energy hal hd (by linarith) (by linarith) hst).1
    have hF0 : 0 ≤ F := (Finset.sum_nonneg fun _ _ => sq_nonneg _).trans f1
    have k1 := mul_le_mul_of_nonneg_left f1
      (show 0 ≤ tAt (grid E.ts 0) (i + 1) - tAt (grid E.ts 0) i - d by linarith)
    have k2 := mul_le_mul_of_nonneg_left f2 (show 0 ≤ 5 / 2 * d by linarith)
    have k3 : 0 ≤ (tAt (grid E.ts 0) (i + 1) - tAt (grid E.ts 0) i - d) * F := mul_nonneg (by linarith) hF0
    nlinarith

/-- C121, accuracy: sequential time stepping with `Heat1DBDF2` from its own start pair, with steps between `5/4 dtau` and
`8 dtau` and at most `h`, differs from the solution of the differential equation at the points of the mesh, at both times of
a pair, by at most `(b - a) √((2 dtau + 5 (t_i - t_0)) / al) (7/3 h² max |u_ttt| + al dx²/12 max |u_xxxx|)`. -/
theorem C121_accuracy (hs : (grid E.ts 0).Pairwise (· < ·)) {al a b dx d Mt Mx h : ℝ} {f u : ℝ → ℝ → ℝ} {x : List ℝ}
    (hal : 0 < al) (hdx : 0 < dx) (hm : Space.MeshOf a b 1 1 x n dx) (hd : 0 < d) (hdh : d ≤ h)
    (hu : HeatSolution3 al a b (tAt (grid E.ts 0) 0) (tAt (grid E.ts 0) (npts E.ts 0 - 1) + d) f u Mt Mx)
    (hstep : ∀ v t t', t + d < t' → Apps.bdf2Step al dx (fun t i => f t (x.getD i 0)) d v t t' (E.step 0 v t t'))
    (hstart : Apps.bdf2Start al dx (fun t i => f t (x.getD i 0)) d (tAt (grid E.ts 0) 0)
      (fun p => u (tAt (grid E.ts 0) 0) (x.getD p 0)) (E.start 0))
    (hratio : ∀ i, i + 1 < npts E.ts 0 → 5 / 4 * d ≤ tAt (grid E.ts 0) (i + 1) - tAt (grid E.ts 0) i ∧
      tAt (grid E.ts 0) (i + 1) - tAt (grid E.ts 0) i ≤ 8 * d)
    (hh : ∀ i, i + 1 < npts E.ts 0 → tAt (grid E.ts 0) (i + 1) - tAt (grid E.ts 0) i ≤ h)
    (i : Nat) (hi : i < npts E.ts 0) (p : Fin n) :
    |(timeStepping E i).1 p - u (tAt (grid E.ts 0) i) (x.getD p 0)| ≤
      (b - a) * √((2 * d + 5 * (tAt (grid E.ts 0) i - tAt (grid E.ts 0) 0)) / al) *
        (7 / 3 * h ^ 2 * Mt + al * dx ^ 2 / 12 * Mx) ∧
    |(timeStepping E i).2 p - u (tAt (grid E.ts 0) i + d) (x.getD p 0)| ≤
      (b - a) * √((2 * d + 5 * (tAt (grid E.ts 0) i - tAt (grid E.ts 0) 0)) / al) *
        (7 / 3 * h ^ 2 * Mt + al * dx ^ 2 / 12 * Mx) := by
  set g := grid E.ts 0 with hg
  set R := 7 / 3 * h ^ 2 * Mt + al * dx ^ 2 / 12 * Mx with hRdef
  have hlast : ∀ j, j < npts E.ts 0 → tAt g 0 ≤ tAt g j ∧ tAt g j ≤ tAt g (npts E.ts 0 - 1) := fun j hj =>
    grid_mem hs hj
  have hpos := hlast i hi
  have hb0 : 0 ≤ Mt ∧ 0 ≤ Mx := by
    obtain ⟨ut, utt, uttt, ux, uxx, u3, u4, -, hx', hpde, hbd⟩ := hu
    have m0 : tAt g 0 ∈ Icc (tAt g 0) (tAt g (npts E.ts 0 - 1) + d) := ⟨le_rfl, by linarith [hpos.1, hpos.2]⟩
    obtain ⟨x1, x2, x3, x4⟩ := hx' _ m0
    have hxm := (matrix_consistent hal.le hdx hm x1 x2 x3 x4 (fun y hy => (hpde _ m0 y hy).2.2) (hbd _ m0).1
      (hbd _ m0).2 p).1
    exact ⟨(abs_nonneg _).trans (hpde _ m0 _ hxm).2.1, (abs_nonneg _).trans (hpde _ m0 _ hxm).2.2⟩
  obtain ⟨hMt, hMx⟩ := hb0
  have hR : 0 ≤ R := by positivity
  have hL : ((n : ℝ) + 1) * dx = b - a := by
    have := hm.2.1
    push_cast at this
    linarith
  let U : ℝ → Fin n → ℝ := fun t i => u t (x.getD i 0)
  let err : Nat → (Fin n → ℝ) × (Fin n → ℝ) := fun i =>
    ((timeStepping E i).1 - U (tAt g i), (timeStepping E i).2 - U (tAt g i + d))
  have hsum : ∀ {r : Fin n → ℝ} {B : ℝ}, (∀ i, |r i| ≤ B) → B ≤ R → ∑ i, r i ^ 2 ≤ n * R ^ 2 := by
    intro r B h1 h2
    have : ∑ i, r i ^ 2 ≤ ∑ _i : Fin n, R ^ 2 := Finset.sum_le_sum fun i _ =>
      sq_le_sq' (by linarith [(abs_le.1 (h1 i)).1]) (by linarith [(abs_le.1 (h1 i)).2])
    rwa [Finset.sum_const, Finset.card_univ, Fintype.card_fin, nsmul_eq_mul] at this
  have one : ∀ i, i + 1 < npts E.ts 0 →
      pairEnergy al dx d (err (i + 1)) ≤ pairEnergy al dx d (err i) + (tAt g (i + 1) - tAt g i) * (5 / 2 * (n * R ^ 2)) ∧
      al / (2 * dx ^ 2) * slopes (err (i + 1)).1 (err (i + 1)).1 ≤
        pairEnergy al dx d (err i) + (tAt g (i + 1) - tAt g i) * (5 / 2 * (n * R ^ 2)) := by
    intro i hi
    obtain ⟨r1, r2⟩ := hratio i hi
    have rh := hh i hi
    have ha := hlast i (by omega)
    have hb := hlast (i + 1) hi
    have hst : Apps.bdf2Step al dx (fun t i => f t (x.getD i 0)) d (timeStepping E i) (tAt g i) (tAt g (i + 1))
        (timeStepping E (i + 1)) := hstep (timeStepping E i) _ _ (by linarith)
    set tau := tAt g (i + 1) - tAt g i - d with htau
    have ht : 0 < tau := by linarith
    obtain ⟨q1, b1, s1⟩ := bdf2_error hal.le hdx hm hu ht hd (t := tAt g (i + 1)) (by linarith) (by linarith) hst.1
    obtain ⟨q2, b2, s2⟩ := bdf2_error hal.le hdx hm hu hd ht (t := tAt g (i + 1) + d) (by linarith) (by linarith) hst.2
    rw [show tAt g (i + 1) - tau - d = tAt g i by rw [htau]; ring,
      show tAt g (i + 1) - tau = tAt g i + d by rw [htau]; ring] at s1
    rw [show tAt g (i + 1) + d - d - tau = tAt g i + d by rw [htau]; ring,
      show tAt g (i + 1) + d - d = tAt g (i + 1) by ring] at s2
    have c1 : Mt * (tau * (d + tau) * (2 * tau + d) / (6 * d)) ≤ 7 / 3 * h ^ 2 * Mt := by
      rw [mul_comm]
      refine mul_le_mul_of_nonneg_right ?_ hMt
      rw [div_le_iff₀ (by positivity)]
      have : d + tau ≤ h := by linarith
      have k1 : (d + tau) * (2 * tau + d) ≤ h * (2 * h) :=
        mul_le_mul this (by linarith) (by linarith) (by linarith)
      have k2 : tau * ((d + tau) * (2 * tau + d)) ≤ 7 * d * (h * (2 * h)) :=
        mul_le_mul (by linarith) k1 (by positivity) (by linarith)
      linarith
    have c2 : Mt * (d * (tau + d) * (2 * d + tau) / (6 * tau)) ≤ 7 / 3 * h ^ 2 * Mt := by
      rw [mul_comm]
      refine mul_le_mul_of_nonneg_right ?_ hMt
      rw [div_le_iff₀ (by positivity)]
      have : tau + d ≤ h := by linarith
      have k1 : (tau + d) * (2 * d + tau) ≤ h * (2 * h) :=
        mul_le_mul this (by linarith) (by linarith) (by linarith)
      have k2 : d * ((tau + d) * (2 * d + tau)) ≤ 4 * tau * (h * (2 * h)) :=
        mul_le_mul (by linarith) k1 (by positivity) (by linarith)
      have : 0 ≤ tau * h ^ 2 := by positivity
      linarith
    have w1 := hsum b1 (by linarith)
    have w2 := hsum b2 (by linarith)
    obtain ⟨en, en'⟩ := pair_energy (u := err i) (x := err (i + 1)) hal.le hd (by linarith) (by linarith) s1 s2
    have k0 : 0 ≤ (n : ℝ) * R ^ 2 := by positivity
    have k1 := mul_le_mul_of_nonneg_left w1 ht.le
    have k2 := mul_le_mul_of_nonneg_left w2 (show 0 ≤ 5 / 2 * d by linarith)
    have k3 : 0 ≤ tau * (n * R ^ 2) := mul_nonneg ht.le k0
    have k4 : 0 ≤ d * (n * R ^ 2) := mul_nonneg hd.le k0
    have e : (tAt g (i + 1) - tAt g i) * (5 / 2 * (n * R ^ 2)) =
        5 / 2 * (tau * (n * R ^ 2)) + 5 / 2 * (d * (n * R ^ 2)) := by rw [htau]; ring
    rw [e]
    exact ⟨by linarith, by linarith⟩
  have e0 : pairEnergy al dx d (err 0) ≤ d * (n * R ^ 2) := by
    refine bdf2_start_error hal.le hdx hm hu hd (by linarith [hpos.1, hpos.2]) hstart ?_
    have : d ^ 2 ≤ h ^ 2 := pow_le_pow_left₀ hd.le hdh 2
    have := mul_le_mul_of_nonneg_left this hMt
    have : 0 ≤ Mt * h ^ 2 := by positivity
    linarith
  have en : ∀ i, i < npts E.ts 0 →
      pairEnergy al dx d (err i) ≤ (d + 5 / 2 * (tAt g i - tAt g 0)) * (n * R ^ 2) := by
    intro i hi
    have := accumulate hs (5 / 2 * (n * R ^ 2)) (fun i c => pairEnergy al dx d (err i) ≤ d * (n * R ^ 2) + c)
      (by rw [add_zero]; exact e0) (fun i c hi _ hc => by have := (one i hi).1; linarith) i hi
    refine this.trans (le_of_eq ?_)
    ring
  have hsq : 2 * (d + 5 / 2 * (tAt g i - tAt g 0)) = 2 * d + 5 * (tAt g i - tAt g 0) := by ring
  rw [← hsq]
  have hQ : 0 ≤ d + 5 / 2 * (tAt g i - tAt g 0) := by linarith [hpos.1]
  refine ⟨abs_le_of_slopes (e := (err i).1) hal hdx hL hQ hR ?_ p, abs_le_of_slopes (e := (err i).2) hal hdx hL hQ hR ?_ p⟩
  · cases i with
    | zero =>
      have : (err 0).1 = 0 := by
        show (timeStepping E 0).1 - U (tAt g 0) = 0
        rw [show timeStepping E 0 = E.start 0 from rfl, hstart.1]
        exact sub_self _
      rw [this]
      have z : slopes (0 : Fin n → ℝ) 0 = 0 := by
        unfold slopes
        refine Finset.sum_eq_zero fun k _ => ?_
        have z : ∀ k : Int, atZ (0 : Fin n → ℝ) k = 0 := fun k => by unfold atZ; split <;> rfl
        rw [z, z, sub_zero, mul_zero]
      rw [z, mul_zero]
      positivity
    | succ i =>
      have := (one i hi).2
      have := en i (by omega)
      linarith
  · refine le_trans ?_ (en i hi)
    unfold pairEnergy
    have : 0 ≤ 9 / (10 * d) * ∑ j, ((err i).2 j - (err i).1 j) ^ 2 :=
      mul_nonneg (by positivity) (Finset.sum_nonneg fun _ _ => sq_nonneg _)
    linarith

end
/-- C121: the bound of the ratio cannot be dropped in `C121_energy`.  With one interior point and a ratio of 40 the energy
more than doubles in a step without a source. -/
theorem C121_ratio : ∃ (u x : (Fin 1 → ℝ) × (Fin 1 → ℝ)), Apps.bdf2Step (1 / 40) 1 (fun _ _ => 0) 1 u 0 41 x ∧
    2 * pairEnergy (1 / 40) 1 1 u < pairEnergy (1 / 40) 1 1 x := by
  obtain ⟨x, h, -⟩ := Apps.C50_wellposed (n := 1) (1 : ℝ) (a := 1 / 40) (by norm_num) (fun _ _ => 0)
    ((fun _ => 1), (fun _ => 0)) (dtau := 1) (t0 := 0) (t1 := 41) (by norm_num) (by norm_num)
  refine ⟨_, x, h, ?_⟩
  have mv : ∀ v : Fin 1 → ℝ, (Apps.heatMatrix 1 (1 / 40 : ℝ) 1).mulVec v 0 = 1 / 20 * v 0 := by
    intro v
    rw [Apps.heatMatrix_mulVec, atZ_out v (by simp), atZ_out v (by simp)]
    ring
  have sl : ∀ v : Fin 1 → ℝ, slopes v v = 2 * v 0 ^ 2 := by
    intro v
    have := slopes_eq 1 1 v v
    rw [Fin.sum_univ_one, Apps.heatMatrix_mulVec, atZ_out v (by simp), atZ_out v (by simp)] at this
    linarith
  have r1 := (bdf2Solve_rows (by norm_num) (by norm_num)).1 h.1 0
  have r2 := (bdf2Solve_rows (by norm_num) (by norm_num)).1 h.2 0
  rw [mv] at r1 r2
  unfold pairEnergy
  rw [sl, sl, Fin.sum_univ_one, Fin.sum_univ_one]
  norm_num at r1 r2 ⊢
  have e1 : x.1 0 = -1600 / 163 := by linarith
  rw [e1] at r2 ⊢
  have e2 : x.2 0 = 20 * (-(1600 / 163 * (1 / 1640)) - 42 / 41 * (1600 / 163)) / (1 + 20 * (42 / 41)) := by
    rw [eq_div_iff (by norm_num)]
    linarith
  rw [e2]
  norm_num

/-! ## Examples -/

/-- `t² x² (1 - x)²` is a solution as in `HeatSolution3`. -/
theorem exSource_solution3 (T : ℝ) (hT : T ≤ 11) :
    HeatSolution3 2 0 1 0 T exSource (fun t x => t ^ 2 * (x ^ 2 * (1 - x) ^ 2)) 0 2904 := by
  refine ⟨fun t x => 2 * t * (x ^ 2 * (1 - x) ^ 2), fun t x => 2 * (x ^ 2 * (1 - x) ^ 2), fun _ _ => 0,
    fun t x => t ^ 2 * (2 * x - 6 * x ^ 2 + 4 * x ^ 3), fun t x => t ^ 2 * (2 - 12 * x + 12 * x ^ 2),
    fun t x => t ^ 2 * (-12 + 24 * x), fun t _ => t ^ 2 * 24, ?_, ?_, ?_, ?_⟩
  · intro x _
    exact ⟨(deriv_quartic 0 T 0 0 (x ^ 2 * (1 - x) ^ 2) 0 0).congr' (fun _ _ => by ring) (fun _ _ => by ring),
      (deriv_quartic 0 T 0 (2 * (x ^ 2 * (1 - x) ^ 2)) 0 0 0).congr' (fun _ _ => by ring) (fun _ _ => by ring),
      (deriv_quartic 0 T (2 * (x ^ 2 * (1 - x) ^ 2)) 0 0 0 0).congr' (fun _ _ => by ring) (fun _ _ => by ring)⟩
  · intro t _
    obtain ⟨h1, h2, h3, h4⟩ := deriv_bump 0 (t ^ 2)
    exact ⟨h1.congr' (fun _ _ => by ring) (fun _ _ => rfl), h2, h3, h4⟩
  · intro t ht x _
    refine ⟨by unfold exSource; ring, by simp, ?_⟩
    rw [abs_of_nonneg (by positivity)]
    nlinarith [ht.1, ht.2]
  · intro t _
    constructor <;> ring

open Classical in
/-- `Heat1DBDF2.step` as a function. -/
noncomputable def exPairs (n : Nat) (a dx d : ℝ) (rhs : ℝ → Fin n → ℝ) :
    Nat → (Fin n → ℝ) × (Fin n → ℝ) → ℝ → ℝ → (Fin n → ℝ) × (Fin n → ℝ) :=
  fun _ u t t' => if h : ∃ x, Apps.bdf2Step a dx rhs d u t t' x then h.choose else 0

theorem exPairs_step {n : Nat} {a dx d : ℝ} (ha : 0 ≤ a) (hd : 0 < d) (rhs : ℝ → Fin n → ℝ) (l : Nat)
    (u : (Fin n → ℝ) × (Fin n → ℝ)) {t t' : ℝ} (ht : t + d < t') :
    Apps.bdf2Step a dx rhs d u t t' (exPairs n a dx d rhs l u t t') := by
  have h : ∃ x, Apps.bdf2Step a dx rhs d u t t' x := (Apps.C50_wellposed dx ha rhs u hd ht).exists
  unfold exPairs
  rw [dif_pos h]
  exact h.choose_spec

theorem exRealGrid_ratio (i : Nat) (hi : i + 1 < npts exRealGrid 0) :
    5 / 4 * (4 / 5) ≤ tAt (grid exRealGrid 0) (i + 1) - tAt (grid exRealGrid 0) i ∧
    tAt (grid exRealGrid 0) (i + 1) - tAt (grid exRealGrid 0) i ≤ 8 * (4 / 5) := by
  have hi : i + 1 < 5 := hi
  have : i < 4 := by omega
  interval_cases i <;> norm_num [exRealGrid, grid, tAt]

/-- `C121_energy`: a step of length 3 with `dtau = 1`. -/
example (u : (Fin 7 → ℝ) × (Fin 7 → ℝ)) (rhs : ℝ → Fin 7 → ℝ) :=
  C121_energy (x := exPairs 7 2 (1 / 8) 1 rhs 0 u 0 3) (by norm_num) one_pos (by norm_num) (by norm_num)
    (exPairs_step (by norm_num) one_pos rhs 0 u (by norm_num))

/-- `C121_stable`. -/
example (i : Nat) (hi : i < 5) :=
  C121_stable (E := exTol (exPairs 7 2 (1 / 8) (4 / 5) fun _ _ => 1) 0 0 false 1 (fun _ => 0) norm1)
    (exRealGrid_valid.sorted 0) (by norm_num) (by norm_num) exRealGrid_ratio
    (fun v _ _ ht => exPairs_step (by norm_num) (by norm_num) _ 0 v ht) (F := 7) (by intro i _; simp) i hi

/-- `C121_accuracy` on a mesh with 9 points. -/
example : ∃ x, (Space.heat1dMesh (0 : ℝ) 1 9).toOption = some (x, 7, 1 / 8) ∧ ∃ s : (Fin 7 → ℝ) × (Fin 7 → ℝ),
    ∀ i, i < 5 → ∀ p : Fin 7,
    |(timeStepping (exTol (exPairs 7 2 (1 / 8) (4 / 5) fun t i => exSource t (x.getD i 0)) s 0 false 1 (fun _ => 0) norm1)
      i).1 p - tAt (grid exRealGrid 0) i ^ 2 * ((x.getD p 0) ^ 2 * (1 - x.getD p 0) ^ 2)| ≤
      (1 - 0) * √((2 * (4 / 5) + 5 * (tAt (grid exRealGrid 0) i - tAt (grid exRealGrid 0) 0)) / 2) *
        (7 / 3 * 6 ^ 2 * 0 + 2 * (1 / 8) ^ 2 / 12 * 2904) := by
  obtain ⟨x, n, dx, e, hn, hm⟩ := (Space.C100_heat_1d (0 : ℝ) 1 9).2 (by decide)
  obtain rfl : n = 7 := by omega
  obtain rfl : dx = 1 / 8 := by
    have := hm.2.1
    push_cast at this
    linarith
  have hdom := Apps.heat_dominant_one 7 (1 / 8 : ℝ) (a := 2) (c := 4 / 5 / 2) (by norm_num) (by norm_num)
  obtain ⟨z, hz, -⟩ := hdom.existsUnique one_pos
    ((1 - ((4 / 5 : ℝ) / 2) • Apps.heatMatrix 7 (2 : ℝ) (1 / 8)).mulVec (fun p : Fin 7 => (0 : ℝ) ^ 2 *
      ((x.getD p 0) ^ 2 * (1 - x.getD p 0) ^ 2)) + ((4 / 5 : ℝ) / 2) • ((fun i : Fin 7 => exSource 0 (x.getD i 0)) +
        fun i : Fin 7 => exSource (0 + 4 / 5) (x.getD i 0)))
  refine ⟨x, by rw [e]; rfl, (fun p => (0 : ℝ) ^ 2 * ((x.getD p 0) ^ 2 * (1 - x.getD p 0) ^ 2), z), fun i hi p => ?_⟩
  exact (C121_accuracy (E := exTol (exPairs 7 2 (1 / 8) (4 / 5) fun t i => exSource t (x.getD i 0))
    (fun p => (0 : ℝ) ^ 2 * ((x.getD p 0) ^ 2 * (1 - x.getD p 0) ^ 2), z) 0 false 1
    (fun _ => 0) norm1) (exRealGrid_valid.sorted 0) (by norm_num) (by norm_num) hm (by norm_num) (by norm_num)
    (exSource_solution3 _ (by
      show (10 : ℝ) + 4 / 5 ≤ 11
      norm_num)) (fun v _ _ ht => exPairs_step (by norm_num) (by norm_num) _ 0 v ht) ⟨rfl, hz⟩ exRealGrid_ratio
    exRealGrid_step i hi p).1

end Pymgrit
