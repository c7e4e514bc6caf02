import Verif.PropsFiredrake
import Verif.Burgers
import Verif.Brouwer
import Mathlib.MeasureTheory.Integral.IntervalIntegral.FundThmCalculus
import Mathlib.MeasureTheory.Integral.IntervalIntegral.IntegrationByParts
import Mathlib.Topology.Algebra.Polynomial

/-!
# Property C117: Burgers' equation coupled with Firedrake
-/

set_option linter.unusedSectionVars false

namespace Pymgrit.Burgers

variable {n : Nat} [NeZero n] {h : Fin n → ℝ} {nu : ℝ}

/-- Integral over the interval. -/
noncomputable def amount (h : Fin n → ℝ) (u : P2 n) : ℝ := dx h fun k ξ => val u k ξ

/-- Square of the `L²`-norm. -/
noncomputable def normSq (h : Fin n → ℝ) (u : P2 n) : ℝ := dx h fun k ξ => val u k ξ ^ 2

/-- Square of the `L²`-norm of the derivative. -/
noncomputable def slopeSq (h : Fin n → ℝ) (u : P2 n) : ℝ := dx h fun k ξ => der h u k ξ ^ 2

@[fun_prop] theorem val_cont (u : P2 n) (k : Fin n) : Continuous (val u k) := by
  unfold val shape; fun_prop

@[fun_prop] theorem der_cont (u : P2 n) (k : Fin n) : Continuous (der h u k) := by
  unfold der dshape; fun_prop

theorem dx_add {f g : Fin n → ℝ → ℝ} (hf : ∀ k, Continuous (f k)) (hg : ∀ k, Continuous (g k)) :
    dx h (fun k ξ => f k ξ + g k ξ) = dx h f + dx h g := by
  unfold dx
  rw [← Finset.sum_add_distrib]
  refine Finset.sum_congr rfl fun k _ => ?_
  rw [intervalIntegral.integral_add ((hf k).intervalIntegrable _ _) ((hg k).intervalIntegrable _ _), mul_add]

theorem dx_smul (a : ℝ) (f : Fin n → ℝ → ℝ) : dx h (fun k ξ => a * f k ξ) = a * dx h f := by
  unfold dx
  rw [Finset.mul_sum]
  refine Finset.sum_congr rfl fun k _ => ?_
  rw [intervalIntegral.integral_const_mul]
  ring

theorem dx_sub {f g : Fin n → ℝ → ℝ} (hf : ∀ k, Continuous (f k)) (hg : ∀ k, Continuous (g k)) :
    dx h (fun k ξ => f k ξ - g k ξ) = dx h f - dx h g := by
  unfold dx
  rw [← Finset.sum_sub_distrib]
  refine Finset.sum_congr rfl fun k _ => ?_
  rw [intervalIntegral.integral_sub ((hf k).intervalIntegrable _ _) ((hg k).intervalIntegrable _ _), mul_sub]

theorem dx_nonneg (hh : ∀ k, 0 < h k) {f : Fin n → ℝ → ℝ} (hf : ∀ k ξ, 0 ≤ ξ → ξ ≤ 1 → 0 ≤ f k ξ) : 0 ≤ dx h f :=
  Finset.sum_nonneg fun k _ => mul_nonneg (hh k).le
    (intervalIntegral.integral_nonneg zero_le_one fun ξ hξ => hf k ξ hξ.1 hξ.2)

theorem val_deriv (hh : ∀ k, 0 < h k) (u : P2 n) (k : Fin n) (ξ : ℝ) :
    HasDerivAt (val u k) (h k * der h u k ξ) ξ := by
  have h1 : HasDerivAt (fun ξ : ℝ => ξ) 1 ξ := hasDerivAt_id ξ
  have h2 : HasDerivAt (fun ξ : ℝ => 1 - ξ) (-1) ξ := by simpa using h1.const_sub 1
  have h3 : HasDerivAt (fun ξ : ℝ => 2 * ξ) 2 ξ := by simpa using h1.const_mul 2
  have h4 : HasDerivAt (fun ξ : ℝ => 1 - 2 * ξ) (-2) ξ := by simpa using h3.const_sub 1
  have h5 : HasDerivAt (fun ξ : ℝ => 2 * ξ - 1) 2 ξ := by simpa using h3.sub_const 1
  have h6 : HasDerivAt (fun ξ : ℝ => 4 * ξ) 4 ξ := by simpa using h1.const_mul 4
  have h7 := (((h2.mul h4).const_mul (u.1 k)).add ((h6.mul h2).const_mul (u.2 k))).add
    ((h1.mul h5).const_mul (u.1 (k + 1)))
  refine h7.congr_deriv ?_
  unfold der dshape
  rw [mul_div_cancel₀ _ (hh k).ne']
  ring

theorem val_zero (u : P2 n) (k : Fin n) : val u k 0 = u.1 k := by simp [val, shape]

theorem val_one (u : P2 n) (k : Fin n) : val u k 1 = u.1 (k + 1) := by simp [val, shape]; norm_num

theorem val_half (u : P2 n) (k : Fin n) : val u k (1 / 2) = u.2 k := by simp [val, shape]; ring

/-- The integral of a derivative over the circle is zero. -/
theorem dx_deriv {F f : Fin n → ℝ → ℝ} {g : Fin n → ℝ} (hF : ∀ k ξ, HasDerivAt (F k) (h k * f k ξ) ξ)
    (hf : ∀ k, Continuous (f k)) (h0 : ∀ k, F k 0 = g k) (h1 : ∀ k, F k 1 = g (k + 1)) : dx h f = 0 := by
  unfold dx
  have e : ∀ k, h k * ∫ ξ in (0 : ℝ)..1, f k ξ = g (k + 1) - g k := by
    intro k
    rw [← intervalIntegral.integral_const_mul, ← h1, ← h0]
    exact intervalIntegral.integral_eq_sub_of_hasDerivAt (fun ξ _ => hF k ξ)
      ((continuous_const.mul (hf k)).intervalIntegrable _ _)
  simp only [e, Finset.sum_sub_distrib]
  rw [sub_eq_zero]
  exact Fintype.sum_equiv (Equiv.addRight 1) _ _ fun k => rfl

theorem form_split {dt : ℝ} (u1 u0 v : P2 n) :
    form h nu dt u1 u0 v = (1 / dt) * dx h (fun k ξ => (val u1 k ξ - val u0 k ξ) * val v k ξ)
      + dx h (fun k ξ => val u1 k ξ * der h u1 k ξ * val v k ξ)
      + nu * dx h (fun k ξ => der h u1 k ξ * der h v k ξ) := by
  rw [← dx_smul, ← dx_smul, ← dx_add (by fun_prop) (by fun_prop), ← dx_add (by fun_prop) (by fun_prop)]
  unfold form
  congr 1
  funext k ξ
  ring

/-- The function with constant value `a`. -/
def const (a : ℝ) : P2 n := (fun _ => a, fun _ => a)

theorem val_const (a : ℝ) (k : Fin n) (ξ : ℝ) : val (const a) k ξ = a := by
  simp only [val, shape, const]; ring

theorem der_const (a : ℝ) (k : Fin n) (ξ : ℝ) : der h (const a) k ξ = 0 := by
  simp only [der, dshape, const]
  rw [show a * (4 * ξ - 3) + a * (4 - 8 * ξ) + a * (4 * ξ - 1) = 0 by ring, zero_div]

/-- C117.  A step conserves the integral. -/
theorem C117_amount (hh : ∀ k, 0 < h k) {u0 u1 : P2 n} {t t' : ℝ} (ht : t < t') (hs : step h nu u0 t t' u1) :
    amount h u1 = amount h u0 := by
  have := hs (const 1)
  rw [form_split] at this
  simp only [val_const, der_const, mul_one, mul_zero] at this
  have e1 : dx h (fun k ξ => val u1 k ξ * der h u1 k ξ) = 0 := by
    refine dx_deriv (F := fun k ξ => val u1 k ξ ^ 2 / 2) (g := fun k => u1.1 k ^ 2 / 2) (fun k ξ => ?_) (by fun_prop)
      (fun k => by rw [val_zero]) fun k => by rw [val_one]
    refine (((val_deriv hh u1 k ξ).pow 2).div_const 2).congr_deriv ?_
    push_cast
    ring
  have e2 : dx h (fun (_ : Fin n) (_ : ℝ) => (0 : ℝ)) = 0 := by simp [dx]
  rw [e1, e2, mul_zero, add_zero, add_zero, dx_sub (by fun_prop) (by fun_prop)] at this
  have hne : (1 / (t' - t)) ≠ 0 := one_div_ne_zero (sub_pos.2 ht).ne'
  exact sub_eq_zero.1 ((mul_eq_zero.1 this).resolve_left hne)

theorem val_sub (u v : P2 n) (k : Fin n) (ξ : ℝ) : val (u - v) k ξ = val u k ξ - val v k ξ := by
  simp only [val, shape, Prod.fst_sub, Prod.snd_sub, Pi.sub_apply]; ring

theorem der_sub (u v : P2 n) (k : Fin n) (ξ : ℝ) : der h (u - v) k ξ = der h u k ξ - der h v k ξ := by
  simp only [der, dshape, Prod.fst_sub, Prod.snd_sub, Pi.sub_apply]; ring

theorem form_self (hh : ∀ k, 0 < h k) {dt : ℝ} (hdt : 0 < dt) (u1 u0 : P2 n) :
    2 * dt * form h nu dt u1 u0 u1
      = normSq h u1 - normSq h u0 + normSq h (u1 - u0) + 2 * dt * nu * slopeSq h u1 := by
  rw [form_split]
  have e1 : dx h (fun k ξ => val u1 k ξ * der h u1 k ξ * val u1 k ξ) = 0 := by
    refine dx_deriv (F := fun k ξ => val u1 k ξ ^ 3 / 3) (g := fun k => u1.1 k ^ 3 / 3) (fun k ξ => ?_) (by fun_prop)
      (fun k => by rw [val_zero]) fun k => by rw [val_one]
    refine (((val_deriv hh u1 k ξ).pow 3).div_const 3).congr_deriv ?_
    push_cast
    ring
  have e2 : dx h (fun k ξ => der h u1 k ξ * der h u1 k ξ) = slopeSq h u1 := by
    unfold slopeSq
    congr 1
    funext k ξ
    ring
  have e3 : 2 * dx h (fun k ξ => (val u1 k ξ - val u0 k ξ) * val u1 k ξ)
      = normSq h u1 - normSq h u0 + normSq h (u1 - u0) := by
    unfold normSq
    rw [← dx_sub (by fun_prop) (by fun_prop), ← dx_smul, ← dx_add (by fun_prop) (by fun_prop)]
    congr 1
    funext k ξ
    rw [val_sub]
    ring
  rw [e1, e2, add_zero, ← e3]
  field_simp

/-- C117.  Balance of energy: what a step loses is dissipated by the viscosity and by backward Euler, nothing by the
nonlinear term. -/
theorem C117_energy (hh : ∀ k, 0 < h k) {u0 u1 : P2 n} {t t' : ℝ} (ht : t < t') (hs : step h nu u0 t t' u1) :
    normSq h u1 + normSq h (u1 - u0) + 2 * (t' - t) * nu * slopeSq h u1 = normSq h u0 := by
  have := form_self (nu := nu) hh (sub_pos.2 ht) u1 u0
  rw [hs u1, mul_zero] at this
  linarith

/-- C117.  Uniqueness: two results of the same step whose slopes are not too negative (the mean slope above `-2 / Δt`)
are equal. -/
theorem C117_unique (hh : ∀ k, 0 < h k) (hnu : 0 ≤ nu) {u0 u w : P2 n} {t t' : ℝ} (ht : t < t')
    (hu : step h nu u0 t t' u) (hw : step h nu u0 t t' w)
    (hslope : ∀ k ξ, 0 ≤ ξ → ξ ≤ 1 → -2 < (t' - t) * ((der h u k ξ + der h w k ξ) / 2)) : u = w := by
  have h1 := hu (u - w)
  have h2 := hw (u - w)
  rw [form_split] at h1 h2
  have hp := sub_pos.2 ht
  have e1 : dx h (fun k ξ => (der h (u - w) k ξ * ((val u k ξ + val w k ξ) / 2)) * val (u - w) k ξ
      + (der h u k ξ + der h w k ξ) / 4 * val (u - w) k ξ ^ 2) = 0 := by
    refine dx_deriv (F := fun k ξ => (val u k ξ + val w k ξ) / 4 * val (u - w) k ξ ^ 2)
      (g := fun k => (u.1 k + w.1 k) / 4 * (u - w).1 k ^ 2) (fun k ξ => ?_) (by fun_prop)
      (fun k => by simp only [val_zero]) fun k => by simp only [val_one]
    refine ((((val_deriv hh u k ξ).add (val_deriv hh w k ξ)).div_const 4).mul
      ((val_deriv hh (u - w) k ξ).pow 2)).congr_deriv ?_
    push_cast
    simp only [Pi.pow_apply, Pi.add_apply]
    ring
  have e2 : (1 / (t' - t)) * dx h (fun k ξ => val (u - w) k ξ ^ 2)
      + dx h (fun k ξ => (der h u k ξ + der h w k ξ) / 4 * val (u - w) k ξ ^ 2)
      + nu * slopeSq h (u - w) = 0 := by
    have a1 : dx h (fun k ξ => val (u - w) k ξ ^ 2) = dx h (fun k ξ => (val u k ξ - val u0 k ξ) * val (u - w) k ξ)
        - dx h (fun k ξ => (val w k ξ - val u0 k ξ) * val (u - w) k ξ) := by
      rw [← dx_sub (by fun_prop) (by fun_prop)]
      congr 1
      funext k ξ
      rw [val_sub]
      ring
    have a2 : slopeSq h (u - w) = dx h (fun k ξ => der h u k ξ * der h (u - w) k ξ)
        - dx h (fun k ξ => der h w k ξ * der h (u - w) k ξ) := by
      unfold slopeSq
      rw [← dx_sub (by fun_prop) (by fun_prop)]
      congr 1
      funext k ξ
      rw [der_sub]
      ring
    have a3 : dx h (fun k ξ => (der h u k ξ + der h w k ξ) / 4 * val (u - w) k ξ ^ 2)
        = dx h (fun k ξ => val u k ξ * der h u k ξ * val (u - w) k ξ)
          - dx h (fun k ξ => val w k ξ * der h w k ξ * val (u - w) k ξ) := by
      rw [← dx_sub (by fun_prop) (by fun_prop), ← sub_zero (dx h fun k ξ => _ - _), ← e1,
        ← dx_sub (by fun_prop) (by fun_prop)]
      congr 1
      funext k ξ
      rw [der_sub, val_sub]
      ring
    rw [a1, a2, a3]
    linear_combination h1 - h2
  have e3 : dx h (fun k ξ => (1 / (t' - t) + (der h u k ξ + der h w k ξ) / 4) * val (u - w) k ξ ^ 2) ≤ 0 := by
    have a4 : dx h (fun k ξ => (1 / (t' - t) + (der h u k ξ + der h w k ξ) / 4) * val (u - w) k ξ ^ 2)
        = (1 / (t' - t)) * dx h (fun k ξ => val (u - w) k ξ ^ 2)
          + dx h (fun k ξ => (der h u k ξ + der h w k ξ) / 4 * val (u - w) k ξ ^ 2) := by
      rw [← dx_smul, ← dx_add (by fun_prop) (by fun_prop)]
      congr 1
      funext k ξ
      ring
    have a5 : 0 ≤ nu * slopeSq h (u - w) := mul_nonneg hnu (dx_nonneg hh fun k ξ _ _ => sq_nonneg _)
    rw [a4]
    linarith
  have hc : ∀ k ξ, 0 ≤ ξ → ξ ≤ 1 → 0 < 1 / (t' - t) + (der h u k ξ + der h w k ξ) / 4 := by
    intro k ξ h0 h1
    have := hslope k ξ h0 h1
    have e : 1 / (t' - t) + (der h u k ξ + der h w k ξ) / 4
        = (2 + (t' - t) * ((der h u k ξ + der h w k ξ) / 2)) / (2 * (t' - t)) := by
      field_simp
      ring
    rw [e]
    exact div_pos (by linarith) (by linarith)
  have hz : ∀ k ξ, 0 ≤ ξ → ξ ≤ 1 → val (u - w) k ξ = 0 := by
    by_contra hne
    push Not at hne
    obtain ⟨k, ξ, h0, h1, hne⟩ := hne
    have : 0 < dx h (fun k ξ => (1 / (t' - t) + (der h u k ξ + der h w k ξ) / 4) * val (u - w) k ξ ^ 2) := by
      refine Finset.sum_pos' (fun j _ => mul_nonneg (hh j).le (intervalIntegral.integral_nonneg zero_le_one
        fun x hx => mul_nonneg (hc j x hx.1 hx.2).le (sq_nonneg _))) ⟨k, Finset.mem_univ k, mul_pos (hh k) ?_⟩
      refine intervalIntegral.integral_pos zero_lt_one (Continuous.continuousOn (by fun_prop))
        (fun x hx => mul_nonneg (hc k x hx.1.le hx.2).le (sq_nonneg _)) ⟨ξ, ⟨h0, h1⟩, ?_⟩
      exact mul_pos (hc k ξ h0 h1) (by positivity)
    linarith
  refine Prod.ext (funext fun k => ?_) (funext fun k => ?_)
  · have := hz k 0 le_rfl zero_le_one
    rw [val_sub, val_zero, val_zero] at this
    linarith
  · have := hz k (1 / 2) (by norm_num) (by norm_num)
    rw [val_sub, val_half, val_half] at this
    linarith

/-- Integral of the square of a quadratic polynomial. -/
theorem shape_sq (a m b : ℝ) : ∫ ξ in (0 : ℝ)..1, shape a m b ξ ^ 2
    = (4 * a ^ 2 + 16 * m ^ 2 + 4 * b ^ 2 + 4 * a * m + 4 * m * b - 2 * a * b) / 30 := by
  set c1 := 4 * m - 3 * a - b
  set c2 := 2 * a - 4 * m + 2 * b
  have hF : ∀ ξ : ℝ, HasDerivAt (fun ξ : ℝ => a ^ 2 * ξ + a * c1 * ξ ^ 2 + (c1 ^ 2 + 2 * a * c2) / 3 * ξ ^ 3
      + c1 * c2 / 2 * ξ ^ 4 + c2 ^ 2 / 5 * ξ ^ 5) (shape a m b ξ ^ 2) ξ := by
    intro ξ
    have h1 : HasDerivAt (fun ξ : ℝ => ξ) 1 ξ := hasDerivAt_id ξ
    have h2 := (((((h1.const_mul (a ^ 2)).add ((h1.pow 2).const_mul (a * c1))).add
      ((h1.pow 3).const_mul ((c1 ^ 2 + 2 * a * c2) / 3))).add ((h1.pow 4).const_mul (c1 * c2 / 2))).add
      ((h1.pow 5).const_mul (c2 ^ 2 / 5)))
    refine h2.congr_deriv ?_
    simp only [shape, c1, c2]
    push_cast
    ring
  rw [intervalIntegral.integral_eq_sub_of_hasDerivAt (fun ξ _ => hF ξ)
    (Continuous.intervalIntegrable (by unfold shape; fun_prop) _ _)]
  simp only [c1, c2]
  ring

/-- Slopes are bounded by the norm. -/
theorem dshape_sq (a m b ξ : ℝ) (h0 : 0 ≤ ξ) (h1 : ξ ≤ 1) :
    dshape a m b ξ ^ 2 ≤ 510 * ∫ ξ in (0 : ℝ)..1, shape a m b ξ ^ 2 := by
  rw [shape_sq]
  have e1 : a ^ 2 + m ^ 2 + b ^ 2 ≤ 15 * ((4 * a ^ 2 + 16 * m ^ 2 + 4 * b ^ 2 + 4 * a * m + 4 * m * b - 2 * a * b) / 30) := by
    nlinarith [sq_nonneg (a - b), sq_nonneg (a + b + 2 * m), sq_nonneg m, sq_nonneg (a + b + 4 * m)]
  have e2 : dshape a m b ξ ^ 2 ≤ ((4 * ξ - 3) ^ 2 + (4 - 8 * ξ) ^ 2 + (4 * ξ - 1) ^ 2) * (a ^ 2 + m ^ 2 + b ^ 2) := by
    unfold dshape
    nlinarith [sq_nonneg (a * (4 - 8 * ξ) - m * (4 * ξ - 3)), sq_nonneg (a * (4 * ξ - 1) - b * (4 * ξ - 3)),
      sq_nonneg (m * (4 * ξ - 1) - b * (4 - 8 * ξ))]
  have e3 : (4 * ξ - 3) ^ 2 + (4 - 8 * ξ) ^ 2 + (4 * ξ - 1) ^ 2 ≤ 34 := by nlinarith
  have e4 : 0 ≤ a ^ 2 + m ^ 2 + b ^ 2 := by positivity
  nlinarith

theorem der_bound (hh : ∀ k, 0 < h k) (u : P2 n) (k : Fin n) (ξ : ℝ) (h0 : 0 ≤ ξ) (h1 : ξ ≤ 1) :
    h k ^ 3 * der h u k ξ ^ 2 ≤ 510 * normSq h u := by
  have e1 := dshape_sq (u.1 k) (u.2 k) (u.1 (k + 1)) ξ h0 h1
  have e2 : h k * ∫ ξ in (0 : ℝ)..1, val u k ξ ^ 2 ≤ normSq h u :=
    Finset.single_le_sum (f := fun k => h k * ∫ ξ in (0 : ℝ)..1, val u k ξ ^ 2)
      (fun j _ => mul_nonneg (hh j).le (intervalIntegral.integral_nonneg zero_le_one fun x _ => sq_nonneg _))
      (Finset.mem_univ k)
  have e3 : h k ^ 3 * der h u k ξ ^ 2 = h k * dshape (u.1 k) (u.2 k) (u.1 (k + 1)) ξ ^ 2 := by
    unfold der
    have := (hh k).ne'
    field_simp
  rw [e3]
  calc h k * dshape (u.1 k) (u.2 k) (u.1 (k + 1)) ξ ^ 2
      ≤ h k * (510 * ∫ ξ in (0 : ℝ)..1, val u k ξ ^ 2) := mul_le_mul_of_nonneg_left e1 (hh k).le
    _ = 510 * (h k * ∫ ξ in (0 : ℝ)..1, val u k ξ ^ 2) := by ring
    _ ≤ _ := by linarith

theorem normSq_nonneg (hh : ∀ k, 0 < h k) (u : P2 n) : 0 ≤ normSq h u := dx_nonneg hh fun k ξ _ _ => sq_nonneg _

/-- C117.  The norm does not increase. -/
theorem C117_stable (hh : ∀ k, 0 < h k) (hnu : 0 ≤ nu) {u0 u1 : P2 n} {t t' : ℝ} (ht : t < t')
    (hs : step h nu u0 t t' u1) : normSq h u1 ≤ normSq h u0 := by
  have e := C117_energy hh ht hs
  have a := normSq_nonneg hh (u1 - u0)
  have b : 0 ≤ slopeSq h u1 := dx_nonneg hh fun k ξ _ _ => sq_nonneg _
  have c : 0 ≤ 2 * (t' - t) * nu * slopeSq h u1 := by
    have := sub_pos.2 ht
    positivity
  linarith

/-- C117.  Small steps have at most one result. -/
theorem C117_unique_small (hh : ∀ k, 0 < h k) (hnu : 0 ≤ nu) {u0 u w : P2 n} {t t' : ℝ} (ht : t < t')
    (hsmall : ∀ k, 510 * (t' - t) ^ 2 * normSq h u0 < 4 * h k ^ 3)
    (hu : step h nu u0 t t' u) (hw : step h nu u0 t t' w) : u = w := by
  have key : ∀ v, step h nu u0 t t' v → ∀ k ξ, 0 ≤ ξ → ξ ≤ 1 → -2 < (t' - t) * der h v k ξ := by
    intro v hv k ξ h0 h1
    have e1 := der_bound hh v k ξ h0 h1
    have e2 := C117_stable hh hnu ht hv
    have e3 := hsmall k
    have h3 : 0 < h k ^ 3 := pow_pos (hh k) 3
    have e4 : h k ^ 3 * ((t' - t) * der h v k ξ) ^ 2 < h k ^ 3 * 2 ^ 2 := by
      have := mul_le_mul_of_nonneg_left (e1.trans (mul_le_mul_of_nonneg_left e2 (by norm_num : (0 : ℝ) ≤ 510)))
        (sq_nonneg (t' - t))
      nlinarith
    have e5 := lt_of_mul_lt_mul_left e4 h3.le
    exact (abs_lt.1 (abs_lt_of_sq_lt_sq e5 (by norm_num))).1
  refine C117_unique hh hnu ht hu hw fun k ξ h0 h1 => ?_
  have := key u hu k ξ h0 h1
  have := key w hw k ξ h0 h1
  nlinarith

/-! ## Existence -/

theorem val_add (u v : P2 n) (k : Fin n) (ξ : ℝ) : val (u + v) k ξ = val u k ξ + val v k ξ := by
  simp only [val, shape, Prod.fst_add, Prod.snd_add, Pi.add_apply]; ring

theorem der_add (u v : P2 n) (k : Fin n) (ξ : ℝ) : der h (u + v) k ξ = der h u k ξ + der h v k ξ := by
  simp only [der, dshape, Prod.fst_add, Prod.snd_add, Pi.add_apply]; ring

theorem val_smul (a : ℝ) (u : P2 n) (k : Fin n) (ξ : ℝ) : val (a • u) k ξ = a * val u k ξ := by
  simp only [val, shape, Prod.smul_fst, Prod.smul_snd, Pi.smul_apply, smul_eq_mul]; ring

theorem der_smul (a : ℝ) (u : P2 n) (k : Fin n) (ξ : ℝ) : der h (a • u) k ξ = a * der h u k ξ := by
  simp only [der, dshape, Prod.smul_fst, Prod.smul_snd, Pi.smul_apply, smul_eq_mul]; ring

theorem val_lin {m : Nat} (y : Fin m → ℝ) (v : Fin m → P2 n) (k : Fin n) (ξ : ℝ) :
    val (∑ i, y i • v i) k ξ = ∑ i, y i * val (v i) k ξ := by
  let L : P2 n →ₗ[ℝ] ℝ := { toFun := fun u => val u k ξ, map_add' := fun u v => val_add u v k ξ,
                            map_smul' := fun a u => val_smul a u k ξ }
  have := map_sum L (fun i => y i • v i) Finset.univ
  refine this.trans (Finset.sum_congr rfl fun i _ => ?_)
  exact val_smul _ _ _ _

theorem der_lin {m : Nat} (y : Fin m → ℝ) (v : Fin m → P2 n) (k : Fin n) (ξ : ℝ) :
    der h (∑ i, y i • v i) k ξ = ∑ i, y i * der h (v i) k ξ := by
  let L : P2 n →ₗ[ℝ] ℝ := { toFun := fun u => der h u k ξ, map_add' := fun u v => der_add u v k ξ,
                            map_smul' := fun a u => der_smul a u k ξ }
  have := map_sum L (fun i => y i • v i) Finset.univ
  refine this.trans (Finset.sum_congr rfl fun i _ => ?_)
  exact der_smul _ _ _ _

theorem dx_sum {m : Nat} {f : Fin m → Fin n → ℝ → ℝ} (hf : ∀ i k, Continuous (f i k)) :
    dx h (fun k ξ => ∑ i, f i k ξ) = ∑ i, dx h (f i) := by
  unfold dx
  rw [Finset.sum_comm]
  refine Finset.sum_congr rfl fun k _ => ?_
  rw [intervalIntegral.integral_finsetSum fun i _ => (hf i k).intervalIntegrable _ _, Finset.mul_sum]

/-- The inner product of `L²`. -/
noncomputable def mass (h : Fin n → ℝ) (u v : P2 n) : ℝ := dx h fun k ξ => val u k ξ * val v k ξ

theorem mass_form : Forms.IsForm (mass h) where
  add := fun x y z => by
    unfold mass
    rw [← dx_add (by fun_prop) (by fun_prop)]
    congr 1
    funext k ξ
    rw [val_add]
    ring
  smul := fun a x z => by
    unfold mass
    rw [← dx_smul]
    congr 1
    funext k ξ
    rw [val_smul]
    ring
  symm := fun x y => by
    unfold mass
    congr 1
    funext k ξ
    ring

theorem mass_self (u : P2 n) : mass h u u = normSq h u := by
  unfold mass normSq
  congr 1
  funext k ξ
  ring

theorem mass_pos (hh : ∀ k, 0 < h k) (u : P2 n) (hu : u ≠ 0) : 0 < mass h u u := by
  rw [mass_self]
  by_contra hle
  push Not at hle
  have hz : ∀ k, h k * ∫ ξ in (0 : ℝ)..1, val u k ξ ^ 2 = 0 := fun k =>
    (Finset.sum_eq_zero_iff_of_nonneg (s := Finset.univ) (f := fun k => h k * ∫ ξ in (0 : ℝ)..1, val u k ξ ^ 2) fun j _ =>
      mul_nonneg (hh j).le (intervalIntegral.integral_nonneg zero_le_one fun x _ => sq_nonneg _)).1
      (le_antisymm hle (normSq_nonneg hh u)) k (Finset.mem_univ k)
  have hz2 : ∀ k, u.1 k ^ 2 + u.2 k ^ 2 + u.1 (k + 1) ^ 2 ≤ 0 := by
    intro k
    have h1 := (mul_eq_zero.1 (hz k)).resolve_left (hh k).ne'
    unfold val at h1
    rw [shape_sq] at h1
    nlinarith [sq_nonneg (u.1 k - u.1 (k + 1)), sq_nonneg (u.1 k + u.1 (k + 1) + 2 * u.2 k), sq_nonneg (u.2 k),
      sq_nonneg (u.1 k + u.1 (k + 1) + 4 * u.2 k)]
  refine hu (Prod.ext (funext fun k => ?_) (funext fun k => ?_))
  · have := hz2 k
    have : u.1 k ^ 2 ≤ 0 := by nlinarith [sq_nonneg (u.2 k), sq_nonneg (u.1 (k + 1))]
    exact pow_eq_zero_iff two_ne_zero |>.1 (le_antisymm this (sq_nonneg _))
  · have := hz2 k
    have : u.2 k ^ 2 ≤ 0 := by nlinarith [sq_nonneg (u.1 k), sq_nonneg (u.1 (k + 1))]
    exact pow_eq_zero_iff two_ne_zero |>.1 (le_antisymm this (sq_nonneg _))

theorem form_test {dt : ℝ} (u1 u0 : P2 n) {m : Nat} (y : Fin m → ℝ) (v : Fin m → P2 n) :
    form h nu dt u1 u0 (∑ i, y i • v i) = ∑ i, y i * form h nu dt u1 u0 (v i) := by
  have : ∀ i, y i * form h nu dt u1 u0 (v i) = dx h fun k ξ => y i * (((val u1 k ξ - val u0 k ξ) / dt) * val (v i) k ξ
      + val u1 k ξ * der h u1 k ξ * val (v i) k ξ + nu * der h u1 k ξ * der h (v i) k ξ) := fun i => (dx_smul _ _).symm
  simp only [this]
  rw [← dx_sum (by fun_prop)]
  unfold form
  congr 1
  funext k ξ
  rw [val_lin, der_lin, Finset.mul_sum, Finset.mul_sum, Finset.mul_sum, ← Finset.sum_add_distrib,
    ← Finset.sum_add_distrib]
  exact Finset.sum_congr rfl fun i _ => by ring

theorem form_poly {dt : ℝ} (u0 w : P2 n) {m : Nat} (y : Fin m → ℝ) (v : Fin m → P2 n) :
    form h nu dt (∑ i, y i • v i) u0 w
      = (1 / dt) * (∑ i, y i * dx h (fun k ξ => val (v i) k ξ * val w k ξ) - dx h (fun k ξ => val u0 k ξ * val w k ξ))
        + ∑ i, ∑ j, y i * y j * dx h (fun k ξ => val (v i) k ξ * der h (v j) k ξ * val w k ξ)
        + nu * ∑ i, y i * dx h (fun k ξ => der h (v i) k ξ * der h w k ξ) := by
  have e1 : ∑ i, ∑ j, y i * y j * dx h (fun k ξ => val (v i) k ξ * der h (v j) k ξ * val w k ξ)
      = dx h fun k ξ => ∑ i, ∑ j, y i * y j * (val (v i) k ξ * der h (v j) k ξ * val w k ξ) := by
    rw [dx_sum (by fun_prop)]
    refine Finset.sum_congr rfl fun i _ => ?_
    rw [dx_sum (by fun_prop)]
    exact Finset.sum_congr rfl fun j _ => (dx_smul _ _).symm
  have e2 : ∑ i, y i * dx h (fun k ξ => val (v i) k ξ * val w k ξ)
      = dx h fun k ξ => ∑ i, y i * (val (v i) k ξ * val w k ξ) := by
    rw [dx_sum (by fun_prop)]
    exact Finset.sum_congr rfl fun j _ => (dx_smul _ _).symm
  have e3 : ∑ i, y i * dx h (fun k ξ => der h (v i) k ξ * der h w k ξ)
      = dx h fun k ξ => ∑ i, y i * (der h (v i) k ξ * der h w k ξ) := by
    rw [dx_sum (by fun_prop)]
    exact Finset.sum_congr rfl fun j _ => (dx_smul _ _).symm
  rw [form_split, e1, e2, e3, ← dx_sub (by fun_prop) (by fun_prop)]
  congr 1
  · congr 1
    · congr 2
      funext k ξ
      rw [val_lin, sub_mul, Finset.sum_mul]
      congr 1
      exact Finset.sum_congr rfl fun i _ => by ring
    · congr 1
      funext k ξ
      rw [val_lin, der_lin, Finset.sum_mul_sum, Finset.sum_mul]
      refine Finset.sum_congr rfl fun i _ => ?_
      rw [Finset.sum_mul]
      exact Finset.sum_congr rfl fun j _ => by ring
  · congr 2
    funext k ξ
    rw [der_lin, Finset.sum_mul]
    exact Finset.sum_congr rfl fun i _ => by ring

/-- C117.  Every step has a result, for all start values and step sizes. -/
theorem C117_exists (hh : ∀ k, 0 < h k) (hnu : 0 ≤ nu) (u0 : P2 n) {t t' : ℝ} (ht : t < t') :
    ∃ u1, step h nu u0 t t' u1 := by
  obtain ⟨m, f, v, μ, hfv, hsum, hm, -⟩ := Forms.exists_coords (mass_form (h := h)) (mass_pos hh) (mass_form (h := h))
  have hdt := sub_pos.2 ht
  set dt := t' - t with hdt'
  let U : Brouwer.Rn m → P2 n := fun y => ∑ i, y i • v i
  let F : Brouwer.Rn m → Brouwer.Rn m := fun y => WithLp.toLp 2 fun k => form h nu dt (U y) u0 (v k)
  have hfU : ∀ y k, f k (U y) = y k := by
    intro y k
    simp only [U, map_sum, map_smul, hfv, smul_eq_mul, mul_ite, mul_one, mul_zero, Finset.sum_ite_eq, Finset.mem_univ,
      if_true]
  have hF : ContDiff ℝ 1 F := by
    rw [contDiff_euclidean]
    intro k
    show ContDiff ℝ 1 fun y => form h nu dt (U y) u0 (v k)
    simp only [U, form_poly]
    have hc : ∀ i : Fin m, ContDiff ℝ 1 fun y : Brouwer.Rn m => y i := fun i =>
      contDiff_euclidean.1 contDiff_id i
    refine ((contDiff_const.mul ((ContDiff.sum fun i _ => (hc i).mul contDiff_const).sub contDiff_const)).add
      (ContDiff.sum fun i _ => ContDiff.sum fun j _ => ((hc i).mul (hc j)).mul contDiff_const)).add
      (contDiff_const.mul (ContDiff.sum fun i _ => (hc i).mul contDiff_const))
  have hnorm : ∀ y, normSq h (U y) = ‖y‖ ^ 2 := by
    intro y
    rw [← mass_self, hm, EuclideanSpace.norm_sq_eq]
    refine Finset.sum_congr rfl fun k _ => ?_
    rw [hfU, Real.norm_eq_abs, sq_abs, sq]
  have h0 := normSq_nonneg hh u0
  obtain ⟨y, -, hy⟩ := Brouwer.exists_zero hF (R := √(normSq h u0 + 1)) (by positivity) (fun y hy => by
    have e1 : inner ℝ (F y) y = form h nu dt (U y) u0 (U y) := by
      rw [show form h nu dt (U y) u0 (U y) = ∑ k, y k * form h nu dt (U y) u0 (v k) from form_test _ _ _ _]
      simp only [PiLp.inner_apply, F]
      exact Finset.sum_congr rfl fun k _ => by simp
    have e2 := form_self (nu := nu) hh hdt (U y) u0
    have e3 : normSq h (U y) = normSq h u0 + 1 := by
      rw [hnorm, hy, Real.sq_sqrt (by linarith)]
    have e4 := normSq_nonneg hh (U y - u0)
    have e5 : 0 ≤ slopeSq h (U y) := dx_nonneg hh fun k ξ _ _ => sq_nonneg _
    have e6 : 0 ≤ 2 * dt * nu * slopeSq h (U y) := by positivity
    rw [e1]
    by_contra hneg
    push Not at hneg
    have := mul_neg_of_pos_of_neg (show 0 < 2 * dt by linarith) hneg
    linarith)
  refine ⟨U y, fun w => ?_⟩
  rw [← hsum w, form_test]
  refine Finset.sum_eq_zero fun k _ => ?_
  have : form h nu dt (U y) u0 (v k) = F y k := rfl
  rw [← hdt', this, hy]
  simp

/-! ## Multigrid -/

section
variable {N : Type} [Zero N] {E : Cfg (P2 n) ℝ ℝ N}

/-- C117.  The values returned after any number of iterations have exactly the integral of the initial condition, whatever
the initial guess. -/
theorem C117_amount_returned (hh : ∀ k, 0 < h k) (hE : E.Good) (hmax : 0 < E.maxIter) (hT : Copying E)
    (hstep : ∀ l u t t', l < E.ts.length → t < t' → step h nu u t t' (E.step l u t t'))
    (hstep0 : ∀ l u t, l < E.ts.length → E.step l u t t = u)
    {c : Conf E.P (Msg (P2 n) N) (PState (P2 n) N)} (h1 : Steps (startConf E) c) (hc : ∀ d, ¬ Step c d)
    (r : Fin E.P) (s : PState (P2 n) N) (hr : c.prog r = Prog.ret s)
    (k i j : Nat) (hi : (E.info r 0).pts[k]? = some i) (hj : (E.info r 0).idx[k]? = some j) :
    amount h (s.u 0 j) = amount h (E.start 0) := by
  have hlin : ∀ u, (mass_form (h := h)).functional (const 1) u = amount h u := fun u => by
    show mass h (const 1) u = _
    unfold mass amount
    simp only [val_const, one_mul]
  have hcons : ∀ l u t t', l < E.ts.length → t ≤ t' → amount h (E.step l u t t') = amount h u := by
    intro l u t t' hl ht
    rcases ht.lt_or_eq with ht | ht
    · exact C117_amount hh ht (hstep l u t t' hl ht)
    · rw [← ht, hstep0 l u t hl]
  have := Firedrake.conserved_returned hE hmax hT (f := (mass_form (h := h)).functional (const 1))
    (fun l x y t t' hl ht => by rw [hlin, hlin, hlin, hlin, hcons l x t t' hl ht, hcons l y t t' hl ht])
    h1 hc r s hr k i j hi hj
  rw [hlin, hlin] at this
  rw [this]
  obtain ⟨-, -, -, -, a5⟩ := returned hE hmax h1 hc r s hr
  have hlt := (a5 k i j hi hj).1
  have hL := hE.valid.pos
  clear hi hj this a5
  induction i with
  | zero => rfl
  | succ i ih =>
    refine Eq.trans ?_ (ih (by omega))
    exact hcons 0 _ _ _ hL (tAt_mono (hE.valid.sorted 0) (by omega) hlt)

end

/-! ## Examples -/

open Classical in
/-- A time stepper for Burgers' equation, by choice of a result. -/
noncomputable def exBurgers (n : Nat) [NeZero n] (len nu : ℝ) : Nat → P2 n → ℝ → ℝ → P2 n := fun _ u t t' =>
  if hx : ∃ u1, step (fun _ => len) nu u t t' u1 ∧ t < t' then hx.choose else u

theorem exBurgers_step {len nu : ℝ} (hlen : 0 < len) (hnu : 0 ≤ nu) (l : Nat) (u : P2 n) {t t' : ℝ} (ht : t < t') :
    step (fun _ => len) nu u t t' (exBurgers n len nu l u t t') := by
  obtain ⟨u1, h1⟩ := C117_exists (h := fun _ : Fin n => len) (fun _ => hlen) hnu u ht
  have hx : ∃ u1, step (fun _ => len) nu u t t' u1 ∧ t < t' := ⟨u1, h1, ht⟩
  unfold exBurgers
  rw [dif_pos hx]
  exact hx.choose_spec.1

theorem exBurgers_zero {len nu : ℝ} (l : Nat) (u : P2 n) (t : ℝ) : exBurgers n len nu l u t t = u := by
  unfold exBurgers
  rw [dif_neg]
  rintro ⟨_, _, h⟩
  exact lt_irrefl t h

/-- `C117_amount_returned` with 100 cells on an interval of length 2 and viscosity `1/100` as in the shipped example,
V-cycles on four levels, initial condition `1` at the first vertex. -/
example {c : Conf 3 (Msg (P2 100) Nat) (PState (P2 100) Nat)}
    (h1 : Steps (startConf (exFour (exBurgers 100 (1 / 50) (1 / 100)) (Pi.single 0 1, 0) 0 false .V 1)) c)
    (hc : ∀ d, ¬ Step c d) (r : Fin 3) (s : PState (P2 100) Nat) (hr : c.prog r = Prog.ret s) :=
  C117_amount_returned (h := fun _ => 1 / 50) (nu := 1 / 100) (fun _ => by norm_num) (exFour_good _ _ 0 false .V 1).1
    (by show 0 < 5; decide) (exFour_good _ _ 0 false .V 1).2
    (fun l u _ _ _ ht => exBurgers_step (by norm_num) (by norm_num) l u ht) (fun l u t _ => exBurgers_zero l u t)
    h1 hc r s hr

/-- `C117_unique_small`: start values of norm at most one, cells of length `1/50`, step `1/20000`. -/
example {u0 u w : P2 100} (h0 : normSq (fun _ => 1 / 50) u0 ≤ 1)
    (hu : step (fun _ => 1 / 50) (1 / 100) u0 0 (1 / 20000) u)
    (hw : step (fun _ => 1 / 50) (1 / 100) u0 0 (1 / 20000) w) : u = w :=
  C117_unique_small (fun _ => by norm_num) (by norm_num) (by norm_num) (fun _ => by norm_num; linarith) hu hw

end Pymgrit.Burgers
