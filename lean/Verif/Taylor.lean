import Mathlib.Analysis.Calculus.MeanValue
import Mathlib.Analysis.Calculus.Deriv.Pow
import Mathlib.Analysis.Calculus.Deriv.Mul
import Mathlib.Analysis.Calculus.Deriv.Comp
import Mathlib.Tactic.FieldSimp
import Mathlib.Tactic.Linarith

/-!
# Truncation errors of difference quotients
-/

namespace Pymgrit.Taylor
open Set

/-- `f'` is the derivative of `f` on the interval from `a` to `b` (one-sided at the ends). -/
def Deriv (a b : ℝ) (f f' : ℝ → ℝ) : Prop := ∀ x ∈ Icc a b, HasDerivWithinAt f (f' x) (Icc a b) x

/-- Integration of a bound of the derivative. -/
theorem integrate {h C : ℝ} {k : Nat} {f f' : ℝ → ℝ} (hf : Deriv 0 h f f') (h0 : f 0 = 0)
    (hb : ∀ s ∈ Icc 0 h, |f' s| ≤ C * s ^ k) : ∀ s ∈ Icc 0 h, |f s| ≤ C / (k + 1) * s ^ (k + 1) := by
  intro s hs
  have := image_norm_le_of_norm_deriv_right_le_deriv_boundary (f := f) (f' := f') (a := 0) (b := h)
    (B := fun s => C / (k + 1) * s ^ (k + 1)) (B' := fun s => C * s ^ k)
    (fun x hx => (hf x hx).continuousWithinAt)
    (fun x hx => (hf x ⟨hx.1, hx.2.le⟩).mono_of_mem_nhdsWithin (Icc_mem_nhdsGE_of_mem hx))
    (by simp [h0]) (fun x => by
      have h1 := (hasDerivAt_pow (k + 1) x).const_mul (C / (k + 1))
      have e : C / (k + 1) * (((k + 1 : Nat) : ℝ) * x ^ (k + 1 - 1)) = C * x ^ k := by
        have : (k : ℝ) + 1 ≠ 0 := by positivity
        rw [Nat.add_sub_cancel]
        push_cast
        field_simp
      rwa [e] at h1)
    (fun x hx => hb x ⟨hx.1, hx.2.le⟩) hs
  exact this

/-- Substitution `x + σ s` with `σ = ±1`. -/
theorem Deriv.subst {a b : ℝ} {f f' : ℝ → ℝ} (hf : Deriv a b f f') {x h σ : ℝ}
    (hm : ∀ s ∈ Icc 0 h, x + σ * s ∈ Icc a b) :
    Deriv 0 h (fun s => f (x + σ * s)) (fun s => σ * f' (x + σ * s)) := by
  intro s hs
  have h1 : HasDerivWithinAt (fun s => x + σ * s) σ (Icc 0 h) s := by
    have := ((hasDerivAt_id s).const_mul σ).const_add x
    simpa using this.hasDerivWithinAt
  have := (hf _ (hm s hs)).comp s h1 (fun y hy => hm y hy)
  rwa [mul_comm] at this

theorem Deriv.congr' {a b : ℝ} {f f' g g' : ℝ → ℝ} (hf : Deriv a b f f') (e : ∀ x ∈ Icc a b, g x = f x)
    (e' : ∀ x ∈ Icc a b, g' x = f' x) : Deriv a b g g' := by
  intro x hx
  rw [e' x hx]
  exact (hf x hx).congr e (e x hx)

theorem Deriv.add {a b : ℝ} {f f' g g' : ℝ → ℝ} (hf : Deriv a b f f') (hg : Deriv a b g g') :
    Deriv a b (fun x => f x + g x) (fun x => f' x + g' x) := fun x hx => (hf x hx).add (hg x hx)

theorem Deriv.sub {a b : ℝ} {f f' g g' : ℝ → ℝ} (hf : Deriv a b f f') (hg : Deriv a b g g') :
    Deriv a b (fun x => f x - g x) (fun x => f' x - g' x) := fun x hx => (hf x hx).sub (hg x hx)

theorem Deriv.mul {a b : ℝ} {f f' g g' : ℝ → ℝ} (hf : Deriv a b f f') (hg : Deriv a b g g') :
    Deriv a b (fun x => f x * g x) (fun x => f' x * g x + f x * g' x) := fun x hx => (hf x hx).mul (hg x hx)

theorem Deriv.const (a b c : ℝ) : Deriv a b (fun _ => c) (fun _ => 0) := fun x _ => hasDerivWithinAt_const x _ c

theorem Deriv.id (a b : ℝ) : Deriv a b (fun x => x) (fun _ => 1) := fun x _ => hasDerivWithinAt_id x _

/-- Second difference. -/
theorem second_difference {a b : ℝ} {f f1 f2 f3 f4 : ℝ → ℝ} (h1 : Deriv a b f f1) (h2 : Deriv a b f1 f2)
    (h3 : Deriv a b f2 f3) (h4 : Deriv a b f3 f4) {M : ℝ} (hM : ∀ x ∈ Icc a b, |f4 x| ≤ M) {x h : ℝ} (hh : 0 ≤ h)
    (ha : a ≤ x - h) (hb : x + h ≤ b) :
    |f (x + h) - 2 * f x + f (x - h) - h ^ 2 * f2 x| ≤ M / 12 * h ^ 4 := by
  have mp : ∀ s ∈ Icc 0 h, x + 1 * s ∈ Icc a b := fun s hs => ⟨by linarith [hs.1, hs.2], by linarith [hs.1, hs.2]⟩
  have mm : ∀ s ∈ Icc 0 h, x + (-1) * s ∈ Icc a b := fun s hs => ⟨by linarith [hs.1, hs.2], by linarith [hs.1, hs.2]⟩
  have p1 := h1.subst mp; have m1 := h1.subst mm
  have p2 := h2.subst mp; have m2 := h2.subst mm
  have p3 := h3.subst mp; have m3 := h3.subst mm
  have p4 := h4.subst mp; have m4 := h4.subst mm
  have b4 : ∀ s ∈ Icc 0 h, |f4 (x + 1 * s) + f4 (x + (-1) * s)| ≤ (2 * M) * s ^ 0 := by
    intro s hs
    refine (abs_add_le _ _).trans ?_
    have := hM _ (mp s hs)
    have := hM _ (mm s hs)
    simp only [pow_zero]; linarith
  have b3 := integrate (f := fun s => f3 (x + 1 * s) - f3 (x + (-1) * s))
    ((p4.sub m4).congr' (fun _ _ => rfl) (fun _ _ => by ring)) (by simp) b4
  have b2 := integrate (f := fun s => f2 (x + 1 * s) + f2 (x + (-1) * s) - 2 * f2 x)
    (((p3.add m3).sub (Deriv.const 0 h (2 * f2 x))).congr' (fun _ _ => rfl) (fun _ _ => by ring)) (by simp; ring) b3
  have b1 := integrate (f := fun s => f1 (x + 1 * s) - f1 (x + (-1) * s) - s * (2 * f2 x))
    (((p2.sub m2).sub ((Deriv.id 0 h).mul (Deriv.const 0 h (2 * f2 x)))).congr' (fun _ _ => rfl)
      (fun _ _ => by ring)) (by simp) b2
  have b0 := integrate (f := fun s => f (x + 1 * s) + f (x + (-1) * s) - 2 * f x - s * (s * f2 x))
    ((((p1.add m1).sub (Deriv.const 0 h (2 * f x))).sub
      ((Deriv.id 0 h).mul ((Deriv.id 0 h).mul (Deriv.const 0 h (f2 x))))).congr' (fun _ _ => rfl)
      (fun _ _ => by ring)) (by simp; ring) b1 h ⟨hh, le_rfl⟩
  have e : f (x + h) - 2 * f x + f (x - h) - h ^ 2 * f2 x =
      f (x + 1 * h) + f (x + (-1) * h) - 2 * f x - h * (h * f2 x) := by
    rw [show x + 1 * h = x + h by ring, show x + (-1) * h = x - h by ring]; ring
  rw [e]
  refine b0.trans (le_of_eq ?_)
  push_cast
  ring

/-- Backward difference. -/
theorem backward_difference {a b : ℝ} {f f1 f2 : ℝ → ℝ} (h1 : Deriv a b f f1) (h2 : Deriv a b f1 f2) {M : ℝ}
    (hM : ∀ x ∈ Icc a b, |f2 x| ≤ M) {x h : ℝ} (hh : 0 ≤ h) (ha : a ≤ x - h) (hb : x ≤ b) :
    |f x - f (x - h) - h * f1 x| ≤ M / 2 * h ^ 2 := by
  have mm : ∀ s ∈ Icc 0 h, x + (-1) * s ∈ Icc a b := fun s hs => ⟨by linarith [hs.1, hs.2], by linarith [hs.1, hs.2]⟩
  have m1 := h1.subst mm
  have m2 := h2.subst mm
  have b2 : ∀ s ∈ Icc 0 h, |f2 (x + (-1) * s)| ≤ M * s ^ 0 := by
    intro s hs
    simpa using hM _ (mm s hs)
  have b1 := integrate (f := fun s => f1 x - f1 (x + (-1) * s))
    (((Deriv.const 0 h (f1 x)).sub m2).congr' (fun _ _ => rfl) (fun _ _ => by ring)) (by simp) b2
  have b1' : ∀ s ∈ Icc 0 h, |-(f1 x - f1 (x + (-1) * s))| ≤ M / ((0 : Nat) + 1) * s ^ (0 + 1) := by
    intro s hs; rw [abs_neg]; exact b1 s hs
  have b0 := integrate (f := fun s => f x - f (x + (-1) * s) - s * f1 x)
    ((((Deriv.const 0 h (f x)).sub m1).sub ((Deriv.id 0 h).mul (Deriv.const 0 h (f1 x)))).congr' (fun _ _ => rfl)
      (fun _ _ => by ring)) (by simp) b1' h ⟨hh, le_rfl⟩
  rw [show x + (-1) * h = x - h by ring] at b0
  refine b0.trans (le_of_eq ?_)
  push_cast
  ring

/-- Forward difference. -/
theorem forward_difference {a b : ℝ} {f f1 f2 : ℝ → ℝ} (h1 : Deriv a b f f1) (h2 : Deriv a b f1 f2) {M : ℝ}
    (hM : ∀ x ∈ Icc a b, |f2 x| ≤ M) {x h : ℝ} (hh : 0 ≤ h) (ha : a ≤ x) (hb : x + h ≤ b) :
    |f (x + h) - f x - h * f1 x| ≤ M / 2 * h ^ 2 := by
  have mp : ∀ s ∈ Icc 0 h, x + 1 * s ∈ Icc a b := fun s hs => ⟨by linarith [hs.1, hs.2], by linarith [hs.1, hs.2]⟩
  have p1 := h1.subst mp
  have p2 := h2.subst mp
  have b2 : ∀ s ∈ Icc 0 h, |f2 (x + 1 * s)| ≤ M * s ^ 0 := by
    intro s hs
    simpa using hM _ (mp s hs)
  have b1 := integrate (f := fun s => f1 (x + 1 * s) - f1 x)
    ((p2.sub (Deriv.const 0 h (f1 x))).congr' (fun _ _ => rfl) (fun _ _ => by ring)) (by simp) b2
  have b0 := integrate (f := fun s => f (x + 1 * s) - f x - s * f1 x)
    (((p1.sub (Deriv.const 0 h (f x))).sub ((Deriv.id 0 h).mul (Deriv.const 0 h (f1 x)))).congr' (fun _ _ => rfl)
      (fun _ _ => by ring)) (by simp) b1 h ⟨hh, le_rfl⟩
  rw [show x + 1 * h = x + h by ring] at b0
  refine b0.trans (le_of_eq ?_)
  push_cast
  ring

/-- Trapezoidal rule. -/
theorem trapezoidal {a b : ℝ} {f f1 f2 f3 : ℝ → ℝ} (h1 : Deriv a b f f1) (h2 : Deriv a b f1 f2)
    (h3 : Deriv a b f2 f3) {M : ℝ} (hM : ∀ x ∈ Icc a b, |f3 x| ≤ M) {x h : ℝ} (hh : 0 ≤ h) (ha : a ≤ x)
    (hb : x + h ≤ b) : |f (x + h) - f x - h / 2 * (f1 x + f1 (x + h))| ≤ M / 12 * h ^ 3 := by
  have mp : ∀ s ∈ Icc 0 h, x + 1 * s ∈ Icc a b := fun s hs => ⟨by linarith [hs.1, hs.2], by linarith [hs.1, hs.2]⟩
  have p1 := h1.subst mp
  have p2 := h2.subst mp
  have p3 := h3.subst mp
  have b2 : ∀ s ∈ Icc 0 h, |-(s / 2 * f3 (x + 1 * s))| ≤ M / 2 * s ^ 1 := by
    intro s hs
    rw [abs_neg, abs_mul, abs_of_nonneg (by linarith [hs.1])]
    have := mul_le_mul_of_nonneg_left (hM _ (mp s hs)) (show 0 ≤ s / 2 by linarith [hs.1])
    linarith
  have b1 := integrate (f := fun s => f1 (x + 1 * s) * (1 / 2) - f1 x / 2 - s * (f2 (x + 1 * s) * (1 / 2)))
    ((((p2.mul (Deriv.const 0 h (1 / 2))).sub (Deriv.const 0 h (f1 x / 2))).sub
      ((Deriv.id 0 h).mul (p3.mul (Deriv.const 0 h (1 / 2))))).congr' (fun _ _ => rfl) (fun _ _ => by ring))
    (by simp; ring) b2
  have b0 := integrate (f := fun s => f (x + 1 * s) - f x - s * ((f1 x + f1 (x + 1 * s)) * (1 / 2)))
    (((p1.sub (Deriv.const 0 h (f x))).sub ((Deriv.id 0 h).mul
      (((Deriv.const 0 h (f1 x)).add p2).mul (Deriv.const 0 h (1 / 2))))).congr' (fun _ _ => rfl)
      (fun _ _ => by ring)) (by simp) b1 h ⟨hh, le_rfl⟩
  rw [show x + 1 * h = x + h by ring] at b0
  rw [show f (x + h) - f x - h / 2 * (f1 x + f1 (x + h)) =
    f (x + h) - f x - h * ((f1 x + f1 (x + h)) * (1 / 2)) by ring]
  refine b0.trans (le_of_eq ?_)
  push_cast
  ring

end Pymgrit.Taylor
