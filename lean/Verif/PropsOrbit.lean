import Verif.Orbit
import Mathlib.Analysis.Calculus.MeanValue
import Mathlib.Analysis.Calculus.Deriv.Pow
import Mathlib.Analysis.Calculus.Deriv.Inv
import Mathlib.Analysis.SpecialFunctions.Sqrt
import Mathlib.Analysis.Calculus.Deriv.Prod
import Mathlib.Tactic.FieldSimp

/-!
# Property C91: the Arenstorf orbit problem is the restricted three-body problem

Along every solution of the differential equation given to the integrator the Jacobi integral is constant, and
solutions can be reflected in time.
-/

namespace Pymgrit.Orbit
open Set

/-- Specification: the Jacobi integral of two bodies of masses `b` at `(-a, 0)` and `a` at `(b, 0)`. -/
noncomputable def jacobi (a b : ℝ) (y : Fin 4 → ℝ) : ℝ :=
  y 0 ^ 2 + y 1 ^ 2 + 2 * b / √((y 0 + a) ^ 2 + y 1 ^ 2) + 2 * a / √((y 0 - b) ^ 2 + y 1 ^ 2)
    - (y 2 ^ 2 + y 3 ^ 2)

/-- Specification: the position is not that of one of the bodies. -/
def Free (a b : ℝ) (y : Fin 4 → ℝ) : Prop :=
  (y 0 + a) ^ 2 + y 1 ^ 2 ≠ 0 ∧ (y 0 - b) ^ 2 + y 1 ^ 2 ≠ 0

theorem rpow_three_half {r : ℝ} (hr : 0 ≤ r) : r ^ (3 / 2 : ℝ) = √r ^ 3 := by
  rw [Real.sqrt_eq_rpow, ← Real.rpow_natCast, ← Real.rpow_mul hr]
  norm_num

/-- Derivative of `2 m / r`. -/
theorem hasDerivAt_pot {u v : ℝ → ℝ} {u' v' t : ℝ} (hu : HasDerivAt u u' t) (hv : HasDerivAt v v' t) (m c : ℝ)
    (hne : (u t + c) ^ 2 + v t ^ 2 ≠ 0) :
    HasDerivAt (fun t => 2 * m / √((u t + c) ^ 2 + v t ^ 2))
      (-(2 * m) * ((u t + c) * u' + v t * v') / ((u t + c) ^ 2 + v t ^ 2) ^ (3 / 2 : ℝ)) t := by
  have hpos : 0 < (u t + c) ^ 2 + v t ^ 2 := lt_of_le_of_ne (by positivity) (Ne.symm hne)
  have h1 : HasDerivAt (fun t => (u t + c) ^ 2 + v t ^ 2) (2 * ((u t + c) * u' + v t * v')) t := by
    have := ((hu.add_const c).pow 2).add (hv.pow 2)
    refine this.congr_deriv ?_
    norm_num
    ring
  have h2 := (h1.sqrt hne).fun_inv (Real.sqrt_ne_zero'.2 hpos)
  have h3 := h2.const_mul (2 * m)
  refine (h3.congr_deriv ?_)
  rw [rpow_three_half hpos.le]
  have hs : √((u t + c) ^ 2 + v t ^ 2) ≠ 0 := Real.sqrt_ne_zero'.2 hpos
  field_simp

/-- Change of the Jacobi integral along any curve. -/
theorem jacobi_deriv {a b : ℝ} {y : ℝ → Fin 4 → ℝ} {y' : Fin 4 → ℝ} {t : ℝ} (hy : HasDerivAt y y' t)
    (hf : Free a b (y t)) : HasDerivAt (fun t => jacobi a b (y t))
      (2 * (y t 0 * y' 0 + y t 1 * y' 1)
        - 2 * b * ((y t 0 + a) * y' 0 + y t 1 * y' 1) / ((y t 0 + a) ^ 2 + y t 1 ^ 2) ^ (3 / 2 : ℝ)
        - 2 * a * ((y t 0 - b) * y' 0 + y t 1 * y' 1) / ((y t 0 - b) ^ 2 + y t 1 ^ 2) ^ (3 / 2 : ℝ)
        - 2 * (y t 2 * y' 2 + y t 3 * y' 3)) t := by
  have hc := fun i => hasDerivAt_pi.1 hy i
  have p1 := hasDerivAt_pot (hc 0) (hc 1) b a hf.1
  have p2 := hasDerivAt_pot (hc 0) (hc 1) a (-b) (by simpa [sub_eq_add_neg] using hf.2)
  simp only [← sub_eq_add_neg] at p2
  have q := ((((hc 0).pow 2).add ((hc 1).pow 2)).add p1).add p2
  have r := q.sub (((hc 2).pow 2).add ((hc 3).pow 2))
  refine r.congr_deriv ?_
  norm_num
  ring

/-- C91.  Along every solution of `y' = arenstorf(t, y, a, b)` that stays away from the two bodies the Jacobi
integral is constant. -/
theorem C91_jacobi {a b : ℝ} {y : ℝ → Fin 4 → ℝ} {t0 t1 : ℝ}
    (hy : ∀ t ∈ Icc t0 t1, HasDerivAt y (arenstorf (y t) a b) t) (hf : ∀ t ∈ Icc t0 t1, Free a b (y t)) :
    ∀ t ∈ Icc t0 t1, jacobi a b (y t) = jacobi a b (y t0) := by
  have hd : ∀ t ∈ Icc t0 t1, HasDerivAt (fun t => jacobi a b (y t)) 0 t := by
    intro t ht
    refine (jacobi_deriv (hy t ht) (hf t ht)).congr_deriv ?_
    simp only [arenstorf]
    simp
    ring
  exact constant_of_has_deriv_right_zero (fun t ht => (hd t ht).continuousAt.continuousWithinAt)
    fun t ht => (hd t ⟨ht.1, ht.2.le⟩).hasDerivWithinAt

/-- C91.  If `(x, y, x', y')(t)` is a solution, so is `(x, -y, -x', y')(-t)`. -/
theorem C91_reversible {a b : ℝ} {y : ℝ → Fin 4 → ℝ} {t : ℝ}
    (hy : HasDerivAt y (arenstorf (y (-t)) a b) (-t)) :
    let z : ℝ → Fin 4 → ℝ := fun t => ![y (-t) 0, -y (-t) 1, -y (-t) 2, y (-t) 3]
    HasDerivAt z (arenstorf (z t) a b) t := by
  intro z
  have hc : ∀ i, HasDerivAt (fun t => y (-t) i) (-(arenstorf (y (-t)) a b i)) t := by
    intro i
    have := (hasDerivAt_pi.1 hy i).scomp t (hasDerivAt_neg t)
    rw [neg_smul, one_smul] at this
    exact this
  rw [hasDerivAt_pi]
  intro i
  fin_cases i
  · refine (hc 0).congr_deriv ?_
    simp [arenstorf, z]
  · refine (hc 1).neg.congr_deriv ?_
    simp [arenstorf, z]
  · refine (hc 2).neg.congr_deriv ?_
    simp [arenstorf, z]
  · refine (hc 3).congr_deriv ?_
    simp [arenstorf, z]
    ring

/-- The formula of the documentation does not conserve it: at `(0, 1)` with velocity `(0, 1)` the rate of
change is not zero. -/
theorem C91_documentation {a b : ℝ} (ha : a ≠ 0) (hab : a ^ 2 ≠ b ^ 2) {y : ℝ → Fin 4 → ℝ} {t : ℝ}
    (h0 : y t = ![0, 1, 0, 1]) (hy : HasDerivAt y (documented (y t) a b) t) :
    ∃ d ≠ 0, HasDerivAt (fun t => jacobi a b (y t)) d t := by
  refine ⟨_, ?_, jacobi_deriv hy ⟨?_, ?_⟩⟩
  · simp only [documented, h0]
    simp
    have h1 : (0 : ℝ) ≤ a ^ 2 + 1 := by positivity
    have h2 : (0 : ℝ) ≤ b ^ 2 + 1 := by positivity
    rw [rpow_three_half h1, rpow_three_half h2]
    have s1 : 0 < √(a ^ 2 + 1) := Real.sqrt_pos.2 (by positivity)
    have s2 : 0 < √(b ^ 2 + 1) := Real.sqrt_pos.2 (by positivity)
    have hne : √(a ^ 2 + 1) ^ 3 ≠ √(b ^ 2 + 1) ^ 3 := by
      intro e
      have e' : √(a ^ 2 + 1) = √(b ^ 2 + 1) := (pow_left_inj₀ s1.le s2.le (by norm_num)).1 e
      have := congrArg (· ^ 2) e'
      simp only [Real.sq_sqrt h1, Real.sq_sqrt h2] at this
      exact hab (by linarith)
    intro e
    have p1 : √(a ^ 2 + 1) ^ 3 ≠ 0 := by positivity
    have p2 : √(b ^ 2 + 1) ^ 3 ≠ 0 := by positivity
    field_simp at e
    apply hne
    apply mul_left_cancel₀ ha
    nlinarith
  · rw [h0]; simp; positivity
  · rw [h0]; simp; positivity

/-! ### Examples -/

/-- The position that forms an equilateral triangle with the two bodies is a solution, for the masses of the
application. -/
theorem exL4 (t : ℝ) : HasDerivAt (fun _ : ℝ => (![1 / 2 - 0.012277471, √3 / 2, 0, 0] : Fin 4 → ℝ))
    (arenstorf ![1 / 2 - 0.012277471, √3 / 2, 0, 0] 0.012277471 (1 - 0.012277471)) t := by
  have e : arenstorf ![1 / 2 - 0.012277471, √3 / 2, 0, 0] 0.012277471 (1 - 0.012277471) = 0 := by
    have h3 : √3 ^ 2 = 3 := Real.sq_sqrt (by norm_num)
    have d1 : ((1 / 2 - 0.012277471 + 0.012277471 : ℝ)) ^ 2 + (√3 / 2) ^ 2 = 1 := by rw [div_pow, h3]; norm_num
    have d2 : ((1 / 2 - 0.012277471 - (1 - 0.012277471) : ℝ)) ^ 2 + (√3 / 2) ^ 2 = 1 := by
      rw [div_pow, h3]; norm_num
    funext i
    simp only [arenstorf, Matrix.cons_val_zero, Matrix.cons_val_one, Matrix.cons_val]
    rw [d1, d2, Real.one_rpow]
    fin_cases i
    · simp
    · simp
    · simp; norm_num
    · simp; ring
  rw [e]
  exact hasDerivAt_const t _

/-- `C91_jacobi` for it. -/
example :=
  C91_jacobi (t0 := 0) (t1 := 1) (a := 0.012277471) (b := 1 - 0.012277471) (fun t _ => exL4 t)
    (fun t _ => by constructor <;> · simp; positivity)

/-- `C91_reversible` for it. -/
example := C91_reversible (a := 0.012277471) (b := 1 - 0.012277471) (t := 2) (exL4 (-2))

/-- `C91_documentation` for the masses of the application and the line through the point. -/
example := C91_documentation (a := 0.012277471) (b := 1 - 0.012277471) (by norm_num) (by norm_num)
  (y := fun t => ![0, 1, 0, 1] + t • documented ![0, 1, 0, 1] 0.012277471 (1 - 0.012277471)) (t := 0) (by simp)
  (by
    have := ((hasDerivAt_id (0 : ℝ)).smul_const
      (documented ![0, 1, 0, 1] 0.012277471 (1 - 0.012277471))).const_add (![0, 1, 0, 1] : Fin 4 → ℝ)
    simpa using this)

end Pymgrit.Orbit
