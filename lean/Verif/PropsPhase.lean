import Verif.PropsApps5
import Verif.PropsAccuracy
import Verif.Phase
import Mathlib.Algebra.Order.Ring.Pow
import Mathlib.Tactic.Linarith
import Mathlib.Tactic.Positivity

/-!
# Property C108: Allen-Cahn steps keep the bounds and decrease the energy

The reaction term pulls towards `-1` and `1`; the exact equation keeps values between them and decreases its energy.
The theorems say for which step sizes the time integration methods of the application do so.
-/

set_option linter.unusedSectionVars false

namespace Pymgrit.Apps
open Matrix Lin

variable {K : Type} [Field K] [LinearOrder K] [IsStrictOrderedRing K]

/-- The explicit reaction step keeps `[0, 1]` if `θ ν ≤ 1`. -/
theorem reaction_le_one {θ x : K} {n : Nat} (hθ : 0 ≤ θ) (h : θ * n ≤ 1) (h0 : 0 ≤ x) (h1 : x ≤ 1) :
    x + θ * (x * (1 - x ^ n)) ≤ 1 := by
  have hb : 1 - x ^ n ≤ n * (1 - x) := by
    have := one_add_mul_le_pow (show (-2 : K) ≤ x - 1 by linarith) n
    rw [show 1 + (x - 1) = x by ring] at this
    linarith
  have hp : 0 ≤ 1 - x ^ n := by linarith [pow_le_one₀ (n := n) h0 h1]
  have h2 : x * (1 - x ^ n) ≤ n * (1 - x) := by nlinarith
  have h3 : θ * (x * (1 - x ^ n)) ≤ θ * (n * (1 - x)) := mul_le_mul_of_nonneg_left h2 hθ
  have h4 : θ * n * (1 - x) ≤ 1 * (1 - x) := mul_le_mul_of_nonneg_right h (by linarith)
  nlinarith

/-- The explicit reaction step keeps `[-1, 1]` for even exponents if `θ ν ≤ a ≤ 1`, with room `(1 - a) (1 - |x|)`. -/
theorem reaction_abs {θ x a : K} {n : Nat} (hn : Even n) (hθ : 0 ≤ θ) (h : θ * n ≤ a) (h1 : |x| ≤ 1) :
    |θ * (x * (1 - x ^ n))| ≤ a * (1 - |x|) := by
  have hx : x ^ n = |x| ^ n := (hn.pow_abs x).symm
  have h0 := abs_nonneg x
  have hp : 0 ≤ 1 - |x| ^ n := by linarith [pow_le_one₀ (n := n) h0 h1]
  have hb : 1 - |x| ^ n ≤ n * (1 - |x|) := by
    have := one_add_mul_le_pow (show (-2 : K) ≤ |x| - 1 by linarith) n
    rw [show 1 + (|x| - 1) = |x| by ring] at this
    linarith
  rw [abs_mul, abs_mul, hx, abs_of_nonneg hθ, abs_of_nonneg hp]
  have h2 : |x| * (1 - |x| ^ n) ≤ n * (1 - |x|) := by nlinarith
  have h3 : θ * (|x| * (1 - |x| ^ n)) ≤ θ * (n * (1 - |x|)) := mul_le_mul_of_nonneg_left h2 hθ
  have h4 : θ * n * (1 - |x|) ≤ a * (1 - |x|) := mul_le_mul_of_nonneg_right h (by linarith)
  linarith [mul_assoc θ (n : K) (1 - |x|)]

namespace AllenCahn
variable (P : AllenCahn K)
variable (solve : Matrix (Fin P.nx × Fin P.nx) (Fin P.nx × Fin P.nx) K → P.Vec → P.Vec)

/-- At a point where `|x|` is largest the Laplacian points inwards. -/
theorem lap_max (x : P.Vec) (i k : Fin P.nx) (hm : ∀ q, |x q| ≤ |x (i, k)|) :
    (0 ≤ x (i, k) → P.lap x i k ≤ 0) ∧ (x (i, k) ≤ 0 → 0 ≤ P.lap x i k) := by
  have b1 := abs_le.1 (hm (pred i, k))
  have b2 := abs_le.1 (hm (succ i, k))
  have b3 := abs_le.1 (hm (i, pred k))
  have b4 := abs_le.1 (hm (i, succ k))
  unfold lap
  constructor
  · intro h
    rw [abs_of_nonneg h] at b1 b2 b3 b4
    exact div_nonpos_of_nonpos_of_nonneg (by linarith) (sq_nonneg _)
  · intro h
    rw [abs_of_nonpos h] at b1 b2 b3 b4
    exact div_nonneg (by linarith) (sq_nonneg _)

theorem exists_max (hn : 3 ≤ P.nx) (x : P.Vec) : ∃ i k, ∀ q, |x q| ≤ |x (i, k)| := by
  obtain ⟨⟨i, k⟩, -, hm⟩ := Finset.exists_max_image Finset.univ (fun q => |x q|)
    ⟨((⟨0, by omega⟩, ⟨0, by omega⟩) : Fin P.nx × Fin P.nx), Finset.mem_univ _⟩
  exact ⟨i, k, fun q => hm q (Finset.mem_univ q)⟩

/-- C108, implicit-explicit method: with `(t1 - t0) ν ≤ ε²` and an even exponent, values in `[-1, 1]` stay in `[-1, 1]`. -/
theorem C108_bound_imex_partial (hn : 3 ≤ P.nx) (hs : SolverOK solve) (hnu : Even P.nu) (fuel : Nat) (u x : P.Vec) {t0 t1 : K}
    (ht : t0 ≤ t1) (hdt : (t1 - t0) * P.nu ≤ P.eps ^ 2) (heps : P.eps ≠ 0)
    (h : P.step solve .IMEX fuel u t0 t1 = some x) (hu : ∀ q, |u q| ≤ 1) (q : Fin P.nx × Fin P.nx) : |x q| ≤ 1 := by
  have hx := (P.C86_imex solve hn hs fuel u x t0 t1 ht).1 h
  obtain ⟨i, k, hm⟩ := P.exists_max hn x
  refine (hm q).trans ?_
  have he : 0 < P.eps ^ 2 := by positivity
  have hr := reaction_abs (θ := (t1 - t0) / P.eps ^ 2) (x := u (i, k)) (a := 1) hnu
    (div_nonneg (by linarith) he.le) (by rw [div_mul_eq_mul_div, div_le_one he]; exact hdt) (hu _)
  have e : (t1 - t0) / P.eps ^ 2 * (u (i, k) * (1 - u (i, k) ^ P.nu)) = (t1 - t0) * P.react u i k := by
    unfold react; ring
  rw [e] at hr
  have hxe := hx i k
  have hl := P.lap_max x i k hm
  have hb := abs_le.1 hr
  have hub := neg_abs_le (u (i, k))
  have hub' := le_abs_self (u (i, k))
  rcases le_total 0 (x (i, k)) with h0 | h0
  · rw [abs_of_nonneg h0]
    have := mul_nonpos_of_nonneg_of_nonpos (show 0 ≤ t1 - t0 by linarith) (hl.1 h0)
    nlinarith
  · rw [abs_of_nonpos h0]
    have := mul_nonneg (show 0 ≤ t1 - t0 by linarith) (hl.2 h0)
    nlinarith

/-- Outside of `[-1, 1]` the reaction points inwards. -/
theorem react_outside (hnu : Even P.nu) (x : P.Vec) (i k : Fin P.nx) (h : 1 ≤ |x (i, k)|) :
    (0 ≤ x (i, k) → P.react x i k ≤ 0) ∧ (x (i, k) ≤ 0 → 0 ≤ P.react x i k) := by
  have hp : 1 - x (i, k) ^ P.nu ≤ 0 := by
    rw [← hnu.pow_abs]; linarith [one_le_pow₀ (n := P.nu) h]
  unfold react
  constructor
  · intro h0
    exact div_nonpos_of_nonpos_of_nonneg (mul_nonpos_of_nonneg_of_nonpos h0 hp) (sq_nonneg _)
  · intro h0
    exact div_nonneg (mul_nonneg_of_nonpos_of_nonpos h0 hp) (sq_nonneg _)

/-- C108, implicit method: for every step size and every solver, if the values are in `[-M, M]` with `M ≥ 1`, those of a
returned result are in `[-M - tol, M + tol]`, with the Newton tolerance `tol`. -/
theorem C108_bound_implicit (hn : 3 ≤ P.nx) (hmax : 0 < P.maxiter) (htol : 0 < P.tol) (hnu : Even P.nu) (fuel : Nat)
    (u x : P.Vec) {t0 t1 : K} (ht : t0 ≤ t1) (h : P.step solve .IMPL fuel u t0 t1 = some x) {M : K} (hM : 1 ≤ M)
    (hu : ∀ q, |u q| ≤ M) (q : Fin P.nx × Fin P.nx) : |x q| < M + P.tol := by
  have hx := P.C86_implicit solve hn hmax fuel u x t0 t1 h
  obtain ⟨i, k, hm⟩ := P.exists_max hn x
  refine lt_of_le_of_lt (hm q) ?_
  by_contra hc
  have hc := not_lt.1 hc
  have h1 : 1 ≤ |x (i, k)| := by linarith
  have hxe := abs_lt.1 (hx i k)
  have hl := P.lap_max x i k hm
  have hr := P.react_outside hnu x i k h1
  have hub := abs_le.1 (hu (i, k))
  have hd : 0 ≤ t1 - t0 := by linarith
  rcases le_total 0 (x (i, k)) with h0 | h0
  · rw [abs_of_nonneg h0] at hc
    have := mul_nonpos_of_nonneg_of_nonpos hd (add_nonpos (hl.1 h0) (hr.1 h0))
    linarith
  · rw [abs_of_nonpos h0] at hc
    have := mul_nonneg hd (add_nonneg (hl.2 h0) (hr.2 h0))
    linarith

/-- C108, Crank-Nicolson: with `(t1 - t0) / 2 (4 / dx² + ν / ε²) ≤ 1`, values in `[-1, 1]` stay there up to the Newton
tolerance. -/
theorem C108_bound_cn_partial (hn : 3 ≤ P.nx) (hmax : 0 < P.maxiter) (htol : 0 < P.tol) (hnu : Even P.nu) (fuel : Nat)
    (u x : P.Vec) {t0 t1 : K} (ht : t0 ≤ t1) (heps : P.eps ≠ 0)
    (hdt : (t1 - t0) / 2 * (4 / P.dx ^ 2 + P.nu / P.eps ^ 2) ≤ 1)
    (h : P.step solve .CN fuel u t0 t1 = some x) (hu : ∀ q, |u q| ≤ 1) (q : Fin P.nx × Fin P.nx) : |x q| < 1 + P.tol := by
  have hx := P.C86_crank_nicolson solve hn hmax fuel u x t0 t1 h
  obtain ⟨i, k, hm⟩ := P.exists_max hn x
  refine lt_of_le_of_lt (hm q) ?_
  by_contra hc
  have hc := not_lt.1 hc
  have h1 : 1 ≤ |x (i, k)| := by linarith
  have hxe := abs_lt.1 (hx i k)
  have hl := P.lap_max x i k hm
  have hr := P.react_outside hnu x i k h1
  have hd : 0 ≤ (t1 - t0) / 2 := by linarith
  set κ := (t1 - t0) / 2 / P.dx ^ 2 with hκ
  set θ := (t1 - t0) / 2 / P.eps ^ 2 with hθ
  have hκ0 : 0 ≤ κ := div_nonneg hd (sq_nonneg _)
  have hθ0 : 0 ≤ θ := div_nonneg hd (sq_nonneg _)
  have hsum : θ * P.nu ≤ 1 - 4 * κ := by
    have : (t1 - t0) / 2 * (4 / P.dx ^ 2 + P.nu / P.eps ^ 2) = 4 * κ + θ * P.nu := by rw [hκ, hθ]; ring
    linarith
  have hθn : 0 ≤ θ * P.nu := mul_nonneg hθ0 (Nat.cast_nonneg _)
  have hru := abs_le.1 (reaction_abs (x := u (i, k)) hnu hθ0 hsum (hu _))
  have er : θ * (u (i, k) * (1 - u (i, k) ^ P.nu)) = (t1 - t0) / 2 * P.react u i k := by rw [hθ]; unfold react; ring
  have el : (t1 - t0) / 2 * P.lap u i k = κ * (u (pred i, k) + u (succ i, k) + u (i, pred k) + u (i, succ k))
      - 4 * κ * u (i, k) := by rw [hκ]; unfold lap; ring
  have b1 := abs_le.1 (hu (pred i, k))
  have b2 := abs_le.1 (hu (succ i, k))
  have b3 := abs_le.1 (hu (i, pred k))
  have b4 := abs_le.1 (hu (i, succ k))
  rw [er] at hru
  have hup : κ * (u (pred i, k) + u (succ i, k) + u (i, pred k) + u (i, succ k)) ≤ κ * 4 :=
    mul_le_mul_of_nonneg_left (by linarith) hκ0
  have hlo : κ * (-4) ≤ κ * (u (pred i, k) + u (succ i, k) + u (i, pred k) + u (i, succ k)) :=
    mul_le_mul_of_nonneg_left (by linarith) hκ0
  have hw : 0 ≤ 1 - 4 * κ := by linarith
  have w1 : (1 - 4 * κ) * u (i, k) ≤ (1 - 4 * κ) * |u (i, k)| := mul_le_mul_of_nonneg_left (le_abs_self _) hw
  have w2 : (1 - 4 * κ) * -|u (i, k)| ≤ (1 - 4 * κ) * u (i, k) := mul_le_mul_of_nonneg_left (neg_abs_le _) hw
  have split : (t1 - t0) * ((P.lap x i k + P.react x i k + (P.lap u i k + P.react u i k)) / 2) =
      (t1 - t0) / 2 * (P.lap x i k + P.react x i k) + (t1 - t0) / 2 * P.lap u i k + (t1 - t0) / 2 * P.react u i k := by
    ring
  rw [split, el] at hxe
  rcases le_total 0 (x (i, k)) with h0 | h0
  · rw [abs_of_nonneg h0] at hc
    have := mul_nonpos_of_nonneg_of_nonpos hd (add_nonpos (hl.1 h0) (hr.1 h0))
    nlinarith
  · rw [abs_of_nonpos h0] at hc
    have := mul_nonneg hd (add_nonneg (hl.2 h0) (hr.2 h0))
    nlinarith

/-- C108, implicit method: for `t1 - t0 < ε²` the result is determined by the start value up to the Newton tolerance,
whatever the linear solver does, and depends on it continuously: differences grow at most by the factor
`1 / (1 - (t1 - t0) / ε²)`. -/
theorem C108_stability (hn : 3 ≤ P.nx) (hmax : 0 < P.maxiter) (hnu : Even P.nu) (fuel fuel' : Nat)
    (solve' : Matrix (Fin P.nx × Fin P.nx) (Fin P.nx × Fin P.nx) K → P.Vec → P.Vec)
    (u v x y : P.Vec) {t0 t1 : K} (ht : t0 ≤ t1) (h : P.step solve .IMPL fuel u t0 t1 = some x)
    (h' : P.step solve' .IMPL fuel' v t0 t1 = some y) {D : K} (hD : ∀ q, |u q - v q| ≤ D) (hdt : t1 - t0 ≤ P.eps ^ 2)
    (q : Fin P.nx × Fin P.nx) :
    (1 - (t1 - t0) / P.eps ^ 2) * |x q - y q| ≤ D + 2 * P.tol := by
  have hx := P.C86_implicit solve hn hmax fuel u x t0 t1 h
  have hy := P.C86_implicit solve' hn hmax fuel' v y t0 t1 h'
  obtain ⟨i, k, hm⟩ := P.exists_max hn (fun q => x q - y q)
  have hd : 0 ≤ t1 - t0 := by linarith
  set θ := (t1 - t0) / P.eps ^ 2 with hθ
  have hθ1 : θ ≤ 1 := div_le_one_of_le₀ hdt (sq_nonneg _)
  have hθ0 : 0 ≤ θ := div_nonneg hd (sq_nonneg _)
  refine (mul_le_mul_of_nonneg_left (hm q) (by linarith)).trans ?_
  have hl := P.lap_max (fun q => x q - y q) i k hm
  have el : P.lap (fun q => x q - y q) i k = P.lap x i k - P.lap y i k := by unfold lap; ring
  rw [el] at hl
  have hxe := abs_lt.1 (hx i k)
  have hye := abs_lt.1 (hy i k)
  have hDe := abs_le.1 (hD (i, k))
  have hodd : Odd (P.nu + 1) := hnu.add_one
  have er : (t1 - t0) * (P.react x i k - P.react y i k) =
      θ * (x (i, k) - y (i, k)) - θ * (x (i, k) ^ (P.nu + 1) - y (i, k) ^ (P.nu + 1)) := by
    rw [hθ]; unfold react; ring
  rcases le_total 0 (x (i, k) - y (i, k)) with h0 | h0
  · rw [abs_of_nonneg h0]
    have hmono : y (i, k) ^ (P.nu + 1) ≤ x (i, k) ^ (P.nu + 1) := hodd.strictMono_pow.monotone (by linarith)
    have h1 := mul_nonneg hθ0 (sub_nonneg.2 hmono)
    have h2 := mul_nonpos_of_nonneg_of_nonpos hd (hl.1 h0)
    nlinarith
  · rw [abs_of_nonpos h0]
    have hmono : x (i, k) ^ (P.nu + 1) ≤ y (i, k) ^ (P.nu + 1) := hodd.strictMono_pow.monotone (by linarith)
    have h1 := mul_nonneg hθ0 (sub_nonneg.2 hmono)
    have h2 := mul_nonneg hd (hl.2 h0)
    nlinarith

/-! ## Energy -/

/-- Specification: the discrete energy, gradients by differences of neighbours, and the potential
`W(y) = y^(ν+2) / (ν+2) - y² / 2` with `W'(y) = -y (1 - y^ν)`. -/
def energy (u : P.Vec) : K :=
  ∑ i, ∑ k, (((u (succ i, k) - u (i, k)) ^ 2 + (u (i, succ k) - u (i, k)) ^ 2) / (2 * P.dx ^ 2) +
    (u (i, k) ^ (P.nu + 2) / (P.nu + 2) - u (i, k) ^ 2 / 2) / P.eps ^ 2)

theorem sum_succ {n : Nat} (hn : 3 ≤ n) (f : Fin n → K) : ∑ i, f (succ i) = ∑ i, f i := by
  refine Fintype.sum_bijective succ ?_ _ _ fun i => rfl
  refine (Finite.injective_iff_bijective).1 fun i j h => ?_
  have hi := i.isLt
  have hj := j.isLt
  rw [Fin.ext_iff] at h ⊢
  simp only [succ] at h
  split at h <;> split at h <;> omega

theorem pred_succ {n : Nat} (hn : 3 ≤ n) (i : Fin n) : pred (succ i) = i := by
  have hi := i.isLt
  rw [Fin.ext_iff]
  simp only [succ, pred]
  split <;> split <;> simp_all <;> omega

/-- Summation by parts in one direction. -/
theorem by_parts {n : Nat} (hn : 3 ≤ n) (a v : Fin n → K) :
    ∑ i, a i * (v (pred i) + v (succ i) - 2 * v i) = -∑ i, (a (succ i) - a i) * (v (succ i) - v i) := by
  have h1 : ∑ i, a i * v (pred i) = ∑ i, a (succ i) * v i := by
    rw [← sum_succ hn fun i => a i * v (pred i)]
    simp only [pred_succ hn]
  have h2 : ∑ i, a (succ i) * v (succ i) = ∑ i, a i * v i := sum_succ hn fun i => a i * v i
  have e1 : ∑ i, a i * (v (pred i) + v (succ i) - 2 * v i) =
      ∑ i, a i * v (pred i) + ∑ i, a i * v (succ i) - 2 * ∑ i, a i * v i := by
    rw [Finset.mul_sum, ← Finset.sum_add_distrib, ← Finset.sum_sub_distrib]
    exact Finset.sum_congr rfl fun i _ => by ring
  have e2 : ∑ i, (a (succ i) - a i) * (v (succ i) - v i) =
      ∑ i, a (succ i) * v (succ i) - ∑ i, a (succ i) * v i - ∑ i, a i * v (succ i) + ∑ i, a i * v i := by
    rw [← Finset.sum_sub_distrib, ← Finset.sum_sub_distrib, ← Finset.sum_add_distrib]
    exact Finset.sum_congr rfl fun i _ => by ring
  rw [e1, e2, h1, h2]
  ring

/-- The gradient part of the energy along a change `x - u`. -/
theorem gradient_part (hn : 3 ≤ P.nx) (u x : P.Vec) :
    ∑ i, ∑ k, ((x (succ i, k) - x (i, k)) ^ 2 + (x (i, succ k) - x (i, k)) ^ 2) / (2 * P.dx ^ 2) -
      ∑ i, ∑ k, ((u (succ i, k) - u (i, k)) ^ 2 + (u (i, succ k) - u (i, k)) ^ 2) / (2 * P.dx ^ 2) ≤
    -∑ i, ∑ k, P.lap x i k * (x (i, k) - u (i, k)) := by
  have hlap : ∑ i, ∑ k, P.lap x i k * (x (i, k) - u (i, k)) =
      -∑ i, ∑ k, (((x (succ i, k) - u (succ i, k)) - (x (i, k) - u (i, k))) * (x (succ i, k) - x (i, k)) +
        ((x (i, succ k) - u (i, succ k)) - (x (i, k) - u (i, k))) * (x (i, succ k) - x (i, k))) / P.dx ^ 2 := by
    have s1 : ∑ i, ∑ k, P.lap x i k * (x (i, k) - u (i, k)) =
        (∑ k, ∑ i, (x (i, k) - u (i, k)) * (x (pred i, k) + x (succ i, k) - 2 * x (i, k)) +
        ∑ i, ∑ k, (x (i, k) - u (i, k)) * (x (i, pred k) + x (i, succ k) - 2 * x (i, k))) / P.dx ^ 2 := by
      rw [Finset.sum_comm (s := Finset.univ) (t := Finset.univ) (f := fun k i =>
        (x (i, k) - u (i, k)) * (x (pred i, k) + x (succ i, k) - 2 * x (i, k))), ← Finset.sum_add_distrib, Finset.sum_div]
      refine Finset.sum_congr rfl fun i _ => ?_
      rw [← Finset.sum_add_distrib, Finset.sum_div]
      refine Finset.sum_congr rfl fun k _ => ?_
      unfold lap; ring
    rw [s1]
    have a1 : ∀ k, ∑ i, (x (i, k) - u (i, k)) * (x (pred i, k) + x (succ i, k) - 2 * x (i, k)) =
        -∑ i, ((x (succ i, k) - u (succ i, k)) - (x (i, k) - u (i, k))) * (x (succ i, k) - x (i, k)) :=
      fun k => by_parts hn (fun i => x (i, k) - u (i, k)) fun i => x (i, k)
    have a2 : ∀ i, ∑ k, (x (i, k) - u (i, k)) * (x (i, pred k) + x (i, succ k) - 2 * x (i, k)) =
        -∑ k, ((x (i, succ k) - u (i, succ k)) - (x (i, k) - u (i, k))) * (x (i, succ k) - x (i, k)) :=
      fun i => by_parts hn (fun k => x (i, k) - u (i, k)) fun k => x (i, k)
    simp only [a1, a2, Finset.sum_neg_distrib]
    rw [Finset.sum_comm, ← neg_add, neg_div, ← Finset.sum_add_distrib, Finset.sum_div]
    congr 1
    refine Finset.sum_congr rfl fun i _ => ?_
    rw [← Finset.sum_add_distrib, Finset.sum_div]
  rw [hlap, neg_neg, ← Finset.sum_sub_distrib]
  refine Finset.sum_le_sum fun i _ => ?_
  rw [← Finset.sum_sub_distrib]
  refine Finset.sum_le_sum fun k _ => ?_
  have hd : 0 ≤ 1 / P.dx ^ 2 := one_div_nonneg.2 (sq_nonneg _)
  have key : ∀ p q : K, p ^ 2 / 2 - q ^ 2 / 2 ≤ (p - q) * p := fun p q => by nlinarith [sq_nonneg (p - q)]
  have k1 := key (x (succ i, k) - x (i, k)) (u (succ i, k) - u (i, k))
  have k2 := key (x (i, succ k) - x (i, k)) (u (i, succ k) - u (i, k))
  have := mul_le_mul_of_nonneg_right (add_le_add k1 k2) hd
  calc _ = ((x (succ i, k) - x (i, k)) ^ 2 / 2 - (u (succ i, k) - u (i, k)) ^ 2 / 2 +
        ((x (i, succ k) - x (i, k)) ^ 2 / 2 - (u (i, succ k) - u (i, k)) ^ 2 / 2)) * (1 / P.dx ^ 2) := by
        rw [mul_comm 2 (P.dx ^ 2), ← div_div, ← div_div]; ring
    _ ≤ _ := this
    _ = _ := by ring

/-- Even powers are convex. -/
theorem pow_convex {m : Nat} (hm : Even (m + 1)) (x u : K) :
    x ^ (m + 1) - u ^ (m + 1) ≤ (m + 1) * x ^ m * (x - u) := by
  by_cases hx : x = 0
  · subst hx
    have hm0 : m ≠ 0 := by rintro rfl; exact absurd hm (by decide)
    have := hm.pow_nonneg u
    simp [hm0]
    exact this
  · have hp : 0 < x ^ (m + 1) := lt_of_le_of_ne (hm.pow_nonneg x) (Ne.symm (pow_ne_zero _ hx))
    have hb : ∀ a : K, 1 + ((m + 1 : ℕ) : K) * a ≤ (1 + a) ^ (m + 1) := by
      intro a
      by_cases ha : -2 ≤ a
      · exact one_add_mul_le_pow ha (m + 1)
      · have h1 := hm.pow_nonneg (1 + a)
        have h2 : (1 : K) ≤ ((m + 1 : ℕ) : K) := by exact_mod_cast Nat.succ_le_succ (Nat.zero_le m)
        have h3 : a < -2 := not_le.1 ha
        nlinarith
    have h1 := mul_le_mul_of_nonneg_left (hb (u / x - 1)) hp.le
    rw [add_sub_cancel, div_pow, mul_div_cancel₀ _ hp.ne'] at h1
    have h2 : x ^ (m + 1) * (1 + ((m + 1 : ℕ) : K) * (u / x - 1)) = x ^ (m + 1) + (m + 1) * x ^ m * (u - x) := by
      push_cast
      field_simp
      ring
    linarith

/-- Second-order bound of powers on `[-1, 1]`. -/
theorem pow_second {x u : K} (hx : |x| ≤ 1) (hu : |u| ≤ 1) (m : Nat) :
    |x ^ (m + 1) - u ^ (m + 1) - (m + 1) * u ^ m * (x - u)| ≤ (m + 1) * m / 2 * (x - u) ^ 2 := by
  induction m with
  | zero => simp
  | succ m ih =>
    have e : x ^ (m + 1 + 1) - u ^ (m + 1 + 1) - (((m + 1 : ℕ) : K) + 1) * u ^ (m + 1) * (x - u) =
        x * (x ^ (m + 1) - u ^ (m + 1) - (m + 1) * u ^ m * (x - u)) + (m + 1) * u ^ m * (x - u) ^ 2 := by
      push_cast; ring
    rw [e]
    refine (abs_add_le _ _).trans ?_
    rw [abs_mul, abs_mul, abs_mul, abs_of_nonneg (sq_nonneg (x - u)), abs_pow,
      abs_of_nonneg (show (0 : K) ≤ (m : K) + 1 by positivity)]
    have h1 : |u| ^ m ≤ 1 := pow_le_one₀ (abs_nonneg u) hu
    have h2 : |x| * |x ^ (m + 1) - u ^ (m + 1) - (m + 1) * u ^ m * (x - u)| ≤ 1 * ((m + 1) * m / 2 * (x - u) ^ 2) :=
      mul_le_mul hx ih (abs_nonneg _) zero_le_one
    have h3 : ((m : K) + 1) * |u| ^ m * (x - u) ^ 2 ≤ (m + 1) * 1 * (x - u) ^ 2 :=
      mul_le_mul_of_nonneg_right (mul_le_mul_of_nonneg_left h1 (by positivity)) (sq_nonneg _)
    push_cast
    linarith

/-- The change of the energy, split. -/
theorem energy_le (hn : 3 ≤ P.nx) (u x : P.Vec) (b : Fin P.nx → Fin P.nx → K)
    (hb : ∀ i k, (x (i, k) ^ (P.nu + 2) / (P.nu + 2) - x (i, k) ^ 2 / 2) / P.eps ^ 2 -
      (u (i, k) ^ (P.nu + 2) / (P.nu + 2) - u (i, k) ^ 2 / 2) / P.eps ^ 2 - P.lap x i k * (x (i, k) - u (i, k)) ≤ b i k) :
    P.energy x - P.energy u ≤ ∑ i, ∑ k, b i k := by
  have hg := P.gradient_part hn u x
  have hs : ∑ i, ∑ k, ((x (i, k) ^ (P.nu + 2) / (P.nu + 2) - x (i, k) ^ 2 / 2) / P.eps ^ 2 -
      (u (i, k) ^ (P.nu + 2) / (P.nu + 2) - u (i, k) ^ 2 / 2) / P.eps ^ 2 - P.lap x i k * (x (i, k) - u (i, k))) ≤
      ∑ i, ∑ k, b i k := Finset.sum_le_sum fun i _ => Finset.sum_le_sum fun k _ => hb i k
  unfold energy
  simp only [Finset.sum_add_distrib, Finset.sum_sub_distrib] at *
  linarith

/-- C108, energy of the implicit method: for an even exponent and `0 < t1 - t0 ≤ 2 ε²` a returned result has at most the
energy of the start value, up to a multiple of the Newton tolerance. -/
theorem C108_energy_implicit (hn : 3 ≤ P.nx) (hmax : 0 < P.maxiter) (hnu : Even P.nu) (fuel : Nat)
    (u x : P.Vec) {t0 t1 : K} (ht : t0 < t1) (hdt : t1 - t0 ≤ 2 * P.eps ^ 2)
    (h : P.step solve .IMPL fuel u t0 t1 = some x) :
    P.energy x ≤ P.energy u + P.tol / (t1 - t0) * ∑ i, ∑ k, |x (i, k) - u (i, k)| := by
  have hd : 0 < t1 - t0 := by linarith
  have he : 0 < P.eps ^ 2 := by linarith
  have hx := P.C86_implicit solve hn hmax fuel u x t0 t1 h
  have := P.energy_le hn u x (fun i k => P.tol / (t1 - t0) * |x (i, k) - u (i, k)|) (fun i k => ?_)
  · simp only [← Finset.mul_sum] at this
    linarith
  · have hc := pow_convex (m := P.nu + 1) (by rw [show P.nu + 1 + 1 = P.nu + 2 from rfl]; exact hnu.add (by decide))
      (x (i, k)) (u (i, k))
    have hW : x (i, k) ^ (P.nu + 2) / (P.nu + 2) - x (i, k) ^ 2 / 2 - (u (i, k) ^ (P.nu + 2) / (P.nu + 2) - u (i, k) ^ 2 / 2)
        ≤ -(x (i, k) * (1 - x (i, k) ^ P.nu)) * (x (i, k) - u (i, k)) + (x (i, k) - u (i, k)) ^ 2 / 2 := by
      have hpos : (0 : K) < (P.nu : K) + 2 := by positivity
      have h1 : x (i, k) ^ (P.nu + 2) / (P.nu + 2) - u (i, k) ^ (P.nu + 2) / (P.nu + 2) ≤
          x (i, k) ^ (P.nu + 1) * (x (i, k) - u (i, k)) := by
        rw [← sub_div, div_le_iff₀ hpos]
        push_cast at hc
        calc _ ≤ _ := hc
          _ = _ := by ring
      rw [pow_succ (x (i, k)) P.nu] at h1
      generalize x (i, k) ^ (P.nu + 2) / ((P.nu : K) + 2) = A at h1 ⊢
      generalize u (i, k) ^ (P.nu + 2) / ((P.nu : K) + 2) = B at h1 ⊢
      generalize x (i, k) ^ P.nu = w at h1 ⊢
      linarith
    set ρ := x (i, k) - u (i, k) - (t1 - t0) * (P.lap x i k + P.react x i k) with hρ
    have hlr : P.lap x i k + P.react x i k = (x (i, k) - u (i, k) - ρ) / (t1 - t0) := by
      rw [hρ]; field_simp; ring
    have hρt : |ρ| < P.tol := hx i k
    have hW2 := div_le_div_of_nonneg_right hW he.le
    have e1 : (-(x (i, k) * (1 - x (i, k) ^ P.nu)) * (x (i, k) - u (i, k)) + (x (i, k) - u (i, k)) ^ 2 / 2) / P.eps ^ 2
        = -P.react x i k * (x (i, k) - u (i, k)) + (x (i, k) - u (i, k)) ^ 2 / (2 * P.eps ^ 2) := by
      unfold react; field_simp
    rw [e1, sub_div] at hW2
    have hl : P.lap x i k = (x (i, k) - u (i, k) - ρ) / (t1 - t0) - P.react x i k := by linarith
    have h3 : (x (i, k) - u (i, k)) ^ 2 / (2 * P.eps ^ 2) ≤ (x (i, k) - u (i, k)) ^ 2 / (t1 - t0) :=
      div_le_div_of_nonneg_left (sq_nonneg _) hd hdt
    have h4 : ρ * (x (i, k) - u (i, k)) / (t1 - t0) ≤ P.tol / (t1 - t0) * |x (i, k) - u (i, k)| := by
      rw [div_mul_eq_mul_div]
      refine div_le_div_of_nonneg_right ?_ hd.le
      refine (le_abs_self _).trans ?_
      rw [abs_mul]
      exact mul_le_mul_of_nonneg_right hρt.le (abs_nonneg _)
    have e2 : (x (i, k) - u (i, k) - ρ) / (t1 - t0) * (x (i, k) - u (i, k)) =
        (x (i, k) - u (i, k)) ^ 2 / (t1 - t0) - ρ * (x (i, k) - u (i, k)) / (t1 - t0) := by ring
    rw [hl]
    nlinarith

/-- C108, energy of the implicit-explicit method: for an even exponent, `0 < (t1 - t0) ν ≤ ε²` and start values in
`[-1, 1]` the energy does not increase. -/
theorem C108_energy_imex (hn : 3 ≤ P.nx) (hs : SolverOK solve) (hnu : Even P.nu) (hnu0 : 0 < P.nu) (fuel : Nat)
    (u x : P.Vec) {t0 t1 : K} (ht : t0 < t1) (hdt : (t1 - t0) * P.nu ≤ P.eps ^ 2)
    (h : P.step solve .IMEX fuel u t0 t1 = some x) (hu : ∀ q, |u q| ≤ 1) : P.energy x ≤ P.energy u := by
  have hd : 0 < t1 - t0 := by linarith
  have hnuK : (0 : K) < P.nu := by exact_mod_cast hnu0
  have he : 0 < P.eps ^ 2 := lt_of_lt_of_le (mul_pos hd hnuK) hdt
  have heps : P.eps ≠ 0 := fun e => by rw [e] at he; simp at he
  have hx1 := P.C108_bound_imex_partial solve hn hs hnu fuel u x ht.le hdt heps h hu
  have hx := (P.C86_imex solve hn hs fuel u x t0 t1 ht.le).1 h
  have := P.energy_le hn u x (fun _ _ => 0) (fun i k => ?_)
  · simp at this; exact this
  · have h2 := (abs_le.1 (pow_second (hx1 (i, k)) (hu (i, k)) (P.nu + 1))).2
    have hW : x (i, k) ^ (P.nu + 2) / (P.nu + 2) - x (i, k) ^ 2 / 2 - (u (i, k) ^ (P.nu + 2) / (P.nu + 2) - u (i, k) ^ 2 / 2)
        ≤ -(u (i, k) * (1 - u (i, k) ^ P.nu)) * (x (i, k) - u (i, k)) + P.nu * (x (i, k) - u (i, k)) ^ 2 / 2 := by
      have hpos : (0 : K) < (P.nu : K) + 2 := by positivity
      have h1 : x (i, k) ^ (P.nu + 2) / (P.nu + 2) - u (i, k) ^ (P.nu + 2) / (P.nu + 2) ≤
          u (i, k) ^ (P.nu + 1) * (x (i, k) - u (i, k)) + (P.nu + 1) / 2 * (x (i, k) - u (i, k)) ^ 2 := by
        rw [← sub_div, div_le_iff₀ hpos]
        push_cast at h2
        rw [show P.nu + 1 + 1 = P.nu + 2 from rfl] at h2
        nlinarith
      rw [pow_succ (u (i, k)) P.nu] at h1
      generalize x (i, k) ^ (P.nu + 2) / ((P.nu : K) + 2) = A at h1 ⊢
      generalize u (i, k) ^ (P.nu + 2) / ((P.nu : K) + 2) = B at h1 ⊢
      generalize u (i, k) ^ P.nu = w at h1 ⊢
      linarith
    have hlr : P.lap x i k = (x (i, k) - u (i, k)) / (t1 - t0) - P.react u i k := by
      rw [hx i k]; field_simp; ring
    have hW2 := div_le_div_of_nonneg_right hW he.le
    have e1 : (-(u (i, k) * (1 - u (i, k) ^ P.nu)) * (x (i, k) - u (i, k)) + P.nu * (x (i, k) - u (i, k)) ^ 2 / 2) / P.eps ^ 2
        = -P.react u i k * (x (i, k) - u (i, k)) + P.nu * (x (i, k) - u (i, k)) ^ 2 / 2 / P.eps ^ 2 := by
      unfold react; field_simp
    rw [e1, sub_div] at hW2
    have h3 : (P.nu : K) * (x (i, k) - u (i, k)) ^ 2 / 2 / P.eps ^ 2 ≤ (x (i, k) - u (i, k)) ^ 2 / (t1 - t0) := by
      rw [div_div, div_le_div_iff₀ (by positivity) hd]
      have := mul_le_mul_of_nonneg_right hdt (sq_nonneg (x (i, k) - u (i, k)))
      nlinarith [sq_nonneg (x (i, k) - u (i, k))]
    have e2 : (x (i, k) - u (i, k)) / (t1 - t0) * (x (i, k) - u (i, k)) = (x (i, k) - u (i, k)) ^ 2 / (t1 - t0) := by ring
    rw [hlr]
    nlinarith

/-! ## The restrictions are needed -/

/-- A linear system of the Newton loop at a constant state. -/
theorem solve_const (hn : 3 ≤ P.nx) (hs : SolverOK solve) {fac x : K} (hf : 0 ≤ fac)
    (hd : 0 < 1 - fac / P.eps ^ 2 * (1 - (P.nu + 1) * x ^ P.nu)) (r : K) :
    solve (P.jacobian fac fun _ => x) (fun _ => r) =
      fun _ => r / (1 - fac / P.eps ^ 2 * (1 - (P.nu + 1) * x ^ P.nu)) := by
  have hJ : ∀ v, (P.jacobian fac fun _ => x).mulVec v =
      (1 - fac / P.eps ^ 2 * (1 - (P.nu + 1) * x ^ P.nu)) • v - fac • P.mat.mulVec v := by
    intro v
    unfold jacobian
    rw [Matrix.sub_mulVec, Matrix.one_mulVec, Matrix.smul_mulVec, Matrix.add_mulVec, Matrix.smul_mulVec]
    funext q
    simp only [Pi.sub_apply, Pi.smul_apply, Pi.add_apply, smul_eq_mul, Matrix.mulVec_diagonal]
    ring
  refine hs.eq (P.lap_unique hn hf (Or.inl hd) _ hJ _) ?_
  show (P.jacobian fac fun _ => x).mulVec _ = _
  rw [hJ, mat_const P hn, smul_zero, sub_zero]
  funext q
  exact mul_div_cancel₀ r hd.ne'

end AllenCahn

namespace AllenCahn

/-- C108 without a restriction of the step size does not hold for the implicit-explicit method: with the default
parameters and a step of size `2 ε²`, the constant `1/2` becomes the constant `5/4`. -/
theorem C108_bound_imex_counterexample
    (solve : Matrix (Fin exAC.nx × Fin exAC.nx) (Fin exAC.nx × Fin exAC.nx) ℚ → exAC.Vec → exAC.Vec)
    (hs : SolverOK solve) (fuel : Nat) :
    exAC.step solve .IMEX fuel (fun _ => 1 / 2) 0 (2 * exAC.eps ^ 2) = some fun _ => 5 / 4 := by
  refine (exAC.C86_imex solve (by decide) hs fuel _ _ _ _ (by simp only [exAC]; norm_num)).2 fun i k => ?_
  simp only [AllenCahn.lap, AllenCahn.react, exAC]
  norm_num

/-- A Newton update of the example below. -/
def exNewton (x : ℚ) : ℚ := x - (x - 9 / 10 * (x * (1 - x ^ 2)) - 10539 / 10000) / (1 - 9 / 10 * (1 - 3 * x ^ 2))

/-- As `exAC`, with `newton_tol = 0.01`. -/
def _root_.Pymgrit.Apps.exACTol : AllenCahn ℚ := { exAC with tol := 1 / 100 }

/-- Nor does it for Crank-Nicolson: with a step of size `9/5 ε²`, the constant `9/10` becomes a constant above
`1 + tol`. -/
theorem C108_bound_cn_counterexample
    (solve : Matrix (Fin exACTol.nx × Fin exACTol.nx) (Fin exACTol.nx × Fin exACTol.nx) ℚ → exACTol.Vec → exACTol.Vec)
    (hs : SolverOK solve) :
    ∃ c : ℚ, exACTol.step solve .CN 3 (fun _ => 9 / 10) 0 (9 / 5 * exACTol.eps ^ 2) = some (fun _ => c) ∧
      1 + exACTol.tol < c := by
  have hn : 3 ≤ exACTol.nx := by decide
  have hmax : 0 < exACTol.maxiter := by decide
  have hsys : exACTol.system .CN (fun _ => 9 / 10) 0 (9 / 5 * exACTol.eps ^ 2) =
      (9 / 10 * (4 / 100) ^ 2, fun _ => 10539 / 10000) := by
    unfold AllenCahn.system
    rw [if_pos rfl, AllenCahn.force_const exACTol hn]
    refine Prod.ext ?_ ?_
    · simp only [exACTol, exAC]; norm_num
    · funext q
      show (9 / 10 : ℚ) + (9 / 5 * exACTol.eps ^ 2 - 0) / 2 * (1 / exACTol.eps ^ 2 * (9 / 10) * (1 - (9 / 10) ^ exACTol.nu)) = _
      simp only [exACTol, exAC]
      norm_num
  have hres : ∀ x : ℚ, exACTol.residual (9 / 10 * (4 / 100) ^ 2) (fun _ => 10539 / 10000) (fun _ => x) =
      fun _ => x - 9 / 10 * (x * (1 - x ^ 2)) - 10539 / 10000 := by
    intro x
    unfold AllenCahn.residual
    rw [AllenCahn.force_const exACTol hn]
    funext q
    show x - 9 / 10 * (4 / 100) ^ 2 * (1 / exACTol.eps ^ 2 * x * (1 - x ^ exACTol.nu)) - 10539 / 10000 = _
    simp only [exACTol, exAC]
    ring
  have hone : ∀ (x : ℚ) (fuel n : Nat), 0 < 1 - 9 / 10 * (1 - 3 * x ^ 2) →
      1 / 100 ≤ |x - 9 / 10 * (x * (1 - x ^ 2)) - 10539 / 10000| →
      exACTol.newton solve (9 / 10 * (4 / 100) ^ 2) (fun _ => 10539 / 10000) (fuel + 1) (fun _ => x, n) =
      exACTol.newton solve (9 / 10 * (4 / 100) ^ 2) (fun _ => 10539 / 10000) fuel
        (fun _ => exNewton x, n + 1) := by
    intro x fuel n hd hl
    have hd' : (1 : ℚ) - 9 / 10 * (4 / 100) ^ 2 / exACTol.eps ^ 2 * (1 - (exACTol.nu + 1) * x ^ exACTol.nu) =
        1 - 9 / 10 * (1 - 3 * x ^ 2) := by
      simp only [exACTol, exAC]; norm_num
    rw [exACTol.newton_step solve hmax, hres, exACTol.solve_const solve hn hs (by norm_num) (by rw [hd']; exact hd), hd']
    · rfl
    · rw [hres]
      intro h
      have := h (⟨0, by decide⟩, ⟨0, by decide⟩)
      exact absurd this (not_lt.2 hl)
  refine ⟨exNewton (exNewton (9 / 10)), ?_, by simp only [exNewton, exACTol]; norm_num⟩
  unfold AllenCahn.step
  rw [if_neg (by decide), hsys]
  simp only
  rw [hone _ _ _ (by norm_num) (by rw [le_abs]; norm_num),
    hone _ _ _ (by simp only [exNewton]; norm_num) (by rw [le_abs]; simp only [exNewton]; norm_num),
    AllenCahn.newton, if_pos hmax, if_pos]
  · rfl
  · rw [hres]
    intro q
    simp only [exACTol, exNewton]
    rw [abs_lt]
    norm_num

/-! ## Time stepping -/

variable {P : AllenCahn ℝ} {solve : Matrix (Fin P.nx × Fin P.nx) (Fin P.nx × Fin P.nx) ℝ → P.Vec → P.Vec}
  {K' N : Type} {E : Cfg P.Vec K' ℝ N}

/-- The start value of the application is between `-1` and `1`. -/
theorem C108_start (radius : ℝ) (q : Fin P.nx × Fin P.nx) : |P.initialGuess radius q| < 1 := Real.abs_tanh_lt_one _

/-- C108 for sequential time stepping with the implicit-explicit method from values in `[-1, 1]`, with step sizes up to
`ε² / ν`: all values stay in `[-1, 1]`, and the energy does not increase. -/
theorem C108_imex (hg : (grid E.ts 0).Pairwise (· < ·)) (hn : 3 ≤ P.nx) (hs : SolverOK solve) (hnu : Even P.nu)
    (hnu0 : 0 < P.nu) (hstart : ∀ q, |E.start 0 q| ≤ 1)
    (hstep : ∀ i, i + 1 < npts E.ts 0 → P.step solve .IMEX 0 (timeStepping E i) (tAt (grid E.ts 0) i)
      (tAt (grid E.ts 0) (i + 1)) = some (timeStepping E (i + 1)))
    (hdt : ∀ i, i + 1 < npts E.ts 0 → (tAt (grid E.ts 0) (i + 1) - tAt (grid E.ts 0) i) * P.nu ≤ P.eps ^ 2) :
    (∀ i, i < npts E.ts 0 → ∀ q, |timeStepping E i q| ≤ 1) ∧
    ∀ i j, i ≤ j → j < npts E.ts 0 → P.energy (timeStepping E j) ≤ P.energy (timeStepping E i) := by
  have hlt : ∀ i, i + 1 < npts E.ts 0 → tAt (grid E.ts 0) i < tAt (grid E.ts 0) (i + 1) := fun i hi =>
    (tAt_lt_iff hg (by unfold npts at hi; omega) hi).2 (by omega)
  have hb : ∀ i, i < npts E.ts 0 → ∀ q, |timeStepping E i q| ≤ 1 := by
    intro i
    induction i with
    | zero => exact fun _ => hstart
    | succ i ih =>
      intro hi
      have hpos : 0 < P.eps ^ 2 := lt_of_lt_of_le
        (mul_pos (sub_pos.2 (hlt i hi)) (by exact_mod_cast hnu0)) (hdt i hi)
      exact P.C108_bound_imex_partial solve hn hs hnu 0 _ _ (hlt i hi).le (hdt i hi)
        (fun e => by rw [e] at hpos; simp at hpos) (hstep i hi) (ih (by omega))
  refine ⟨hb, fun i j hij => ?_⟩
  induction j, hij using Nat.le_induction with
  | base => exact fun _ => le_refl _
  | succ j hij ih =>
    intro hj
    exact (P.C108_energy_imex solve hn hs hnu hnu0 0 _ _ (hlt j hj) (hdt j hj) (hstep j hj)
      (hb j (by omega))).trans (ih (by omega))

/-- C108 for sequential time stepping with the implicit method from values in `[-1, 1]`, with any step sizes: after `i`
steps the values are in `[-1, 1]` up to `i` Newton tolerances. -/
theorem C108_implicit (hg : (grid E.ts 0).Pairwise (· < ·)) (hn : 3 ≤ P.nx) (hmax : 0 < P.maxiter) (htol : 0 < P.tol)
    (hnu : Even P.nu) (hstart : ∀ q, |E.start 0 q| ≤ 1)
    (hstep : ∀ i, i + 1 < npts E.ts 0 → ∃ fuel, P.step solve .IMPL fuel (timeStepping E i) (tAt (grid E.ts 0) i)
      (tAt (grid E.ts 0) (i + 1)) = some (timeStepping E (i + 1)))
    (i : Nat) (hi : i < npts E.ts 0) (q : Fin P.nx × Fin P.nx) : |timeStepping E i q| ≤ 1 + i * P.tol := by
  induction i generalizing q with
  | zero =>
    have : |timeStepping E 0 q| ≤ 1 := hstart q
    simpa using this
  | succ i ih =>
    obtain ⟨fuel, hf⟩ := hstep i hi
    have := P.C108_bound_implicit solve hn hmax htol hnu fuel _ _ (tAt_mono hg (by omega) hi) hf
      (M := 1 + i * P.tol) (by have := mul_nonneg (Nat.cast_nonneg (α := ℝ) i) htol.le; linarith)
      (fun q => ih (by omega) q) q
    push_cast
    linarith

end AllenCahn

/-! ## Non-vacuity -/

/-- `C108_bound_imex_partial`, `C108_energy_imex`: default parameters, a state with both signs, step size `ε² / 2`. -/
example : ∃ solve, SolverOK solve ∧ ∃ x, exAC.step solve .IMEX 1 (fun q => if q.1 = q.2 then 1 / 2 else -1) 0 (exAC.eps ^ 2 / 2) =
    some x ∧ (∀ q, |x q| ≤ 1) ∧ exAC.energy x ≤ exAC.energy fun q => if q.1 = q.2 then 1 / 2 else -1 := by
  obtain ⟨solve, hs⟩ := solver_exists (K := ℚ) (ι := Fin 3 × Fin 3)
  have hu : ∀ q : Fin exAC.nx × Fin exAC.nx, |(if q.1 = q.2 then 1 / 2 else -1 : ℚ)| ≤ 1 := fun q => by
    split <;> rw [abs_le] <;> norm_num
  have hd : (exAC.eps ^ 2 / 2 - 0) * exAC.nu ≤ exAC.eps ^ 2 := by simp only [exAC]; norm_num
  have ht : (0 : ℚ) < exAC.eps ^ 2 / 2 := by simp only [exAC]; norm_num
  exact ⟨solve, hs, _, rfl,
    exAC.C108_bound_imex_partial solve (by decide) hs (by decide) 1 _ _ ht.le hd (by simp only [exAC]; norm_num) rfl hu,
    exAC.C108_energy_imex solve (by decide) hs (by decide) (by decide) 1 _ _ ht hd rfl hu⟩

/-- `C108_bound_implicit`, `C108_energy_implicit`, `C108_stability`: one Newton update. -/
example : ∃ solve, SolverOK solve ∧ ∃ c : ℚ, c ≠ 1 / 2 ∧
    exACTol.step solve .IMPL 2 (fun _ => 1 / 2) 0 (1 / 10 * exACTol.eps ^ 2) = some (fun _ => c) ∧
    (∀ q : Fin exACTol.nx × Fin exACTol.nx, |(fun _ => c : exACTol.Vec) q| < 1 + exACTol.tol) ∧
    exACTol.energy (fun _ => c) ≤ exACTol.energy (fun _ => 1 / 2) + exACTol.tol / (1 / 10 * exACTol.eps ^ 2 - 0) *
      ∑ _i : Fin exACTol.nx, ∑ _k : Fin exACTol.nx, |c - 1 / 2| := by
  obtain ⟨solve, hs⟩ := solver_exists (K := ℚ) (ι := Fin exACTol.nx × Fin exACTol.nx)
  have hn : 3 ≤ exACTol.nx := by decide
  have hmax : 0 < exACTol.maxiter := by decide
  have hres : ∀ x : ℚ, exACTol.residual (1 / 10 * exACTol.eps ^ 2) (fun _ => 1 / 2) (fun _ => x) =
      fun _ => x - 1 / 10 * (x * (1 - x ^ 2)) - 1 / 2 := by
    intro x
    unfold AllenCahn.residual
    rw [AllenCahn.force_const exACTol hn]
    funext q
    show x - 1 / 10 * exACTol.eps ^ 2 * (1 / exACTol.eps ^ 2 * x * (1 - x ^ exACTol.nu)) - 1 / 2 = _
    simp only [exACTol, exAC]
    ring
  have hstep : exACTol.step solve .IMPL 2 (fun _ => 1 / 2) 0 (1 / 10 * exACTol.eps ^ 2) =
      some fun _ => 7 / 13 := by
    unfold AllenCahn.step
    rw [if_neg (by decide)]
    have e : exACTol.system .IMPL (fun _ => 1 / 2) 0 (1 / 10 * exACTol.eps ^ 2) =
        (1 / 10 * exACTol.eps ^ 2, fun _ => 1 / 2) := by
      unfold AllenCahn.system
      rw [if_neg (by decide), sub_zero]
    rw [e]
    simp only
    rw [exACTol.newton_step solve hmax, hres, exACTol.solve_const solve hn hs (by simp only [exACTol, exAC]; norm_num)
      (by simp only [exACTol, exAC]; norm_num)]
    · rw [show ((fun _ => 1 / 2 : exACTol.Vec) - fun _ => ((1 / 2 - 1 / 10 * (1 / 2 * (1 - (1 / 2) ^ 2)) - 1 / 2) /
          (1 - 1 / 10 * exACTol.eps ^ 2 / exACTol.eps ^ 2 * (1 - (exACTol.nu + 1) * (1 / 2) ^ exACTol.nu)) : ℚ)) =
          fun _ => 7 / 13 by
        funext q
        rw [Pi.sub_apply]
        simp only [exACTol, exAC]
        norm_num]
      show Option.map Prod.fst (exACTol.newton solve _ _ (0 + 1) (fun _ => 7 / 13, _)) = _
      rw [AllenCahn.newton, if_pos hmax, if_pos]
      · rfl
      · rw [hres]
        intro q
        simp only [exACTol]
        rw [abs_lt]
        norm_num
    · rw [hres]
      intro h
      have := h (⟨0, by decide⟩, ⟨0, by decide⟩)
      simp only [exACTol] at this
      rw [abs_lt] at this
      norm_num at this
  have ht : (0 : ℚ) < 1 / 10 * exACTol.eps ^ 2 := by simp only [exACTol, exAC]; norm_num
  exact ⟨solve, hs, 7 / 13, by norm_num, hstep,
    exACTol.C108_bound_implicit solve hn hmax (by simp only [exACTol]; norm_num) (by decide) 2 _ _ ht.le hstep (le_refl 1)
      (fun _ => by rw [abs_le]; norm_num),
    exACTol.C108_energy_implicit solve hn hmax (by decide) 2 _ _ ht (by simp only [exACTol, exAC]; norm_num) hstep⟩

/-- `C108_bound_cn_partial`: a small step from the constant `1/2`. -/
example (solve : Matrix (Fin exACTol.nx × Fin exACTol.nx) (Fin exACTol.nx × Fin exACTol.nx) ℚ → exACTol.Vec → exACTol.Vec) :
    ∃ x, exACTol.step solve .CN 1 (fun _ => 1 / 2) 0 (1 / 100000) = some x ∧ ∀ q, |x q| < 1 + exACTol.tol := by
  have hn : 3 ≤ exACTol.nx := by decide
  have hmax : 0 < exACTol.maxiter := by decide
  have hstep : exACTol.step solve .CN 1 (fun _ => 1 / 2) 0 (1 / 100000) = some fun _ => 1 / 2 := by
    unfold AllenCahn.step
    rw [if_neg (by decide), AllenCahn.newton, if_pos hmax, if_pos]
    · rfl
    · have hsys : exACTol.system .CN (fun _ => 1 / 2) 0 (1 / 100000) = (1 / 200000, fun _ => 1283 / 2560) := by
        unfold AllenCahn.system
        rw [if_pos rfl, AllenCahn.force_const exACTol hn]
        refine Prod.ext (by norm_num) ?_
        funext q
        simp only
        rw [Pi.add_apply, Pi.smul_apply, smul_eq_mul]
        simp only [exACTol, exAC]
        norm_num
      rw [hsys]
      unfold AllenCahn.residual
      rw [AllenCahn.force_const exACTol hn]
      intro q
      rw [Pi.sub_apply, Pi.sub_apply, Pi.smul_apply, smul_eq_mul]
      simp only [exACTol, exAC]
      rw [abs_lt]
      norm_num
  exact ⟨_, hstep, exACTol.C108_bound_cn_partial solve hn hmax (by simp only [exACTol]; norm_num) (by decide) 1 _ _
    (by norm_num) (by simp only [exACTol, exAC]; norm_num) (by simp only [exACTol, exAC]; norm_num) hstep
    (fun _ => by rw [abs_le]; norm_num)⟩

/-- Parameters for `exRealGrid`, whose steps have sizes up to 6. -/
noncomputable def exACReal : AllenCahn ℝ where
  nx := 3
  dx := 1 / 3
  nu := 2
  eps := 4
  maxiter := 100
  tol := 1 / 10 ^ 12

/-- `C108_imex` with the start value of the application. -/
example : ∃ solve, SolverOK solve ∧
    let E := exTol (fun _ u t t' => (exACReal.step solve .IMEX 0 u t t').getD 0) (exACReal.initialGuess (1 / 4)) 0 false 1
      (fun _ => 0) norm1
    (∀ i, i < 5 → ∀ q, |timeStepping E i q| ≤ 1) ∧
    ∀ i j, i ≤ j → j < 5 → exACReal.energy (timeStepping E j) ≤ exACReal.energy (timeStepping E i) := by
  obtain ⟨solve, hs⟩ := solver_exists (K := ℝ) (ι := Fin 3 × Fin 3)
  refine ⟨solve, hs, ?_⟩
  exact AllenCahn.C108_imex (P := exACReal) (solve := solve)
    (E := exTol (fun _ u t t' => (exACReal.step solve .IMEX 0 u t t').getD 0) (exACReal.initialGuess (1 / 4)) 0 false 1
      (fun _ => 0) norm1) (exRealGrid_valid.sorted 0) (by decide) hs (by decide) (by decide)
    (fun q => (AllenCahn.C108_start _ q).le) (fun i _ => rfl)
    (fun i hi => by
      have := exRealGrid_step i hi
      show (tAt (grid exRealGrid 0) (i + 1) - tAt (grid exRealGrid 0) i) * ((2 : ℕ) : ℝ) ≤ 4 ^ 2
      push_cast
      linarith)

/-- `C108_implicit` from the constant `-1`. -/
example : ∃ solve, SolverOK solve ∧
    ∀ i, i < 5 → ∀ q, |timeStepping (exTol (fun _ u t t' => (exACReal.step solve .IMPL 1 u t t').getD 0)
      (fun _ => -1 : exACReal.Vec) 0 false 1 (fun _ => 0) norm1) i q| ≤ 1 + i * exACReal.tol := by
  obtain ⟨solve, hs⟩ := solver_exists (K := ℝ) (ι := Fin exACReal.nx × Fin exACReal.nx)
  refine ⟨solve, hs, ?_⟩
  set E := exTol (fun _ u t t' => (exACReal.step solve .IMPL 1 u t t').getD 0)
      (fun _ => -1 : exACReal.Vec) 0 false 1 (fun _ => 0) norm1 with hE
  have htol : 0 < exACReal.tol := by simp only [exACReal]; norm_num
  have hst : ∀ t t' : ℝ, t ≤ t' → exACReal.step solve .IMPL 1 (fun _ => -1) t t' = some fun _ => -1 := fun t t' ht =>
    exACReal.C60_stationary solve (by decide) hs htol (by decide) (-1) (by simp only [exACReal]; norm_num) .IMPL 1
      (by decide) ht
  have hv : ∀ i, i < 5 → timeStepping E i = fun _ => -1 := by
    intro i
    induction i with
    | zero => exact fun _ => rfl
    | succ i ih =>
      intro hi
      have e : timeStepping E (i + 1) = (exACReal.step solve .IMPL 1 (timeStepping E i) (tAt (grid exRealGrid 0) i)
        (tAt (grid exRealGrid 0) (i + 1))).getD 0 := rfl
      rw [e, ih (by omega), hst _ _ (tAt_mono (exRealGrid_valid.sorted 0) (by omega) hi)]
      rfl
  exact fun i hi q => AllenCahn.C108_implicit (P := exACReal) (solve := solve) (E := E) (exRealGrid_valid.sorted 0)
    (by decide) (by decide) htol (by decide) (fun q => by show |(-1 : ℝ)| ≤ 1; norm_num)
    (fun i hi => ⟨1, by
      rw [hv i (by have : i + 1 < 5 := hi; omega), hv (i + 1) hi]
      exact hst _ _ (tAt_mono (exRealGrid_valid.sorted 0) (by omega) hi)⟩) i hi q

end Pymgrit.Apps
