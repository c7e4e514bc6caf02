import Verif.Apps
import Mathlib.Tactic.FieldSimp
import Mathlib.Tactic.LinearCombination
import Mathlib.Algebra.Order.Ring.Rat
import Mathlib.Tactic.NormNum

/-!
# Properties of the scalar and one-dimensional applications (C45, C46, C49, C50, C52)
-/

namespace Pymgrit.Apps
open Matrix Lin

variable {K : Type} [Field K]

/-! ## Dahlquist (C45) -/

/-- Specification: one step of size `dt` for `u' = lam * u` from `u` to `y`. -/
def Scheme (m : Method) (lam dt u y : K) : Prop :=
  match m with
  | .BE => y = u + dt * (lam * y)
  | .FE => y = u + dt * (lam * u)
  | .TR => y = u + dt / 2 * (lam * u + lam * y)
  | .MR => y = u + dt * (lam * ((u + y) / 2))

/-- The step sizes for which the scheme determines the new value. -/
def Defined (m : Method) (lam dt : K) : Prop :=
  match m with
  | .BE => 1 - dt * lam ≠ 0
  | .FE => True
  | .TR => 1 - dt * lam / 2 ≠ 0
  | .MR => 1 - dt * lam / 2 ≠ 0

theorem eq_div_mul_iff {d p u y : K} (hd : d ≠ 0) : y = p / d * u ↔ d * y = p * u := by
  constructor
  · rintro rfl; field_simp
  · intro h
    rw [div_mul_eq_mul_div, eq_div_iff hd, ← h]; ring

/-- Backward Euler, forward Euler and the trapezoidal rule: the returned value is the only solution of
the scheme, for every configured `lam`. -/
theorem C45_scheme_partial [CharZero K] (m : Method) (hm : m ≠ .MR) (lam u t0 t1 : K)
    (hd : Defined m lam (t1 - t0)) (y : K) :
    Scheme m lam (t1 - t0) u y ↔ y = dahlquist m lam u t0 t1 := by
  unfold dahlquist
  generalize t1 - t0 = dt at *
  have h2 : (2 : K) ≠ 0 := two_ne_zero
  cases m with
  | BE =>
    have hd : 1 - dt * lam ≠ 0 := hd
    show y = u + dt * (lam * y) ↔ y = 1 / (1 - dt * lam) * u
    rw [eq_div_mul_iff hd]
    constructor <;> intro h <;> linear_combination h
  | FE =>
    show y = u + dt * (lam * u) ↔ y = (1 + dt * lam) * u
    constructor <;> intro h <;> linear_combination h
  | TR =>
    have hd : 1 - dt * lam / 2 ≠ 0 := hd
    show y = u + dt / 2 * (lam * u + lam * y) ↔ y = (1 + dt * lam / 2) / (1 - dt * lam / 2) * u
    rw [eq_div_mul_iff hd]
    constructor <;> intro h <;> linear_combination h
  | MR => exact absurd rfl hm

/-- The implicit mid-point rule of the code is the mid-point rule only for `lam = -1`. -/
theorem C45_midpoint_iff [CharZero K] (lam u t0 t1 : K) (hd : Defined .MR lam (t1 - t0)) :
    Scheme .MR lam (t1 - t0) u (dahlquist .MR lam u t0 t1) ↔ lam = -1 ∨ t0 = t1 ∨ u = 0 := by
  have h2 : (2 : K) ≠ 0 := two_ne_zero
  have hd : 1 - (t1 - t0) * lam / 2 ≠ 0 := hd
  have e : dahlquist .MR lam u t0 t1 = u + (t1 - t0) * (-1 / (1 - (t1 - t0) * lam / 2) * u) := rfl
  have hy : (1 - (t1 - t0) * lam / 2) * (dahlquist .MR lam u t0 t1) =
      (1 - (t1 - t0) * lam / 2) * u - (t1 - t0) * u := by
    have hk : (1 - (t1 - t0) * lam / 2) * (-1 / (1 - (t1 - t0) * lam / 2) * u) = -u := by
      rw [← mul_assoc, mul_div_cancel₀ _ hd]; ring
    rw [e]
    linear_combination (t1 - t0) * hk
  generalize dahlquist .MR lam u t0 t1 = y at *
  show y = u + (t1 - t0) * (lam * ((u + y) / 2)) ↔ _
  constructor
  · intro h
    have : (lam + 1) * ((t0 - t1) * u) = 0 := by linear_combination h - hy
    rcases mul_eq_zero.1 this with h | h
    · left; linear_combination h
    · rcases mul_eq_zero.1 h with h | h
      · right; left; linear_combination h
      · exact Or.inr (Or.inr h)
  · rintro (rfl | rfl | rfl)
    · linear_combination hy
    · linear_combination hy
    · linear_combination hy

/-- The constructor accepts the four names, each for its method, and raises for every other. -/
theorem C45_names (s : String) (m : Method) :
    parseMethod s = some m ↔ (s, m) = ("BE", .BE) ∨ (s, m) = ("FE", .FE) ∨ (s, m) = ("TR", .TR) ∨
      (s, m) = ("MR", .MR) := by
  unfold parseMethod
  split_ifs <;> cases m <;> simp_all

/-- The property fails for the mid-point rule: `lam = 1`, one step of size 1 from 1. -/
theorem C45_counterexample :
    Defined .MR (1 : ℚ) (1 - 0) ∧ ¬ Scheme .MR (1 : ℚ) (1 - 0) 1 (dahlquist .MR 1 1 0 1) := by
  have hd : Defined .MR (1 : ℚ) (1 - 0) := by unfold Defined; norm_num
  refine ⟨hd, fun h => ?_⟩
  rcases (C45_midpoint_iff 1 1 0 1 hd).1 h with h | h | h <;> norm_num at h

example : Defined .TR (-1 : ℚ) (1 / 2 - 0) := by unfold Defined; norm_num

/-- For `lam ≤ 0` and forward steps the implicit methods never increase the absolute value. -/
theorem C45_stable [LinearOrder K] [IsStrictOrderedRing K] (m : Method) (hm : m = .BE ∨ m = .TR)
    (lam u t0 t1 : K) (hl : lam ≤ 0) (ht : t0 ≤ t1) :
    Defined m lam (t1 - t0) ∧ |dahlquist m lam u t0 t1| ≤ |u| := by
  have hz : (t1 - t0) * lam ≤ 0 := mul_nonpos_of_nonneg_of_nonpos (sub_nonneg.2 ht) hl
  rcases hm with rfl | rfl
  · refine ⟨ne_of_gt (by linarith), ?_⟩
    show |1 / (1 - (t1 - t0) * lam) * u| ≤ |u|
    rw [abs_mul]
    refine mul_le_of_le_one_left (abs_nonneg _) ?_
    rw [abs_of_nonneg (by apply div_nonneg <;> linarith), div_le_one (by linarith)]
    linarith
  · refine ⟨ne_of_gt (by linarith), ?_⟩
    show |(1 + (t1 - t0) * lam / 2) / (1 - (t1 - t0) * lam / 2) * u| ≤ |u|
    rw [abs_mul]
    refine mul_le_of_le_one_left (abs_nonneg _) ?_
    have hp : 0 < 1 - (t1 - t0) * lam / 2 := by linarith
    rw [abs_div, abs_of_pos hp, div_le_one hp, abs_le]
    constructor <;> linarith

/-! ## Brusselator (C52) -/

/-- The equilibrium `(a, b/a) = (1, 3)` is fixed by every step. -/
theorem C52_equilibrium (t0 t1 : K) : brusselatorStep (1, 3) t0 t1 = (1, 3) := by
  have h : ∀ t : K, brusselator t (1, 3) = (0, 0) := by
    intro t
    simp only [brusselator, Prod.mk.injEq]
    constructor <;> ring
  simp only [brusselatorStep, h, mul_zero, add_zero]

/-- A step of size zero returns the start value. -/
theorem C52_zero_step (u : K × K) (t : K) : brusselatorStep u t t = u := by
  simp [brusselatorStep]

/-- The right-hand side vanishes only at the equilibrium. -/
theorem C52_only_equilibrium (t : K) (y : K × K) :
    brusselator t y = (0, 0) ↔ y = (1, 3) := by
  constructor
  · intro h
    simp only [brusselator, Prod.mk.injEq] at h
    obtain ⟨h1, h2⟩ := h
    have e1 : y.1 = 1 := by linear_combination -h1 - h2
    rw [e1] at h2
    have e2 : y.2 = 3 := by linear_combination -h2
    exact Prod.ext e1 e2
  · rintro rfl
    simp only [brusselator, Prod.mk.injEq]
    constructor <;> ring

/-- The step is the classical Runge-Kutta method: the start value plus `dt` times the mean of four
slopes with weights 1/6, 1/3, 1/3, 1/6, each slope taken where the previous one leads. -/
theorem C52_runge_kutta (u : K × K) (t0 t1 : K) :
    ∃ k1 k2 k3 k4 : K × K,
      k1 = brusselator t0 u ∧
      k2 = brusselator ((t0 + t1) / 2) (u + ((t1 - t0) / 2) • k1) ∧
      k3 = brusselator ((t0 + t1) / 2) (u + ((t1 - t0) / 2) • k2) ∧
      k4 = brusselator t1 (u + (t1 - t0) • k3) ∧
      brusselatorStep u t0 t1 = u + ((t1 - t0) / 6) • (k1 + (2 : K) • k2 + (2 : K) • k3 + k4) :=
  ⟨_, _, _, _, rfl, rfl, rfl, rfl, rfl⟩

/-! ## Heat equation in one dimension (C46) -/

theorem heatMatrix_apply (n : Nat) (a dx : K) (i j : Fin n) :
    heatMatrix n a dx i j = (if (j : Int) = i then 2 * (a / dx ^ 2) else 0) +
      ((if (j : Int) = (i : Int) - 1 then -(a / dx ^ 2) else 0) +
       (if (j : Int) = (i : Int) + 1 then -(a / dx ^ 2) else 0)) := by
  unfold heatMatrix diags
  by_cases h0 : (j : Int) = i
  · have e : (j : Int) - i = 0 := by omega
    have h1 : ¬ (j : Int) = i - 1 := by omega
    have h2 : ¬ (j : Int) = i + 1 := by omega
    simp [h0]
    intro h; omega
  · by_cases h1 : (j : Int) = i - 1
    · have e : (j : Int) - i = -1 := by omega
      simp [h1]
      omega
    · by_cases h2 : (j : Int) = i + 1
      · have e : (j : Int) - i = 1 := by omega
        simp [h2]
        omega
      · have e1 : ¬ (0 : Int) = (j : Int) - i := by omega
        have e2 : ¬ (-1 : Int) = (j : Int) - i := by omega
        have e3 : ¬ (1 : Int) = (j : Int) - i := by omega
        simp [e1, e2, e3, h0, h1, h2]

theorem heatMatrix_mulVec (n : Nat) (a dx : K) (x : Fin n → K) (i : Fin n) :
    (heatMatrix n a dx).mulVec x i =
      a / dx ^ 2 * (2 * x i - atZ x ((i : Int) - 1) - atZ x ((i : Int) + 1)) := by
  simp only [Matrix.mulVec, dotProduct, heatMatrix_apply, add_mul, Finset.sum_add_distrib, sum_pick,
    atZ_val]
  ring

theorem step_matrix_mulVec {ι : Type} [Fintype ι] [DecidableEq ι] (A : Matrix ι ι K) (dt : K)
    (x : ι → K) : (dt • A + 1).mulVec x = dt • A.mulVec x + x := by
  rw [Matrix.add_mulVec, Matrix.smul_mulVec, Matrix.one_mulVec]

/-- The step solves the backward Euler scheme with the three-point stencil `(a/dx²) [-1 2 -1]` and
zero values outside. -/
theorem C46_stencil {n : Nat} (a dx : K) (rhs : K → Fin n → K) (u : Fin n → K) (t0 t1 : K)
    (x : Fin n → K) :
    heat1dStep a dx rhs u t0 t1 x ↔ ∀ i : Fin n,
      x i + (t1 - t0) * (a / dx ^ 2 * (2 * x i - atZ x ((i : Int) - 1) - atZ x ((i : Int) + 1)))
        = u i + (t1 - t0) * rhs t1 i := by
  unfold heat1dStep Solves
  rw [step_matrix_mulVec, funext_iff]
  refine forall_congr' fun i => ?_
  simp only [Pi.add_apply, Pi.smul_apply, smul_eq_mul, heatMatrix_mulVec]
  rw [add_comm]

section ordered
variable [LinearOrder K] [IsStrictOrderedRing K]

theorem heatMatrix_off (n : Nat) {a : K} (dx : K) (ha : 0 ≤ a) (i j : Fin n) (hij : i ≠ j) :
    heatMatrix n a dx i j ≤ 0 := by
  have hf : 0 ≤ a / dx ^ 2 := div_nonneg ha (sq_nonneg _)
  rw [heatMatrix_apply, if_neg (fun h => hij (Fin.ext (by omega)))]
  split_ifs <;> linarith

/-- `c L + d I` is dominant with excess `d`. -/
theorem heat_dominant (n : Nat) {a : K} (dx : K) (ha : 0 ≤ a) {c : K} (hc : 0 ≤ c) (d : K) :
    Dominant d (c • heatMatrix n a dx + d • (1 : Matrix (Fin n) (Fin n) K)) := by
  intro i
  have hf : 0 ≤ c * (a / dx ^ 2) := mul_nonneg hc (div_nonneg ha (sq_nonneg _))
  have := sum_off (c • heatMatrix n a dx + d • (1 : Matrix (Fin n) (Fin n) K)) i
    [((i : Int) - 1, c * (a / dx ^ 2)), ((i : Int) + 1, c * (a / dx ^ 2))]
    (by intro p hp; simp at hp; rcases hp with rfl | rfl <;> exact hf)
    (by
      intro j hj
      have h0 : ¬ (j : Int) = i := fun h => hj (Fin.ext (by omega))
      simp only [Matrix.add_apply, Matrix.smul_apply, heatMatrix_apply, if_neg h0, smul_eq_mul,
        Matrix.one_apply_ne hj.symm, mul_zero, add_zero, zero_add, List.map_cons, List.map_nil,
        List.sum_cons, List.sum_nil]
      by_cases h1 : (j : Int) = i - 1
      · have h2 : ¬ (j : Int) = i + 1 := by omega
        rw [if_pos h1, if_neg h2, if_pos h1, if_neg h2, add_zero, add_zero, mul_neg, abs_neg,
          abs_of_nonneg hf]
      · by_cases h2 : (j : Int) = i + 1
        · rw [if_neg h1, if_pos h2, if_neg h1, if_pos h2, zero_add, zero_add, mul_neg, abs_neg,
            abs_of_nonneg hf]
        · rw [if_neg h1, if_neg h2, if_neg h1, if_neg h2]
          simp)
  have e : (c • heatMatrix n a dx + d • (1 : Matrix (Fin n) (Fin n) K)) i i
      = c * (2 * (a / dx ^ 2)) + d := by
    have h1 : ¬ (i : Int) = i - 1 := by omega
    have h2 : ¬ (i : Int) = i + 1 := by omega
    rw [Matrix.add_apply, Matrix.smul_apply, heatMatrix_apply, if_pos rfl, if_neg h1, if_neg h2]
    simp
  rw [e]
  simp only [List.map_cons, List.map_nil, List.sum_cons, List.sum_nil, add_zero] at this
  linarith

theorem heatMatrix_symm (n : Nat) (a dx : K) : (heatMatrix n a dx).transpose = heatMatrix n a dx := by
  ext i j
  simp only [Matrix.transpose_apply, heatMatrix_apply]
  have e0 : ((i : Int) = j) = ((j : Int) = i) := propext ⟨Eq.symm, Eq.symm⟩
  have e1 : ((i : Int) = (j : Int) - 1) = ((j : Int) = (i : Int) + 1) := by
    apply propext; omega
  have e2 : ((i : Int) = (j : Int) + 1) = ((j : Int) = (i : Int) - 1) := by
    apply propext; omega
  simp only [e0, e1, e2]
  rw [add_comm (ite ((j : Int) = (i : Int) + 1) _ _)]

theorem heat_dominant_one (n : Nat) {a : K} (dx : K) (ha : 0 ≤ a) {c : K} (hc : 0 ≤ c) :
    Dominant 1 (c • heatMatrix n a dx + 1) := by
  have := heat_dominant n dx ha hc (1 : K)
  rwa [one_smul] at this

/-- The linear system of the step has exactly one solution. -/
theorem C46_wellposed {n : Nat} {a : K} (dx : K) (ha : 0 ≤ a) (rhs : K → Fin n → K) (u : Fin n → K)
    {t0 t1 : K} (ht : t0 ≤ t1) : ∃! x, heat1dStep a dx rhs u t0 t1 x :=
  (heat_dominant_one n dx ha (sub_nonneg.2 ht)).existsUnique one_pos _

/-- The maximum absolute value grows at most by the source; without source it does not grow. -/
theorem C46_max {n : Nat} {a : K} (dx : K) (ha : 0 ≤ a) (rhs : K → Fin n → K) (u : Fin n → K)
    {t0 t1 : K} (ht : t0 ≤ t1) {x : Fin n → K} (hx : heat1dStep a dx rhs u t0 t1 x) {c s : K}
    (hu : ∀ i, |u i| ≤ c) (hs : ∀ i, |rhs t1 i| ≤ s) (i : Fin n) : |x i| ≤ c + (t1 - t0) * s := by
  have := (heat_dominant_one n dx ha (sub_nonneg.2 ht)).bound zero_le_one hx (c := c + (t1 - t0) * s)
    (fun j => by
      refine le_trans (abs_add_le _ _) (add_le_add (hu j) ?_)
      rw [Pi.smul_apply, smul_eq_mul, abs_mul, abs_of_nonneg (sub_nonneg.2 ht)]
      exact mul_le_mul_of_nonneg_left (hs j) (sub_nonneg.2 ht)) i
  rwa [one_mul] at this

theorem C46_max_no_source {n : Nat} {a : K} (dx : K) (ha : 0 ≤ a) (u : Fin n → K)
    {t0 t1 : K} (ht : t0 ≤ t1) {x : Fin n → K} (hx : heat1dStep a dx (fun _ _ => 0) u t0 t1 x) {c : K}
    (hu : ∀ i, |u i| ≤ c) (i : Fin n) : |x i| ≤ c := by
  have := C46_max dx ha _ u ht hx hu (s := 0) (by simp) i
  simpa using this

/-- Without source the Euclidean norm (`VectorHeat1D.norm`) does not grow. -/
theorem C46_norm {n : Nat} {a : K} (dx : K) (ha : 0 ≤ a) (u : Fin n → K)
    {t0 t1 : K} (ht : t0 ≤ t1) {x : Fin n → K} (hx : heat1dStep a dx (fun _ _ => 0) u t0 t1 x) :
    ∑ i, x i ^ 2 ≤ ∑ i, u i ^ 2 := by
  have h1 := heat_dominant_one n dx ha (sub_nonneg.2 ht)
  have h2 : Dominant 1 ((t1 - t0) • heatMatrix n a dx + 1).transpose := by
    rw [Matrix.transpose_add, Matrix.transpose_smul, heatMatrix_symm, Matrix.transpose_one]
    exact h1
  have hx' : Solves ((t1 - t0) • heatMatrix n a dx + 1) u x := by
    unfold heat1dStep at hx
    rwa [show (u + (t1 - t0) • fun _ => (0 : K)) = u by funext i; simp] at hx
  have := h1.euclid h2 hx'
  simpa only [pow_two] using this

/-- Non-negative start values and source give non-negative values. -/
theorem C46_positive {n : Nat} {a : K} (dx : K) (ha : 0 ≤ a) (rhs : K → Fin n → K) (u : Fin n → K)
    {t0 t1 : K} (ht : t0 ≤ t1) {x : Fin n → K} (hx : heat1dStep a dx rhs u t0 t1 x)
    (hu : ∀ i, 0 ≤ u i) (hs : ∀ i, 0 ≤ rhs t1 i) (i : Fin n) : 0 ≤ x i := by
  refine (heat_dominant_one n dx ha (sub_nonneg.2 ht)).nonneg one_pos (fun i j hij => ?_) hx
    (fun j => ?_) i
  · have := mul_nonpos_of_nonneg_of_nonpos (sub_nonneg.2 ht) (heatMatrix_off n dx ha i j hij)
    simpa [Matrix.add_apply, Matrix.one_apply_ne hij] using this
  · exact add_nonneg (hu j) (mul_nonneg (sub_nonneg.2 ht) (hs j))

example : heat1dStep (n := 2) (1 : ℚ) 1 (fun _ _ => 0) (fun _ => 2) 0 1 (fun _ => 1) := by
  rw [C46_stencil]
  intro i
  fin_cases i <;> simp [atZ]

end ordered

/-! ## Pairs of time points (C50, C58) -/

/-- A `Heat1DBDF1` step is two backward Euler steps of `Heat1D`: from the second point of the pair to
the new time, and on to the second point of the new pair. -/
theorem C58_two_steps {n : Nat} (a dx : K) (rhs : K → Fin n → K) (dtau : K)
    (u : (Fin n → K) × (Fin n → K)) (t0 t1 : K) (x : (Fin n → K) × (Fin n → K)) :
    bdf1Step a dx rhs dtau u t0 t1 x ↔
      heat1dStep a dx rhs u.2 (t0 + dtau) t1 x.1 ∧ heat1dStep a dx rhs x.1 t1 (t1 + dtau) x.2 := by
  unfold bdf1Step heat1dStep
  rw [show t1 - (t0 + dtau) = t1 - t0 - dtau by ring, show t1 + dtau - t1 = dtau by ring]

/-- The start pair of `Heat1DBDF1` is the initial value and one backward Euler step of `Heat1D`. -/
theorem C58_start {n : Nat} (a dx : K) (rhs : K → Fin n → K) (dtau t0 : K) (init : Fin n → K)
    (x : (Fin n → K) × (Fin n → K)) :
    bdf1Start a dx rhs dtau t0 init x ↔ x.1 = init ∧ heat1dStep a dx rhs init t0 (t0 + dtau) x.2 := by
  unfold bdf1Start heat1dStep
  rw [show t0 + dtau - t0 = dtau by ring]

end Pymgrit.Apps
