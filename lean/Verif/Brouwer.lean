import Mathlib.MeasureTheory.Function.Jacobian
import Mathlib.MeasureTheory.Measure.Haar.InnerProductSpace
import Mathlib.LinearAlgebra.Matrix.Polynomial
import Mathlib.LinearAlgebra.Lagrange
import Mathlib.Topology.MetricSpace.Contracting
import Mathlib.Analysis.Calculus.MeanValue
import Mathlib.Analysis.Calculus.ContDiff.RCLike
import Mathlib.Analysis.InnerProductSpace.Calculus
import Mathlib.Analysis.SpecialFunctions.Sqrt
import Mathlib.Topology.Algebra.Polynomial

/-!
# Zeros of vector fields that point outwards

The theorem of Brouwer in the form needed for implicit time steps: a continuously differentiable vector field on a
Euclidean space whose inner product with `x` is not negative on a sphere has a zero inside.  Proof after Milnor and Rogers:
a retraction of the ball to its boundary would move the volume of the ball continuously to zero, but the volume is a
polynomial in the parameter that is constant at the beginning.
-/

namespace Pymgrit.Brouwer
open MeasureTheory Metric Polynomial

variable {n : Nat}

/-- Euclidean space. -/
abbrev Rn (n : Nat) := EuclideanSpace ℝ (Fin n)

theorem det_poly (A : Rn n →L[ℝ] Rn n) :
    ∃ p : ℝ[X], p.natDegree ≤ n ∧ ∀ t : ℝ, (ContinuousLinearMap.id ℝ (Rn n) + t • A).det = p.eval t := by
  let b := (EuclideanSpace.basisFun (Fin n) ℝ).toBasis
  let M := LinearMap.toMatrix b b (A : Rn n →ₗ[ℝ] Rn n)
  refine ⟨((X : ℝ[X]) • M.map C + (1 : Matrix (Fin n) (Fin n) ℝ).map C).det, ?_, fun t => ?_⟩
  · exact (natDegree_det_X_add_C_le M 1).trans (by simp)
  · have e1 : (ContinuousLinearMap.id ℝ (Rn n) + t • A).det = (1 + t • M).det := by
      rw [ContinuousLinearMap.det, ← LinearMap.det_toMatrix b]
      congr 1
      simp [M]
    rw [e1, ← coe_evalRingHom, RingHom.map_det]
    congr 1
    ext i j
    simp only [Matrix.add_apply, Matrix.smul_apply, Matrix.map_apply, RingHom.mapMatrix_apply, smul_eq_mul,
      coe_evalRingHom, eval_add, eval_mul, eval_X, eval_C]
    ring

theorem det_pos (A : Rn n →L[ℝ] Rn n) (hA : ‖A‖ < 1) : 0 < (ContinuousLinearMap.id ℝ (Rn n) + A).det := by
  obtain ⟨p, -, hp⟩ := det_poly A
  have hne : ∀ s : ℝ, 0 ≤ s → s ≤ 1 → p.eval s ≠ 0 := by
    intro s h0 h1 e
    rw [← hp] at e
    have hs : ‖s • A‖ < 1 := by
      rw [norm_smul, Real.norm_of_nonneg h0]
      nlinarith [norm_nonneg A]
    obtain ⟨v, hv, hv0⟩ : ∃ v, (ContinuousLinearMap.id ℝ (Rn n) + s • A) v = 0 ∧ v ≠ 0 := by
      by_contra hne
      push Not at hne
      have hker : LinearMap.ker (ContinuousLinearMap.id ℝ (Rn n) + s • A : Rn n →L[ℝ] Rn n).toLinearMap = ⊥ := by
        rw [LinearMap.ker_eq_bot']
        intro v hv
        exact hne v hv
      exact (LinearEquiv.ofInjectiveEndo _ (LinearMap.ker_eq_bot.1 hker)).isUnit_det'.ne_zero e
    have e2 : v = -((s • A) v) := by
      have : v + (s • A) v = 0 := hv
      exact eq_neg_of_add_eq_zero_left this
    have e3 : ‖v‖ ≤ ‖s • A‖ * ‖v‖ := by
      calc ‖v‖ = ‖-((s • A) v)‖ := congrArg _ e2
        _ = ‖(s • A) v‖ := norm_neg _
        _ ≤ _ := (s • A).le_opNorm v
    have := norm_pos_iff.2 hv0
    nlinarith
  have h0 : p.eval 0 = 1 := by
    rw [← hp, show (0 : ℝ) • A = 0 from zero_smul ℝ A, add_zero]
    exact LinearMap.det_id
  have h1 : (ContinuousLinearMap.id ℝ (Rn n) + A).det = p.eval 1 := by rw [← hp, one_smul]
  rw [h1]
  by_contra hle
  push Not at hle
  obtain ⟨s, hs, e⟩ := intermediate_value_Icc' (zero_le_one (α := ℝ)) (f := fun s => p.eval s) p.continuous_aeval.continuousOn
    (show (0 : ℝ) ∈ Set.Icc (p.eval 1) (p.eval 0) from ⟨hle, by rw [h0]; exact zero_le_one⟩)
  exact hne s hs.1 hs.2 e

/-- Small multiples of a field that vanishes outside of a ball move the ball to itself. -/
theorem volume_small {h : Rn n → Rn n} {h' : Rn n → Rn n →L[ℝ] Rn n} {R : ℝ} {K : NNReal} (hK : LipschitzWith K h)
    (hout : ∀ x, R ≤ ‖x‖ → h x = 0) (hd : ∀ x, ‖x‖ < R → HasFDerivAt h (h' x) x) {t : ℝ} (ht : 0 ≤ t)
    (htK : t * K < 1) :
    IntegrableOn (fun x => (ContinuousLinearMap.id ℝ (Rn n) + t • h' x).det) (ball 0 R) ∧
      ∫ x in ball (0 : Rn n) R, (ContinuousLinearMap.id ℝ (Rn n) + t • h' x).det = volume.real (ball (0 : Rn n) R) := by
  set g : Rn n → Rn n := fun x => x + t • h x with hg
  have hdist : ∀ x y, ‖t • h x - t • h y‖ ≤ t * K * ‖x - y‖ := by
    intro x y
    rw [← smul_sub, norm_smul, Real.norm_of_nonneg ht, mul_assoc]
    refine mul_le_mul_of_nonneg_left ?_ ht
    have := hK.dist_le_mul x y
    rwa [dist_eq_norm, dist_eq_norm] at this
  have hinj : Function.Injective g := by
    intro x y e
    have e1 : x - y = -(t • h x - t • h y) := by
      have : x + t • h x = y + t • h y := e
      rw [neg_sub, sub_eq_sub_iff_add_eq_add, this, add_comm]
    have e2 := hdist x y
    rw [← norm_neg, ← e1] at e2
    have : ‖x - y‖ ≤ 0 := by nlinarith [norm_nonneg (x - y)]
    exact sub_eq_zero.1 (norm_le_zero_iff.1 this)
  have hsurj : Function.Surjective g := by
    intro y
    have hc : ContractingWith (t.toNNReal * K) (fun x => y - t • h x) := by
      refine ⟨?_, LipschitzWith.of_dist_le_mul fun x z => ?_⟩
      · rw [← NNReal.coe_lt_coe, NNReal.coe_mul, Real.coe_toNNReal t ht]
        exact htK
      · rw [NNReal.coe_mul, Real.coe_toNNReal t ht, dist_eq_norm, dist_eq_norm, sub_sub_sub_cancel_left, norm_sub_rev]
        exact hdist x z
    obtain ⟨x, hx⟩ : ∃ x, y - t • h x = x := ⟨_, hc.fixedPoint_isFixedPt⟩
    exact ⟨x, by rw [hg]; show x + t • h x = y; rw [← eq_sub_iff_add_eq]; exact hx.symm⟩
  have hfix : ∀ x, R ≤ ‖x‖ → g x = x := fun x hx => by simp [hg, hout x hx]
  have himg : g '' ball 0 R = ball 0 R := by
    ext y
    constructor
    · rintro ⟨x, hx, rfl⟩
      rw [mem_ball_zero_iff] at hx ⊢
      by_contra hge
      push Not at hge
      have := hinj (hfix _ hge)
      rw [this] at hge
      linarith
    · intro hy
      obtain ⟨x, rfl⟩ := hsurj y
      refine ⟨x, ?_, rfl⟩
      rw [mem_ball_zero_iff] at hy ⊢
      by_contra hge
      push Not at hge
      rw [hfix x hge] at hy
      linarith
  have hder : ∀ x ∈ ball (0 : Rn n) R,
      HasFDerivWithinAt g (ContinuousLinearMap.id ℝ (Rn n) + t • h' x) (ball 0 R) x := by
    intro x hx
    exact ((hasFDerivAt_id x).add ((hd x (mem_ball_zero_iff.1 hx)).const_smul t)).hasFDerivWithinAt
  have hpos : ∀ x ∈ ball (0 : Rn n) R, |(ContinuousLinearMap.id ℝ (Rn n) + t • h' x).det|
      = (ContinuousLinearMap.id ℝ (Rn n) + t • h' x).det := by
    intro x hx
    refine abs_of_pos (det_pos _ ?_)
    rw [norm_smul, Real.norm_of_nonneg ht]
    refine lt_of_le_of_lt (mul_le_mul_of_nonneg_left ?_ ht) htK
    exact (hd x (mem_ball_zero_iff.1 hx)).le_of_lipschitz hK
  have h1 := integrableOn_image_iff_integrableOn_abs_det_fderiv_smul volume measurableSet_ball hder hinj.injOn
    (fun _ => (1 : ℝ))
  have h2 := integral_image_eq_integral_abs_det_fderiv_smul volume measurableSet_ball hder hinj.injOn
    (fun _ => (1 : ℝ))
  rw [himg] at h1 h2
  have h3 : IntegrableOn (fun _ : Rn n => (1 : ℝ)) (ball 0 R) := by
    rw [integrableOn_const_iff]
    exact Or.inr measure_ball_lt_top
  simp only [smul_eq_mul, mul_one] at h1 h2
  refine ⟨(h1.1 h3).congr_fun hpos measurableSet_ball, ?_⟩
  rw [← setIntegral_congr_fun measurableSet_ball hpos, ← h2]
  simp

/-- The same for all multiples. -/
theorem volume_all {h : Rn n → Rn n} {h' : Rn n → Rn n →L[ℝ] Rn n} {R : ℝ} {K : NNReal} (hK : LipschitzWith K h)
    (hout : ∀ x, R ≤ ‖x‖ → h x = 0) (hd : ∀ x, ‖x‖ < R → HasFDerivAt h (h' x) x) :
    ∫ x in ball (0 : Rn n) R, (ContinuousLinearMap.id ℝ (Rn n) + h' x).det = volume.real (ball (0 : Rn n) R) := by
  let v : Nat → ℝ := fun j => j / ((n + 1) * (K + 1))
  have hden : (0 : ℝ) < (n + 1) * (K + 1) := by positivity
  have hv : Set.InjOn v (Finset.range (n + 1)) := by
    intro i _ j _ e
    have : (i : ℝ) = j := by
      have e' : (i : ℝ) / ((n + 1) * (K + 1)) = j / ((n + 1) * (K + 1)) := e
      rwa [div_left_inj' hden.ne'] at e'
    exact_mod_cast this
  have hv0 : ∀ j, 0 ≤ v j := fun j => by positivity
  have hv1 : ∀ j ∈ Finset.range (n + 1), v j * K < 1 := by
    intro j hj
    have hj : (j : ℝ) < n + 1 := by exact_mod_cast Finset.mem_range.1 hj
    show (j : ℝ) / ((n + 1) * (K + 1)) * K < 1
    rw [div_mul_eq_mul_div, div_lt_one hden]
    have : (0 : ℝ) ≤ K := K.2
    nlinarith [(Nat.cast_nonneg j : (0 : ℝ) ≤ j)]
  let w : Nat → ℝ := fun j => (Lagrange.basis (Finset.range (n + 1)) v j).eval 1
  have hw : ∑ j ∈ Finset.range (n + 1), w j = 1 := by
    have := Lagrange.sum_basis hv ⟨0, by simp⟩
    have := congrArg (eval 1) this
    rwa [eval_finsetSum, eval_one] at this
  have hint : ∀ A : Rn n →L[ℝ] Rn n, (ContinuousLinearMap.id ℝ (Rn n) + A).det
      = ∑ j ∈ Finset.range (n + 1), w j * (ContinuousLinearMap.id ℝ (Rn n) + v j • A).det := by
    intro A
    obtain ⟨p, hdeg, hp⟩ := det_poly A
    have e1 : p.degree < (Finset.range (n + 1)).card := by
      rw [Finset.card_range]
      refine lt_of_le_of_lt degree_le_natDegree ?_
      exact_mod_cast Nat.lt_succ_of_le hdeg
    have e2 := Lagrange.eq_interpolate hv e1
    have e3 : (ContinuousLinearMap.id ℝ (Rn n) + A).det = p.eval 1 := by rw [← hp, one_smul]
    rw [e3]
    conv_lhs => rw [e2]
    rw [Lagrange.interpolate_apply, eval_finsetSum]
    refine Finset.sum_congr rfl fun j _ => ?_
    rw [eval_mul, eval_C, hp, mul_comm]
  rw [show (fun x => (ContinuousLinearMap.id ℝ (Rn n) + h' x).det)
    = fun x => ∑ j ∈ Finset.range (n + 1), w j * (ContinuousLinearMap.id ℝ (Rn n) + v j • h' x).det from
    funext fun x => hint (h' x), integral_finsetSum]
  · simp only [integral_const_mul]
    rw [Finset.sum_congr rfl fun j hj => by
      rw [(volume_small hK hout hd (hv0 j) (hv1 j hj)).2], ← Finset.sum_mul, hw, one_mul]
  · intro j hj
    exact ((volume_small hK hout hd (hv0 j) (hv1 j hj)).1).const_mul _

/-- There is no continuously differentiable retraction of a ball to its boundary. -/
theorem no_retraction {R : ℝ} (hR : 0 < R) {ψ : Rn n → Rn n} (hψ : ∀ x, ‖x‖ ≤ R → ContDiffAt ℝ 1 ψ x)
    (hid : ∀ x, ‖x‖ = R → ψ x = x) (hnorm : ∀ x, ‖x‖ ≤ R → ‖ψ x‖ = R) : False := by
  classical
  let h : Rn n → Rn n := fun x => if ‖x‖ ≤ R then ψ x - x else 0
  obtain ⟨K, hK⟩ : ∃ K, LipschitzOnWith K ψ (closedBall 0 R) := by
    refine LocallyLipschitzOn.exists_lipschitzOnWith_of_compact (isCompact_closedBall 0 R) fun x hx => ?_
    obtain ⟨K, t, ht, hL⟩ := (hψ x (mem_closedBall_zero_iff.1 hx)).exists_lipschitzOnWith
    exact ⟨K, t, mem_nhdsWithin_of_mem_nhds ht, hL⟩
  have hin : ∀ x y, ‖x‖ ≤ R → ‖y‖ ≤ R → ‖h x - h y‖ ≤ (K + 1) * ‖x - y‖ := by
    intro x y hx hy
    have e := hK.dist_le_mul x (mem_closedBall_zero_iff.2 hx) y (mem_closedBall_zero_iff.2 hy)
    rw [dist_eq_norm, dist_eq_norm] at e
    simp only [h, if_pos hx, if_pos hy]
    calc ‖ψ x - x - (ψ y - y)‖ = ‖(ψ x - ψ y) - (x - y)‖ := by congr 1; abel
      _ ≤ ‖ψ x - ψ y‖ + ‖x - y‖ := norm_sub_le _ _
      _ ≤ _ := by linarith
  have hbd : ∀ x, R ≤ ‖x‖ → h x = 0 := by
    intro x hx
    rcases hx.lt_or_eq with hx | hx
    · exact if_neg (not_le.2 hx)
    · show (if ‖x‖ ≤ R then ψ x - x else 0) = 0
      rw [if_pos hx.ge, hid x hx.symm, sub_self]
  have hmix : ∀ x y, ‖x‖ ≤ R → R < ‖y‖ → ‖h x - h y‖ ≤ (K + 1) * ‖x - y‖ := by
    intro x y hx hy
    obtain ⟨s, hs, e⟩ := intermediate_value_Icc (zero_le_one (α := ℝ)) (f := fun s : ℝ => ‖x + s • (y - x)‖)
      (Continuous.continuousOn (by fun_prop)) (show R ∈ Set.Icc _ _ from ⟨by simpa using hx, by simpa using hy.le⟩)
    have e : ‖x + s • (y - x)‖ = R := e
    have e1 := hin x (x + s • (y - x)) hx e.le
    rw [hbd _ e.ge] at e1
    rw [hbd y hy.le]
    refine e1.trans (mul_le_mul_of_nonneg_left ?_ (by positivity))
    rw [sub_add_cancel_left, norm_neg, norm_smul, Real.norm_of_nonneg hs.1, norm_sub_rev]
    exact mul_le_of_le_one_left (norm_nonneg _) hs.2
  have hL : LipschitzWith (K + 1) h := by
    refine LipschitzWith.of_dist_le_mul fun x y => ?_
    rw [dist_eq_norm, dist_eq_norm, NNReal.coe_add, NNReal.coe_one]
    rcases le_or_gt ‖x‖ R with hx | hx <;> rcases le_or_gt ‖y‖ R with hy | hy
    · exact hin x y hx hy
    · exact hmix x y hx hy
    · rw [norm_sub_rev, norm_sub_rev x]
      exact hmix y x hy hx
    · rw [hbd x hx.le, hbd y hy.le, sub_self, norm_zero]
      positivity
  have hψd : ∀ x, ‖x‖ < R → HasFDerivAt ψ (fderiv ℝ ψ x) x := fun x hx =>
    ((hψ x hx.le).differentiableAt (by norm_num)).hasFDerivAt
  have hd : ∀ x, ‖x‖ < R → HasFDerivAt h (fderiv ℝ ψ x - ContinuousLinearMap.id ℝ (Rn n)) x := by
    intro x hx
    refine ((hψd x hx).sub (hasFDerivAt_id x)).congr_of_eventuallyEq ?_
    filter_upwards [isOpen_ball.mem_nhds (mem_ball_zero_iff.2 hx)] with y hy
    exact if_pos (mem_ball_zero_iff.1 hy).le
  have hv := volume_all hL hbd hd
  have hz : ∀ x ∈ ball (0 : Rn n) R,
      (ContinuousLinearMap.id ℝ (Rn n) + (fderiv ℝ ψ x - ContinuousLinearMap.id ℝ (Rn n))).det = 0 := by
    intro x hx
    have hx := mem_ball_zero_iff.1 hx
    rw [add_sub_cancel]
    by_contra hne
    have hsurj : Function.Surjective (fderiv ℝ ψ x) :=
      (LinearMap.equivOfDetNeZero (fderiv ℝ ψ x).toLinearMap hne).surjective
    obtain ⟨v, hv⟩ := hsurj (ψ x)
    have h1 := (hψd x hx).inner ℝ (hψd x hx)
    have h2 : HasFDerivAt (fun y => inner ℝ (ψ y) (ψ y)) (0 : Rn n →L[ℝ] ℝ) x := by
      refine (hasFDerivAt_const (R ^ 2) x).congr_of_eventuallyEq ?_
      filter_upwards [isOpen_ball.mem_nhds (mem_ball_zero_iff.2 hx)] with y hy
      rw [real_inner_self_eq_norm_sq, hnorm y (mem_ball_zero_iff.1 hy).le]
    have h3 := DFunLike.congr_fun (h1.unique h2) v
    simp only [ContinuousLinearMap.comp_apply, ContinuousLinearMap.prod_apply, fderivInnerCLM_apply, hv,
      _root_.zero_apply] at h3
    rw [real_inner_self_eq_norm_sq, hnorm x hx.le] at h3
    nlinarith
  rw [setIntegral_congr_fun measurableSet_ball hz] at hv
  have hpos : 0 < volume.real (ball (0 : Rn n) R) :=
    ENNReal.toReal_pos (measure_ball_pos volume 0 hR).ne' measure_ball_lt_top.ne
  simp at hv
  linarith

/-- A continuously differentiable vector field that does not point inwards on a sphere has a zero in the ball. -/
theorem exists_zero {F : Rn n → Rn n} (hF : ContDiff ℝ 1 F) {R : ℝ} (hR : 0 < R)
    (hout : ∀ x, ‖x‖ = R → 0 ≤ inner ℝ (F x) x) : ∃ x, ‖x‖ ≤ R ∧ F x = 0 := by
  by_contra hne
  push Not at hne
  let d : Rn n → Rn n := fun x => ‖F x‖ • x + R • F x
  let a : Rn n → ℝ := fun x => inner ℝ x (d x)
  let D : Rn n → ℝ := fun x => a x ^ 2 + ‖d x‖ ^ 2 * (R ^ 2 - ‖x‖ ^ 2)
  have hFpos : ∀ x, ‖x‖ ≤ R → 0 < ‖F x‖ := fun x hx => norm_pos_iff.2 (hne x hx)
  have ha : ∀ x, ‖x‖ = R → 0 < a x := by
    intro x hx
    have h1 : a x = ‖F x‖ * R ^ 2 + R * inner ℝ (F x) x := by
      simp only [a, d, inner_add_right, inner_smul_right, real_inner_self_eq_norm_sq, hx, real_inner_comm]
    rw [h1]
    have := hFpos x hx.le
    have := mul_nonneg hR.le (hout x hx)
    positivity
  have hd0 : ∀ x, ‖x‖ ≤ R → d x ≠ 0 := by
    intro x hx e
    have h1 := hFpos x hx
    have e1 : ‖F x‖ • x = -(R • F x) := eq_neg_of_add_eq_zero_left e
    have e2 := congrArg norm e1
    rw [norm_neg, norm_smul, norm_smul, Real.norm_of_nonneg h1.le, Real.norm_of_nonneg hR.le, mul_comm] at e2
    have e3 : ‖x‖ = R := mul_right_cancel₀ h1.ne' e2
    have := ha x e3
    simp only [a, e, inner_zero_right, lt_irrefl] at this
  have hD : ∀ x, ‖x‖ ≤ R → 0 < D x := by
    intro x hx
    rcases hx.lt_or_eq with hx' | hx'
    · have h1 : 0 < ‖d x‖ := norm_pos_iff.2 (hd0 x hx)
      have h2 : 0 < R ^ 2 - ‖x‖ ^ 2 := by nlinarith [norm_nonneg x]
      have : 0 < ‖d x‖ ^ 2 * (R ^ 2 - ‖x‖ ^ 2) := by positivity
      have := sq_nonneg (a x)
      show 0 < a x ^ 2 + _
      linarith
    · have := ha x hx'
      show 0 < a x ^ 2 + _
      rw [hx', sub_self, mul_zero, add_zero]
      positivity
  refine no_retraction (ψ := fun x => x + ((-a x + √(D x)) / ‖d x‖ ^ 2) • d x) hR (fun x hx => ?_) (fun x hx => ?_)
    fun x hx => ?_
  · have h1 : ContDiffAt ℝ 1 (fun x => ‖F x‖) x := hF.contDiffAt.norm ℝ (hne x hx)
    have h2 : ContDiffAt ℝ 1 d x := (h1.smul contDiffAt_id).add (hF.contDiffAt.const_smul R)
    have h3 : ContDiffAt ℝ 1 a x := contDiffAt_id.inner ℝ h2
    have h4 : ContDiffAt ℝ 1 (fun x => ‖d x‖ ^ 2) x := h2.norm_sq ℝ
    have h5 : ContDiffAt ℝ 1 (fun x : Rn n => ‖x‖ ^ 2) x := contDiffAt_id.norm_sq ℝ
    have h6 : ContDiffAt ℝ 1 D x := (h3.pow 2).add (h4.mul (contDiffAt_const.sub h5))
    have h7 : ContDiffAt ℝ 1 (fun x => √(D x)) x := h6.sqrt (hD x hx).ne'
    have h8 : ‖d x‖ ^ 2 ≠ 0 := pow_ne_zero 2 (norm_ne_zero_iff.2 (hd0 x hx))
    exact contDiffAt_id.add (((h3.neg.add h7).div h4 h8).smul h2)
  · have h1 : √(D x) = a x := by
      show √(a x ^ 2 + _) = _
      rw [hx, sub_self, mul_zero, add_zero, Real.sqrt_sq (ha x hx).le]
    show x + ((-a x + √(D x)) / ‖d x‖ ^ 2) • d x = x
    rw [h1, neg_add_cancel, zero_div, zero_smul, add_zero]
  · set lam := (-a x + √(D x)) / ‖d x‖ ^ 2 with hlam
    have h8 : ‖d x‖ ^ 2 ≠ 0 := pow_ne_zero 2 (norm_ne_zero_iff.2 (hd0 x hx))
    have h9 : lam * ‖d x‖ ^ 2 = -a x + √(D x) := by rw [hlam, div_mul_cancel₀ _ h8]
    have h10 : √(D x) ^ 2 = a x ^ 2 + ‖d x‖ ^ 2 * (R ^ 2 - ‖x‖ ^ 2) := Real.sq_sqrt (hD x hx).le
    have h11 : ‖x + lam • d x‖ ^ 2 = ‖x‖ ^ 2 + 2 * (lam * a x) + lam ^ 2 * ‖d x‖ ^ 2 := by
      rw [norm_add_sq_real, inner_smul_right, norm_smul, mul_pow, Real.norm_eq_abs, sq_abs]
    have h12 : ‖d x‖ ^ 2 * ‖x + lam • d x‖ ^ 2 = ‖d x‖ ^ 2 * R ^ 2 := by
      rw [h11]
      have h13 : (lam * ‖d x‖ ^ 2 + a x) ^ 2 = a x ^ 2 + ‖d x‖ ^ 2 * (R ^ 2 - ‖x‖ ^ 2) := by
        rw [← h10, h9]; ring
      linear_combination h13
    exact (sq_eq_sq₀ (norm_nonneg _) hR.le).1 (mul_left_cancel₀ h8 h12)

end Pymgrit.Brouwer
