import Verif.Brouwer
import Mathlib.Analysis.Calculus.BumpFunction.SmoothApprox

/-!
# Zeros of continuous vector fields on a box

The theorem of Poincaré and Miranda: a continuous field whose `i`-th component is not positive on the side `x i = lo i`
and not negative on the side `x i = hi i` of a box has a zero in the box.
-/

namespace Pymgrit.Brouwer
open Metric

variable {n : Nat}

/-- `exists_zero` for a continuous field. -/
theorem exists_zero_cont {F : Rn n → Rn n} (hF : Continuous F) {R : ℝ} (hR : 0 < R)
    (hout : ∀ x, ‖x‖ = R → 0 ≤ inner ℝ (F x) x) : ∃ x, ‖x‖ ≤ R ∧ F x = 0 := by
  obtain ⟨x, hx, hmin⟩ := (isCompact_closedBall (0 : Rn n) R).exists_isMinOn ⟨0, by simp [hR.le]⟩
    (hF.norm.continuousOn)
  refine ⟨x, mem_closedBall_zero_iff.1 hx, ?_⟩
  rw [← norm_le_zero_iff]
  refine le_of_forall_pos_le_add fun ε hε => ?_
  rw [zero_add]
  obtain ⟨G, hG, hGF⟩ : ∃ G : Rn n → Rn n, ContDiff ℝ 1 G ∧ ∀ y, ‖y‖ ≤ R → ‖G y - F y‖ ≤ ε / 2 := by
    have huc : UniformContinuousOn F (closedBall 0 (R + 1)) :=
      (isCompact_closedBall _ _).uniformContinuousOn_of_continuous hF.continuousOn
    obtain ⟨δ, hδ, hd⟩ := Metric.uniformContinuousOn_iff.1 huc (ε / 2) (by linarith)
    obtain ⟨G, hG, hGd⟩ := hF.exists_contDiff_dist_le_of_forall_mem_ball_dist_le (ε := min δ 1) (by positivity)
    refine ⟨G, hG.of_le (by exact_mod_cast le_top), fun y hy => ?_⟩
    rw [← dist_eq_norm]
    refine hGd y (ε / 2) fun z hz => ?_
    rw [mem_ball] at hz
    have hz1 : dist z y < δ := lt_of_lt_of_le hz (min_le_left _ _)
    have hz2 : dist z y < 1 := lt_of_lt_of_le hz (min_le_right _ _)
    refine (hd z ?_ y ?_ hz1).le
    · rw [mem_closedBall_zero_iff]
      have : ‖z‖ ≤ ‖y‖ + dist z y := by
        rw [dist_eq_norm]; exact norm_le_norm_add_norm_sub' z y
      linarith
    · rw [mem_closedBall_zero_iff]; linarith
  obtain ⟨z, hz, e⟩ := exists_zero (F := fun y => G y + (ε / (2 * R)) • y)
    (hG.add (contDiff_id.const_smul _)) hR fun y hy => by
      have h1 := hout y hy
      have h2 : |inner ℝ (G y - F y) y| ≤ ε / 2 * R := by
        refine (abs_real_inner_le_norm _ _).trans ?_
        rw [hy]
        exact mul_le_mul_of_nonneg_right (hGF y hy.le) hR.le
      have h3 := (abs_le.1 h2).1
      rw [inner_sub_left] at h3
      rw [inner_add_left, real_inner_smul_left, real_inner_self_eq_norm_sq, hy]
      have h4 : ε / (2 * R) * R ^ 2 = ε / 2 * R := by field_simp
      rw [h4]
      linarith
  have h1 := hmin (mem_closedBall_zero_iff.2 hz)
  have h1 : ‖F x‖ ≤ ‖F z‖ := h1
  have h2 := hGF z hz
  have e : G z + (ε / (2 * R)) • z = 0 := e
  have h3 : ‖G z‖ ≤ ε / 2 := by
    rw [eq_neg_of_add_eq_zero_left e, norm_neg, norm_smul, Real.norm_of_nonneg (by positivity)]
    calc ε / (2 * R) * ‖z‖ ≤ ε / (2 * R) * R := mul_le_mul_of_nonneg_left hz (by positivity)
      _ = ε / 2 := by field_simp
  have h4 : ‖F z‖ ≤ ‖G z‖ + ‖G z - F z‖ := by
    have := norm_sub_le (G z) (G z - F z)
    rwa [sub_sub_cancel] at this
  linarith

variable {ι : Type} [Fintype ι]

/-- Poincaré and Miranda. -/
theorem exists_zero_box {F : (ι → ℝ) → ι → ℝ} (hF : Continuous F) {lo hi : ι → ℝ} (hle : ∀ i, lo i ≤ hi i)
    (hlo : ∀ x, (∀ i, lo i ≤ x i ∧ x i ≤ hi i) → ∀ i, x i = lo i → F x i ≤ 0)
    (hhi : ∀ x, (∀ i, lo i ≤ x i ∧ x i ≤ hi i) → ∀ i, x i = hi i → 0 ≤ F x i) :
    ∃ x, (∀ i, lo i ≤ x i ∧ x i ≤ hi i) ∧ F x = 0 := by
  let n := Fintype.card ι
  let e : ι ≃ Fin n := Fintype.equivFin ι
  let c : (ι → ℝ) → ι → ℝ := fun x i => max (lo i) (min (x i) (hi i))
  have hc : ∀ x i, lo i ≤ c x i ∧ c x i ≤ hi i := fun x i => ⟨le_max_left _ _, max_le (hle i) (min_le_right _ _)⟩
  have hcc : Continuous c := by fun_prop
  -- coordinates
  let toI : Rn n → ι → ℝ := fun y i => y (e i)
  let ofI : (ι → ℝ) → Rn n := fun x => WithLp.toLp 2 fun j => x (e.symm j)
  have htoc : Continuous toI := by fun_prop
  have hofc : Continuous ofI := by fun_prop
  let H : Rn n → Rn n := fun y => ofI (F (c (toI y))) - ofI (c (toI y))
  have hHc : Continuous H := (hofc.comp (hF.comp (hcc.comp htoc))).sub (hofc.comp (hcc.comp htoc))
  obtain ⟨B, hB⟩ : ∃ B, ∀ y, ‖H y‖ ≤ B := by
    have hK : IsCompact (Set.pi Set.univ fun i => Set.Icc (lo i) (hi i)) :=
      isCompact_univ_pi fun i => isCompact_Icc
    obtain ⟨B, hB⟩ := (hK.image (f := fun x => ofI (F x) - ofI x)
      ((hofc.comp hF).sub hofc)).isBounded.exists_norm_le
    exact ⟨B, fun y => hB _ ⟨c (toI y), fun i _ => hc _ i, rfl⟩⟩
  obtain ⟨y, -, hy⟩ := exists_zero_cont (F := fun y => y + H y) (continuous_id.add hHc) (R := |B| + 1) (by positivity)
    fun y hy => by
      have h1 := (abs_le.1 (abs_real_inner_le_norm (H y) y)).1
      rw [inner_add_left, real_inner_self_eq_norm_sq]
      have h2 : ‖H y‖ * ‖y‖ ≤ |B| * ‖y‖ := mul_le_mul_of_nonneg_right ((hB y).trans (le_abs_self B)) (norm_nonneg _)
      rw [hy] at *
      nlinarith [abs_nonneg B]
  have key : ∀ i, toI y i - c (toI y) i + F (c (toI y)) i = 0 := by
    intro i
    have := congrArg (fun z : Rn n => z (e i)) hy
    simp only [H, ofI, PiLp.add_apply, PiLp.sub_apply, PiLp.zero_apply, Equiv.symm_apply_apply] at this
    show y (e i) - _ + _ = 0
    linarith
  have hin : c (toI y) = toI y := by
    funext i
    rcases lt_or_ge (toI y i) (lo i) with h | h
    · have e1 : c (toI y) i = lo i := max_eq_left ((min_le_left _ _).trans h.le)
      have := hlo _ (hc (toI y)) i e1
      have := key i
      linarith
    · rcases lt_or_ge (hi i) (toI y i) with h' | h'
      · have e1 : c (toI y) i = hi i := by
          show max (lo i) (min (toI y i) (hi i)) = _
          rw [min_eq_right h'.le, max_eq_right (hle i)]
        have := hhi _ (hc (toI y)) i e1
        have := key i
        linarith
      · show max (lo i) (min (toI y i) (hi i)) = _
        rw [min_eq_left h', max_eq_right h]
  refine ⟨toI y, fun i => ?_, ?_⟩
  · rw [← hin]; exact hc _ i
  · funext i
    have := key i
    rw [hin] at this
    simpa using this

/-- The hypotheses can be met: a coupled nonlinear field on the unit square. -/
example : ∃ x : Bool → ℝ, (∀ i, 0 ≤ x i ∧ x i ≤ 1) ∧
    (fun i => x i - (1 / 2 + x (!i) ^ 3) / 2) = (0 : Bool → ℝ) := by
  refine exists_zero_box (F := fun x i => x i - (1 / 2 + x (!i) ^ 3) / 2) (lo := fun _ => 0) (hi := fun _ => 1) (by fun_prop)
    (fun _ => zero_le_one) (fun x hx i e => ?_) fun x hx i e => ?_
  · have := pow_nonneg (hx (!i)).1 3
    simp only [e]; linarith
  · have := pow_le_one₀ (n := 3) (hx (!i)).1 (hx (!i)).2
    simp only [e]; linarith

end Pymgrit.Brouwer
