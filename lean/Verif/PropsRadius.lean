import Verif.PropsPhase
import Verif.PropsSpace
import Mathlib.MeasureTheory.Measure.Lebesgue.VolumeOfBalls
import Mathlib.MeasureTheory.Measure.Lebesgue.Complex
import Mathlib.Analysis.SpecialFunctions.Trigonometric.DerivHyp
import Mathlib.Analysis.SpecialFunctions.Artanh

/-!
# Property C109: start value, radii and symmetry of the Allen-Cahn application
-/

set_option linter.unusedSectionVars false

namespace Pymgrit.Apps.AllenCahn
open MeasureTheory

/-! ## Counting grid points in a disc -/

/-- The square of side `h` around the point `(a, b)`. -/
def cell (h a b : ℝ) : Set ℂ := {z | z.re ∈ Set.Ico (a - h / 2) (a + h / 2) ∧ z.im ∈ Set.Ico (b - h / 2) (b + h / 2)}

theorem cell_eq (h a b : ℝ) : cell h a b = Complex.measurableEquivRealProd ⁻¹'
    (Set.Ico (a - h / 2) (a + h / 2) ×ˢ Set.Ico (b - h / 2) (b + h / 2)) := by
  ext z
  simp [cell, Complex.measurableEquivRealProd_apply]

theorem cell_measurable (h a b : ℝ) : MeasurableSet (cell h a b) := by
  rw [cell_eq]
  exact Complex.measurableEquivRealProd.measurable (measurableSet_Ico.prod measurableSet_Ico)

theorem cell_volume {h : ℝ} (hh : 0 < h) (a b : ℝ) : volume (cell h a b) = ENNReal.ofReal (h ^ 2) := by
  rw [cell_eq, Complex.volume_preserving_equiv_real_prod.measure_preimage
    (measurableSet_Ico.prod measurableSet_Ico).nullMeasurableSet, Measure.volume_eq_prod, Measure.prod_prod, Real.volume_Ico, Real.volume_Ico,
    ← ENNReal.ofReal_mul (by linarith)]
  congr 1
  ring

/-- A finite set of cells of a grid with spacing `h` has the volume `h²` times their number. -/
theorem cells_volume {n : Nat} {h : ℝ} (hh : 0 < h) (x : Fin n → ℝ) (hx : ∀ i : Fin n, x i = -1 / 2 + i * h)
    (s : Finset (Fin n × Fin n)) : volume (⋃ q ∈ s, cell h (x q.1) (x q.2)) = ENNReal.ofReal (s.card * h ^ 2) := by
  have hdis : ∀ (a : ℝ) (i j : Fin n), a ∈ Set.Ico (x i - h / 2) (x i + h / 2) → a ∈ Set.Ico (x j - h / 2) (x j + h / 2) →
      i = j := by
    intro a i j hi hj
    rw [hx, Set.mem_Ico] at hi hj
    have h1 : (i : ℝ) * h < (j : ℝ) * h + h := by linarith
    have h2 : (j : ℝ) * h < (i : ℝ) * h + h := by linarith
    have h3 : ((i : ℕ) : ℝ) < ((j : ℕ) : ℝ) + 1 := by
      by_contra hc
      have := mul_le_mul_of_nonneg_right (not_lt.1 hc) hh.le
      linarith
    have h4 : ((j : ℕ) : ℝ) < ((i : ℕ) : ℝ) + 1 := by
      by_contra hc
      have := mul_le_mul_of_nonneg_right (not_lt.1 hc) hh.le
      linarith
    have h5 : (i : ℕ) < (j : ℕ) + 1 := by exact_mod_cast h3
    have h6 : (j : ℕ) < (i : ℕ) + 1 := by exact_mod_cast h4
    exact Fin.ext (by omega)
  rw [measure_biUnion_finset]
  · simp only [cell_volume hh, Finset.sum_const, nsmul_eq_mul]
    rw [ENNReal.ofReal_mul (by positivity), ENNReal.ofReal_natCast]
  · intro p _ q _ hpq
    refine Set.disjoint_left.2 fun z hz hz' => hpq (Prod.ext (hdis _ _ _ hz.1 hz'.1) (hdis _ _ _ hz.2 hz'.2))
  · exact fun q _ => cell_measurable _ _ _

theorem ball_volume {r : ℝ} (hr : 0 ≤ r) : volume (Metric.ball (0 : ℂ) r) = ENNReal.ofReal (Real.pi * r ^ 2) := by
  rw [Complex.volume_ball, mul_comm Real.pi, ENNReal.ofReal_mul (sq_nonneg r), ENNReal.ofReal_pow hr]
  congr 1
  rw [ENNReal.ofReal]
  congr 1
  exact (Real.toNNReal_coe).symm

/-- The number of points of the grid in a disc, from above and below. -/
theorem count_disc {n : Nat} {h R : ℝ} (hh : 0 < h) (hn : (n : ℝ) * h = 1 + h) (hR : 0 ≤ R) (hR2 : R ≤ 1 / 2)
    (x : Fin n → ℝ) (hx : ∀ i : Fin n, x i = -1 / 2 + i * h) (s : Finset (Fin n × Fin n))
    (hs : ∀ q, q ∈ s ↔ √(x q.1 ^ 2 + x q.2 ^ 2) ≤ R) :
    s.card * h ^ 2 ≤ Real.pi * (R + h) ^ 2 ∧ (h ≤ R → Real.pi * (R - h) ^ 2 ≤ s.card * h ^ 2) := by
  constructor
  · have hsub : (⋃ q ∈ s, cell h (x q.1) (x q.2)) ⊆ Metric.closedBall (0 : ℂ) (R + h) := by
      intro z hz
      simp only [Set.mem_iUnion] at hz
      obtain ⟨q, hq, hz⟩ := hz
      rw [mem_closedBall_zero_iff]
      have hp : ‖(⟨x q.1, x q.2⟩ : ℂ)‖ ≤ R := by
        have := (hs q).1 hq
        rw [Complex.norm_eq_sqrt_sq_add_sq]
        exact this
      have hd : ‖z - ⟨x q.1, x q.2⟩‖ ≤ h := by
        refine (Complex.norm_le_abs_re_add_abs_im _).trans ?_
        have h1 : |z.re - x q.1| ≤ h / 2 := abs_le.2 ⟨by linarith [hz.1.1], by linarith [hz.1.2]⟩
        have h2 : |z.im - x q.2| ≤ h / 2 := abs_le.2 ⟨by linarith [hz.2.1], by linarith [hz.2.2]⟩
        simp only [Complex.sub_re, Complex.sub_im]
        linarith
      calc ‖z‖ = ‖(z - ⟨x q.1, x q.2⟩) + ⟨x q.1, x q.2⟩‖ := by rw [sub_add_cancel]
        _ ≤ _ := norm_add_le _ _
        _ ≤ _ := by linarith
    have hv := measure_mono (μ := volume) hsub
    rw [cells_volume hh x hx, Complex.volume_closedBall] at hv
    have hb := ball_volume (r := R + h) (by linarith)
    rw [Complex.volume_ball] at hb
    rw [hb] at hv
    exact (ENNReal.ofReal_le_ofReal_iff (by positivity)).1 hv
  · intro hhR
    have hsub : Metric.ball (0 : ℂ) (R - h) ⊆ ⋃ q ∈ s, cell h (x q.1) (x q.2) := by
      intro z hz
      rw [mem_ball_zero_iff] at hz
      have key : ∀ a : ℝ, |a| < R - h → ∃ i : Fin n, a ∈ Set.Ico (x i - h / 2) (x i + h / 2) := by
        intro a ha
        have ha' := abs_lt.1 ha
        have hpos : 0 ≤ (a + 1 / 2) / h + 1 / 2 := by
          have : 0 ≤ (a + 1 / 2) / h := div_nonneg (by linarith) hh.le
          linarith
        have hf := Nat.floor_le hpos
        have hf' := Nat.lt_floor_add_one ((a + 1 / 2) / h + 1 / 2)
        have hlt : ⌊(a + 1 / 2) / h + 1 / 2⌋₊ < n := by
          have : (⌊(a + 1 / 2) / h + 1 / 2⌋₊ : ℝ) < n := by
            refine lt_of_le_of_lt hf ?_
            have h1 : ((a + 1 / 2) / h + 1 / 2) * h = a + 1 / 2 + h / 2 := by field_simp
            by_contra hc
            have := mul_le_mul_of_nonneg_right (not_lt.1 hc) hh.le
            linarith
          exact_mod_cast this
        refine ⟨⟨_, hlt⟩, ?_⟩
        rw [hx, Set.mem_Ico]
        have e : (a + 1 / 2) / h * h = a + 1 / 2 := by field_simp
        have h1 := mul_le_mul_of_nonneg_right hf hh.le
        have h2 := mul_lt_mul_of_pos_right hf' hh
        simp only
        constructor <;> nlinarith
      obtain ⟨i, hi⟩ := key z.re (lt_of_le_of_lt (Complex.abs_re_le_norm z) hz)
      obtain ⟨k, hk⟩ := key z.im (lt_of_le_of_lt (Complex.abs_im_le_norm z) hz)
      simp only [Set.mem_iUnion]
      refine ⟨(i, k), (hs _).2 ?_, hi, hk⟩
      have hd : ‖(⟨x i, x k⟩ : ℂ) - z‖ ≤ h := by
        refine (Complex.norm_le_abs_re_add_abs_im _).trans ?_
        have h1 : |x i - z.re| ≤ h / 2 := abs_le.2 ⟨by linarith [hi.2], by linarith [hi.1]⟩
        have h2 : |x k - z.im| ≤ h / 2 := abs_le.2 ⟨by linarith [hk.2], by linarith [hk.1]⟩
        simp only [Complex.sub_re, Complex.sub_im]
        linarith
      have hp : ‖(⟨x i, x k⟩ : ℂ)‖ ≤ R := by
        calc ‖(⟨x i, x k⟩ : ℂ)‖ = ‖((⟨x i, x k⟩ : ℂ) - z) + z‖ := by rw [sub_add_cancel]
          _ ≤ _ := norm_add_le _ _
          _ ≤ _ := by linarith
      rw [Complex.norm_eq_sqrt_sq_add_sq] at hp
      exact hp
    have hv := measure_mono (μ := volume) hsub
    rw [cells_volume hh x hx, ball_volume (by linarith)] at hv
    exact (ENNReal.ofReal_le_ofReal_iff (by positivity)).1 hv

/-! ## The start value and the radii -/

variable (P : AllenCahn ℝ)

theorem coord_eq (i : Fin P.nx) : P.coord i = -1 / 2 + i * (1 / ((P.nx : ℝ) - 1)) := by
  unfold coord
  rw [List.getD_eq_getElem?_getD, Space.linspace_get _ _ _ _ i.isLt]
  simp only [Option.getD_some]
  norm_num

/-- C109: the start value is non-negative exactly at the points of the grid in the disc with the given radius. -/
theorem C109_sign (heps : 0 < P.eps) (radius : ℝ) (q : Fin P.nx × Fin P.nx) :
    0 ≤ P.initialGuess radius q ↔ √(P.coord q.1 ^ 2 + P.coord q.2 ^ 2) ≤ radius := by
  have hc : 0 < √2 * P.eps := mul_pos (by positivity) heps
  have ht : ∀ y : ℝ, 0 ≤ Real.tanh y ↔ 0 ≤ y := by
    intro y
    rw [Real.tanh_eq_sinh_div_cosh, le_div_iff₀ (Real.cosh_pos y), zero_mul, Real.sinh_nonneg_iff]
  unfold initialGuess
  rw [ht, le_div_iff₀ hc, zero_mul, sub_nonneg]

/-- C109: the start value decreases with the distance to the centre. -/
theorem C109_decreasing (heps : 0 < P.eps) (radius : ℝ) (q q' : Fin P.nx × Fin P.nx)
    (h : √(P.coord q.1 ^ 2 + P.coord q.2 ^ 2) < √(P.coord q'.1 ^ 2 + P.coord q'.2 ^ 2)) :
    P.initialGuess radius q' < P.initialGuess radius q := by
  have hc : 0 < √2 * P.eps := mul_pos (by positivity) heps
  have hm : ∀ y : ℝ, Real.tanh y ∈ Set.Ioo (-1 : ℝ) 1 := fun y => abs_lt.1 (Real.abs_tanh_lt_one y)
  unfold initialGuess
  rw [← Real.artanh_lt_artanh_iff (hm _) (hm _), Real.artanh_tanh, Real.artanh_tanh]
  exact div_lt_div_of_pos_right (by linarith) hc

/-- C109: the radius computed from the start value is the given radius up to an error of at most `(1 + radius) / nx`. -/
theorem C109_start_radius (hn : 2 ≤ P.nx) (hdx : P.dx = 1 / P.nx) (heps : 0 < P.eps) {radius : ℝ} (h0 : 0 ≤ radius)
    (h1 : radius ≤ 1 / 2) :
    |P.computeRadius (P.initialGuess radius) - exactRadius radius 0| ≤ (1 + radius) / P.nx := by
  have hnR : (2 : ℝ) ≤ P.nx := by exact_mod_cast hn
  have hn1 : 0 < (P.nx : ℝ) - 1 := by linarith
  have hh : 0 < 1 / ((P.nx : ℝ) - 1) := one_div_pos.2 hn1
  set h := 1 / ((P.nx : ℝ) - 1) with hdef
  have hnh : (P.nx : ℝ) * h = 1 + h := by rw [hdef]; field_simp; ring
  set s := Finset.univ.filter fun q => 0 ≤ P.initialGuess radius q with hsdef
  obtain ⟨hup, hlow⟩ := count_disc hh hnh h0 h1 (fun i : Fin P.nx => P.coord i) P.coord_eq s (fun q => by
    rw [hsdef, Finset.mem_filter]
    simp only [Finset.mem_univ, true_and]
    exact P.C109_sign heps radius q)
  have he : exactRadius radius 0 = radius := by
    unfold exactRadius
    rw [mul_zero, sub_zero, max_eq_left (sq_nonneg _), Real.sqrt_sq h0]
  have hpi := Real.pi_pos
  set c := √((s.card : ℝ) / Real.pi) with hc
  have hc0 : 0 ≤ c := Real.sqrt_nonneg _
  have hc2 : c ^ 2 * Real.pi = s.card := by
    rw [hc, Real.sq_sqrt (by positivity)]
    field_simp
  have hcup : c * h ≤ radius + h := by
    refine abs_le_of_sq_le_sq' ?_ (by linarith) |>.2
    have : Real.pi * (c * h) ^ 2 ≤ Real.pi * (radius + h) ^ 2 := by
      calc Real.pi * (c * h) ^ 2 = c ^ 2 * Real.pi * h ^ 2 := by ring
        _ ≤ _ := by rw [hc2]; exact hup
    exact le_of_mul_le_mul_left this hpi
  have hclow : radius - h ≤ c * h := by
    by_cases hr : h ≤ radius
    · refine abs_le_of_sq_le_sq' ?_ (by positivity) |>.2
      have : Real.pi * (radius - h) ^ 2 ≤ Real.pi * (c * h) ^ 2 := by
        calc _ ≤ _ := hlow hr
          _ = Real.pi * (c * h) ^ 2 := by rw [← hc2]; ring
      exact le_of_mul_le_mul_left this hpi
    · have := mul_nonneg hc0 hh.le
      linarith
  have hcr : P.computeRadius (P.initialGuess radius) = c / P.nx := by
    unfold computeRadius
    rw [hdx, mul_one_div]
  have hch : c = c * h * ((P.nx : ℝ) - 1) := by rw [hdef]; field_simp
  have hh1 : h * ((P.nx : ℝ) - 1) = 1 := by rw [hdef]; field_simp
  have hnpos : (0 : ℝ) < P.nx := by linarith
  rw [hcr, he, abs_le]
  have hup2 := mul_le_mul_of_nonneg_right hcup hn1.le
  have hlow2 := mul_le_mul_of_nonneg_right hclow hn1.le
  rw [← hch] at hup2 hlow2
  constructor
  · rw [← sub_nonneg]
    have : c / P.nx - radius - -((1 + radius) / P.nx) = (c - radius * P.nx + 1 + radius) / P.nx := by field_simp; ring
    rw [this]
    exact div_nonneg (by nlinarith) hnpos.le
  · rw [← sub_nonneg]
    have : (1 + radius) / P.nx - (c / P.nx - radius) = (1 + radius - c + radius * P.nx) / P.nx := by field_simp; ring
    rw [this]
    exact div_nonneg (by nlinarith) hnpos.le

/-- C109: the exact radius starts at the given radius, does not increase with time, its square decreases by `2 t`, and
it is zero from the time `radius² / 2` on. -/
theorem C109_exact_radius {radius : ℝ} (h0 : 0 ≤ radius) :
    exactRadius radius 0 = radius ∧ (∀ t t', t ≤ t' → exactRadius radius t' ≤ exactRadius radius t) ∧
    (∀ t, t ≤ radius ^ 2 / 2 → exactRadius radius t ^ 2 = radius ^ 2 - 2 * t) ∧
    ∀ t, exactRadius radius t = 0 ↔ radius ^ 2 / 2 ≤ t := by
  unfold exactRadius
  refine ⟨by rw [mul_zero, sub_zero, max_eq_left (sq_nonneg _), Real.sqrt_sq h0], fun t t' h => ?_, fun t h => ?_,
    fun t => ?_⟩
  · exact Real.sqrt_le_sqrt (max_le_max_right _ (by linarith))
  · rw [Real.sq_sqrt (le_max_right _ _), max_eq_left (by linarith)]
  · rw [Real.sqrt_eq_zero (le_max_right _ _), max_eq_right_iff]
    constructor <;> intro h <;> linarith

/-- C109: the computed radius depends on the signs only, grows with the values, and is at most that of the whole
domain. -/
theorem C109_computed_radius (hdx : P.dx = 1 / P.nx) (hn : 0 < P.nx) (u v : P.Vec) :
    (0 ≤ P.computeRadius u ∧ P.computeRadius u ≤ √(1 / Real.pi)) ∧
    ((∀ q, 0 ≤ u q → 0 ≤ v q) → P.computeRadius u ≤ P.computeRadius v) := by
  have hnR : (0 : ℝ) < P.nx := by exact_mod_cast hn
  have hd : 0 ≤ P.dx := by rw [hdx]; positivity
  have hpi := Real.pi_pos
  have hmono : ∀ s t : Finset (Fin P.nx × Fin P.nx), s ⊆ t →
      √((s.card : ℝ) / Real.pi) * P.dx ≤ √((t.card : ℝ) / Real.pi) * P.dx := fun s t hst =>
    mul_le_mul_of_nonneg_right (Real.sqrt_le_sqrt (div_le_div_of_nonneg_right
      (by exact_mod_cast Finset.card_le_card hst) hpi.le)) hd
  refine ⟨⟨mul_nonneg (Real.sqrt_nonneg _) hd, ?_⟩, fun h => ?_⟩
  · refine (hmono _ Finset.univ (Finset.filter_subset _ _)).trans (le_of_eq ?_)
    rw [Finset.card_univ, Fintype.card_prod, Fintype.card_fin]
    have e : ((P.nx * P.nx : ℕ) : ℝ) / Real.pi = (P.nx : ℝ) ^ 2 * (1 / Real.pi) := by push_cast; ring
    rw [e, Real.sqrt_mul (sq_nonneg _), Real.sqrt_sq hnR.le, hdx]
    field_simp
  · refine hmono _ _ fun q hq => ?_
    rw [Finset.mem_filter] at hq ⊢
    exact ⟨Finset.mem_univ _, h q hq.2⟩

/-! ## Symmetry -/

section symmetry
variable {K : Type} [Field K] [LinearOrder K] [IsStrictOrderedRing K] (Q : AllenCahn K)
variable (solve : Matrix (Fin Q.nx × Fin Q.nx) (Fin Q.nx × Fin Q.nx) K → Q.Vec → Q.Vec)

/-- The symmetries of the square: mirrored rows, mirrored columns, rows and columns exchanged. -/
inductive Symmetry (n : Nat) : (Fin n × Fin n → Fin n × Fin n) → Prop
  | rows : Symmetry n fun q => (q.1.rev, q.2)
  | columns : Symmetry n fun q => (q.1, q.2.rev)
  | swap : Symmetry n fun q => (q.2, q.1)

theorem pred_rev {n : Nat} (i : Fin n) : pred i.rev = (succ i).rev := by
  have := i.isLt
  rw [Fin.ext_iff]
  simp only [pred, succ, Fin.val_rev]
  split <;> split <;> omega

theorem succ_rev {n : Nat} (i : Fin n) : succ i.rev = (pred i).rev := by
  have := i.isLt
  rw [Fin.ext_iff]
  simp only [pred, succ, Fin.val_rev]
  split <;> split <;> omega

/-- C109: the implicit-explicit step commutes with the symmetries of the square. -/
theorem C109_symmetric_step (hn : 3 ≤ Q.nx) (hs : SolverOK solve) (fuel : Nat) (u x : Q.Vec) {t0 t1 : K} (ht : t0 ≤ t1)
    {σ : Fin Q.nx × Fin Q.nx → Fin Q.nx × Fin Q.nx} (hσ : Symmetry Q.nx σ)
    (h : Q.step solve .IMEX fuel u t0 t1 = some x) :
    Q.step solve .IMEX fuel (u ∘ σ) t0 t1 = some (x ∘ σ) := by
  rw [Q.C86_imex solve hn hs _ _ _ _ _ ht] at h ⊢
  intro i k
  cases hσ with
  | rows =>
    have := h i.rev k
    unfold lap at this ⊢
    rw [pred_rev, succ_rev] at this
    simp only [Function.comp]
    rw [this]
    unfold react
    simp only [Function.comp]
    ring
  | columns =>
    have := h i k.rev
    unfold lap at this ⊢
    rw [pred_rev, succ_rev] at this
    simp only [Function.comp]
    rw [this]
    unfold react
    simp only [Function.comp]
    ring
  | swap =>
    have := h k i
    unfold lap at this ⊢
    simp only [Function.comp]
    rw [this]
    unfold react
    simp only [Function.comp]
    ring

end symmetry

theorem coord_rev (hn : 2 ≤ P.nx) (i : Fin P.nx) : P.coord i.rev = -P.coord i := by
  have hnR : (2 : ℝ) ≤ P.nx := by exact_mod_cast hn
  have hn1 : (P.nx : ℝ) - 1 ≠ 0 := by linarith
  have hi := i.isLt
  rw [P.coord_eq, P.coord_eq, Fin.val_rev, Nat.cast_sub (by omega)]
  field_simp
  push_cast
  ring

/-- C109: the start value has the symmetries of the square. -/
theorem C109_symmetric_start (hn : 2 ≤ P.nx) (radius : ℝ) {σ : Fin P.nx × Fin P.nx → Fin P.nx × Fin P.nx}
    (hσ : Symmetry P.nx σ) : P.initialGuess radius ∘ σ = P.initialGuess radius := by
  funext q
  unfold initialGuess
  cases hσ with
  | rows => simp only [Function.comp]; rw [P.coord_rev hn, neg_sq]
  | columns => simp only [Function.comp]; rw [P.coord_rev hn, neg_sq]
  | swap => simp only [Function.comp]; rw [add_comm]

variable {P} {solve : Matrix (Fin P.nx × Fin P.nx) (Fin P.nx × Fin P.nx) ℝ → P.Vec → P.Vec}
  {K' N : Type} {E : Cfg P.Vec K' ℝ N}

/-- C109: sequential time stepping with the implicit-explicit method from the start value of the application has the
symmetries of the square at every time. -/
theorem C109_symmetric (hg : (grid E.ts 0).Pairwise (· < ·)) (hn : 3 ≤ P.nx) (hs : SolverOK solve) (radius : ℝ)
    (hstart : E.start 0 = P.initialGuess radius)
    (hstep : ∀ i, i + 1 < npts E.ts 0 → P.step solve .IMEX 0 (timeStepping E i) (tAt (grid E.ts 0) i)
      (tAt (grid E.ts 0) (i + 1)) = some (timeStepping E (i + 1)))
    {σ : Fin P.nx × Fin P.nx → Fin P.nx × Fin P.nx} (hσ : Symmetry P.nx σ) (i : Nat) (hi : i < npts E.ts 0) :
    timeStepping E i ∘ σ = timeStepping E i := by
  induction i with
  | zero =>
    show E.start 0 ∘ σ = E.start 0
    rw [hstart]
    exact P.C109_symmetric_start (by omega) radius hσ
  | succ i ih =>
    have h := P.C109_symmetric_step solve hn hs 0 _ _ (tAt_mono hg (Nat.le_succ i) hi) hσ (hstep i hi)
    rw [ih (by omega), hstep i hi] at h
    exact (Option.some.inj h).symm

/-! ## Non-vacuity -/

/-- The default parameters of the application (`nx = 128`, `eps = 0.04`, `radius = 0.25`). -/
noncomputable def exDefault : AllenCahn ℝ where
  nx := 128
  dx := 1 / 128
  nu := 2
  eps := 4 / 100
  maxiter := 100
  tol := 1 / 10 ^ 12

example : |exDefault.computeRadius (exDefault.initialGuess (1 / 4)) - 1 / 4| ≤ 5 / 512 := by
  have h := exDefault.C109_start_radius (by show 2 ≤ 128; decide) (by simp only [exDefault]; norm_num)
    (by simp only [exDefault]; norm_num) (radius := 1 / 4) (by norm_num) (by norm_num)
  rw [(C109_exact_radius (by norm_num)).1] at h
  refine h.trans (le_of_eq ?_)
  simp only [exDefault]
  norm_num

example : ∃ solve, SolverOK solve ∧
    let E := exTol (fun _ u t t' => (exACReal.step solve .IMEX 0 u t t').getD 0) (exACReal.initialGuess (1 / 4)) 0 false 1
      (fun _ => 0) norm1
    ∀ i, i < 5 → timeStepping E i ∘ (fun q => (q.2, q.1)) = timeStepping E i := by
  obtain ⟨solve, hs⟩ := solver_exists (K := ℝ) (ι := Fin exACReal.nx × Fin exACReal.nx)
  exact ⟨solve, hs, fun i hi => C109_symmetric (P := exACReal) (solve := solve)
    (E := exTol (fun _ u t t' => (exACReal.step solve .IMEX 0 u t t').getD 0) (exACReal.initialGuess (1 / 4)) 0 false 1
      (fun _ => 0) norm1) (exRealGrid_valid.sorted 0) (by decide) hs _ rfl (fun _ _ => rfl) .swap i hi⟩

end Pymgrit.Apps.AllenCahn
