import Verif.PetscHeat
import Verif.PropsShipped
import Mathlib.Analysis.SpecialFunctions.Trigonometric.Bounds
import Mathlib.Analysis.Real.Pi.Bounds

/-!
# The heat equation with PETSc (C123)

The class states the solution `sin(π f x) sin(π f y) cos t` of the problem its right-hand side belongs to.  Sequential time
stepping reaches it with first order in time and second order in space if the two numbers of points are equal, up to the
part that comes from the reuse of operators for nearby step sizes (C61).  If they differ, the exchanged spacings (C62) make
time stepping converge to something else: on grids with four times as many intervals in the second direction the error at
the midpoint stays away from zero however fine the grids are.
-/

namespace Pymgrit.Petsc
open Real Set Taylor

/-! ## The linear system of a step -/

variable (P : Heat ℝ)

/-- The sizes of the first `i` steps of the grid `g`. -/
def stepSizes (g : List ℝ) (i : Nat) : List ℝ := (List.range i).map fun k => tAt g (k + 1) - tAt g k

/-- Specification: `u i` are the vectors of sequential time stepping on the grid `g` with one object of the class: the
constructor sets `self.dt` to the first step size, the step to the point `i + 1` is the call after the steps to the points
`1, ..., i`. -/
def Heat.Stepping (freq : Nat) (g : List ℝ) (u : Nat → Nat × Nat → ℝ) : Prop :=
  (∀ p q, p < P.mx → q < P.my → u 0 (p, q) = P.uExact freq 0 (p, q)) ∧
  ∀ i, i + 1 < g.length → P.Step freq (cacheAfter (tAt g 1 - tAt g 0) (stepSizes g i)) (u i) (tAt g i) (tAt g (i + 1))
    (u (i + 1))

/-- The matrix of the step, applied to `x`. -/
noncomputable def Heat.op (τ : ℝ) (x : Nat × Nat → ℝ) (i j : Nat) : ℝ := τ * applyRow (P.row i j) x + x (i, j)

theorem applyRow_sub {X : Type} (r : List (X × ℝ)) (x y : X → ℝ) :
    applyRow r (fun q => x q - y q) = applyRow r x - applyRow r y := by
  unfold applyRow
  induction r with
  | nil => simp
  | cons e r ih => simp only [List.map_cons, List.sum_cons, ih]; ring

theorem applyRow_smul {X : Type} (r : List (X × ℝ)) (c : ℝ) (x : X → ℝ) :
    applyRow r (fun q => c * x q) = c * applyRow r x := by
  unfold applyRow
  induction r with
  | nil => simp
  | cons e r ih => simp only [List.map_cons, List.sum_cons, ih]; ring

variable {P}

theorem Heat.Step.op {freq : Nat} {cached t0 t1 : ℝ} {u x : Nat × Nat → ℝ} (h : P.Step freq cached u t0 t1 x) {i j : Nat}
    (hi : i < P.mx) (hj : j < P.my) :
    P.op (useDt cached (t1 - t0)) x i j = u (i, j) + (t1 - t0) * P.rhs freq t1 i j := by
  have := h i j hi hj
  simpa [Heat.op, Heat.idRow, applyRow, Heat.computeRhs] using this

/-- Maximum principle. -/
theorem Heat.op_le (ha : 0 ≤ P.a) {τ : ℝ} (hτ : 0 ≤ τ) {x : Nat × Nat → ℝ} {B : ℝ}
    (h : ∀ i j, i < P.mx → j < P.my → P.op τ x i j ≤ B) {i j : Nat} (hi : i < P.mx) (hj : j < P.my) : x (i, j) ≤ B := by
  obtain ⟨⟨p, q⟩, hm, hmax⟩ := Finset.exists_max_image (Finset.range P.mx ×ˢ Finset.range P.my) x
    ⟨(i, j), by simp [hi, hj]⟩
  rw [Finset.mem_product, Finset.mem_range, Finset.mem_range] at hm
  have hle : ∀ {k l}, k < P.mx → l < P.my → x (k, l) ≤ x (p, q) := fun hk hl => hmax _ (by simp [hk, hl])
  refine (hle hi hj).trans (le_trans ?_ (h p q hm.1 hm.2))
  unfold Heat.op
  by_cases hb : p = 0 ∨ q = 0 ∨ p = P.mx - 1 ∨ q = P.my - 1
  · rw [C62_boundary P x p q hb]; linarith
  · rw [C62_exchanged P x p q hb]
    have f1 : 0 ≤ P.a / P.dy ^ 2 := by positivity
    have f2 : 0 ≤ P.a / P.dx ^ 2 := by positivity
    have e1 := hle (k := p - 1) (l := q) (by omega) hm.2
    have e2 := hle (k := p + 1) (l := q) (by omega) hm.2
    have e3 := hle (k := p) (l := q - 1) hm.1 (by omega)
    have e4 := hle (k := p) (l := q + 1) hm.1 (by omega)
    have : 0 ≤ laplace P.a P.dy P.dx x p q := by
      unfold laplace
      exact add_nonneg (mul_nonneg f1 (by linarith)) (mul_nonneg f2 (by linarith))
    nlinarith [mul_nonneg hτ this]

theorem Heat.op_sub (τ : ℝ) (x y : Nat × Nat → ℝ) (i j : Nat) :
    P.op τ (fun q => x q - y q) i j = P.op τ x i j - P.op τ y i j := by
  unfold Heat.op
  rw [applyRow_sub]
  ring

theorem Heat.op_smul (τ c : ℝ) (x : Nat × Nat → ℝ) (i j : Nat) :
    P.op τ (fun q => c * x q) i j = c * P.op τ x i j := by
  unfold Heat.op
  rw [applyRow_smul]
  ring

/-- Two solutions differ by at most the largest difference of the right-hand sides. -/
theorem Heat.op_dist (ha : 0 ≤ P.a) {τ : ℝ} (hτ : 0 ≤ τ) {x y : Nat × Nat → ℝ} {B : ℝ}
    (h : ∀ i j, i < P.mx → j < P.my → |P.op τ x i j - P.op τ y i j| ≤ B) {i j : Nat} (hi : i < P.mx) (hj : j < P.my) :
    |x (i, j) - y (i, j)| ≤ B := by
  refine abs_le.2 ⟨?_, ?_⟩
  · have := Heat.op_le ha hτ (x := fun q => y q - x q) (B := B) (fun i j hi hj => by
      rw [Heat.op_sub]; linarith [(abs_le.1 (h i j hi hj)).1]) hi hj
    linarith
  · exact Heat.op_le ha hτ (x := fun q => x q - y q) (fun i j hi hj => by
      rw [Heat.op_sub]; exact (abs_le.1 (h i j hi hj)).2) hi hj

theorem Heat.op_unique (ha : 0 ≤ P.a) {τ : ℝ} (hτ : 0 ≤ τ) {x y : Nat × Nat → ℝ}
    (h : ∀ i j, i < P.mx → j < P.my → P.op τ x i j = P.op τ y i j) {i j : Nat} (hi : i < P.mx) (hj : j < P.my) :
    x (i, j) = y (i, j) := by
  have := Heat.op_dist ha hτ (x := x) (y := y) (B := 0) (fun i j hi hj => by rw [h i j hi hj, sub_self, abs_zero]) hi hj
  exact sub_eq_zero.1 (abs_nonpos_iff.1 this)

theorem Heat.op_exists (ha : 0 ≤ P.a) {τ : ℝ} (hτ : 0 ≤ τ) (b : Nat → Nat → ℝ) :
    ∃ x : Nat × Nat → ℝ, ∀ i j, i < P.mx → j < P.my → P.op τ x i j = b i j := by
  let ext : (Fin P.mx × Fin P.my → ℝ) → Nat × Nat → ℝ := fun v q =>
    if h : q.1 < P.mx ∧ q.2 < P.my then v (⟨q.1, h.1⟩, ⟨q.2, h.2⟩) else 0
  have hadd : ∀ v w, ext (v + w) = fun q => ext v q - (-1) * ext w q := by
    intro v w
    funext q
    by_cases h : q.1 < P.mx ∧ q.2 < P.my
    · simp [ext, h]
    · simp [ext, h]
  have hsmul : ∀ (c : ℝ) v, ext (c • v) = fun q => c * ext v q := by
    intro c v
    funext q
    by_cases h : q.1 < P.mx ∧ q.2 < P.my
    · simp [ext, h]
    · simp [ext, h]
  let L : (Fin P.mx × Fin P.my → ℝ) →ₗ[ℝ] (Fin P.mx × Fin P.my → ℝ) :=
    { toFun := fun v q => P.op τ (ext v) q.1 q.2
      map_add' := by
        intro v w
        funext q
        rw [hadd, Heat.op_sub, Heat.op_smul, Pi.add_apply]
        ring
      map_smul' := by
        intro c v
        funext q
        rw [hsmul, Heat.op_smul]
        rfl }
  have hext : ∀ v (q : Fin P.mx × Fin P.my), ext v (q.1, q.2) = v q := by
    intro v q
    simp [ext]
  have hinj : Function.Injective L := by
    intro v w h
    funext q
    rw [← hext v q, ← hext w q]
    exact Heat.op_unique ha hτ (fun i j hi hj => congrFun h (⟨i, hi⟩, ⟨j, hj⟩)) q.1.2 q.2.2
  obtain ⟨v, hv⟩ := (LinearMap.injective_iff_surjective.1 hinj) fun q => b q.1 q.2
  exact ⟨ext v, fun i j hi hj => congrFun hv (⟨i, hi⟩, ⟨j, hj⟩)⟩

theorem useDt_nonneg {cached dt : ℝ} (h1 : 0 ≤ cached) (h2 : 0 ≤ dt) : 0 ≤ useDt cached dt := by
  unfold useDt
  split <;> assumption

/-- C123: for every start vector, all pairs of times in order and every history of calls the linear system of the step has
exactly one solution on the grid; it keeps the values on the boundary if the right-hand side vanishes there, and the step
does not increase the largest difference of two start vectors. -/
theorem C123_step (ha : 0 ≤ P.a) (freq : Nat) {cached t0 t1 : ℝ} (hc : 0 ≤ cached) (ht : t0 ≤ t1) :
    (∀ u, ∃ x, P.Step freq cached u t0 t1 x) ∧
    (∀ u x y, P.Step freq cached u t0 t1 x → P.Step freq cached u t0 t1 y →
      ∀ i j, i < P.mx → j < P.my → x (i, j) = y (i, j)) ∧
    (∀ u x, P.Step freq cached u t0 t1 x → ∀ i j, i < P.mx → j < P.my → (i = 0 ∨ j = 0 ∨ i = P.mx - 1 ∨ j = P.my - 1) →
      x (i, j) = u (i, j) + (t1 - t0) * P.rhs freq t1 i j) ∧
    (∀ u v x y B, P.Step freq cached u t0 t1 x → P.Step freq cached v t0 t1 y →
      (∀ i j, i < P.mx → j < P.my → |u (i, j) - v (i, j)| ≤ B) →
      ∀ i j, i < P.mx → j < P.my → |x (i, j) - y (i, j)| ≤ B) := by
  have hτ := useDt_nonneg hc (sub_nonneg.2 ht)
  refine ⟨fun u => ?_, fun u x y hx hy i j hi hj => ?_, fun u x hx i j hi hj hb => ?_, fun u v x y B hx hy h i j hi hj => ?_⟩
  · obtain ⟨x, hx⟩ := Heat.op_exists ha hτ (P.computeRhs freq u t0 t1)
    exact ⟨x, fun i j hi hj => by simpa [Heat.op, Heat.idRow, applyRow] using hx i j hi hj⟩
  · exact Heat.op_unique ha hτ (fun i j hi hj => by rw [hx.op hi hj, hy.op hi hj]) hi hj
  · have := hx.op hi hj
    rwa [Heat.op, C62_boundary P x i j hb, mul_zero, zero_add] at this
  · refine Heat.op_dist ha hτ (fun i j hi hj => ?_) hi hj
    rw [hx.op hi hj, hy.op hi hj, add_sub_add_right_eq_sub]
    exact h i j hi hj

/-! ## The stated solution is an eigenvector in space -/

/-- The space part of the stated solution. -/
noncomputable def Heat.mode (P : Heat ℝ) (freq : Nat) (q : Nat × Nat) : ℝ :=
  sin (π * freq * q.1 * P.dx) * sin (π * freq * q.2 * P.dy)

/-- The factor by which the operator of the code multiplies it. -/
noncomputable def Heat.eig (P : Heat ℝ) (freq : Nat) : ℝ :=
  2 * P.a * ((1 - cos (π * freq * P.dx)) / P.dy ^ 2 + (1 - cos (π * freq * P.dy)) / P.dx ^ 2)

theorem sin_neighbours (w d : ℝ) (i : Nat) (hi : 1 ≤ i) :
    2 * sin (w * i * d) - sin (w * (i - 1 : Nat) * d) - sin (w * (i + 1 : Nat) * d) =
      2 * (1 - cos (w * d)) * sin (w * i * d) := by
  rw [show w * ((i - 1 : Nat) : ℝ) * d = w * i * d - w * d by rw [Nat.cast_sub hi]; push_cast; ring,
    show w * ((i + 1 : Nat) : ℝ) * d = w * i * d + w * d by push_cast; ring, sin_sub, sin_add]
  ring

theorem make_sin (freq : Nat) {m : Nat} (hm : 2 ≤ m) :
    sin (π * freq * ((m - 1 : Nat) : ℝ) * (1 / ((m : ℝ) - 1))) = 0 := by
  have h : (m : ℝ) - 1 ≠ 0 := by
    have : (2 : ℝ) ≤ m := by exact_mod_cast hm
    linarith
  rw [Nat.cast_sub (by omega), Nat.cast_one, show π * freq * ((m : ℝ) - 1) * (1 / ((m : ℝ) - 1)) = freq * π by
    field_simp]
  exact sin_nat_mul_pi freq

theorem eig_mode {mx my : Nat} (hx : 2 ≤ mx) (hy : 2 ≤ my) (a : ℝ) (freq i j : Nat) (hi : i < mx) (hj : j < my) :
    applyRow ((Heat.make mx my a).row i j) ((Heat.make mx my a).mode freq) =
      (Heat.make mx my a).eig freq * (Heat.make mx my a).mode freq (i, j) := by
  by_cases hb : i = 0 ∨ j = 0 ∨ i = mx - 1 ∨ j = my - 1
  · rw [C62_boundary _ _ _ _ hb]
    have : (Heat.make mx my a).mode freq (i, j) = 0 := by
      unfold Heat.mode
      rcases hb with rfl | rfl | rfl | rfl
      · simp
      · simp
      · show sin (π * freq * ((mx - 1 : Nat) : ℝ) * (1 / ((mx : ℝ) - 1))) * _ = 0
        rw [make_sin freq hx, zero_mul]
      · show _ * sin (π * freq * ((my - 1 : Nat) : ℝ) * (1 / ((my : ℝ) - 1))) = 0
        rw [make_sin freq hy, mul_zero]
    rw [this, mul_zero]
  · rw [C62_exchanged _ _ _ _ hb]
    have e1 := sin_neighbours (π * freq) (Heat.make mx my a).dx i (by omega)
    have e2 := sin_neighbours (π * freq) (Heat.make mx my a).dy j (by omega)
    unfold laplace Heat.eig Heat.mode
    dsimp only
    generalize (Heat.make mx my a).dx = dx at *
    generalize (Heat.make mx my a).dy = dy at *
    rw [show ∀ A B C : ℝ, 2 * (A * B) - C * B - sin (π * freq * ((i + 1 : Nat) : ℝ) * dx) * B =
        (2 * A - C - sin (π * freq * ((i + 1 : Nat) : ℝ) * dx)) * B by intros; ring, e1,
      show ∀ A B C : ℝ, 2 * (A * B) - A * C - A * sin (π * freq * ((j + 1 : Nat) : ℝ) * dy) =
        A * (2 * B - C - sin (π * freq * ((j + 1 : Nat) : ℝ) * dy)) by intros; ring, e2]
    ring

/-- The time part of the right-hand side. -/
noncomputable def Heat.source (P : Heat ℝ) (freq : Nat) (t : ℝ) : ℝ := P.a * 2 * (π * freq) ^ 2 * cos t - sin t

theorem rhs_mode (P : Heat ℝ) (freq : Nat) (t : ℝ) (i j : Nat) :
    P.rhs freq t i j = P.source freq t * P.mode freq (i, j) := by
  unfold Heat.rhs Heat.source Heat.mode
  ring

theorem eig_nonneg (P : Heat ℝ) (ha : 0 ≤ P.a) (freq : Nat) : 0 ≤ P.eig freq := by
  unfold Heat.eig
  have := cos_le_one (π * freq * P.dx)
  have := cos_le_one (π * freq * P.dy)
  have h1 : 0 ≤ (1 - cos (π * freq * P.dx)) / P.dy ^ 2 := div_nonneg (by linarith) (sq_nonneg _)
  have h2 : 0 ≤ (1 - cos (π * freq * P.dy)) / P.dx ^ 2 := div_nonneg (by linarith) (sq_nonneg _)
  positivity

/-! ## Time stepping -/

/-- The step size the operator in use belongs to. -/
noncomputable def opSize (g : List ℝ) (i : Nat) : ℝ :=
  useDt (cacheAfter (tAt g 1 - tAt g 0) (stepSizes g i)) (tAt g (i + 1) - tAt g i)

theorem opSize_nonneg {g : List ℝ} (hs : g.Pairwise (· < ·)) {i : Nat} (hi : i + 1 < g.length) : 0 ≤ opSize g i := by
  have hpos : ∀ k, k + 1 < g.length → 0 ≤ tAt g (k + 1) - tAt g k := fun k hk =>
    sub_nonneg.2 (tAt_mono hs (by omega) hk)
  refine useDt_nonneg ?_ (hpos i hi)
  rcases List.mem_cons.1 (cacheAfter_mem (tAt g 1 - tAt g 0) (stepSizes g i)) with h | h
  · rw [h]; exact hpos 0 (by omega)
  · obtain ⟨k, hk, e⟩ := List.mem_map.1 h
    rw [← e]
    exact hpos k (by have := List.mem_range.1 hk; omega)

/-- Every vector of sequential time stepping is a multiple of the space part of the stated solution. -/
theorem stepping_mode {mx my : Nat} (hx : 2 ≤ mx) (hy : 2 ≤ my) {a : ℝ} (ha : 0 ≤ a) {freq : Nat} {g : List ℝ}
    (hs : g.Pairwise (· < ·)) {u : Nat → Nat × Nat → ℝ} (h : (Heat.make mx my a).Stepping freq g u) :
    ∃ c : Nat → ℝ, c 0 = 1 ∧
      (∀ i, i + 1 < g.length → (1 + opSize g i * (Heat.make mx my a).eig freq) * c (i + 1) =
        c i + (tAt g (i + 1) - tAt g i) * (Heat.make mx my a).source freq (tAt g (i + 1))) ∧
      ∀ i, i < g.length → ∀ p q, p < mx → q < my → u i (p, q) = c i * (Heat.make mx my a).mode freq (p, q) := by
  set P := Heat.make mx my a with hP
  have ha' : 0 ≤ P.a := ha
  let c : Nat → ℝ := fun i => Nat.rec 1 (fun i c => (c + (tAt g (i + 1) - tAt g i) * P.source freq (tAt g (i + 1))) /
    (1 + opSize g i * P.eig freq)) i
  have hrec : ∀ i, i + 1 < g.length → (1 + opSize g i * P.eig freq) * c (i + 1) =
      c i + (tAt g (i + 1) - tAt g i) * P.source freq (tAt g (i + 1)) := by
    intro i hi
    have : 0 < 1 + opSize g i * P.eig freq := by
      have := mul_nonneg (opSize_nonneg hs hi) (eig_nonneg P ha' freq)
      linarith
    show _ * ((c i + (tAt g (i + 1) - tAt g i) * P.source freq (tAt g (i + 1))) / (1 + opSize g i * P.eig freq)) = _
    field_simp
  refine ⟨c, rfl, hrec, ?_⟩
  intro i
  induction i with
  | zero =>
    intro _ p q hp hq
    rw [h.1 p q hp hq]
    show _ = 1 * _
    unfold Heat.uExact Heat.mode
    rw [cos_zero]
    ring
  | succ i ih =>
    intro hi p q hp hq
    have hst := h.2 i hi
    refine Heat.op_unique ha' (opSize_nonneg hs hi) (y := fun z => c (i + 1) * P.mode freq z) (fun k l hk hl => ?_) hp hq
    have e1 : P.op (opSize g i) (u (i + 1)) k l = _ := hst.op hk hl
    rw [e1, Heat.op_smul, ih (by omega) k l hk hl, rhs_mode, Heat.op, eig_mode hx hy a freq k l hk hl]
    linear_combination -P.mode freq (k, l) * hrec i hi

theorem cos_step {t t' : ℝ} (ht : t ≤ t') : |cos t - cos t' - (t' - t) * sin t'| ≤ (t' - t) ^ 2 / 2 := by
  have := backward_difference (a := t) (b := t') (f := fun x => 1 * cos (1 * x)) (deriv_cos _ _ _ _)
    ((deriv_sin t t' 1 (-1)).congr' (fun _ _ => by ring) (fun _ _ => rfl)) (M := 1) (fun x _ => by
      rw [show (-1 : ℝ) * 1 * cos (1 * x) = -cos x by ring_nf, abs_neg]; exact abs_cos_le_one x)
    (x := t') (h := t' - t) (by linarith) (by linarith) le_rfl
  rw [abs_sub_comm] at this
  refine le_trans (le_of_eq ?_) (this.trans (le_of_eq (by ring)))
  ring_nf

/-- C123: on any grid of times and any pair of numbers of points, time stepping differs from the stated solution by at most
`Σ h²/2 + h |λ - 2 a (π f)²| + λ |τ - h|`, where `h` are the step sizes, `τ` the step sizes of the operators in use and `λ`
the factor of the discretization. -/
theorem C123_error {mx my : Nat} (hx : 2 ≤ mx) (hy : 2 ≤ my) {a : ℝ} (ha : 0 ≤ a) {freq : Nat} {g : List ℝ}
    (hs : g.Pairwise (· < ·)) (h0 : tAt g 0 = 0) {u : Nat → Nat × Nat → ℝ} (h : (Heat.make mx my a).Stepping freq g u)
    (i : Nat) (hi : i < g.length) (p q : Nat) (hp : p < mx) (hq : q < my) :
    |u i (p, q) - (Heat.make mx my a).uExact freq (tAt g i) (p, q)| ≤
      ∑ k ∈ Finset.range i, ((tAt g (k + 1) - tAt g k) ^ 2 / 2 +
        (tAt g (k + 1) - tAt g k) * |(Heat.make mx my a).eig freq - 2 * a * (π * freq) ^ 2| +
        (Heat.make mx my a).eig freq *
          |useDt (cacheAfter (tAt g 1 - tAt g 0) (stepSizes g k)) (tAt g (k + 1) - tAt g k) - (tAt g (k + 1) - tAt g k)|) := by
  obtain ⟨c, c0, hrec, hu⟩ := stepping_mode hx hy ha hs h
  set P := Heat.make mx my a with hP
  have hl := eig_nonneg P (show 0 ≤ P.a from ha) freq
  have key : ∀ i, i < g.length → |c i - cos (tAt g i)| ≤
      ∑ k ∈ Finset.range i, ((tAt g (k + 1) - tAt g k) ^ 2 / 2 +
        (tAt g (k + 1) - tAt g k) * |P.eig freq - 2 * a * (π * freq) ^ 2| +
        P.eig freq * |opSize g k - (tAt g (k + 1) - tAt g k)|) := by
    intro i
    induction i with
    | zero => intro _; simp [c0, h0]
    | succ i ih =>
      intro hi
      rw [Finset.sum_range_succ]
      have hmono := tAt_mono hs (i := i) (j := i + 1) (by omega) hi
      have e1 := ih (by omega)
      have e2 := cos_step hmono
      have hτ := mul_nonneg (opSize_nonneg hs hi) hl
      set t := tAt g i
      set t' := tAt g (i + 1)
      set τ := opSize g i
      set lam := P.eig freq
      have er : (1 + τ * lam) * (c (i + 1) - cos t') = (c i - cos t) + (cos t - cos t' - (t' - t) * sin t')
          - (t' - t) * (lam - 2 * a * (π * freq) ^ 2) * cos t' - lam * (τ - (t' - t)) * cos t' := by
        have := hrec i hi
        have es : P.source freq t' = a * 2 * (π * freq) ^ 2 * cos t' - sin t' := rfl
        rw [es] at this
        linear_combination this
      have b1 : |(t' - t) * (lam - 2 * a * (π * freq) ^ 2) * cos t'| ≤ (t' - t) * |lam - 2 * a * (π * freq) ^ 2| := by
        rw [abs_mul, abs_mul, abs_of_nonneg (sub_nonneg.2 hmono)]
        exact mul_le_of_le_one_right (mul_nonneg (sub_nonneg.2 hmono) (abs_nonneg _)) (abs_cos_le_one _)
      have b2 : |lam * (τ - (t' - t)) * cos t'| ≤ lam * |τ - (t' - t)| := by
        rw [abs_mul, abs_mul, abs_of_nonneg hl]
        exact mul_le_of_le_one_right (mul_nonneg hl (abs_nonneg _)) (abs_cos_le_one _)
      have b3 : |c (i + 1) - cos t'| ≤ |(1 + τ * lam) * (c (i + 1) - cos t')| := by
        rw [abs_mul, abs_of_nonneg (show 0 ≤ 1 + τ * lam by linarith)]
        exact le_mul_of_one_le_left (abs_nonneg _) (by linarith)
      refine b3.trans ?_
      rw [er]
      refine (abs_sub _ _).trans ?_
      refine (add_le_add_left ((abs_sub _ _).trans (add_le_add_left (abs_add_le _ _) _)) _).trans ?_
      linarith
  rw [hu i hi p q hp hq, show P.uExact freq (tAt g i) (p, q) = cos (tAt g i) * P.mode freq (p, q) by
    unfold Heat.uExact Heat.mode; ring, ← sub_mul, abs_mul]
  refine (mul_le_of_le_one_right (abs_nonneg _) ?_).trans (key i hi)
  unfold Heat.mode
  rw [abs_mul]
  exact mul_le_one₀ (abs_sin_le_one _) (abs_nonneg _) (abs_sin_le_one _)

/-! ## Equal numbers of points -/

theorem one_sub_cos_le (x : ℝ) : 1 - cos x ≤ x ^ 2 / 2 := by
  have := one_sub_sq_div_two_le_cos (x := x)
  linarith

theorem le_one_sub_cos {x : ℝ} (hx : 0 ≤ x) : x ^ 2 / 2 - x ^ 4 / 24 ≤ 1 - cos x := by
  have hs : 1 - cos x = 2 * sin (x / 2) ^ 2 := by
    have := cos_sq' (x / 2)
    have h2 := cos_two_mul (x / 2)
    rw [show 2 * (x / 2) = x by ring] at h2
    linarith
  rw [hs]
  by_cases h : x ^ 2 ≤ 12
  · have h1 := sin_ge_sub_cube (x := x / 2) (by linarith)
    have h2 : 0 ≤ x / 2 - (x / 2) ^ 3 / 6 := by
      rw [show x / 2 - (x / 2) ^ 3 / 6 = x / 48 * (24 - x ^ 2) by ring]
      exact mul_nonneg (by linarith) (by linarith)
    have h3 := pow_le_pow_left₀ h2 h1 2
    have h4 : 0 ≤ x ^ 6 := by positivity
    nlinarith
  · have h1 : x ^ 2 / 2 - x ^ 4 / 24 ≤ 0 := by nlinarith
    nlinarith [sq_nonneg (sin (x / 2))]

/-- On a square grid the factor of the discretization is that of the differential operator up to second order. -/
theorem eig_square {m : Nat} (hm : 2 ≤ m) {a : ℝ} (ha : 0 ≤ a) (freq : Nat) :
    (Heat.make m m a).eig freq ≤ 2 * a * (π * freq) ^ 2 ∧
    2 * a * (π * freq) ^ 2 - a * (π * freq) ^ 4 / (6 * ((m : ℝ) - 1) ^ 2) ≤ (Heat.make m m a).eig freq := by
  have hm' : 0 < (m : ℝ) - 1 := by
    have : (2 : ℝ) ≤ m := by exact_mod_cast hm
    linarith
  have e : (Heat.make m m a).eig freq = 4 * a * ((m : ℝ) - 1) ^ 2 * (1 - cos (π * freq * (1 / ((m : ℝ) - 1)))) := by
    show 2 * a * ((1 - cos (π * freq * (1 / ((m : ℝ) - 1)))) / (1 / ((m : ℝ) - 1)) ^ 2 +
      (1 - cos (π * freq * (1 / ((m : ℝ) - 1)))) / (1 / ((m : ℝ) - 1)) ^ 2) = _
    field_simp
    ring
  have hw : 0 ≤ π * freq * (1 / ((m : ℝ) - 1)) := by positivity
  have h1 := one_sub_cos_le (π * freq * (1 / ((m : ℝ) - 1)))
  have h2 := le_one_sub_cos hw
  have hc : 0 ≤ 4 * a * ((m : ℝ) - 1) ^ 2 := by positivity
  rw [e]
  constructor
  · refine (mul_le_mul_of_nonneg_left h1 hc).trans (le_of_eq ?_)
    field_simp
    ring
  · refine le_trans (le_of_eq ?_) (mul_le_mul_of_nonneg_left h2 hc)
    field_simp
    ring

/-- C123: with equal numbers `m` of points in both directions and step sizes of at most `h`, sequential time stepping
differs from the stated solution by at most `t_i (h/2 + a (π f)⁴ / (6 (m-1)²) + 2 a (π f)² / 10⁵) + 2 i a (π f)² / 10⁸`; the
terms with the powers of ten come from the reuse of operators.  (The full property has no hypothesis on the numbers of
points and no such terms; it fails, see `C123_counterexample` and `C61_counterexample`.) -/
theorem C123_square_partial {m : Nat} (hm : 2 ≤ m) {a : ℝ} (ha : 0 ≤ a) {freq : Nat} {g : List ℝ}
    (hs : g.Pairwise (· < ·)) (h0 : tAt g 0 = 0) {h : ℝ} (hh : ∀ k, k + 1 < g.length → tAt g (k + 1) - tAt g k ≤ h)
    {u : Nat → Nat × Nat → ℝ} (hu : (Heat.make m m a).Stepping freq g u)
    (i : Nat) (hi : i < g.length) (p q : Nat) (hp : p < m) (hq : q < m) :
    |u i (p, q) - (Heat.make m m a).uExact freq (tAt g i) (p, q)| ≤
      tAt g i * (h / 2 + a * (π * freq) ^ 4 / (6 * ((m : ℝ) - 1) ^ 2) + 2 * a * (π * freq) ^ 2 / 10 ^ 5) +
      i * (2 * a * (π * freq) ^ 2 / 10 ^ 8) := by
  refine (C123_error hm hm ha hs h0 hu i hi p q hp hq).trans ?_
  obtain ⟨e1, e2⟩ := eig_square hm ha freq
  set lam := (Heat.make m m a).eig freq
  set K := 2 * a * (π * freq) ^ 2
  set S := a * (π * freq) ^ 4 / (6 * ((m : ℝ) - 1) ^ 2)
  have hl : 0 ≤ lam := eig_nonneg _ (show 0 ≤ (Heat.make m m a).a from ha) freq
  have hd : |lam - K| ≤ S := abs_le.2 ⟨by linarith, by
    have : 0 ≤ S := by positivity
    linarith⟩
  have term : ∀ k ∈ Finset.range i, ((tAt g (k + 1) - tAt g k) ^ 2 / 2 + (tAt g (k + 1) - tAt g k) * |lam - K| +
      lam * |useDt (cacheAfter (tAt g 1 - tAt g 0) (stepSizes g k)) (tAt g (k + 1) - tAt g k) -
        (tAt g (k + 1) - tAt g k)|) ≤
      (tAt g (k + 1) - tAt g k) * (h / 2 + S + K / 10 ^ 5) + K / 10 ^ 8 := by
    intro k hk
    have hk' : k + 1 < g.length := by have := Finset.mem_range.1 hk; omega
    have hd0 : 0 ≤ tAt g (k + 1) - tAt g k := sub_nonneg.2 (tAt_mono hs (by omega) hk')
    have hcl := C61_close (cacheAfter (tAt g 1 - tAt g 0) (stepSizes g k)) (tAt g (k + 1) - tAt g k)
    unfold isclose at hcl
    rw [abs_of_nonneg hd0] at hcl
    have hk1 := hh k hk'
    set d := tAt g (k + 1) - tAt g k
    set z := |useDt (cacheAfter (tAt g 1 - tAt g 0) (stepSizes g k)) d - d|
    have b1 : lam * z ≤ K * (1 / 10 ^ 8 + 1 / 10 ^ 5 * d) :=
      mul_le_mul e1 hcl (abs_nonneg _) (hl.trans e1)
    have b2 := mul_le_mul_of_nonneg_left hd hd0
    have b3 := mul_le_mul_of_nonneg_left hk1 hd0
    nlinarith
  refine (Finset.sum_le_sum term).trans (le_of_eq ?_)
  rw [Finset.sum_add_distrib, ← Finset.sum_mul, Finset.sum_range_sub (fun k => tAt g k), h0, sub_zero, Finset.sum_const,
    Finset.card_range, nsmul_eq_mul]

/-- C123: without the reuse of operators for other step sizes (step sizes that are equal or not close) the values of time
stepping on a square grid converge: the error is at most `t_i (h/2 + a (π f)⁴ / (6 (m-1)²))`. -/
theorem C123_square {m : Nat} (hm : 2 ≤ m) {a : ℝ} (ha : 0 ≤ a) {freq : Nat} {g : List ℝ}
    (hs : g.Pairwise (· < ·)) (h0 : tAt g 0 = 0) {h : ℝ} (hh : ∀ k, k + 1 < g.length → tAt g (k + 1) - tAt g k ≤ h)
    (hclose : ∀ k l, k + 1 < g.length → l + 1 < g.length → tAt g (k + 1) - tAt g k = tAt g (l + 1) - tAt g l ∨
      ¬ isclose (tAt g (k + 1) - tAt g k) (tAt g (l + 1) - tAt g l))
    {u : Nat → Nat × Nat → ℝ} (hu : (Heat.make m m a).Stepping freq g u)
    (i : Nat) (hi : i < g.length) (p q : Nat) (hp : p < m) (hq : q < m) :
    |u i (p, q) - (Heat.make m m a).uExact freq (tAt g i) (p, q)| ≤
      tAt g i * (h / 2 + a * (π * freq) ^ 4 / (6 * ((m : ℝ) - 1) ^ 2)) := by
  refine (C123_error hm hm ha hs h0 hu i hi p q hp hq).trans ?_
  obtain ⟨e1, e2⟩ := eig_square hm ha freq
  set lam := (Heat.make m m a).eig freq
  set K := 2 * a * (π * freq) ^ 2
  set S := a * (π * freq) ^ 4 / (6 * ((m : ℝ) - 1) ^ 2)
  have hd : |lam - K| ≤ S := abs_le.2 ⟨by linarith, by
    have : 0 ≤ S := by positivity
    linarith⟩
  have term : ∀ k ∈ Finset.range i, ((tAt g (k + 1) - tAt g k) ^ 2 / 2 + (tAt g (k + 1) - tAt g k) * |lam - K| +
      lam * |useDt (cacheAfter (tAt g 1 - tAt g 0) (stepSizes g k)) (tAt g (k + 1) - tAt g k) -
        (tAt g (k + 1) - tAt g k)|) ≤ (tAt g (k + 1) - tAt g k) * (h / 2 + S) := by
    intro k hk
    have hk' : k + 1 < g.length := by have := Finset.mem_range.1 hk; omega
    have hd0 : 0 ≤ tAt g (k + 1) - tAt g k := sub_nonneg.2 (tAt_mono hs (by omega) hk')
    rw [C61_history_partial _ _ _ (fun d hd => by
      rcases List.mem_cons.1 hd with rfl | hd
      · exact hclose 0 k (by omega) hk'
      · obtain ⟨l, hl, rfl⟩ := List.mem_map.1 hd
        exact hclose l k (by have := List.mem_range.1 hl; omega) hk'), sub_self, abs_zero, mul_zero, add_zero]
    have b2 := mul_le_mul_of_nonneg_left hd hd0
    have b3 := mul_le_mul_of_nonneg_left (hh k hk') hd0
    nlinarith
  refine (Finset.sum_le_sum term).trans (le_of_eq ?_)
  rw [← Finset.sum_mul, Finset.sum_range_sub (fun k => tAt g k), h0, sub_zero]

/-! ## Different numbers of points -/

theorem eig_wide {k : Nat} (hk : 1 ≤ k) {a : ℝ} (ha : 0 ≤ a) : 64 * a ≤ (Heat.make (k + 1) (4 * k + 1) a).eig 1 := by
  have hk' : (1 : ℝ) ≤ k := by exact_mod_cast hk
  have e : (Heat.make (k + 1) (4 * k + 1) a).eig 1 =
      2 * a * (16 * (k : ℝ) ^ 2 * (1 - cos (π / k)) + (k : ℝ) ^ 2 * (1 - cos (π / (4 * k)))) := by
    show 2 * a * ((1 - cos (π * (1 : Nat) * (1 / (((k + 1 : Nat) : ℝ) - 1)))) / (1 / (((4 * k + 1 : Nat) : ℝ) - 1)) ^ 2 +
      (1 - cos (π * (1 : Nat) * (1 / (((4 * k + 1 : Nat) : ℝ) - 1)))) / (1 / (((k + 1 : Nat) : ℝ) - 1)) ^ 2) = _
    push_cast
    rw [show (k : ℝ) + 1 - 1 = k by ring, show 4 * (k : ℝ) + 1 - 1 = 4 * k by ring, mul_one, mul_one_div, mul_one_div]
    field_simp
    ring
  rw [e]
  have h1 : 2 / (k : ℝ) ^ 2 ≤ 1 - cos (π / k) := by
    have := cos_le_one_sub_mul_cos_sq (x := π / k) (by
      rw [abs_of_nonneg (by positivity)]
      exact div_le_self pi_pos.le hk')
    have e2 : 2 / π ^ 2 * (π / k) ^ 2 = 2 / (k : ℝ) ^ 2 := by
      have := pi_pos
      field_simp
    linarith
  have h2 := cos_le_one (π / (4 * k))
  have h3 : 2 ≤ (k : ℝ) ^ 2 * (1 - cos (π / k)) := by
    have := mul_le_mul_of_nonneg_left h1 (sq_nonneg (k : ℝ))
    rwa [mul_div_cancel₀ _ (by positivity)] at this
  have h4 : 0 ≤ (k : ℝ) ^ 2 * (1 - cos (π / (4 * k))) := mul_nonneg (sq_nonneg _) (by linarith)
  nlinarith

theorem cos_tangent {t t' : ℝ} (h0 : 0 ≤ t) (ht : t ≤ t') (h1 : t' ≤ π / 2) : cos t - cos t' ≤ (t' - t) * sin t' := by
  have e : cos t = cos t' * cos (t' - t) + sin t' * sin (t' - t) := by
    rw [← cos_sub]; congr 1; ring
  have a1 := cos_nonneg_of_mem_Icc (x := t') ⟨by linarith [pi_pos], h1⟩
  have a2 := sin_nonneg_of_nonneg_of_le_pi (x := t') (by linarith) (by linarith [pi_pos])
  have a3 := cos_le_one (t' - t)
  have a4 := sin_le (x := t' - t) (by linarith)
  nlinarith [mul_nonneg a1 (sub_nonneg.2 a3), mul_nonneg a2 (sub_nonneg.2 a4)]

theorem damp_arith {lam t h : ℝ} (hl : 0 ≤ lam) (ht : 0 ≤ t) (hh : 0 ≤ h) :
    (t + h) / (1 + lam * (t + h)) * (1 + h * lam) ≤ t / (1 + lam * t) + h := by
  have d1 : 0 < 1 + lam * (t + h) := by positivity
  have d2 : 0 < 1 + lam * t := by positivity
  rw [← sub_nonneg]
  have e : t / (1 + lam * t) + h - (t + h) / (1 + lam * (t + h)) * (1 + h * lam) =
      lam * t * h / ((1 + lam * t) * (1 + lam * (t + h))) := by
    field_simp
    ring
  rw [e]
  positivity

theorem damp_mono {t x y z : ℝ} (ht : 0 ≤ t) (hx : 0 ≤ x) (hy : 0 ≤ y) (hz : 0 ≤ z) (h : y ≤ x) :
    (y - z) * t / (1 + y * t) ≤ (x - z) * t / (1 + x * t) := by
  rw [div_le_div_iff₀ (by positivity) (by positivity)]
  have := mul_nonneg (mul_nonneg (sub_nonneg.2 h) ht) (show 0 ≤ 1 + z * t by positivity)
  nlinarith

/-- C123 is false for different numbers of points: with frequency one, `2k + 1` points in the first and `8k + 1` in the
second direction, for every `k ≥ 1`, every grid of times (with step sizes that are equal or not close, so that operators
are not reused) and every positive coefficient, the computed value in the middle of the square is too small by at least
`44 a t cos t / (1 + 64 a t)` at all times `t` up to `π/2`, where the stated solution is `cos t`.  The bound depends neither
on `k` nor on the step sizes. -/
theorem C123_counterexample {k : Nat} (hk : 1 ≤ k) {a : ℝ} (ha : 0 < a) {g : List ℝ} (hs : g.Pairwise (· < ·))
    (h0 : tAt g 0 = 0)
    (hclose : ∀ k l, k + 1 < g.length → l + 1 < g.length → tAt g (k + 1) - tAt g k = tAt g (l + 1) - tAt g l ∨
      ¬ isclose (tAt g (k + 1) - tAt g k) (tAt g (l + 1) - tAt g l))
    {u : Nat → Nat × Nat → ℝ} (hu : (Heat.make (2 * k + 1) (8 * k + 1) a).Stepping 1 g u)
    (i : Nat) (hi : i < g.length) (ht : tAt g i ≤ π / 2) :
    (Heat.make (2 * k + 1) (8 * k + 1) a).uExact 1 (tAt g i) (k, 4 * k) = cos (tAt g i) ∧
    u i (k, 4 * k) ≤ cos (tAt g i) - 44 * a * tAt g i * cos (tAt g i) / (1 + 64 * a * tAt g i) := by
  obtain ⟨c, c0, hrec, hc⟩ := stepping_mode (mx := 2 * k + 1) (my := 8 * k + 1) (by omega) (by omega) ha.le hs hu
  have hlam : 64 * a ≤ (Heat.make (2 * k + 1) (8 * k + 1) a).eig 1 := by
    have := eig_wide (k := 2 * k) (by omega) ha.le
    rwa [show 4 * (2 * k) + 1 = 8 * k + 1 by ring] at this
  set P := Heat.make (2 * k + 1) (8 * k + 1) a with hP
  have hk' : (0 : ℝ) < k := by exact_mod_cast hk
  have hmode : P.mode 1 (k, 4 * k) = 1 := by
    show sin (π * (1 : Nat) * (k : Nat) * (1 / (((2 * k + 1 : Nat) : ℝ) - 1))) *
      sin (π * (1 : Nat) * ((4 * k : Nat) : ℝ) * (1 / (((8 * k + 1 : Nat) : ℝ) - 1))) = 1
    push_cast
    rw [show π * 1 * (k : ℝ) * (1 / (2 * k + 1 - 1)) = π / 2 by rw [add_sub_cancel_right]; field_simp,
      show π * 1 * (4 * (k : ℝ)) * (1 / (8 * k + 1 - 1)) = π / 2 by rw [add_sub_cancel_right]; field_simp; norm_num,
      sin_pi_div_two, one_mul]
  refine ⟨by
    rw [show P.uExact 1 (tAt g i) (k, 4 * k) = P.mode 1 (k, 4 * k) * cos (tAt g i) from rfl, hmode, one_mul], ?_⟩
  rw [hc i hi k (4 * k) (by omega) (by omega), hmode, mul_one]
  set lam := P.eig 1
  have hpi : 2 * a * π ^ 2 ≤ 20 * a := by
    have h1 : π ^ 2 ≤ 10 := by nlinarith [pi_lt_d2, pi_pos]
    nlinarith
  have hl0 : 0 ≤ lam := by linarith
  have hDpos : 0 ≤ lam - 2 * a * π ^ 2 := by linarith
  have key : ∀ j, j ≤ i → c j - cos (tAt g j) ≤
      -((lam - 2 * a * π ^ 2) * cos (tAt g i) * (tAt g j / (1 + lam * tAt g j))) := by
    intro j
    induction j with
    | zero => intro _; simp [c0, h0]
    | succ j ih =>
      intro hj
      have e1 := ih (by omega)
      have hj' : j + 1 < g.length := by omega
      have hmono := tAt_mono hs (i := j) (j := j + 1) (by omega) hj'
      have ht0 : 0 ≤ tAt g j := by rw [← h0]; exact tAt_mono hs (by omega) (by omega)
      have hti := tAt_mono hs hj hi
      have e2 := cos_tangent ht0 hmono (hti.trans ht)
      have hop : opSize g j = tAt g (j + 1) - tAt g j := C61_history_partial _ _ _ (fun d hd => by
        rcases List.mem_cons.1 hd with rfl | hd
        · exact hclose 0 j (by omega) hj'
        · obtain ⟨l, hl, rfl⟩ := List.mem_map.1 hd
          exact hclose l j (by have := List.mem_range.1 hl; omega) hj')
      have er := hrec j hj'
      rw [hop, show P.source 1 (tAt g (j + 1)) = a * 2 * (π * (1 : Nat)) ^ 2 * cos (tAt g (j + 1)) - sin (tAt g (j + 1))
        from rfl, Nat.cast_one, mul_one] at er
      have hcos : cos (tAt g i) ≤ cos (tAt g (j + 1)) :=
        cos_le_cos_of_nonneg_of_le_pi (ht0.trans hmono) (by linarith [pi_pos]) hti
      have hcos0 : 0 ≤ cos (tAt g i) := cos_nonneg_of_mem_Icc ⟨by linarith [pi_pos, ht0.trans (hmono.trans hti)], ht⟩
      have hd := damp_arith hl0 ht0 (sub_nonneg.2 hmono)
      rw [add_sub_cancel] at hd
      set t := tAt g j
      set t' := tAt g (j + 1)
      set C := cos (tAt g i)
      set D := lam - 2 * a * π ^ 2 with hD
      have hpos : 0 < 1 + (t' - t) * lam := by
        have := mul_nonneg (sub_nonneg.2 hmono) hl0
        linarith
      refine le_of_mul_le_mul_left ?_ hpos
      have f1 : (1 + (t' - t) * lam) * (c (j + 1) - cos t') =
          (c j - cos t) + (cos t - cos t' - (t' - t) * sin t') - (t' - t) * D * cos t' := by
        rw [hD]; linear_combination er
      have f2 : (t' - t) * D * C ≤ (t' - t) * D * cos t' :=
        mul_le_mul_of_nonneg_left hcos (mul_nonneg (sub_nonneg.2 hmono) hDpos)
      have f3 := mul_le_mul_of_nonneg_left hd (mul_nonneg hDpos hcos0)
      rw [f1]
      nlinarith
  have hk1 := key i le_rfl
  have ht0 : 0 ≤ tAt g i := by rw [← h0]; exact tAt_mono hs (by omega) hi
  have hcos0 : 0 ≤ cos (tAt g i) := cos_nonneg_of_mem_Icc ⟨by linarith [pi_pos], ht⟩
  have hm := damp_mono ht0 hl0 (show 0 ≤ 64 * a by positivity) (show 0 ≤ 20 * a by positivity) hlam
  have hm2 : (lam - 20 * a) * tAt g i / (1 + lam * tAt g i) ≤
      (lam - 2 * a * π ^ 2) * tAt g i / (1 + lam * tAt g i) :=
    div_le_div_of_nonneg_right (mul_le_mul_of_nonneg_right (by linarith) ht0) (by positivity)
  have hm3 := mul_le_mul_of_nonneg_right (hm.trans hm2) hcos0
  have s1 : (64 * a - 20 * a) * tAt g i / (1 + 64 * a * tAt g i) * cos (tAt g i) =
      44 * a * tAt g i * cos (tAt g i) / (1 + 64 * a * tAt g i) := by ring
  have s2 : (lam - 2 * a * π ^ 2) * tAt g i / (1 + lam * tAt g i) * cos (tAt g i) =
      (lam - 2 * a * π ^ 2) * cos (tAt g i) * (tAt g i / (1 + lam * tAt g i)) := by ring
  rw [s1, s2] at hm3
  linarith

/-! ## Time stepping of the model and of `solve()` -/

/-- Sequential time stepping exists on every grid. -/
theorem exists_stepping (P : Heat ℝ) (ha : 0 ≤ P.a) (freq : Nat) {g : List ℝ} (hs : g.Pairwise (· < ·)) :
    ∃ u, P.Stepping freq g u := by
  classical
  have hpos : ∀ k, k + 1 < g.length → 0 ≤ tAt g (k + 1) - tAt g k := fun k hk =>
    sub_nonneg.2 (tAt_mono hs (by omega) hk)
  have hc : ∀ i, i + 1 < g.length → 0 ≤ cacheAfter (tAt g 1 - tAt g 0) (stepSizes g i) := by
    intro i hi
    rcases List.mem_cons.1 (cacheAfter_mem (tAt g 1 - tAt g 0) (stepSizes g i)) with h | h
    · rw [h]; exact hpos 0 (by omega)
    · obtain ⟨k, hk, e⟩ := List.mem_map.1 h
      rw [← e]
      exact hpos k (by have := List.mem_range.1 hk; omega)
  let next : Nat → (Nat × Nat → ℝ) → Nat × Nat → ℝ := fun i v =>
    if h : ∃ x, P.Step freq (cacheAfter (tAt g 1 - tAt g 0) (stepSizes g i)) v (tAt g i) (tAt g (i + 1)) x then
      h.choose else 0
  let u : Nat → Nat × Nat → ℝ := fun i => Nat.rec (P.uExact freq 0) next i
  refine ⟨u, fun _ _ _ _ => rfl, fun i hi => ?_⟩
  have h := (C123_step ha freq (hc i hi) (tAt_mono hs (i := i) (j := i + 1) (by omega) hi)).1 (u i)
  show P.Step _ _ _ _ _ (next i (u i))
  simp only [next]
  rw [dif_pos h]
  exact h.choose_spec

/-- `timeStepping` of a configuration whose finest problem is the class, every step using the operator of its own step size,
is time stepping in the sense of the theorems above if the step sizes are equal or not close. -/
theorem C123_time_stepping {E : Cfg (Nat × Nat → ℝ) ℝ ℝ ℝ} (P : Heat ℝ) {freq : Nat}
    (hstart : E.start 0 = P.uExact freq 0) (hstep : ∀ v t t', t ≤ t' → P.Step freq (t' - t) v t t' (E.step 0 v t t'))
    (hs : (grid E.ts 0).Pairwise (· < ·))
    (hclose : ∀ k l, k + 1 < npts E.ts 0 → l + 1 < npts E.ts 0 →
      tAt (grid E.ts 0) (k + 1) - tAt (grid E.ts 0) k = tAt (grid E.ts 0) (l + 1) - tAt (grid E.ts 0) l ∨
      ¬ isclose (tAt (grid E.ts 0) (k + 1) - tAt (grid E.ts 0) k) (tAt (grid E.ts 0) (l + 1) - tAt (grid E.ts 0) l)) :
    P.Stepping freq (grid E.ts 0) (timeStepping E) := by
  refine ⟨fun p q _ _ => by rw [show timeStepping E 0 = E.start 0 from rfl, hstart], fun i hi => ?_⟩
  have h := hstep (timeStepping E i) _ _ (tAt_mono hs (i := i) (j := i + 1) (by omega) hi)
  have e1 : useDt (cacheAfter (tAt (grid E.ts 0) 1 - tAt (grid E.ts 0) 0) (stepSizes (grid E.ts 0) i))
      (tAt (grid E.ts 0) (i + 1) - tAt (grid E.ts 0) i) = tAt (grid E.ts 0) (i + 1) - tAt (grid E.ts 0) i :=
    C61_history_partial _ _ _ (fun d hd => by
      rcases List.mem_cons.1 hd with rfl | hd
      · exact hclose 0 i (show 0 + 1 < (grid E.ts 0).length by omega) hi
      · obtain ⟨l, hl, rfl⟩ := List.mem_map.1 hd
        exact hclose l i (show l + 1 < (grid E.ts 0).length by have := List.mem_range.1 hl; omega) hi)
  have e2 : useDt (tAt (grid E.ts 0) (i + 1) - tAt (grid E.ts 0) i) (tAt (grid E.ts 0) (i + 1) - tAt (grid E.ts 0) i) =
      tAt (grid E.ts 0) (i + 1) - tAt (grid E.ts 0) i := by
    unfold useDt
    exact ite_self _
  intro k l hk hl
  have := h k l hk hl
  rw [e2] at this
  rw [e1]
  exact this

/-! ## Examples -/

theorem exSteps_close : ∀ k l, k + 1 < [0, (1 : ℝ) / 2, 1].length → l + 1 < [0, (1 : ℝ) / 2, 1].length →
    tAt [0, (1 : ℝ) / 2, 1] (k + 1) - tAt [0, (1 : ℝ) / 2, 1] k =
      tAt [0, (1 : ℝ) / 2, 1] (l + 1) - tAt [0, (1 : ℝ) / 2, 1] l ∨
    ¬ isclose (tAt [0, (1 : ℝ) / 2, 1] (k + 1) - tAt [0, (1 : ℝ) / 2, 1] k)
      (tAt [0, (1 : ℝ) / 2, 1] (l + 1) - tAt [0, (1 : ℝ) / 2, 1] l) := by
  intro k l hk hl
  simp only [List.length_cons, List.length_nil] at hk hl
  left
  have hk : k = 0 ∨ k = 1 := by omega
  have hl : l = 0 ∨ l = 1 := by omega
  rcases hk with rfl | rfl <;> rcases hl with rfl | rfl <;> norm_num [tAt]

/-- `C123_square` and `C123_square_partial` for every number of points. -/
example (m : Nat) (hm : 2 ≤ m) : ∃ u, (Heat.make m m 1).Stepping 3 [0, 1 / 2, 1] u ∧
    (∀ p q, p < m → q < m → |u 2 (p, q) - (Heat.make m m 1).uExact 3 1 (p, q)| ≤
      1 * (1 / 2 / 2 + 1 * (π * (3 : Nat)) ^ 4 / (6 * ((m : ℝ) - 1) ^ 2))) := by
  have hs : [0, (1 : ℝ) / 2, 1].Pairwise (· < ·) := by norm_num
  obtain ⟨u, hu⟩ := exists_stepping (Heat.make m m 1) (show (0 : ℝ) ≤ 1 by norm_num) 3 hs
  refine ⟨u, hu, fun p q hp hq => ?_⟩
  have hh : ∀ k, k + 1 < [0, (1 : ℝ) / 2, 1].length →
      tAt [0, (1 : ℝ) / 2, 1] (k + 1) - tAt [0, (1 : ℝ) / 2, 1] k ≤ 1 / 2 := by
    intro k hk
    simp only [List.length_cons, List.length_nil] at hk
    have hk : k = 0 ∨ k = 1 := by omega
    rcases hk with rfl | rfl <;> norm_num [tAt]
  have := C123_square_partial hm zero_le_one hs (by simp [tAt]) hh hu 2 (by simp) p q hp hq
  exact C123_square hm zero_le_one hs (by simp [tAt]) hh exSteps_close hu 2 (by simp) p q hp hq

/-- `C123_counterexample` for every `k`: at time one the midpoint value is below `cos 1` by a third of it or more. -/
example (k : Nat) (hk : 1 ≤ k) : ∃ u, (Heat.make (2 * k + 1) (8 * k + 1) 1).Stepping 1 [0, 1 / 2, 1] u ∧
    u 2 (k, 4 * k) ≤ cos 1 / 2 := by
  have hs : [0, (1 : ℝ) / 2, 1].Pairwise (· < ·) := by norm_num
  obtain ⟨u, hu⟩ := exists_stepping (Heat.make (2 * k + 1) (8 * k + 1) 1) (show (0 : ℝ) ≤ 1 by norm_num) 1 hs
  refine ⟨u, hu, ?_⟩
  have h := (C123_counterexample hk one_pos hs (by simp [tAt]) exSteps_close hu 2 (by simp)
    (by simp only [tAt]; norm_num; linarith [pi_gt_three])).2
  have e : tAt [0, (1 : ℝ) / 2, 1] 2 = 1 := by norm_num [tAt]
  rw [e] at h
  have := cos_one_pos
  linarith

/-- `C123_time_stepping` on the grid 0, 1, 3, 4, 10. -/
example (m : Nat) : ∃ E : Cfg (Nat × Nat → ℝ) ℝ ℝ ℝ, (Heat.make m m 1).Stepping 1 (grid E.ts 0) (timeStepping E) := by
  classical
  let st : Nat → (Nat × Nat → ℝ) → ℝ → ℝ → Nat × Nat → ℝ := fun _ v t t' =>
    if h : ∃ x, (Heat.make m m 1).Step 1 (t' - t) v t t' x then h.choose else 0
  refine ⟨exTol st ((Heat.make m m 1).uExact 1 0) 0 false 0 (fun _ => 0) norm2, C123_time_stepping _ rfl ?_ ?_ ?_⟩
  · intro v t t' ht
    have h := (C123_step (P := Heat.make m m 1) (show (0 : ℝ) ≤ 1 by norm_num) 1 (sub_nonneg.2 ht) ht).1 v
    show (Heat.make m m 1).Step 1 (t' - t) v t t' (st 0 v t t')
    simp only [st]
    rw [dif_pos h]
    exact h.choose_spec
  · exact (exTol_good st ((Heat.make m m 1).uExact 1 0) 0 false (Or.inl rfl) (fun _ => 0) norm2).1.valid.sorted 0
  · intro k l hk hl
    have hk : k = 0 ∨ k = 1 ∨ k = 2 ∨ k = 3 := by
      have : k + 1 < 5 := hk
      omega
    have hl : l = 0 ∨ l = 1 ∨ l = 2 ∨ l = 3 := by
      have : l + 1 < 5 := hl
      omega
    show tAt [0, (1 : ℝ), 3, 4, 10] (k + 1) - tAt [0, (1 : ℝ), 3, 4, 10] k = _ ∨ ¬ isclose
      (tAt [0, (1 : ℝ), 3, 4, 10] (k + 1) - tAt [0, (1 : ℝ), 3, 4, 10] k)
      (tAt [0, (1 : ℝ), 3, 4, 10] (l + 1) - tAt [0, (1 : ℝ), 3, 4, 10] l)
    rcases hk with rfl | rfl | rfl | rfl <;> rcases hl with rfl | rfl | rfl | rfl <;>
      norm_num [tAt, isclose, exTol, exRealGrid, grid, abs_le]

end Pymgrit.Petsc
