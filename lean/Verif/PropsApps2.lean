import Verif.PropsApps1

/-!
# Consistency of the two-point integrators (C50, C58) and the advection step (C49)
-/

namespace Pymgrit.Apps
open Matrix Lin

variable {K : Type} [Field K] [LinearOrder K] [IsStrictOrderedRing K]

/-! ## BDF2 (C50) -/

/-- Specification: a solution that is a quadratic polynomial in time at every spatial point. -/
def quad {n : Nat} (p0 p1 p2 : Fin n → K) (t : K) : Fin n → K := fun i => p0 i + p1 i * t + p2 i * t ^ 2

/-- Its time derivative. -/
def quad' {n : Nat} (p1 p2 : Fin n → K) (t : K) : Fin n → K := fun i => p1 i + 2 * p2 i * t

theorem bdf2_coeff_pos {tau sig : K} (ht : 0 < tau) (hs : 0 < sig) :
    0 < (1 + 2 * (tau / sig)) / (tau * (1 + tau / sig)) := by
  have : 0 < tau / sig := div_pos ht hs
  positivity

theorem bdf2_identity {tau sig : K} (ht : 0 < tau) (hs : 0 < sig) (p0 p1 p2 s : K) :
    (1 + 2 * (tau / sig)) / (tau * (1 + tau / sig)) * (p0 + p1 * s + p2 * s ^ 2)
      - (1 + tau / sig) / tau * (p0 + p1 * (s - tau) + p2 * (s - tau) ^ 2)
      + (tau / sig) ^ 2 / (tau * (1 + tau / sig)) *
        (p0 + p1 * (s - tau - sig) + p2 * (s - tau - sig) ^ 2)
      = p1 + 2 * p2 * s := by
  have h1 : tau ≠ 0 := ht.ne'
  have h2 : sig ≠ 0 := hs.ne'
  have h3 : sig + tau ≠ 0 := (add_pos hs ht).ne'
  have h4 : 1 + tau / sig = (sig + tau) / sig := by field_simp
  rw [h4]
  field_simp
  ring

theorem bdf2Solve_unique {n : Nat} {a : K} (dx : K) (ha : 0 ≤ a) (f first second : Fin n → K)
    {tau sig : K} (ht : 0 < tau) (hs : 0 < sig) :
    ∃! x, bdf2Solve (heatMatrix n a dx) f first second tau sig x := by
  have := heat_dominant n dx ha zero_le_one ((1 + 2 * (tau / sig)) / (tau * (1 + tau / sig)))
  rw [one_smul] at this
  exact this.existsUnique (bdf2_coeff_pos ht hs) _

theorem bdf2Solve_quad {n : Nat} (A : Matrix (Fin n) (Fin n) K) (p0 p1 p2 : Fin n → K)
    {tau sig : K} (ht : 0 < tau) (hs : 0 < sig) (s : K) :
    bdf2Solve A (quad' p1 p2 s + A.mulVec (quad p0 p1 p2 s)) (quad p0 p1 p2 (s - tau - sig))
      (quad p0 p1 p2 (s - tau)) tau sig (quad p0 p1 p2 s) := by
  unfold bdf2Solve Solves
  simp only
  rw [Matrix.add_mulVec, Matrix.smul_mulVec, Matrix.one_mulVec]
  funext i
  have := bdf2_identity ht hs (p0 i) (p1 i) (p2 i) s
  simp only [Pi.add_apply, Pi.sub_apply, Pi.smul_apply, smul_eq_mul, quad, quad']
  linear_combination this

/-- For every size, coefficient, positive spacing and step: if the exact solution is quadratic in time
(source chosen accordingly, with the spatial operator of the code), then from its values at
`(t0, t0 + dtau)` the step has exactly one result, the values at `(t1, t1 + dtau)`. -/
theorem C50_quadratic {n : Nat} {a : K} (dx : K) (ha : 0 ≤ a) (p0 p1 p2 : Fin n → K)
    (rhs : K → Fin n → K)
    (hrhs : ∀ t, rhs t = quad' p1 p2 t + (heatMatrix n a dx).mulVec (quad p0 p1 p2 t))
    {dtau t0 t1 : K} (hd : 0 < dtau) (ht : t0 + dtau < t1) (x : (Fin n → K) × (Fin n → K)) :
    bdf2Step a dx rhs dtau (quad p0 p1 p2 t0, quad p0 p1 p2 (t0 + dtau)) t0 t1 x ↔
      x = (quad p0 p1 p2 t1, quad p0 p1 p2 (t1 + dtau)) := by
  have htau : 0 < t1 - t0 - dtau := by linarith
  have e1 := bdf2Solve_quad (heatMatrix n a dx) p0 p1 p2 htau hd t1
  rw [← hrhs, show t1 - (t1 - t0 - dtau) - dtau = t0 by ring,
    show t1 - (t1 - t0 - dtau) = t0 + dtau by ring] at e1
  have e2 := bdf2Solve_quad (heatMatrix n a dx) p0 p1 p2 hd htau (t1 + dtau)
  rw [← hrhs, show t1 + dtau - dtau - (t1 - t0 - dtau) = t0 + dtau by ring,
    show t1 + dtau - dtau = t1 by ring] at e2
  constructor
  · rintro ⟨h1, h2⟩
    have k1 := (bdf2Solve_unique dx ha _ _ _ htau hd).unique h1 e1
    rw [k1] at h2
    have k2 := (bdf2Solve_unique dx ha _ _ _ hd htau).unique h2 e2
    exact Prod.ext k1 k2
  · rintro rfl
    exact ⟨e1, e2⟩

/-- With vanishing spatial operator and no source only the constants remain: the step keeps them. -/
theorem C50_steady {n : Nat} (dx : K) (c : Fin n → K) {dtau t0 t1 : K} (hd : 0 < dtau)
    (ht : t0 + dtau < t1) : bdf2Step 0 dx (fun _ _ => 0) dtau (c, c) t0 t1 (c, c) := by
  have := (C50_quadratic dx (le_refl (0 : K)) c 0 0 (fun _ _ => 0) (by
    intro t; funext i
    simp [quad', heatMatrix_mulVec]) hd ht (c, c)).2
  have e : ∀ t, quad c 0 0 t = c := by intro t; funext i; simp [quad]
  rw [e, e, e, e] at this
  exact this rfl

/-- Every step with positive spacings has exactly one result. -/
theorem C50_wellposed {n : Nat} {a : K} (dx : K) (ha : 0 ≤ a) (rhs : K → Fin n → K)
    (u : (Fin n → K) × (Fin n → K)) {dtau t0 t1 : K} (hd : 0 < dtau) (ht : t0 + dtau < t1) :
    ∃! x, bdf2Step a dx rhs dtau u t0 t1 x := by
  have htau : 0 < t1 - t0 - dtau := by linarith
  obtain ⟨x1, h1, u1⟩ := bdf2Solve_unique dx ha (rhs t1) u.1 u.2 htau hd
  obtain ⟨x2, h2, u2⟩ := bdf2Solve_unique dx ha (rhs (t1 + dtau)) u.2 x1 hd htau
  refine ⟨(x1, x2), ⟨h1, h2⟩, ?_⟩
  rintro ⟨y1, y2⟩ ⟨g1, g2⟩
  have k1 := u1 _ g1
  simp only at k1
  subst k1
  exact Prod.ext rfl (u2 _ g2)

/-- The start pair of `Heat1DBDF2` is exact for solutions that are quadratic in time, so the whole
sequence of pairs is. -/
theorem C50_start {n : Nat} {a : K} (dx : K) (ha : 0 ≤ a) (p0 p1 p2 : Fin n → K)
    (rhs : K → Fin n → K)
    (hrhs : ∀ t, rhs t = quad' p1 p2 t + (heatMatrix n a dx).mulVec (quad p0 p1 p2 t))
    {dtau : K} (t0 : K) (hd : 0 < dtau) (x : (Fin n → K) × (Fin n → K)) :
    bdf2Start a dx rhs dtau t0 (quad p0 p1 p2 t0) x ↔
      x = (quad p0 p1 p2 t0, quad p0 p1 p2 (t0 + dtau)) := by
  have e : Solves ((dtau / 2) • heatMatrix n a dx + 1)
      ((1 - (dtau / 2) • heatMatrix n a dx).mulVec (quad p0 p1 p2 t0)
        + (dtau / 2) • (rhs t0 + rhs (t0 + dtau))) (quad p0 p1 p2 (t0 + dtau)) := by
    unfold Solves
    rw [step_matrix_mulVec, Matrix.sub_mulVec, Matrix.one_mulVec, Matrix.smul_mulVec, hrhs, hrhs]
    funext i
    simp only [Pi.add_apply, Pi.sub_apply, Pi.smul_apply, smul_eq_mul]
    have h2 : (2 : K) ≠ 0 := two_ne_zero
    simp only [quad']
    have : quad p0 p1 p2 (t0 + dtau) i = quad p0 p1 p2 t0 i +
        dtau / 2 * ((p1 i + 2 * p2 i * t0) + (p1 i + 2 * p2 i * (t0 + dtau))) := by
      simp only [quad]; field_simp; ring
    linear_combination this
  constructor
  · rintro ⟨h1, h2⟩
    exact Prod.ext h1 (((heat_dominant_one n dx ha (by linarith : (0:K) ≤ dtau / 2)).existsUnique
      one_pos _).unique h2 e)
  · rintro rfl
    exact ⟨rfl, e⟩

example : bdf2Step (n := 3) (0 : ℚ) 1 (quad' (fun _ => 1) (fun _ => 1)) (1 / 4)
    (quad (fun _ => 0) (fun _ => 1) (fun _ => 1) 0, quad (fun _ => 0) (fun _ => 1) (fun _ => 1) (0 + 1 / 4))
    0 1 (quad (fun _ => 0) (fun _ => 1) (fun _ => 1) 1,
      quad (fun _ => 0) (fun _ => 1) (fun _ => 1) (1 + 1 / 4)) := by
  refine (C50_quadratic 1 (le_refl 0) _ _ _ _ (fun t => ?_) (by norm_num) (by norm_num) _).2 rfl
  funext i
  simp [heatMatrix_mulVec]

/-! ## BDF1 (C58) -/

/-- Backward Euler is exact for solutions that are linear in time. -/
theorem C58_linear {n : Nat} {a : K} (dx : K) (ha : 0 ≤ a) (p0 p1 : Fin n → K) (rhs : K → Fin n → K)
    (hrhs : ∀ t, rhs t = quad' p1 0 t + (heatMatrix n a dx).mulVec (quad p0 p1 0 t))
    {t0 t1 : K} (ht : t0 ≤ t1) (x : Fin n → K) :
    heat1dStep a dx rhs (quad p0 p1 0 t0) t0 t1 x ↔ x = quad p0 p1 0 t1 := by
  have e : heat1dStep a dx rhs (quad p0 p1 0 t0) t0 t1 (quad p0 p1 0 t1) := by
    unfold heat1dStep Solves
    rw [step_matrix_mulVec, hrhs]
    funext i
    simp only [Pi.add_apply, Pi.smul_apply, smul_eq_mul, quad', Pi.zero_apply]
    have : quad p0 p1 0 t1 i = quad p0 p1 0 t0 i + (t1 - t0) * p1 i := by
      simp only [quad, Pi.zero_apply]; ring
    linear_combination this
  exact ⟨fun h => (C46_wellposed dx ha rhs _ ht).unique h e, fun h => h ▸ e⟩

/-- So is the pair integrator `Heat1DBDF1`. -/
theorem C58_linear_pair {n : Nat} {a : K} (dx : K) (ha : 0 ≤ a) (p0 p1 : Fin n → K)
    (rhs : K → Fin n → K)
    (hrhs : ∀ t, rhs t = quad' p1 0 t + (heatMatrix n a dx).mulVec (quad p0 p1 0 t))
    {dtau t0 t1 : K} (hd : 0 ≤ dtau) (ht : t0 + dtau ≤ t1) (v : Fin n → K)
    (x : (Fin n → K) × (Fin n → K)) :
    bdf1Step a dx rhs dtau (v, quad p0 p1 0 (t0 + dtau)) t0 t1 x ↔
      x = (quad p0 p1 0 t1, quad p0 p1 0 (t1 + dtau)) := by
  rw [C58_two_steps]
  simp only
  rw [C58_linear dx ha p0 p1 rhs hrhs ht]
  constructor
  · rintro ⟨h1, h2⟩
    rw [h1, C58_linear dx ha p0 p1 rhs hrhs (by linarith)] at h2
    exact Prod.ext h1 h2
  · rintro rfl
    exact ⟨rfl, (C58_linear dx ha p0 p1 rhs hrhs (by linarith) _).2 rfl⟩

/-! ## Advection (C49) -/

theorem advectionMatrix_apply {n : Nat} (hn : 2 ≤ n) (c dx : K) (i j : Fin n) :
    advectionMatrix n c dx i j = (if (j : Int) = i then c / dx else 0) +
      (if (j : Int) = ((if (i : Nat) = 0 then n - 1 else (i : Nat) - 1 : Nat) : Int) then -(c / dx) else 0) := by
  unfold advectionMatrix diags
  have hj := j.isLt
  by_cases hi : (i : Nat) = 0
  · simp only [hi, if_true]
    by_cases h1 : (j : Nat) = n - 1
    · have h2 : ¬ (j : Int) = ((0 : Nat) : Int) := by omega
      have h3 : (j : Int) = ((n - 1 : Nat) : Int) := by omega
      simp only [h1, and_self, if_true]
      rw [if_neg (by omega), zero_add]
    · have h3 : ¬ (j : Int) = ((n - 1 : Nat) : Int) := by omega
      rw [if_neg (by omega), if_neg h3, add_zero]
      by_cases h0 : (j : Nat) = 0
      · simp [h0]
      · have e1 : ¬ (0 : Int) = (j : Int) - ((0 : Nat) : Int) := by omega
        have e2 : ¬ (-1 : Int) = (j : Int) - ((0 : Nat) : Int) := by omega
        have e3 : ¬ (j : Int) = ((0 : Nat) : Int) := by omega
        simp only [List.filter_cons, e1, e2, decide_false, e3, if_false]
        simp
  · rw [if_neg (by omega), if_neg hi]
    by_cases h0 : (j : Int) = i
    · have e2 : ¬ (-1 : Int) = (j : Int) - i := by omega
      have e1 : (0 : Int) = (j : Int) - i := by omega
      have h2 : ¬ (j : Int) = (((i : Nat) - 1 : Nat) : Int) := by omega
      rw [if_pos h0, if_neg h2]
      simp only [List.filter_cons, ← e1, List.filter_nil]
      simp
    · by_cases h1 : (j : Int) = ((i : Nat) - 1 : Nat)
      · have e1 : ¬ (0 : Int) = (j : Int) - i := by omega
        have e2 : (-1 : Int) = (j : Int) - i := by omega
        simp only [List.filter_cons, ← e2, if_neg h0, if_pos h1, List.filter_nil]
        simp
      · have e1 : ¬ (0 : Int) = (j : Int) - i := by omega
        have e2 : ¬ (-1 : Int) = (j : Int) - i := by omega
        simp only [List.filter_cons, e1, e2, if_neg h0, if_neg h1, List.filter_nil]
        simp

/-- Periodic neighbour to the left. -/
def pred {n : Nat} (i : Fin n) : Fin n :=
  ⟨if (i : Nat) = 0 then n - 1 else (i : Nat) - 1, by have := i.isLt; split <;> omega⟩

/-- Periodic neighbour to the right. -/
def succ {n : Nat} (i : Fin n) : Fin n :=
  ⟨if (i : Nat) = n - 1 then 0 else (i : Nat) + 1, by have := i.isLt; split <;> omega⟩

theorem eq_pred_iff {n : Nat} (i j : Fin n) : j = pred i ↔ i = succ j := by
  have hi := i.isLt
  have hj := j.isLt
  rw [Fin.ext_iff, Fin.ext_iff]
  simp only [pred, succ]
  split <;> split <;> omega

theorem advection_entry {n : Nat} (hn : 2 ≤ n) (c dx : K) (i j : Fin n) :
    advectionMatrix n c dx i j = (if j = i then c / dx else 0) +
      (if j = pred i then -(c / dx) else 0) := by
  rw [advectionMatrix_apply hn]
  have e1 : ((j : Int) = i) = (j = i) := by rw [Fin.ext_iff]; exact propext (by omega)
  have e2 : ((j : Int) = ((if (i : Nat) = 0 then n - 1 else (i : Nat) - 1 : Nat) : Int)) = (j = pred i) := by
    rw [Fin.ext_iff]
    simp only [pred]
    exact propext (by omega)
  simp only [e1, e2]

theorem pred_ne {n : Nat} (hn : 2 ≤ n) (i : Fin n) : pred i ≠ i := by
  intro h
  have hv := congrArg Fin.val h
  have := i.isLt
  simp only [pred] at hv
  split at hv <;> omega

/-- The step is backward Euler with the periodic upwind difference `(c/dx) (x_i - x_(i-1))`. -/
theorem C49_stencil {n : Nat} (hn : 2 ≤ n) (c dx : K) (u : Fin n → K) (t0 t1 : K) (x : Fin n → K) :
    advectionStep c dx u t0 t1 x ↔
      ∀ i, x i + (t1 - t0) * (c / dx * (x i - x (pred i))) = u i := by
  unfold advectionStep Solves
  rw [step_matrix_mulVec, funext_iff]
  refine forall_congr' fun i => ?_
  have : (advectionMatrix n c dx).mulVec x i = c / dx * (x i - x (pred i)) := by
    simp only [Matrix.mulVec, dotProduct, advection_entry hn, add_mul, Finset.sum_add_distrib,
      ite_mul, zero_mul, Finset.sum_ite_eq', Finset.sum_ite_eq, Finset.mem_univ, if_true]
    ring
  rw [Pi.add_apply, Pi.smul_apply, smul_eq_mul, this, add_comm]

theorem advection_dominant {n : Nat} (hn : 2 ≤ n) {c dx dt : K} (h : 0 ≤ dt * (c / dx)) :
    Dominant 1 (dt • advectionMatrix n c dx + 1) ∧
    Dominant 1 (dt • advectionMatrix n c dx + 1).transpose := by
  have hd : ∀ i, (dt • advectionMatrix n c dx + 1) i i = dt * (c / dx) + 1 := by
    intro i
    rw [Matrix.add_apply, Matrix.smul_apply, advection_entry hn, if_pos rfl,
      if_neg (pred_ne hn i).symm]
    simp
  have ho : ∀ i j, j ≠ i → |(dt • advectionMatrix n c dx + 1) i j| =
      if j = pred i then dt * (c / dx) else 0 := by
    intro i j hj
    rw [Matrix.add_apply, Matrix.smul_apply, advection_entry hn, if_neg hj,
      Matrix.one_apply_ne hj.symm, add_zero, zero_add]
    split
    · rw [smul_eq_mul, mul_neg, abs_neg, abs_of_nonneg h]
    · simp
  constructor
  · intro i
    rw [hd, Finset.sum_congr rfl fun j hj => ho i j (Finset.ne_of_mem_erase hj)]
    rw [Finset.sum_ite_eq' (Finset.univ.erase i) (pred i) fun _ => dt * (c / dx)]
    split <;> linarith
  · intro i
    rw [Matrix.transpose_apply, hd, Finset.sum_congr rfl fun j hj =>
      show |(dt • advectionMatrix n c dx + 1).transpose i j| =
        if j = succ i then dt * (c / dx) else 0 from by
        rw [Matrix.transpose_apply, ho j i (Finset.ne_of_mem_erase hj).symm]
        exact if_congr (eq_pred_iff j i) rfl rfl]
    rw [Finset.sum_ite_eq' (Finset.univ.erase i) (succ i) fun _ => dt * (c / dx)]
    split <;> linarith

/-- Exactly one solution, for every size and step with `c * dt ≥ 0`. -/
theorem C49_wellposed {n : Nat} (hn : 2 ≤ n) {c dx : K} (u : Fin n → K) {t0 t1 : K} (hdx : 0 < dx)
    (hc : 0 ≤ c * (t1 - t0)) : ∃! x, advectionStep c dx u t0 t1 x := by
  have h : 0 ≤ (t1 - t0) * (c / dx) := by
    rw [← mul_div_assoc, mul_comm]; exact div_nonneg hc hdx.le
  exact (advection_dominant hn h).1.existsUnique one_pos _

/-- The sum of the values is preserved (for every step that has a result). -/
theorem C49_mass {n : Nat} (hn : 2 ≤ n) (c dx : K) (u : Fin n → K) (t0 t1 : K) {x : Fin n → K}
    (hx : advectionStep c dx u t0 t1 x) : ∑ i, x i = ∑ i, u i := by
  rw [C49_stencil hn] at hx
  rw [← Finset.sum_congr rfl fun i _ => hx i, Finset.sum_add_distrib, ← Finset.mul_sum,
    ← Finset.mul_sum, Finset.sum_sub_distrib]
  have : ∑ i, x (pred i) = ∑ i, x i := by
    refine Finset.sum_bij (fun i _ => pred i) (fun _ _ => Finset.mem_univ _) ?_ ?_ (fun _ _ => rfl)
    · intro i _ j _ h
      have h1 := (eq_pred_iff i (pred i)).1 rfl
      have h2 := (eq_pred_iff j (pred i)).1 h
      exact h1.trans h2.symm
    · intro j _
      exact ⟨succ j, Finset.mem_univ _, ((eq_pred_iff (succ j) j).2 rfl).symm⟩
  rw [this]
  ring

/-- Neither the maximum absolute value nor the Euclidean norm grows. -/
theorem C49_max {n : Nat} (hn : 2 ≤ n) {c dx : K} (u : Fin n → K) {t0 t1 : K} (hdx : 0 < dx)
    (hc : 0 ≤ c * (t1 - t0)) {x : Fin n → K} (hx : advectionStep c dx u t0 t1 x) {b : K}
    (hu : ∀ i, |u i| ≤ b) (i : Fin n) : |x i| ≤ b := by
  have h : 0 ≤ (t1 - t0) * (c / dx) := by
    rw [← mul_div_assoc, mul_comm]; exact div_nonneg hc hdx.le
  have := (advection_dominant hn h).1.bound zero_le_one hx hu i
  rwa [one_mul] at this

theorem C49_norm {n : Nat} (hn : 2 ≤ n) {c dx : K} (u : Fin n → K) {t0 t1 : K} (hdx : 0 < dx)
    (hc : 0 ≤ c * (t1 - t0)) {x : Fin n → K} (hx : advectionStep c dx u t0 t1 x) :
    ∑ i, x i ^ 2 ≤ ∑ i, u i ^ 2 := by
  have h : 0 ≤ (t1 - t0) * (c / dx) := by
    rw [← mul_div_assoc, mul_comm]; exact div_nonneg hc hdx.le
  have := (advection_dominant hn h).1.euclid (advection_dominant hn h).2 hx
  simpa only [pow_two] using this

example : advectionStep (n := 2) (1 : ℚ) 1 ![3, 0] 0 1 ![2, 1] := by
  rw [C49_stencil (le_refl 2)]
  intro i
  fin_cases i <;> simp [pred] <;> norm_num

end Pymgrit.Apps
