import Verif.PropsApps2

/-!
# The two-dimensional heat equation (C47, C48, C59)
-/

namespace Pymgrit.Apps
open Matrix Lin

variable {K : Type} [Field K]

/-! ## The matrix (C47) -/

/-- Interior grid point of the flattened index `k`. -/
def innerIdx (nx ny k : Nat) : Prop :=
  1 ≤ k / ny ∧ k / ny + 1 < nx ∧ 1 ≤ k % ny ∧ k % ny + 1 < ny

instance (nx ny k : Nat) : Decidable (innerIdx nx ny k) := by unfold innerIdx; infer_instance

theorem sub_mod_iff {ny i lo : Nat} (h : lo ≤ i) (r : Nat) (hlo : lo % ny = r) (hr : r < ny) :
    (i - lo) % ny = 0 ↔ i % ny = r := by
  have hny : 0 < ny := by omega
  constructor
  · intro h0
    obtain ⟨q, hq⟩ := Nat.dvd_of_mod_eq_zero h0
    have : i = lo + ny * q := by omega
    rw [this, Nat.add_mul_mod_self_left, hlo]
  · intro h0
    have h1 : i ≡ lo [MOD ny] := by
      show i % ny = lo % ny
      rw [h0, hlo]
    exact Nat.mod_eq_zero_of_dvd ((Nat.modEq_iff_dvd' h).1 h1.symm)

theorem diags_apply (n : Nat) (ds : List ((Nat → K) × Int)) (i j : Fin n) :
    diags n ds i j =
      (ds.map fun d => if (j : Int) = i + d.2 then d.1 (min (i : Nat) (j : Nat)) else 0).sum := by
  unfold diags
  induction ds with
  | nil => rfl
  | cons d ds ih =>
    rw [List.map_cons, List.sum_cons, ← ih, List.filter_cons]
    by_cases h : d.2 = (j : Int) - i
    · rw [if_pos (by simpa using h), if_pos (by omega), List.map_cons, List.sum_cons]
    · rw [if_neg (by simpa using h), if_neg (by omega), zero_add]

/-- Linear facts about a flattened index. -/
theorem idx_facts {nx ny k : Nat} (hny : 2 ≤ ny) (hk : k < nx * ny) :
    ∃ p, k = p + k % ny ∧ k % ny < ny ∧ (1 ≤ k / ny ↔ ny ≤ p) ∧
      (k / ny + 1 < nx ↔ p + 2 * ny ≤ nx * ny) ∧ (p = 0 ∨ ny ≤ p) ∧
      (p + ny = nx * ny ∨ p + 2 * ny ≤ nx * ny) := by
  have h0 : 0 < ny := by omega
  have hq : k / ny < nx := (Nat.div_lt_iff_lt_mul h0).2 hk
  have hdm := Nat.div_add_mod k ny
  have hlt := Nat.mod_lt k h0
  generalize k / ny = q at *
  refine ⟨ny * q, hdm.symm, hlt, ?_, ?_, ?_, ?_⟩
  · constructor
    · intro h; exact Nat.le_mul_of_pos_right _ h
    · intro h
      rcases Nat.eq_zero_or_pos q with hc | hc
      · rw [hc, Nat.mul_zero] at h; omega
      · exact hc
  · rw [show ny * q + 2 * ny = (q + 2) * ny by ring, Nat.mul_le_mul_right_iff h0]
    omega
  · rcases Nat.eq_zero_or_pos q with h | h
    · left; rw [h, Nat.mul_zero]
    · right; exact Nat.le_mul_of_pos_right _ h
  · rcases Nat.lt_or_ge (q + 1) nx with h | h
    · right
      rw [show ny * q + 2 * ny = (q + 2) * ny by ring]
      exact Nat.mul_le_mul_right _ h
    · left
      rw [show nx = q + 1 by omega]
      ring

theorem two_mod {ny : Nat} (hny : 2 ≤ ny) : (2 * ny - 1) % ny = ny - 1 := by
  rw [show 2 * ny - 1 = (ny - 1) + ny * 1 by omega, Nat.add_mul_mod_self_left]
  exact Nat.mod_eq_of_lt (by omega)

/-- The assembled matrix, entry by entry: the five-point stencil in the rows of interior points, zero
in all other rows. -/
theorem C47_entries {nx ny : Nat} (hny : 2 ≤ ny) (a dx dy : K) (i j : Fin (nx * ny)) :
    heat2dMatrix nx ny a dx dy i j =
      if innerIdx nx ny i then
        (if (j : Int) = i then 2 * (a / dx ^ 2 + a / dy ^ 2) else 0) +
        ((if (j : Int) = i - 1 then -(a / dy ^ 2) else 0) +
        ((if (j : Int) = i + 1 then -(a / dy ^ 2) else 0) +
        ((if (j : Int) = i - ny then -(a / dx ^ 2) else 0) +
         (if (j : Int) = i + ny then -(a / dx ^ 2) else 0))))
      else 0 := by
  obtain ⟨p, hp, hy, h1, h2, h3, h4⟩ := idx_facts hny i.isLt
  have hin : innerIdx nx ny i ↔ ny ≤ p ∧ p + 2 * ny ≤ nx * ny ∧ 1 ≤ (i : Nat) % ny ∧
      (i : Nat) % ny + 1 < ny := by
    unfold innerIdx; rw [h1, h2]
  have m0 : ny ≤ (i : Nat) → (((i : Nat) - ny) % ny = 0 ↔ (i : Nat) % ny = 0) := fun h =>
    sub_mod_iff h 0 (Nat.mod_self _) (by omega)
  have m1 : 2 * ny - 1 ≤ (i : Nat) →
      (((i : Nat) - (2 * ny - 1)) % ny = 0 ↔ (i : Nat) % ny = ny - 1) := fun h =>
    sub_mod_iff h (ny - 1) (two_mod hny) (by omega)
  have hi := i.isLt
  have hj := j.isLt
  unfold heat2dMatrix
  simp only [diags_apply, List.map_cons, List.map_nil, List.sum_cons, List.sum_nil, add_zero, one_mul]
  generalize nx * ny = N at *
  generalize (i : Nat) % ny = y at *
  have main : ∀ v : K, zeroFrom (2 * ny - 1) ny (zeroFrom ny ny (zeroLast N ny (zeroTo ny fun _ => v))) i
      = if innerIdx nx ny i then v else 0 := by
    intro v
    simp only [zeroFrom, zeroTo, zeroLast]
    split_ifs <;> first | rfl | (exfalso; rw [hin] at *; omega)
  have upper : ∀ v : K, zeroFrom (2 * ny - 1) ny (zeroFrom ny ny
      (zeroLast (N - 1) ny (zeroTo ny fun _ => v))) i = if innerIdx nx ny i then v else 0 := by
    intro v
    simp only [zeroFrom, zeroTo, zeroLast]
    split_ifs <;> first | rfl | (exfalso; rw [hin] at *; omega)
  have lower : ∀ v : K, ∀ k, k + 1 = (i : Nat) → zeroFrom (2 * ny - 2) ny (zeroFrom (ny - 1) ny
      (zeroLast (N - 1) ny (zeroTo (ny - 1) fun _ => v))) k = if innerIdx nx ny i then v else 0 := by
    intro v k hk
    simp only [zeroFrom, zeroTo, zeroLast]
    rw [show k - (2 * ny - 2) = i - (2 * ny - 1) by omega, show k - (ny - 1) = i - ny by omega]
    split_ifs <;> first | rfl | (exfalso; rw [hin] at *; omega)
  have upper2 : ∀ v : K, (i : Nat) + ny < N → zeroFrom (2 * ny - 1) ny (zeroFrom ny ny
      (zeroTo ny fun _ => v)) i = if innerIdx nx ny i then v else 0 := by
    intro v hlt
    simp only [zeroFrom, zeroTo]
    split_ifs <;> first | rfl | (exfalso; rw [hin] at *; omega)
  have lower2 : ∀ v : K, ∀ k, k + ny = (i : Nat) → zeroFrom (ny - 1) ny (zeroFrom 0 ny
      (zeroLast (N - ny) ny fun _ => v)) k = if innerIdx nx ny i then v else 0 := by
    intro v k hk
    simp only [zeroFrom, zeroLast]
    rw [show k - (ny - 1) = i - (2 * ny - 1) by omega, show k - 0 = i - ny by omega]
    split_ifs <;> first | rfl | (exfalso; rw [hin] at *; omega)
  have key : ∀ (P : Prop) [Decidable P] (x v : K), (P → x = if innerIdx nx ny i then v else 0) →
      (if P then x else 0) = if innerIdx nx ny i then (if P then v else 0) else 0 := by
    intro P _ x v h
    by_cases hP : P
    · rw [if_pos hP, h hP, if_pos hP]
    · rw [if_neg hP, if_neg hP, ite_self]
  rw [key ((j : Int) = (i : Int)) _ (2 * (a / dx ^ 2 + a / dy ^ 2)) fun h => by
      rw [show min (i : Nat) (j : Nat) = i by omega]; exact main _,
    key ((j : Int) = (i : Int) + -1) _ (-(a / dy ^ 2)) fun h => lower _ _ (by omega),
    key ((j : Int) = (i : Int) + 1) _ (-(a / dy ^ 2)) fun h => by
      rw [show min (i : Nat) (j : Nat) = i by omega]; exact upper _,
    key ((j : Int) = (i : Int) + -(ny : Int)) _ (-(a / dx ^ 2)) fun h => lower2 _ _ (by omega),
    key ((j : Int) = (i : Int) + (ny : Int)) _ (-(a / dx ^ 2)) fun h => by
      rw [show min (i : Nat) (j : Nat) = i by omega]; exact upper2 _ (by omega)]
  split
  · rw [← sub_eq_add_neg, ← sub_eq_add_neg]
  · simp

namespace Heat2D
variable (P : Heat2D K)

theorem flatIdx_lt {i j : Nat} (hi : i < P.nx) (hj : j < P.ny) : i * P.ny + j < P.nx * P.ny :=
  calc i * P.ny + j < i * P.ny + P.ny := by omega
    _ = (i + 1) * P.ny := by ring
    _ ≤ P.nx * P.ny := Nat.mul_le_mul_right _ hi

theorem idx_div {ny i j : Nat} (hj : j < ny) : (i * ny + j) / ny = i := by
  rw [Nat.add_comm, Nat.add_mul_div_right _ _ (by omega), Nat.div_eq_of_lt hj, Nat.zero_add]

theorem idx_mod {ny i j : Nat} (hj : j < ny) : (i * ny + j) % ny = j := by
  rw [Nat.add_comm, Nat.add_mul_mod_self_right, Nat.mod_eq_of_lt hj]

theorem shape_at (v : Fin (P.nx * P.ny) → K) {i j : Nat} (hi : i < P.nx) (hj : j < P.ny) :
    P.shape v i j = v ⟨i * P.ny + j, P.flatIdx_lt hi hj⟩ := dif_pos ⟨hi, hj⟩

theorem flat_at (u : Nat → Nat → K) {i j : Nat} (hi : i < P.nx) (hj : j < P.ny) :
    P.flat u ⟨i * P.ny + j, P.flatIdx_lt hi hj⟩ = u i j := by
  unfold flat
  simp only
  rw [idx_div hj, idx_mod hj]

/-- `flatten` followed by `reshape` is the identity on the array. -/
theorem shape_flat (u : Nat → Nat → K) {i j : Nat} (hi : i < P.nx) (hj : j < P.ny) :
    P.shape (P.flat u) i j = u i j := by rw [shape_at P _ hi hj, flat_at P _ hi hj]

theorem atZ_flat (u : Nat → Nat → K) {i j : Nat} (hi : i < P.nx) (hj : j < P.ny) (k : Int)
    (hk : k = (i * P.ny + j : Nat)) : atZ (P.flat u) k = u i j := by
  subst hk
  rw [← flat_at P u hi hj]
  exact atZ_val (P.flat u) ⟨i * P.ny + j, P.flatIdx_lt hi hj⟩

theorem inner_iff {i j : Nat} (hj : j < P.ny) :
    innerIdx P.nx P.ny (i * P.ny + j) ↔ P.inner i j := by
  unfold innerIdx inner
  rw [idx_div hj, idx_mod hj]

theorem mat_row (v : Fin (P.nx * P.ny) → K) (hny : 2 ≤ P.ny) (k : Fin (P.nx * P.ny)) :
    P.mat.mulVec v k = if innerIdx P.nx P.ny k then
        P.a / P.dx ^ 2 * (2 * v k - atZ v ((k : Int) - P.ny) - atZ v ((k : Int) + P.ny))
        + P.a / P.dy ^ 2 * (2 * v k - atZ v ((k : Int) - 1) - atZ v ((k : Int) + 1))
      else 0 := by
  unfold mat
  simp only [Matrix.mulVec, dotProduct, C47_entries hny]
  split
  · simp only [add_mul, Finset.sum_add_distrib, sum_pick, atZ_val]
    ring
  · simp

/-- At interior grid points the matrix acts as the five-point stencil of `-a (u_xx + u_yy)`, in all
rows of boundary points it is zero; for every grid with at least two points in the second direction. -/
theorem C47_stencil (hny : 2 ≤ P.ny) (u : Nat → Nat → K) {i j : Nat} (hi : i < P.nx) (hj : j < P.ny) :
    P.shape (P.mat.mulVec (P.flat u)) i j =
      if 1 ≤ i ∧ i + 1 < P.nx ∧ 1 ≤ j ∧ j + 1 < P.ny then
        P.a / P.dx ^ 2 * (2 * u i j - u (i - 1) j - u (i + 1) j)
        + P.a / P.dy ^ 2 * (2 * u i j - u i (j - 1) - u i (j + 1))
      else 0 := by
  rw [shape_at P _ hi hj, mat_row P _ hny]
  simp only [inner_iff P hj]
  by_cases h : P.inner i j
  · obtain ⟨a1, a2, a3, a4⟩ := h
    obtain ⟨i, rfl⟩ : ∃ i', i = i' + 1 := ⟨i - 1, by omega⟩
    obtain ⟨j, rfl⟩ : ∃ j', j = j' + 1 := ⟨j - 1, by omega⟩
    have c : ((P.inner (i + 1) (j + 1))) := ⟨a1, a2, a3, a4⟩
    rw [if_pos c, if_pos ⟨a1, a2, a3, a4⟩, flat_at P u hi hj,
      atZ_flat P u (i := i) (j := j + 1) (by omega) hj _ (by push_cast; ring),
      atZ_flat P u (i := i + 1 + 1) (j := j + 1) (by omega) hj _ (by push_cast; ring),
      atZ_flat P u (i := i + 1) (j := j) hi (by omega) _ (by push_cast; ring),
      atZ_flat P u (i := i + 1) (j := j + 1 + 1) hi (by omega) _ (by push_cast; ring)]
    rfl
  · rw [if_neg h]
    exact (if_neg h).symm

/-! ## Boundary values (C48) -/

/-- Specification: the array has the prescribed values on the boundary.  In the corners the data of
the first direction count (they are written last). -/
def BoundaryOK (x : Nat → Nat → K) : Prop :=
  (∀ j < P.ny, x 0 j = P.top j) ∧
  (∀ j < P.ny, x (P.nx - 1) j = P.bottom j) ∧
  (∀ i, 0 < i → i + 1 < P.nx → x i (P.ny - 1) = P.right i) ∧
  (∀ i, 0 < i → i + 1 < P.nx → x i 0 = P.left i)

theorem setBC_boundary {b : Nat → Nat → K} {i j : Nat} (hi : i < P.nx) (hj : j < P.ny)
    (h : ¬ P.inner i j) (b' : Nat → Nat → K) : P.setBC b i j = P.setBC b' i j := by
  unfold setBC
  unfold inner at h
  split_ifs <;> first | rfl | (exfalso; omega)

theorem boundaryOK_iff (hnx : 2 ≤ P.nx) (hny : 2 ≤ P.ny) (x : Nat → Nat → K) :
    P.BoundaryOK x ↔ ∀ i j, i < P.nx → j < P.ny → ¬ P.inner i j → x i j = P.setBC (fun _ _ => 0) i j := by
  unfold BoundaryOK setBC inner
  constructor
  · rintro ⟨h1, h2, h3, h4⟩ i j hi hj hb
    split_ifs with c1 c2 c3 c4
    · rw [c1]; exact h1 j hj
    · rw [c2]; exact h2 j hj
    · rw [c3]; exact h3 i (by omega) (by omega)
    · rw [c4]; exact h4 i (by omega) (by omega)
    · omega
  · intro h
    refine ⟨fun j hj => ?_, fun j hj => ?_, fun i h0 h1 => ?_, fun i h0 h1 => ?_⟩
    · rw [h 0 j (by omega) hj (by omega), if_pos rfl]
    · rw [h (P.nx - 1) j (by omega) hj (by omega), if_neg (by omega), if_pos rfl]
    · rw [h i (P.ny - 1) (by omega) (by omega) (by omega), if_neg (by omega), if_neg (by omega),
        if_pos rfl]
    · rw [h i 0 (by omega) (by omega) (by omega), if_neg (by omega), if_neg (by omega),
        if_neg (by omega), if_pos rfl]

/-- The initial value has the prescribed boundary values, for all data. -/
theorem C48_start (hnx : 2 ≤ P.nx) (hny : 2 ≤ P.ny) (init : Nat → Nat → K) :
    P.BoundaryOK (P.start init) :=
  (P.boundaryOK_iff hnx hny _).2 fun _ _ hi hj hb => P.setBC_boundary hi hj hb _

variable [DecidableEq K]

/-- Backward Euler and Crank-Nicolson: every result of a step has the prescribed boundary values, for
all grids, data, step sizes and start vectors.  (The full property includes forward Euler, for which
it fails, `C48_forward_counterexample`.) -/
theorem C48_implicit_partial (hnx : 2 ≤ P.nx) (hny : 2 ≤ P.ny) (hth : P.theta ≠ 0) (u : Nat → Nat → K)
    (t0 t1 : K) (x : Nat → Nat → K) (hx : P.step u t0 t1 x) : P.BoundaryOK x := by
  rw [P.boundaryOK_iff hnx hny]
  intro i j hi hj hb
  unfold step at hx
  rw [if_neg hth] at hx
  obtain ⟨y, hy, rfl⟩ := hx
  rw [shape_at P _ hi hj]
  have := congrFun hy ⟨i * P.ny + j, P.flatIdx_lt hi hj⟩
  rw [step_matrix_mulVec, Pi.add_apply, Pi.smul_apply, mat_row P _ hny] at this
  simp only [inner_iff P hj] at this
  rw [if_neg hb, smul_zero, zero_add] at this
  rw [this]
  unfold computeRhs
  rw [flat_at P _ hi hj]
  exact P.setBC_boundary hi hj hb _

/-- Forward Euler: on the boundary the code adds the prescribed value to the old one. -/
theorem C48_forward (hny : 2 ≤ P.ny) (hth : P.theta = 0) (u : Nat → Nat → K)
    (t0 t1 : K) (x : Nat → Nat → K) (hx : P.step u t0 t1 x) {i j : Nat} (hi : i < P.nx) (hj : j < P.ny)
    (hb : ¬ P.inner i j) : x i j = P.setBC (fun _ _ => 0) i j + u i j := by
  unfold step at hx
  rw [if_pos hth] at hx
  rw [hx]
  simp only
  rw [if_neg hb, Matrix.sub_mulVec, Matrix.one_mulVec, Matrix.smul_mulVec, shape_at P _ hi hj,
    Pi.sub_apply, Pi.smul_apply, mat_row P _ hny]
  simp only [inner_iff P hj]
  rw [if_neg hb, smul_zero, sub_zero, flat_at P _ hi hj]

/-- Hence a forward Euler step imposes the boundary values exactly if the start vector is zero on the
boundary. -/
theorem C48_forward_iff (hnx : 2 ≤ P.nx) (hny : 2 ≤ P.ny) (hth : P.theta = 0) (u : Nat → Nat → K)
    (t0 t1 : K) (x : Nat → Nat → K) (hx : P.step u t0 t1 x) :
    P.BoundaryOK x ↔ ∀ i j, i < P.nx → j < P.ny → ¬ P.inner i j → u i j = 0 := by
  rw [P.boundaryOK_iff hnx hny]
  refine forall_congr' fun i => forall_congr' fun j => forall_congr' fun hi => forall_congr' fun hj =>
    forall_congr' fun hb => ?_
  rw [P.C48_forward hny hth u t0 t1 x hx hi hj hb]
  exact ⟨fun h => by linear_combination h, fun h => by rw [h, add_zero]⟩

/-- The step sequence from the initial value violates the boundary condition after one step, whenever
some boundary value is not zero. -/
theorem C48_forward_counterexample (hnx : 2 ≤ P.nx) (hny : 2 ≤ P.ny) (hth : P.theta = 0)
    (init : Nat → Nat → K) (t0 t1 : K) (x : Nat → Nat → K) (hx : P.step (P.start init) t0 t1 x)
    {j : Nat} (hj : j < P.ny) (h : P.top j ≠ 0) : ¬ P.BoundaryOK x := by
  rw [P.C48_forward_iff hnx hny hth _ t0 t1 x hx]
  intro hz
  have := hz 0 j (by omega) hj (by unfold inner; omega)
  exact h (by simpa [start, setBC] using this)

/-- A forward Euler step has exactly one result. -/
theorem C59_wellposed_forward (hth : P.theta = 0) (u : Nat → Nat → K) (t0 t1 : K) :
    ∃! x, P.step u t0 t1 x := by
  unfold step
  simp only [hth, if_true]
  exact existsUnique_eq

section ordered
variable [LinearOrder K] [IsStrictOrderedRing K]

omit [DecidableEq K] in
theorem dominant (hny : 2 ≤ P.ny) (ha : 0 ≤ P.a) {c : K} (hc : 0 ≤ c) :
    Dominant 1 (c • P.mat + 1) := by
  intro k
  have hfx : 0 ≤ c * (P.a / P.dx ^ 2) := mul_nonneg hc (div_nonneg ha (sq_nonneg _))
  have hfy : 0 ≤ c * (P.a / P.dy ^ 2) := mul_nonneg hc (div_nonneg ha (sq_nonneg _))
  by_cases hk : innerIdx P.nx P.ny k
  · have := sum_off (c • P.mat + 1) k
      [((k : Int) - 1, c * (P.a / P.dy ^ 2)), ((k : Int) + 1, c * (P.a / P.dy ^ 2)),
       ((k : Int) - P.ny, c * (P.a / P.dx ^ 2)), ((k : Int) + P.ny, c * (P.a / P.dx ^ 2))]
      (by
        intro p hp
        simp only [List.mem_cons, List.not_mem_nil, or_false] at hp
        rcases hp with rfl | rfl | rfl | rfl <;> assumption)
      (by
        intro j hj
        have h0 : ¬ (j : Int) = k := fun h => hj (Fin.ext (by omega))
        have e : ∀ (Q : Prop) [Decidable Q] (v : K), 0 ≤ c * v →
            |c * (if Q then -v else 0)| = if Q then c * v else 0 := by
          intro Q _ v hv
          split
          · rw [mul_neg, abs_neg, abs_of_nonneg hv]
          · simp
        simp only [Matrix.add_apply, Matrix.smul_apply, mat, C47_entries hny, if_pos hk, if_neg h0,
          smul_eq_mul, Matrix.one_apply_ne hj.symm, add_zero, zero_add, List.map_cons, List.map_nil,
          List.sum_cons, List.sum_nil, mul_add]
        rw [← e _ _ hfy, ← e _ _ hfy, ← e _ _ hfx, ← e _ _ hfx]
        refine le_trans (abs_add_le _ _) (add_le_add (le_refl _) ?_)
        refine le_trans (abs_add_le _ _) (add_le_add (le_refl _) ?_)
        exact abs_add_le _ _)
    have e : (c • P.mat + 1) k k = c * (2 * (P.a / P.dx ^ 2 + P.a / P.dy ^ 2)) + 1 := by
      rw [Matrix.add_apply, Matrix.smul_apply, mat, C47_entries hny, if_pos hk, if_pos rfl,
        if_neg (by omega), if_neg (by omega), if_neg (by omega), if_neg (by omega)]
      simp
    rw [e]
    simp only [List.map_cons, List.map_nil, List.sum_cons, List.sum_nil, add_zero] at this
    linarith
  · have h0 : ∀ j, P.mat k j = 0 := by
      intro j
      rw [mat, C47_entries hny, if_neg hk]
    rw [Finset.sum_eq_zero]
    · simp [h0]
    · intro j hj
      simp [h0, Matrix.one_apply_ne (Finset.ne_of_mem_erase hj).symm]

/-- Implicit steps (BE, CN) have exactly one result, for all grids, coefficients `a ≥ 0`, data and
forward steps. -/
theorem C59_wellposed (hny : 2 ≤ P.ny) (ha : 0 ≤ P.a) (hth : 0 < P.theta) (u : Nat → Nat → K)
    {t0 t1 : K} (ht : t0 ≤ t1) : ∃! x, P.step u t0 t1 x := by
  have hc : 0 ≤ (t1 - t0) * P.theta := mul_nonneg (sub_nonneg.2 ht) hth.le
  obtain ⟨y, hy, hu⟩ := (P.dominant hny ha hc).existsUnique one_pos (P.computeRhs u t0 t1)
  unfold step
  simp only [hth.ne', if_false]
  refine ⟨P.shape y, ⟨y, hy, rfl⟩, ?_⟩
  rintro x ⟨y', hy', rfl⟩
  rw [hu _ hy']

/-- Discrete maximum principle of the backward Euler step: the values are bounded by the interior start
values plus the source, and by the boundary data. -/
theorem C59_max (hnx : 2 ≤ P.nx) (hny : 2 ≤ P.ny) (ha : 0 ≤ P.a) (hth : P.theta = 1) (u : Nat → Nat → K)
    {t0 t1 : K} (ht : t0 ≤ t1) {x : Nat → Nat → K} (hx : P.step u t0 t1 x) {c : K}
    (hin : ∀ i j, P.inner i j → |u i j + (t1 - t0) * P.rhs t1 i j| ≤ c)
    (hbc : ∀ i j, |P.top j| ≤ c ∧ |P.bottom j| ≤ c ∧ |P.left i| ≤ c ∧ |P.right i| ≤ c)
    {i j : Nat} (hi : i < P.nx) (hj : j < P.ny) : |x i j| ≤ c := by
  unfold step at hx
  rw [if_neg (by rw [hth]; exact one_ne_zero)] at hx
  obtain ⟨y, hy, rfl⟩ := hx
  have hc : 0 ≤ (t1 - t0) * P.theta := by rw [hth, mul_one]; exact sub_nonneg.2 ht
  have := (P.dominant hny ha hc).bound zero_le_one hy (c := c) (fun k => by
    have hlt := k.isLt
    have h0 : 0 < P.ny := by omega
    have hq : (k : Nat) / P.ny < P.nx := (Nat.div_lt_iff_lt_mul h0).2 hlt
    have hm : (k : Nat) % P.ny < P.ny := Nat.mod_lt _ h0
    unfold computeRhs flat
    simp only
    generalize (k : Nat) / P.ny = p at *
    generalize (k : Nat) % P.ny = q at *
    rw [if_pos hth]
    unfold setBC
    split_ifs with c1 c2 c3 c4
    · exact (hbc p q).1
    · exact (hbc p q).2.1
    · exact (hbc p q).2.2.2
    · exact (hbc p q).2.2.1
    · have c5 : P.inner p q := ⟨by omega, by omega, by omega, by omega⟩
      simp only [c5, if_true]
      exact hin p q c5) ⟨i * P.ny + j, P.flatIdx_lt hi hj⟩
  rw [one_mul] at this
  rwa [shape_at P _ hi hj]

end ordered

/-! ## The documented scheme (C82) -/

section scheme

/-- Specification: the five-point difference quotient of `-a (u_xx + u_yy)`. -/
def lap (u : Nat → Nat → K) (i j : Nat) : K :=
  P.a / P.dx ^ 2 * (2 * u i j - u (i - 1) j - u (i + 1) j)
    + P.a / P.dy ^ 2 * (2 * u i j - u i (j - 1) - u i (j + 1))

/-- Specification: the one-step method of the documentation of `step` (heat_2d.py:329-334), at one
grid point and multiplied by the step size. -/
def Scheme (u : Nat → Nat → K) (t0 t1 : K) (x : Nat → Nat → K) (i j : Nat) : Prop :=
  x i j - u i j + (t1 - t0) * (P.theta * P.lap x i j + (1 - P.theta) * P.lap u i j)
    = (t1 - t0) * (P.theta * P.rhs t1 i j + (1 - P.theta) * P.rhs t0 i j)

omit [DecidableEq K] in
theorem stencil_at (hny : 2 ≤ P.ny) (u : Nat → Nat → K) {i j : Nat} (hi : i < P.nx) (hj : j < P.ny) :
    P.mat.mulVec (P.flat u) ⟨i * P.ny + j, P.flatIdx_lt hi hj⟩ = if P.inner i j then P.lap u i j else 0 := by
  rw [← shape_at P (P.mat.mulVec (P.flat u)) hi hj, P.C47_stencil hny u hi hj]
  rfl

omit [DecidableEq K] [Field K] in
theorem setBC_inner {b : Nat → Nat → K} {i j : Nat} (h : P.inner i j) : P.setBC b i j = b i j := by
  unfold inner at h
  unfold setBC
  rw [if_neg (by omega), if_neg (by omega), if_neg (by omega), if_neg (by omega)]

omit [DecidableEq K] in
theorem flat_ext {v w : Fin (P.nx * P.ny) → K}
    (h : ∀ i j (hi : i < P.nx) (hj : j < P.ny), v ⟨i * P.ny + j, P.flatIdx_lt hi hj⟩
      = w ⟨i * P.ny + j, P.flatIdx_lt hi hj⟩) : v = w := by
  funext k
  have hlt := k.isLt
  have h0 : 0 < P.ny := Nat.pos_of_ne_zero fun e => by
    have : P.nx * P.ny = 0 := by rw [e, Nat.mul_zero]
    omega
  have hq : (k : Nat) / P.ny < P.nx := (Nat.div_lt_iff_lt_mul h0).2 hlt
  have hm : (k : Nat) % P.ny < P.ny := Nat.mod_lt _ h0
  have := h _ _ hq hm
  have e : (⟨k / P.ny * P.ny + k % P.ny, P.flatIdx_lt hq hm⟩ : Fin (P.nx * P.ny)) = k :=
    Fin.ext (by simp only; rw [Nat.mul_comm]; exact Nat.div_add_mod _ _)
  rwa [e] at this

omit [DecidableEq K] in
theorem flat_shape (y : Fin (P.nx * P.ny) → K) : P.flat (P.shape y) = y :=
  P.flat_ext fun i j hi hj => by rw [flat_at P _ hi hj, shape_at P _ hi hj]

theorem rhs_at [CharZero K] (hny : 2 ≤ P.ny) (hth : P.theta = 1 ∨ P.theta = 1 / 2) (u : Nat → Nat → K)
    (t0 t1 : K) {i j : Nat} (hi : i < P.nx) (hj : j < P.ny) :
    P.computeRhs u t0 t1 ⟨i * P.ny + j, P.flatIdx_lt hi hj⟩ =
      if P.inner i j then u i j - (t1 - t0) * (1 - P.theta) * P.lap u i j
        + (t1 - t0) * (P.theta * P.rhs t1 i j + (1 - P.theta) * P.rhs t0 i j)
      else P.setBC (fun _ _ => 0) i j := by
  unfold computeRhs
  rw [flat_at P _ hi hj]
  by_cases hb : P.inner i j
  · rw [if_pos hb, setBC_inner P hb]
    rcases hth with h | h
    · rw [if_pos h, if_pos hb, h]; ring
    · rw [if_neg (by rw [h]; norm_num), if_pos hb, shape_at P _ hi hj, Matrix.sub_mulVec,
        Matrix.one_mulVec, Matrix.smul_mulVec, Pi.sub_apply, Pi.smul_apply, stencil_at P hny u hi hj,
        if_pos hb, flat_at P _ hi hj, h, smul_eq_mul]
      ring
  · rw [if_neg hb]; exact P.setBC_boundary hi hj hb _

/-- C82, BE and CN.  The results of a step are exactly the arrays that have the prescribed boundary
values and fulfil the documented scheme at every interior grid point. -/
theorem C82_implicit [CharZero K] (hnx : 2 ≤ P.nx) (hny : 2 ≤ P.ny)
    (hth : P.theta = 1 ∨ P.theta = 1 / 2) (u : Nat → Nat → K) (t0 t1 : K) (x : Nat → Nat → K)
    (hx : ∀ i j, ¬ (i < P.nx ∧ j < P.ny) → x i j = 0) :
    P.step u t0 t1 x ↔ P.BoundaryOK x ∧ ∀ i j, P.inner i j → P.Scheme u t0 t1 x i j := by
  have h0 : P.theta ≠ 0 := by rcases hth with h | h <;> rw [h] <;> norm_num
  have hsh : P.shape (P.flat x) = x := by
    funext i j
    by_cases h : i < P.nx ∧ j < P.ny
    · exact P.shape_flat x h.1 h.2
    · rw [hx i j h]; exact dif_neg h
  have key : P.step u t0 t1 x ↔
      Solves (((t1 - t0) * P.theta) • P.mat + 1) (P.computeRhs u t0 t1) (P.flat x) := by
    unfold step
    rw [if_neg h0]
    constructor
    · rintro ⟨y, hy, rfl⟩; rwa [flat_shape]
    · intro h; exact ⟨_, h, hsh.symm⟩
  have row : ∀ i j (hi : i < P.nx) (hj : j < P.ny),
      (((t1 - t0) * P.theta) • P.mat + 1).mulVec (P.flat x) ⟨i * P.ny + j, P.flatIdx_lt hi hj⟩
        = (t1 - t0) * P.theta * (if P.inner i j then P.lap x i j else 0) + x i j := by
    intro i j hi hj
    rw [step_matrix_mulVec, Pi.add_apply, Pi.smul_apply, stencil_at P hny x hi hj, flat_at P _ hi hj,
      smul_eq_mul]
  rw [key, P.boundaryOK_iff hnx hny]
  constructor
  · intro h
    refine ⟨fun i j hi hj hb => ?_, fun i j hb => ?_⟩
    · have e := congrFun h ⟨i * P.ny + j, P.flatIdx_lt hi hj⟩
      rw [row i j hi hj, rhs_at P hny hth u t0 t1 hi hj, if_neg hb, if_neg hb, mul_zero, zero_add] at e
      exact e
    · have hi : i < P.nx := by unfold inner at hb; omega
      have hj : j < P.ny := by unfold inner at hb; omega
      have e := congrFun h ⟨i * P.ny + j, P.flatIdx_lt hi hj⟩
      rw [row i j hi hj, rhs_at P hny hth u t0 t1 hi hj, if_pos hb, if_pos hb] at e
      unfold Scheme
      linear_combination e
  · rintro ⟨h1, h2⟩
    refine P.flat_ext fun i j hi hj => ?_
    rw [row i j hi hj, rhs_at P hny hth u t0 t1 hi hj]
    by_cases hb : P.inner i j
    · rw [if_pos hb, if_pos hb]
      have e := h2 i j hb
      unfold Scheme at e
      linear_combination e
    · rw [if_neg hb, if_neg hb, mul_zero, zero_add]
      exact h1 i j hi hj hb

/-- C82, all three methods: every result of a step fulfils the documented scheme at every interior grid
point. -/
theorem C82_scheme [CharZero K] (hnx : 2 ≤ P.nx) (hny : 2 ≤ P.ny)
    (hth : P.theta = 0 ∨ P.theta = 1 ∨ P.theta = 1 / 2) (u : Nat → Nat → K) (t0 t1 : K)
    (x : Nat → Nat → K) (hx : P.step u t0 t1 x) (i j : Nat) (hb : P.inner i j) :
    P.Scheme u t0 t1 x i j := by
  rcases hth with h | h
  · have hi : i < P.nx := by unfold inner at hb; omega
    have hj : j < P.ny := by unfold inner at hb; omega
    unfold step at hx
    rw [if_pos h] at hx
    have e : x i j = 0 + (u i j - (t1 - t0) * P.lap u i j) + (t1 - t0) * P.rhs t0 i j := by
      rw [hx]
      simp only
      rw [if_pos hb, setBC_inner P hb, shape_at P _ hi hj, Matrix.sub_mulVec, Matrix.one_mulVec,
        Matrix.smul_mulVec, Pi.sub_apply, Pi.smul_apply, stencil_at P hny u hi hj, if_pos hb,
        flat_at P _ hi hj, smul_eq_mul]
    unfold Scheme
    rw [h, e]
    ring
  · refine ((P.C82_implicit hnx hny h u t0 t1 x ?_).1 hx).2 i j hb
    unfold step at hx
    rw [if_neg (by rcases h with h | h <;> rw [h] <;> norm_num)] at hx
    obtain ⟨y, -, rfl⟩ := hx
    intro i j hij
    exact dif_neg hij

/-- C82.  Crank-Nicolson is exact for solutions of the space-discrete problem that are quadratic in time
(second order), backward Euler for linear ones: with the matching source and boundary values the step
returns the solution at the new time.  (`p2 = 0` for backward Euler.) -/
theorem C82_exact [LinearOrder K] [IsStrictOrderedRing K] (hnx : 2 ≤ P.nx) (hny : 2 ≤ P.ny)
    (ha : 0 ≤ P.a) (p0 p1 p2 : Nat → Nat → K)
    (hth : P.theta = 1 ∧ (∀ i j, p2 i j = 0) ∨ P.theta = 1 / 2)
    (hz : ∀ t i j, ¬ (i < P.nx ∧ j < P.ny) → p0 i j + t * p1 i j + t ^ 2 * p2 i j = 0)
    (hbc : ∀ t, P.BoundaryOK fun i j => p0 i j + t * p1 i j + t ^ 2 * p2 i j)
    (hrhs : ∀ t i j, P.inner i j → P.rhs t i j = p1 i j + 2 * t * p2 i j
      + P.lap (fun i j => p0 i j + t * p1 i j + t ^ 2 * p2 i j) i j)
    {t0 t1 : K} (ht : t0 ≤ t1) (x : Nat → Nat → K)
    (hx : P.step (fun i j => p0 i j + t0 * p1 i j + t0 ^ 2 * p2 i j) t0 t1 x) :
    x = fun i j => p0 i j + t1 * p1 i j + t1 ^ 2 * p2 i j := by
  have hth' : P.theta = 1 ∨ P.theta = 1 / 2 := hth.imp And.left id
  have hpos : 0 < P.theta := by rcases hth' with h | h <;> rw [h] <;> norm_num
  refine (P.C59_wellposed hny ha hpos _ ht).unique hx ?_
  rw [P.C82_implicit hnx hny hth' _ t0 t1 _ (hz t1)]
  refine ⟨hbc t1, fun i j hb => ?_⟩
  unfold Scheme
  rw [hrhs t0 i j hb, hrhs t1 i j hb]
  rcases hth with ⟨h, h2⟩ | h
  · obtain rfl : p2 = fun _ _ => 0 := funext fun i => funext fun j => h2 i j
    rw [h]; ring
  · rw [h]; ring

end scheme

end Heat2D

/-- A Crank-Nicolson problem whose solution is `t^2` at the only interior point. -/
def exCN : Heat2D ℚ where
  nx := 3
  ny := 3
  a := 1
  dx := 1
  dy := 1
  theta := 1 / 2
  rhs := fun t _ _ => 2 * t + 4 * t ^ 2
  left := fun _ => 0
  right := fun _ => 0
  bottom := fun _ => 0
  top := fun _ => 0

/-- The hypotheses of `C82_exact` are met, and a step exists. -/
example : ∃ x, exCN.step (fun i j => if i = 1 ∧ j = 1 then 9 else 0) 3 5 x ∧ x 1 1 = 25 := by
  obtain ⟨x, hx, -⟩ := exCN.C59_wellposed (by decide) (by norm_num [exCN]) (by norm_num [exCN])
    (fun i j => if i = 1 ∧ j = 1 then 9 else 0) (t0 := 3) (t1 := 5) (by norm_num)
  refine ⟨x, hx, ?_⟩
  have e : (fun i j => if i = 1 ∧ j = 1 then (9 : ℚ) else 0) = fun i j : Nat =>
      (fun _ _ => 0 : Nat → Nat → ℚ) i j + 3 * (fun _ _ => 0 : Nat → Nat → ℚ) i j
        + 3 ^ 2 * (fun i j : Nat => if i = 1 ∧ j = 1 then (1 : ℚ) else 0) i j := by
    funext i j
    by_cases h : i = 1 ∧ j = 1
    · simp only [if_pos h]; norm_num
    · simp only [if_neg h]; norm_num
  rw [e] at hx
  rw [exCN.C82_exact (by decide) (by decide) (by norm_num [exCN]) (fun _ _ => 0) (fun _ _ => 0)
    (fun i j => if i = 1 ∧ j = 1 then 1 else 0) (Or.inr rfl) ?_ ?_ ?_ (by norm_num) x hx]
  · norm_num
  · intro t i j h
    have : ¬ (i = 1 ∧ j = 1) := by rintro ⟨rfl, rfl⟩; exact h (by decide)
    simp [this]
  · intro t
    refine ⟨fun j hj => ?_, fun j hj => ?_, fun i h0 h1 => ?_, fun i h0 h1 => ?_⟩ <;> simp [exCN]
  · intro t i j h
    have hi : i = 1 := by have := h.1; have := h.2.1; simp [exCN] at *; omega
    have hj : j = 1 := by have := h.2.2.1; have := h.2.2.2; simp [exCN] at *; omega
    subst hi hj
    simp [exCN, Heat2D.lap]
    ring

/-- A forward Euler problem with boundary value one. -/
def exFE : Heat2D ℚ where
  nx := 3
  ny := 3
  a := 1
  dx := 1
  dy := 1
  theta := 0
  rhs := fun _ _ _ => 0
  left := fun _ => 1
  right := fun _ => 1
  bottom := fun _ => 1
  top := fun _ => 1

example : ∃ x, exFE.step (exFE.start fun _ _ => 0) 0 1 x ∧ ¬ exFE.BoundaryOK x := by
  obtain ⟨x, hx, -⟩ := exFE.C59_wellposed_forward rfl (exFE.start fun _ _ => 0) 0 1
  exact ⟨x, hx, exFE.C48_forward_counterexample (by decide) (by decide) rfl
    _ 0 1 _ hx (j := 0) (by decide) (by simp [exFE])⟩

example : ({ exFE with theta := 1 / 2 } : Heat2D ℚ).theta ≠ 0 := by norm_num

end Pymgrit.Apps
