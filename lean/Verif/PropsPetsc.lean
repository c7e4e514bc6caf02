import Verif.Petsc

/-!
# Properties of the PETSc applications (C61, C62, C63)
-/

namespace Pymgrit.Petsc
open Apps

variable {K : Type} [Field K]

/-! ## The operator of the heat equation (C62) -/

/-- Specification: the five-point stencil of `-a (u_xx + u_yy)`; the first index runs in x-direction
with spacing `dx`, the second in y-direction with spacing `dy`. -/
def laplace (a dx dy : K) (u : Nat × Nat → K) (i j : Nat) : K :=
  a / dx ^ 2 * (2 * u (i, j) - u (i - 1, j) - u (i + 1, j))
  + a / dy ^ 2 * (2 * u (i, j) - u (i, j - 1) - u (i, j + 1))

/-- Rows of boundary points vanish. -/
theorem C62_boundary (P : Heat K) (u : Nat × Nat → K) (i j : Nat)
    (h : i = 0 ∨ j = 0 ∨ i = P.mx - 1 ∨ j = P.my - 1) : applyRow (P.row i j) u = 0 := by
  simp [Heat.row, h, applyRow]

/-- At interior points the code applies the stencil with the two spacings exchanged. -/
theorem C62_exchanged (P : Heat K) (u : Nat × Nat → K) (i j : Nat)
    (h : ¬ (i = 0 ∨ j = 0 ∨ i = P.mx - 1 ∨ j = P.my - 1)) :
    applyRow (P.row i j) u = laplace P.a P.dy P.dx u i j := by
  simp only [Heat.row, if_neg h, applyRow, List.map_cons, List.map_nil, List.sum_cons, List.sum_nil,
    laplace]
  ring

/-- For equal spacings this is the five-point stencil.  (The full property has no hypothesis on the
spacings and fails, see `C62_counterexample`.) -/
theorem C62_stencil_partial (P : Heat K) (hd : P.dx ^ 2 = P.dy ^ 2) (u : Nat × Nat → K) (i j : Nat)
    (h : ¬ (i = 0 ∨ j = 0 ∨ i = P.mx - 1 ∨ j = P.my - 1)) :
    applyRow (P.row i j) u = laplace P.a P.dx P.dy u i j := by
  rw [C62_exchanged P u i j h]
  unfold laplace
  rw [hd]

/-- A grid with 3 x 5 points on the unit square. -/
def exHeat : Heat ℚ where
  mx := 3
  my := 5
  a := 1
  dx := 1 / 2
  dy := 1 / 4

theorem C62_counterexample :
    ∃ u : Nat × Nat → ℚ, applyRow (exHeat.row 1 1) u ≠ laplace exHeat.a exHeat.dx exHeat.dy u 1 1 := by
  refine ⟨fun q => if q = (0, 1) then 1 else 0, ?_⟩
  rw [C62_exchanged _ _ _ _ (by decide)]
  simp [laplace, exHeat]

/-! ## The operator cache (C61) -/

section cache
variable [LinearOrder K] [IsStrictOrderedRing K]

theorem isclose_self (a : K) : isclose a a := by
  unfold isclose
  rw [sub_self, abs_zero]
  positivity

/-- The operator in use belongs to a step size that is close to the requested one. -/
theorem C61_close (cached dt : K) : isclose (useDt cached dt) dt := by
  unfold useDt
  split
  · exact isclose_self dt
  · rename_i h; exact not_not.1 h

omit [IsStrictOrderedRing K] in
theorem cacheAfter_mem (dt0 : K) (calls : List K) : cacheAfter dt0 calls ∈ dt0 :: calls := by
  unfold cacheAfter
  induction calls generalizing dt0 with
  | nil => simp
  | cons d ds ih =>
    have := ih (useDt dt0 d)
    rw [List.foldl_cons]
    unfold useDt at this ⊢
    split at this
    · rename_i h
      rw [if_pos h]
      exact List.mem_cons_of_mem _ this
    · rename_i h
      rw [if_neg h]
      rcases List.mem_cons.1 this with h' | h'
      · rw [h']; exact List.mem_cons_self
      · exact List.mem_cons_of_mem _ (List.mem_cons_of_mem _ h')

/-- If the step sizes that occur are equal or not close to each other, then every step uses the
operator of the requested step size, whatever was called before.  (The full property has no such
hypothesis and fails, see `C61_counterexample`.) -/
theorem C61_history_partial (dt0 : K) (calls : List K) (dt : K)
    (h : ∀ d ∈ dt0 :: calls, d = dt ∨ ¬ isclose d dt) : useDt (cacheAfter dt0 calls) dt = dt := by
  rcases h _ (cacheAfter_mem dt0 calls) with e | e
  · rw [e]; unfold useDt; rw [if_neg (not_not.2 (isclose_self dt))]
  · unfold useDt; rw [if_pos e]

/-- The cached operator is used exactly if the two step sizes differ by at most `1e-8 + 1e-5 * |dt|`; so a
step size of `1e-8` or less never gets its own operator once another such step size was used. -/
theorem C61_reused (cached dt : K) :
    (useDt cached dt = cached ↔ |cached - dt| ≤ 1 / 10 ^ 8 + 1 / 10 ^ 5 * |dt|) ∧
    (0 ≤ cached → cached ≤ 1 / 10 ^ 8 → 0 ≤ dt → dt ≤ 1 / 10 ^ 8 → useDt cached dt = cached) := by
  have h1 : useDt cached dt = cached ↔ |cached - dt| ≤ 1 / 10 ^ 8 + 1 / 10 ^ 5 * |dt| := by
    unfold useDt isclose
    constructor
    · intro h
      by_contra hn
      rw [if_pos hn] at h
      rw [h, sub_self, abs_zero] at hn
      exact hn (by positivity)
    · intro h
      rw [if_neg (not_not.2 h)]
  refine ⟨h1, fun a b c d => h1.2 ?_⟩
  have : 0 ≤ 1 / 10 ^ 5 * |dt| := by positivity
  have : |cached - dt| ≤ 1 / 10 ^ 8 := abs_le.2 ⟨by linarith, by linarith⟩
  linarith

end cache

/-- The result of a step depends on the calls before it: after a step of size 1 a step of size
`1 + 1e-6` is done with the operator for size 1, after a step of size 2 with its own. -/
theorem C61_counterexample :
    useDt (cacheAfter (1 : ℚ) [2]) (1 + 1 / 10 ^ 6) = 1 + 1 / 10 ^ 6 ∧
    useDt (cacheAfter (1 : ℚ) [1]) (1 + 1 / 10 ^ 6) = 1 := by
  constructor
  · decide +kernel
  · decide +kernel

/-- The solutions differ: one unknown with operator `1`, start value 1. -/
theorem C61_results_differ (x y : ℚ)
    (hx : useDt (cacheAfter (1 : ℚ) [2]) (1 + 1 / 10 ^ 6) * x + x = 1)
    (hy : useDt (cacheAfter (1 : ℚ) [1]) (1 + 1 / 10 ^ 6) * y + y = 1) : x ≠ y := by
  rw [C61_counterexample.1] at hx
  rw [C61_counterexample.2] at hy
  rintro rfl
  have : x = 0 := by linarith
  rw [this] at hy
  norm_num at hy

/-! ## Gray-Scott (C63) -/

/-- The implicit residual uses the operator of the implicit-explicit method, with Euler steps of the
reaction terms. -/
theorem C63_residual (P : GS K) (dt : K) (x : Pt P → K) (i : Fin P.mx) (j : Fin P.my) :
    P.function dt x ((i, j), false) = x ((i, j), false) - dt * (applyRow (P.spaceRow ((i, j), false)) x
      - x ((i, j), false) * x ((i, j), true) ^ 2 + P.a * (1 - x ((i, j), false))) ∧
    P.function dt x ((i, j), true) = x ((i, j), true) - dt * (applyRow (P.spaceRow ((i, j), true)) x
      + x ((i, j), false) * x ((i, j), true) ^ 2 - P.b * x ((i, j), true)) := by
  constructor
  · simp only [GS.function, GS.spaceRow, applyRow, List.map_cons, List.map_nil, List.sum_cons, List.sum_nil,
      Bool.false_eq_true, if_false]
    ring
  · simp only [GS.function, GS.spaceRow, applyRow, List.map_cons, List.map_nil, List.sum_cons, List.sum_nil,
      if_true]
    ring

/-- Specification: `J h` is the linear part of `F (x + s h) - F x` in `s`: the difference is
`s * J h` plus a remainder of order `s ^ 2`, for all `s`. -/
def IsDerivative (P : GS K) (dt : K) (x : Pt P → K) (J : (Pt P → K) → Pt P → K) : Prop :=
  ∀ (h : Pt P → K) (q : Pt P), ∃ c2 c3 : K, ∀ s : K,
    P.function dt (fun p => x p + s * h p) q = P.function dt x q + s * J h q + s ^ 2 * c2 + s ^ 3 * c3

/-- For equal spacings the assembled Jacobian is the derivative of the residual, for all states.  (The
full property has no hypothesis on the spacings and fails, see `C63_counterexample`.) -/
theorem C63_jacobian_partial (P : GS K) (hd : P.dx ^ 2 = P.dy ^ 2) (dt : K) (x : Pt P → K) :
    IsDerivative P dt x fun h q => applyRow (P.jacRow dt x q) h := by
  rintro h ⟨⟨i, j⟩, f⟩
  cases f with
  | false =>
    refine ⟨dt * (2 * x ((i, j), true) * h ((i, j), false) * h ((i, j), true)
      + x ((i, j), false) * h ((i, j), true) ^ 2), dt * h ((i, j), false) * h ((i, j), true) ^ 2,
      fun s => ?_⟩
    simp only [GS.function, GS.jacRow, applyRow, List.map_cons, List.map_nil, List.sum_cons,
      List.sum_nil, Bool.false_eq_true, if_false, hd]
    ring
  | true =>
    refine ⟨-dt * (2 * x ((i, j), true) * h ((i, j), false) * h ((i, j), true)
      + x ((i, j), false) * h ((i, j), true) ^ 2), -dt * h ((i, j), false) * h ((i, j), true) ^ 2,
      fun s => ?_⟩
    simp only [GS.function, GS.jacRow, applyRow, List.map_cons, List.map_nil, List.sum_cons,
      List.sum_nil, if_true, hd]
    ring

/-- For all spacings, the exact defect of the assembled Jacobian: the off-diagonal entries of the first field
have the wrong spacing in y-direction, those of the second in x-direction. -/
theorem C63_defect (P : GS K) (dt : K) (x : Pt P → K) :
    IsDerivative P dt x fun h q => applyRow (P.jacRow dt x q) h
      + (if q.2 then dt * P.dv * (1 / P.dy ^ 2 - 1 / P.dx ^ 2) *
          (h ((pred q.1.1, q.1.2), true) + h ((succ q.1.1, q.1.2), true))
        else dt * P.du * (1 / P.dx ^ 2 - 1 / P.dy ^ 2) *
          (h ((q.1.1, pred q.1.2), false) + h ((q.1.1, succ q.1.2), false))) := by
  rintro h ⟨⟨i, j⟩, f⟩
  cases f with
  | false =>
    refine ⟨dt * (2 * x ((i, j), true) * h ((i, j), false) * h ((i, j), true)
      + x ((i, j), false) * h ((i, j), true) ^ 2), dt * h ((i, j), false) * h ((i, j), true) ^ 2,
      fun s => ?_⟩
    simp only [GS.function, GS.jacRow, applyRow, List.map_cons, List.map_nil, List.sum_cons,
      List.sum_nil, Bool.false_eq_true, if_false]
    ring
  | true =>
    refine ⟨-dt * (2 * x ((i, j), true) * h ((i, j), false) * h ((i, j), true)
      + x ((i, j), false) * h ((i, j), true) ^ 2), -dt * h ((i, j), false) * h ((i, j), true) ^ 2,
      fun s => ?_⟩
    simp only [GS.function, GS.jacRow, applyRow, List.map_cons, List.map_nil, List.sum_cons,
      List.sum_nil, if_true]
    ring

/-- A grid with 3 x 6 points. -/
def exGS : GS ℚ where
  mx := 3
  my := 6
  du := 1
  dv := 1 / 100
  a := 9 / 100
  b := 86 / 1000
  dx := 1 / 3
  dy := 1 / 6

/-- The first row of the first field. -/
def exRow : Pt exGS := ((⟨0, by decide⟩, ⟨0, by decide⟩), false)

/-- Perturbation of the neighbour in y-direction. -/
def exDir : Pt exGS → ℚ := fun p => if p = ((⟨0, by decide⟩, ⟨1, by decide⟩), false) then 1 else 0

/-- For different spacings it is not: at the zero state, `dt = 1`. -/
theorem C63_counterexample :
    ¬ IsDerivative exGS 1 (fun _ => 0) fun h q => applyRow (exGS.jacRow 1 (fun _ => 0) q) h := by
  intro H
  obtain ⟨c2, c3, hs⟩ := H exDir exRow
  have h1 := hs 1
  have h2 := hs (-1)
  have h3 := hs 2
  have e0 : exGS.function 1 (fun _ => 0) exRow = -9 / 100 := by decide +kernel
  have eJ : applyRow (exGS.jacRow 1 (fun _ => 0) exRow) exDir = -9 := by decide +kernel
  have e1 : exGS.function 1 (fun p => 0 + 1 * exDir p) exRow = -9 / 100 - 36 := by decide +kernel
  have e2 : exGS.function 1 (fun p => 0 + (-1) * exDir p) exRow = -9 / 100 + 36 := by decide +kernel
  have e3 : exGS.function 1 (fun p => 0 + 2 * exDir p) exRow = -9 / 100 - 72 := by decide +kernel
  simp only [e0, eJ, e1, e2, e3] at h1 h2 h3
  linarith

example : (⟨3, 3, 1, 1 / 100, 9 / 100, 86 / 1000, 1 / 3, 1 / 3⟩ : GS ℚ).dx ^ 2 = (1 / 3) ^ 2 := rfl
example : ∀ d ∈ (1 : ℚ) :: [2, 1], d = 1 ∨ ¬ isclose d 1 := by decide +kernel

end Pymgrit.Petsc
