import Verif.Shipped
import Verif.PropsBdf
import Verif.PropsTol
import Mathlib.Analysis.SpecialFunctions.Trigonometric.Deriv
import Mathlib.Analysis.Real.Pi.Bounds

/-!
# Property C122: the solutions stated by the example scripts

The scripts for the heat equation state the solution of their problem.  The stated functions solve the differential
equation with the right-hand side, the initial value and the boundary values of the script, so the accuracy theorems apply
with explicit constants; in the two-dimensional script the discretization is exact.
-/

set_option linter.unusedSectionVars false

namespace Pymgrit
open Cfg Sys Taylor Set Lin Real

theorem deriv_sin (a b w c : ℝ) : Deriv a b (fun x => c * sin (w * x)) (fun x => c * w * cos (w * x)) := by
  intro x _
  have h1 : HasDerivAt (fun x => w * x) w x := by simpa using (hasDerivAt_id x).const_mul w
  have := (h1.sin.const_mul c).hasDerivWithinAt (s := Icc a b)
  exact this.congr_deriv (by ring)

theorem deriv_cos (a b w c : ℝ) : Deriv a b (fun x => c * cos (w * x)) (fun x => -(c * w * sin (w * x))) := by
  intro x _
  have h1 : HasDerivAt (fun x => w * x) w x := by simpa using (hasDerivAt_id x).const_mul w
  have := (h1.cos.const_mul c).hasDerivWithinAt (s := Icc a b)
  exact this.congr_deriv (by ring)

theorem abs_le_pi4 (x y : ℝ) : |π ^ 4 * sin x * cos y| ≤ π ^ 4 := by
  rw [mul_assoc, abs_mul, abs_mul, abs_of_nonneg (by positivity : (0 : ℝ) ≤ π ^ 4)]
  have h := mul_le_mul (abs_sin_le_one x) (abs_cos_le_one y) (abs_nonneg _) zero_le_one
  nlinarith [pow_pos pi_pos 4]

theorem sin_end (m : Nat) : sin (π * m) = 0 := by rw [mul_comm]; exact sin_nat_mul_pi m

/-- The function stated by the one-dimensional scripts solves their problem on `[0, m]` for every whole number `m`. -/
theorem exact1_solution3 (m : Nat) (t0 T : ℝ) : HeatSolution3 1 0 m t0 T Shipped.rhs1 Shipped.exact1 1 (π ^ 4) := by
  refine ⟨fun t x => -(sin (π * x) * sin t), fun t x => -(sin (π * x) * cos t), fun t x => sin (π * x) * sin t,
    fun t x => cos t * π * cos (π * x), fun t x => -(cos t * π ^ 2 * sin (π * x)),
    fun t x => -(cos t * π ^ 3 * cos (π * x)), fun t x => π ^ 4 * sin (π * x) * cos t, ?_, ?_, ?_, ?_⟩
  · intro x _
    refine ⟨(deriv_cos t0 T 1 (sin (π * x))).congr' (fun _ _ => ?_) (fun _ _ => ?_),
      (deriv_sin t0 T 1 (-sin (π * x))).congr' (fun _ _ => ?_) (fun _ _ => ?_),
      (deriv_cos t0 T 1 (-sin (π * x))).congr' (fun _ _ => ?_) (fun _ _ => ?_)⟩
    all_goals first | (unfold Shipped.exact1; ring_nf; done) | (ring_nf; done)
  · intro t _
    refine ⟨(deriv_sin 0 m π (cos t)).congr' (fun _ _ => ?_) (fun _ _ => ?_),
      (deriv_cos 0 m π (cos t * π)).congr' (fun _ _ => ?_) (fun _ _ => ?_),
      (deriv_sin 0 m π (-(cos t * π ^ 2))).congr' (fun _ _ => ?_) (fun _ _ => ?_),
      (deriv_cos 0 m π (-(cos t * π ^ 3))).congr' (fun _ _ => ?_) (fun _ _ => ?_)⟩
    all_goals first | (unfold Shipped.exact1; ring_nf; done) | (ring_nf; done)
  · intro t _ x _
    refine ⟨by unfold Shipped.rhs1; ring, ?_, abs_le_pi4 _ _⟩
    rw [abs_mul]
    exact mul_le_one₀ (abs_sin_le_one _) (abs_nonneg _) (abs_sin_le_one _)
  · intro t _
    unfold Shipped.exact1
    rw [sin_end, mul_zero, sin_zero]
    simp

theorem exact1_solution (m : Nat) (t0 T : ℝ) : HeatSolution 1 0 m t0 T Shipped.rhs1 Shipped.exact1 1 (π ^ 4) := by
  obtain ⟨-, -, -, -, -, -, -, -, -, -, h4⟩ := exact1_solution3 m t0 T
  refine ⟨fun t x => -(sin (π * x) * sin t), fun t x => -(sin (π * x) * cos t),
    fun t x => cos t * π * cos (π * x), fun t x => -(cos t * π ^ 2 * sin (π * x)),
    fun t x => -(cos t * π ^ 3 * cos (π * x)), fun t x => π ^ 4 * sin (π * x) * cos t, ?_, ?_, ?_, h4⟩
  · intro x _
    refine ⟨(deriv_cos t0 T 1 (sin (π * x))).congr' (fun _ _ => ?_) (fun _ _ => ?_),
      (deriv_sin t0 T 1 (-sin (π * x))).congr' (fun _ _ => ?_) (fun _ _ => ?_)⟩
    all_goals first | (unfold Shipped.exact1; ring_nf; done) | (ring_nf; done)
  · intro t _
    refine ⟨(deriv_sin 0 m π (cos t)).congr' (fun _ _ => ?_) (fun _ _ => ?_),
      (deriv_cos 0 m π (cos t * π)).congr' (fun _ _ => ?_) (fun _ _ => ?_),
      (deriv_sin 0 m π (-(cos t * π ^ 2))).congr' (fun _ _ => ?_) (fun _ _ => ?_),
      (deriv_cos 0 m π (-(cos t * π ^ 3))).congr' (fun _ _ => ?_) (fun _ _ => ?_)⟩
    all_goals first | (unfold Shipped.exact1; ring_nf; done) | (ring_nf; done)
  · intro t _ x _
    refine ⟨by unfold Shipped.rhs1; ring, ?_, abs_le_pi4 _ _⟩
    rw [abs_neg, abs_mul]
    exact mul_le_one₀ (abs_sin_le_one _) (abs_nonneg _) (abs_cos_le_one _)

section
variable {n : Nat} {E : Cfg (Fin n → ℝ) ℝ ℝ ℝ}

/-- C122, one-dimensional scripts (`x_start = 0`, `x_end = m`, `a = 1`): on any time grid from zero with spacing at most
`h` and any number of points in space, sequential time stepping differs from the solution stated by the script by at most
`t_i (h/2 + π⁴ dx²/12)`. -/
theorem C122_heat_1d (hs : (grid E.ts 0).Pairwise (· < ·)) {m : Nat} {dx h : ℝ} {x : List ℝ}
    (hdx : 0 < dx) (hm : Space.MeshOf (0 : ℝ) m 1 1 x n dx)
    (hstep : ∀ v t t', t ≤ t' → Apps.heat1dStep 1 dx (fun t i => Shipped.rhs1 t (x.getD i 0)) v t t' (E.step 0 v t t'))
    (h0 : tAt (grid E.ts 0) 0 = 0) (hstart : ∀ p : Fin n, E.start 0 p = Shipped.init1 (x.getD p 0))
    (hh : ∀ i, i + 1 < npts E.ts 0 → tAt (grid E.ts 0) (i + 1) - tAt (grid E.ts 0) i ≤ h)
    (i : Nat) (hi : i < npts E.ts 0) (p : Fin n) :
    |timeStepping E i p - Shipped.exact1 (tAt (grid E.ts 0) i) (x.getD p 0)| ≤
      tAt (grid E.ts 0) i * (h / 2 + π ^ 4 * dx ^ 2 / 12) := by
  have := C101_heat_1d hs zero_le_one hdx hm (exact1_solution m _ _) hstep (fun p => by
    rw [hstart p, h0]
    unfold Shipped.init1 Shipped.exact1
    rw [cos_zero, mul_one]) hh i hi p
  rw [h0, sub_zero] at this
  refine this.trans_eq ?_
  ring

/-- C122: the same for the values returned by `solve()` with the default criterion if it stopped before `max_iter`, for
any number of levels, cycle, weights and transfers. -/
theorem C122_heat_1d_solve (hg : E.Good) (hL : 1 < E.ts.length) (hcrit : E.convCrit = 0) {m : Nat} {dx h : ℝ}
    {x : List ℝ} (hdx : 0 < dx) (hm : Space.MeshOf (0 : ℝ) m 1 1 x n dx)
    (hstep : ∀ v t t', t ≤ t' → Apps.heat1dStep 1 dx (fun t i => Shipped.rhs1 t (x.getD i 0)) v t t' (E.step 0 v t t'))
    (h0 : tAt (grid E.ts 0) 0 = 0) (hstart : ∀ p : Fin n, E.start 0 p = Shipped.init1 (x.getD p 0))
    (hh : ∀ i, i + 1 < npts E.ts 0 → tAt (grid E.ts 0) (i + 1) - tAt (grid E.ts 0) i ≤ h)
    (hnorm : ∀ x, E.norm x = eucl x)
    {γ : ℝ} (hγ0 : 0 ≤ γ) (hγ : SumFactor E.tnorm ((allC E.ts 0).filter (· ≠ 0)).length γ)
    (tol : ℝ) (hlt : ∀ x, E.ltTol x = true → x < tol)
    {c : Conf E.P (Msg (Fin n → ℝ) ℝ) (PState (Fin n → ℝ) ℝ)} (h1 : Steps (startConf E) c)
    (hc : ∀ d, ¬ Step c d) (r : Fin E.P) (s : PState (Fin n → ℝ) ℝ) (hr : c.prog r = Prog.ret s)
    (hs : s.solveIter < E.maxIter)
    (k i j : Nat) (hi : (E.info r 0).pts[k]? = some i) (hj : (E.info r 0).idx[k]? = some j) (p : Fin n) :
    |s.u 0 j p - Shipped.exact1 (tAt (grid E.ts 0) i) (x.getD p 0)| ≤
      γ * tol + tAt (grid E.ts 0) i * (h / 2 + π ^ 4 * dx ^ 2 / 12) := by
  have hlen : i < npts E.ts 0 := ((returned hg (by omega) h1 hc r s hr).2.2.2.2 k i j hi hj).1
  have e1 := C71_solve_heat_1d hg hL hcrit zero_le_one _ hstep hnorm hγ0 hγ tol hlt h1 hc r s hr hs k i j hi hj
  have e2 := C122_heat_1d (hg.valid.sorted 0) hdx hm hstep h0 hstart hh i hlen p
  have e3 : |s.u 0 j p - timeStepping E i p| ≤ eucl (s.u 0 j - timeStepping E i) := by
    rw [← Real.sqrt_sq_eq_abs]
    exact Real.sqrt_le_sqrt (Finset.single_le_sum (f := fun x => (s.u 0 j x - timeStepping E i x) ^ 2)
      (fun _ _ => sq_nonneg _) (Finset.mem_univ p))
  have := abs_sub_le (s.u 0 j p) (timeStepping E i p) (Shipped.exact1 (tAt (grid E.ts 0) i) (x.getD p 0))
  linarith

/-- C122: with the numbers of `example_heat_1d.py` (64 steps of length 1/32, 1001 points on `[0, 1]`, final time 2), every
value of sequential time stepping is within 0.0313 of the stated solution. -/
theorem C122_heat_1d_numbers (hs : (grid E.ts 0).Pairwise (· < ·)) {x : List ℝ}
    (hm : Space.MeshOf (0 : ℝ) 1 1 1 x n (1 / 1000))
    (hstep : ∀ v t t', t ≤ t' →
      Apps.heat1dStep 1 (1 / 1000) (fun t i => Shipped.rhs1 t (x.getD i 0)) v t t' (E.step 0 v t t'))
    (h0 : tAt (grid E.ts 0) 0 = 0) (hstart : ∀ p : Fin n, E.start 0 p = Shipped.init1 (x.getD p 0))
    (hh : ∀ i, i + 1 < npts E.ts 0 → tAt (grid E.ts 0) (i + 1) - tAt (grid E.ts 0) i = 1 / 32)
    (hn : npts E.ts 0 = 65) (i : Nat) (hi : i < npts E.ts 0) (p : Fin n) :
    |timeStepping E i p - Shipped.exact1 (tAt (grid E.ts 0) i) (x.getD p 0)| < 313 / 10000 := by
  have h1 := C122_heat_1d (m := 1) hs (by norm_num) (by exact_mod_cast hm) hstep h0 hstart (fun i hi => (hh i hi).le) i
    hi p
  have ht : ∀ i, i < npts E.ts 0 → tAt (grid E.ts 0) i = i / 32 := by
    intro i
    induction i with
    | zero => intro _; rw [h0]; simp
    | succ i ih =>
      intro hi
      have := hh i hi
      have := ih (by omega)
      push_cast
      linarith
  have hi' : (i : ℝ) ≤ 64 := by exact_mod_cast (show i ≤ 64 by omega)
  have hp : π ^ 4 < 100 := by
    have h1 := pi_lt_d2
    have h2 : π ^ 2 < 10 := by nlinarith [pi_pos]
    nlinarith [sq_nonneg π]
  refine h1.trans_lt ?_
  rw [ht i hi]
  have h2 : (1 / 32 / 2 + π ^ 4 * (1 / 1000) ^ 2 / 12 : ℝ) < 313 / 20000 := by nlinarith
  have h3 : (0 : ℝ) < 1 / 32 / 2 + π ^ 4 * (1 / 1000) ^ 2 / 12 := by positivity
  have h4 : (i : ℝ) / 32 ≤ 2 := by linarith
  have h5 : (0 : ℝ) ≤ (i : ℝ) / 32 := by positivity
  nlinarith

end

section
variable {n : Nat} {E : Cfg ((Fin n → ℝ) × (Fin n → ℝ)) ℝ ℝ ℝ}

/-- C122, `example_heat_1d_bdf2.py`: for steps between 5/4 and 8 times `dtau` both values of every pair differ from the
stated solution at their times by at most `√(2 dtau + 5 t_i) (7/3 h² + π⁴ dx²/12)`. -/
theorem C122_bdf2 (hs : (grid E.ts 0).Pairwise (· < ·)) {dx d h : ℝ} {x : List ℝ}
    (hdx : 0 < dx) (hm : Space.MeshOf (0 : ℝ) 1 1 1 x n dx) (hd : 0 < d) (hdh : d ≤ h)
    (hstep : ∀ v t t', t + d < t' →
      Apps.bdf2Step 1 dx (fun t i => Shipped.rhs1 t (x.getD i 0)) d v t t' (E.step 0 v t t'))
    (h0 : tAt (grid E.ts 0) 0 = 0)
    (hstart : Apps.bdf2Start 1 dx (fun t i => Shipped.rhs1 t (x.getD i 0)) d 0 (fun p => Shipped.init1 (x.getD p 0))
      (E.start 0))
    (hratio : ∀ i, i + 1 < npts E.ts 0 → 5 / 4 * d ≤ tAt (grid E.ts 0) (i + 1) - tAt (grid E.ts 0) i ∧
      tAt (grid E.ts 0) (i + 1) - tAt (grid E.ts 0) i ≤ 8 * d)
    (hh : ∀ i, i + 1 < npts E.ts 0 → tAt (grid E.ts 0) (i + 1) - tAt (grid E.ts 0) i ≤ h)
    (i : Nat) (hi : i < npts E.ts 0) (p : Fin n) :
    |(timeStepping E i).1 p - Shipped.exact1 (tAt (grid E.ts 0) i) (x.getD p 0)| ≤
      √(2 * d + 5 * tAt (grid E.ts 0) i) * (7 / 3 * h ^ 2 + π ^ 4 * dx ^ 2 / 12) ∧
    |(timeStepping E i).2 p - Shipped.exact1 (tAt (grid E.ts 0) i + d) (x.getD p 0)| ≤
      √(2 * d + 5 * tAt (grid E.ts 0) i) * (7 / 3 * h ^ 2 + π ^ 4 * dx ^ 2 / 12) := by
  have e : ∀ y, Shipped.exact1 0 y = Shipped.init1 y := fun y => by
    unfold Shipped.init1 Shipped.exact1
    rw [cos_zero, mul_one]
  have hu := exact1_solution3 1 (tAt (grid E.ts 0) 0) (tAt (grid E.ts 0) (npts E.ts 0 - 1) + d)
  rw [Nat.cast_one] at hu
  have := C121_accuracy hs one_pos hdx hm hd hdh hu hstep (by rw [h0]; simp only [e]; exact hstart) hratio hh i hi p
  rw [h0, sub_zero, sub_zero, div_one] at this
  have e2 : (1 : ℝ) * √(2 * d + 5 * tAt (grid E.ts 0) i) * (7 / 3 * h ^ 2 * 1 + 1 * dx ^ 2 / 12 * π ^ 4) =
      √(2 * d + 5 * tAt (grid E.ts 0) i) * (7 / 3 * h ^ 2 + π ^ 4 * dx ^ 2 / 12) := by ring
  rwa [e2] at this

end

/-! ## Two dimensions -/

theorem exact2_solution (X Y a t0 T : ℝ) :
    Heat2DSolution a 0 X 0 Y t0 T (Shipped.rhs2 X Y a) (Shipped.exact2 X Y) 0 0 0 := by
  refine ⟨fun _ x y => 5 * x * (X - x) * y * (Y - y), fun _ _ _ => 0,
    fun t x y => 5 * t * (X - 2 * x) * y * (Y - y), fun t _ y => -(10 * t * y * (Y - y)), fun _ _ _ => 0, fun _ _ _ => 0,
    fun t x y => 5 * t * x * (X - x) * (Y - 2 * y), fun t x _ => -(10 * t * x * (X - x)), fun _ _ _ => 0,
    fun _ _ _ => 0, ?_, ?_, ?_, ?_⟩
  · intro x _ y _
    refine ⟨(deriv_quartic t0 T 0 (5 * x * (X - x) * y * (Y - y)) 0 0 0).congr' (fun _ _ => ?_) (fun _ _ => ?_),
      (Deriv.const t0 T (5 * x * (X - x) * y * (Y - y)))⟩
    · unfold Shipped.exact2; ring
    · ring
  · intro t _ y _
    refine ⟨(deriv_quartic 0 X 0 (5 * t * X * y * (Y - y)) (-(5 * t * y * (Y - y))) 0 0).congr' (fun _ _ => ?_)
      (fun _ _ => ?_), (deriv_quartic 0 X (5 * t * X * y * (Y - y)) (-(10 * t * y * (Y - y))) 0 0 0).congr'
      (fun _ _ => ?_) (fun _ _ => ?_), Deriv.const 0 X _, Deriv.const 0 X 0⟩
    all_goals first | (unfold Shipped.exact2; ring) | ring
  · intro t _ x _
    refine ⟨(deriv_quartic 0 Y 0 (5 * t * x * (X - x) * Y) (-(5 * t * x * (X - x))) 0 0).congr' (fun _ _ => ?_)
      (fun _ _ => ?_), (deriv_quartic 0 Y (5 * t * x * (X - x) * Y) (-(10 * t * x * (X - x))) 0 0 0).congr'
      (fun _ _ => ?_) (fun _ _ => ?_), Deriv.const 0 Y _, Deriv.const 0 Y 0⟩
    all_goals first | (unfold Shipped.exact2; ring) | ring
  · intro t _ x _ y _
    refine ⟨by unfold Shipped.rhs2; ring, by simp, by simp, by simp⟩

namespace Apps.Heat2D
variable (P : Apps.Heat2D ℝ) {E : Cfg (Nat → Nat → ℝ) ℝ ℝ ℝ}

/-- Specification: the problem of `example_heat_2d.py` on a mesh: backward Euler, the right-hand side of the script,
homogeneous boundary values. -/
structure IsShipped (X Y : ℝ) (x y : List ℝ) : Prop where
  nx : 2 ≤ P.nx
  ny : 2 ≤ P.ny
  a : 0 ≤ P.a
  theta : P.theta = 1
  dx : 0 < P.dx
  dy : 0 < P.dy
  mx : Space.MeshOf 0 X 0 0 x P.nx P.dx
  my : Space.MeshOf 0 Y 0 0 y P.ny P.dy
  rhs : ∀ t i j, P.rhs t i j = Shipped.rhs2 X Y P.a t (x.getD i 0) (y.getD j 0)
  left : ∀ j, P.left j = 0
  right : ∀ j, P.right j = 0
  bottom : ∀ i, P.bottom i = 0
  top : ∀ i, P.top i = 0

/-- C122, `example_heat_2d.py`: sequential time stepping yields the solution stated by the script exactly, at every point
of the mesh and every time point, for every rectangle, diffusivity, mesh and time grid from zero. -/
theorem C122_heat_2d {X Y : ℝ} {x y : List ℝ} (hP : P.IsShipped X Y x y) (hs : (grid E.ts 0).Pairwise (· < ·))
    (hstep : ∀ v t t', t ≤ t' → P.step v t t' (E.step 0 v t t'))
    (h0 : tAt (grid E.ts 0) 0 = 0) (hstart : E.start 0 = P.start fun _ _ => 0)
    (i : Nat) (hi : i < npts E.ts 0) (p q : Nat) (hp : p < P.nx) (hq : q < P.ny) :
    timeStepping E i p q = Shipped.exact2 X Y (tAt (grid E.ts 0) i) (x.getD p 0) (y.getD q 0) := by
  have hx0 : x.getD 0 0 = 0 := by rw [mesh_get hP.mx (by have := hP.nx; omega)]; simp
  have hy0 : y.getD 0 0 = 0 := by rw [mesh_get hP.my (by have := hP.ny; omega)]; simp
  have hend : ∀ {n : Nat} {B d : ℝ} {z : List ℝ}, 2 ≤ n → Space.MeshOf 0 B 0 0 z n d → z.getD (n - 1) 0 = B := by
    intro n B d z hn hz
    rw [mesh_get hz (by omega), Nat.cast_sub (by omega)]
    have := hz.2.1
    push_cast at this ⊢
    linarith
  have hx1 := hend hP.nx hP.mx
  have hy1 := hend hP.ny hP.my
  have hbd : ∀ t, P.BoundaryOK fun i j => Shipped.exact2 X Y t (x.getD i 0) (y.getD j 0) := by
    intro t
    unfold Shipped.exact2
    refine ⟨fun j _ => ?_, fun j _ => ?_, fun i _ _ => ?_, fun i _ _ => ?_⟩
    · simp only [hx0, hP.top]; ring
    · simp only [hx1, hP.bottom]; ring
    · simp only [hy1, hP.right]; ring
    · simp only [hy0, hP.left]; ring
  have hmem : ∀ i, i < npts E.ts 0 → tAt (grid E.ts 0) 0 ≤ tAt (grid E.ts 0) i ∧
      tAt (grid E.ts 0) i ≤ tAt (grid E.ts 0) (npts E.ts 0 - 1) := fun i hi => grid_mem hs hi
  have key := P.C101_heat_2d (h := tAt (grid E.ts 0) (npts E.ts 0 - 1)) hs hP.nx hP.ny hP.a hP.theta hP.dx hP.dy hP.mx
    hP.my hP.rhs (exact2_solution X Y P.a _ _) (fun t _ => hbd t) hstep (fun p q hp hq => ?_)
    (by rw [← h0]; exact (hmem _ (by omega)).1) (fun i hi => ?_) i hi p q hp hq
  · have : (tAt (grid E.ts 0) (npts E.ts 0 - 1) / 2 * 0 + P.a / 12 * (P.dx ^ 2 * 0 + P.dy ^ 2 * 0) : ℝ) = 0 := by ring
    rw [this, mul_zero] at key
    exact sub_eq_zero.1 (abs_nonpos_iff.1 key)
  · rw [hstart, h0]
    unfold start setBC Shipped.exact2
    rw [hP.top, hP.bottom, hP.right, hP.left]
    split_ifs <;> ring
  · have := (hmem i (by omega)).1
    have := (hmem (i + 1) hi).2
    linarith

/-- C122, `example_heat_2d.py`: with the default criterion, if `solve()` stopped before `max_iter`, every returned value is
within `γ tol` of the solution stated by the script, whatever the mesh, the time grid and the coarse levels. -/
theorem C122_heat_2d_solve {X Y : ℝ} {x y : List ℝ} (hP : P.IsShipped X Y x y) (h : E.Good) (hL : 1 < E.ts.length)
    (hcrit : E.convCrit = 0) (hstep : ∀ v t t', t ≤ t' → P.step v t t' (E.step 0 v t t'))
    (h0 : tAt (grid E.ts 0) 0 = 0) (hstart : E.start 0 = P.start fun _ _ => 0) (hnorm : ∀ x, E.norm x = P.frob x)
    {γ : ℝ} (hγ0 : 0 ≤ γ) (hγ : SumFactor E.tnorm ((allC E.ts 0).filter (· ≠ 0)).length γ)
    (tol : ℝ) (hlt : ∀ x, E.ltTol x = true → x < tol)
    {c : Conf E.P (Msg (Nat → Nat → ℝ) ℝ) (PState (Nat → Nat → ℝ) ℝ)} (h1 : Steps (startConf E) c)
    (hc : ∀ d, ¬ Step c d) (r : Fin E.P) (s : PState (Nat → Nat → ℝ) ℝ) (hr : c.prog r = Prog.ret s)
    (hs : s.solveIter < E.maxIter)
    (k i j : Nat) (hi : (E.info r 0).pts[k]? = some i) (hj : (E.info r 0).idx[k]? = some j)
    (p q : Nat) (hp : p < P.nx) (hq : q < P.ny) :
    |s.u 0 j p q - Shipped.exact2 X Y (tAt (grid E.ts 0) i) (x.getD p 0) (y.getD q 0)| ≤ γ * tol := by
  have hlen : i < npts E.ts 0 := ((returned h (by omega) h1 hc r s hr).2.2.2.2 k i j hi hj).1
  rw [← P.C122_heat_2d hP (h.valid.sorted 0) hstep h0 hstart i hlen p q hp hq]
  refine le_trans ?_ (P.C71_solve_heat_2d h hL hcrit hP.nx hP.ny hP.a hP.theta hstep hnorm hγ0 hγ tol hlt h1 hc r s hr hs
    k i j hi hj)
  rw [← Real.sqrt_sq_eq_abs]
  exact Real.sqrt_le_sqrt (Finset.single_le_sum
    (f := fun z : Fin P.nx × Fin P.ny => (s.u 0 j z.1 z.2 - timeStepping E i z.1 z.2) ^ 2)
    (fun _ _ => sq_nonneg _) (Finset.mem_univ (⟨p, hp⟩, ⟨q, hq⟩)))

end Apps.Heat2D

/-- C122: the formula in the documentation of `rhs` (`example_heat_2d.py:43`) is not the right-hand side of the stated
solution, which does not solve the differential equation with it, for all positive sizes and `a ≥ 1`. -/
theorem C122_documented_rhs {X Y a t0 T : ℝ} (hX : 0 < X) (hY : 0 < Y) (ha : 1 ≤ a) (ht0 : 0 ≤ t0) (hT : t0 < T)
    (hT1 : 1 ≤ T) :
    ¬ ∃ Mt Mx My, Heat2DSolution a 0 X 0 Y t0 T
      (fun t x y => 5 * x * (X - x) * y * (Y - y) + 10 * a * t * (y * (Y - y)) + x * (X - x)) (Shipped.exact2 X Y)
      Mt Mx My := by
  rintro ⟨Mt, Mx, My, ut, utt, ux, uxx, ux3, ux4, uy, uyy, uy3, uy4, h1, h2, h3, h4⟩
  obtain ⟨ut', utt', ux', uxx', v3, v4, uy', uyy', w3, w4, k1, k2, k3, k4⟩ := exact2_solution X Y a t0 T
  have mt : T ∈ Icc t0 T := ⟨hT.le, le_rfl⟩
  have mx : X / 2 ∈ Icc 0 X := ⟨by linarith, by linarith⟩
  have my : Y / 2 ∈ Icc 0 Y := ⟨by linarith, by linarith⟩
  have uniq : ∀ {p q : ℝ} {f f1 f2 : ℝ → ℝ}, p < q → Deriv p q f f1 → Deriv p q f f2 → ∀ z ∈ Icc p q, f1 z = f2 z :=
    fun hpq a b z hz => (uniqueDiffOn_Icc hpq z hz).eq_deriv _ (a z hz) (b z hz)
  have e1 := uniq hT (h1 _ mx _ my).1 (k1 _ mx _ my).1 T mt
  have e2 : uxx T (X / 2) (Y / 2) = uxx' T (X / 2) (Y / 2) := by
    have a1 := h2 T mt _ my
    have a2 := k2 T mt _ my
    have e : ∀ z ∈ Icc 0 X, ux T z (Y / 2) = ux' T z (Y / 2) := uniq hX a1.1 a2.1
    exact uniq hX a1.2.1 (a2.2.1.congr' e (fun _ _ => rfl)) _ mx
  have e3 : uyy T (X / 2) (Y / 2) = uyy' T (X / 2) (Y / 2) := by
    have a1 := h3 T mt _ mx
    have a2 := k3 T mt _ mx
    have e : ∀ z ∈ Icc 0 Y, uy T (X / 2) z = uy' T (X / 2) z := uniq hY a1.1 a2.1
    exact uniq hY a1.2.1 (a2.2.1.congr' e (fun _ _ => rfl)) _ my
  have p1 := (h4 T mt _ mx _ my).1
  have p2 := (k4 T mt _ mx _ my).1
  rw [e1, e2, e3, p2] at p1
  unfold Shipped.rhs2 at p1
  have : (10 * a * T - 1) * (X / 2 * (X / 2)) = 0 := by linear_combination p1
  rcases mul_eq_zero.1 this with h | h
  · nlinarith
  · have : 0 < X / 2 * (X / 2) := by positivity
    linarith

/-! ## Examples -/

/-- `C122_documented_rhs` with the numbers of the script. -/
example := C122_documented_rhs (X := 3 / 4) (Y := 3 / 2) (a := 7 / 2) (t0 := 0) (T := 1) (by norm_num) (by norm_num)
  (by norm_num) le_rfl one_pos le_rfl

/-- `C122_heat_1d` and `C122_heat_1d_solve` for every number of points on `[0, 2]`, as in
`example_spatial_coarsening.py`. -/
example (nx : Nat) (hnx : 4 ≤ nx) : ∃ x n dx, Space.heat1dMesh (0 : ℝ) 2 nx = .ok (x, n, dx) ∧
    ∀ E : Cfg (Fin n → ℝ) ℝ ℝ ℝ, E = exTol (exHeat n 1 dx fun t i => Shipped.rhs1 t (x.getD i 0))
      (fun p => Shipped.init1 (x.getD p 0)) 0 true 0 eucl norm2 →
    (∀ i < 5, ∀ p, |timeStepping E i p - Shipped.exact1 (tAt (grid E.ts 0) i) (x.getD p 0)| ≤
      tAt (grid E.ts 0) i * (6 / 2 + π ^ 4 * dx ^ 2 / 12)) ∧
    ∀ (c : Conf E.P (Msg (Fin n → ℝ) ℝ) (PState (Fin n → ℝ) ℝ)), Steps (startConf E) c → (∀ d, ¬ Step c d) →
      ∀ r s, c.prog r = Prog.ret s → s.solveIter < E.maxIter →
      ∀ k i j : Nat, (E.info r 0).pts[k]? = some i → (E.info r 0).idx[k]? = some j → ∀ p : Fin n,
        |s.u 0 j p - Shipped.exact1 (tAt (grid E.ts 0) i) (x.getD p 0)| ≤
          √(((allC E.ts 0).filter (· ≠ 0)).length) * (1 / 100) +
            tAt (grid E.ts 0) i * (6 / 2 + π ^ 4 * dx ^ 2 / 12) := by
  obtain ⟨x, n, dx, e, hn, hm⟩ := (Space.C100_heat_1d (0 : ℝ) 2 nx).2 hnx
  have hdx : 0 < dx := by
    have := hm.2.1
    push_cast at this
    by_contra h0
    have : (1 + (n : ℝ) + 1 - 1) * dx ≤ 0 :=
      mul_nonpos_of_nonneg_of_nonpos (by have : (0 : ℝ) ≤ n := Nat.cast_nonneg n
                                         linarith) (by linarith)
    linarith
  have hm' : Space.MeshOf (0 : ℝ) ((2 : ℕ) : ℝ) 1 1 x n dx := by exact_mod_cast hm
  refine ⟨x, n, dx, e, ?_⟩
  rintro E rfl
  refine ⟨fun i hi p => ?_, fun c h1 hc r s hr hs k i j hi hj p => ?_⟩
  · exact C122_heat_1d (E := exTol (exHeat n 1 dx fun t i => Shipped.rhs1 t (x.getD i 0)) (fun p => Shipped.init1 (x.getD p 0)) 0 true 0
      eucl norm2) (exRealGrid_valid.sorted 0) hdx hm' (fun v _ _ ht => exHeat_step zero_le_one _ 0 v ht) rfl
      (fun _ => rfl) exRealGrid_step i hi p
  · exact C122_heat_1d_solve (E := exTol (exHeat n 1 dx fun t i => Shipped.rhs1 t (x.getD i 0)) (fun p => Shipped.init1 (x.getD p 0)) 0 true 0
      eucl norm2)
      (exTol_good _ _ _ _ (Or.inl rfl) _ _).1 (by show 1 < 2; decide) rfl hdx hm'
      (fun v _ _ ht => exHeat_step zero_le_one _ 0 v ht) rfl (fun _ => rfl) exRealGrid_step (fun _ => rfl)
      (Real.sqrt_nonneg _) (sumFactor_norm2 _) (1 / 100) (fun x => (exTol_lt _ _ _ _ _ _ _ x).1) h1 hc r s hr hs k i j
      hi hj p

/-- The time points of `example_heat_1d.py`. -/
noncomputable def exTimes : List ℝ := (List.range 65).map fun i : Nat => (i : ℝ) / 32

theorem exTimes_at {i : Nat} (hi : i < 65) : tAt exTimes i = (i : ℝ) / 32 := by
  unfold tAt exTimes
  simp [hi]

/-- `C122_heat_1d_numbers` for the mesh and the times of `example_heat_1d.py`. -/
example : ∃ x n, Space.heat1dMesh (0 : ℝ) 1 1001 = .ok (x, n, 1 / 1000) ∧
    ∀ E : Cfg (Fin n → ℝ) ℝ ℝ ℝ, E = { exTol (exHeat n 1 (1 / 1000) fun t i => Shipped.rhs1 t (x.getD i 0))
      (fun p => Shipped.init1 (x.getD p 0)) 0 true 0 eucl norm2 with ts := [exTimes] } →
    ∀ i < 65, ∀ p, |timeStepping E i p - Shipped.exact1 (tAt exTimes i) (x.getD p 0)| < 313 / 10000 := by
  obtain ⟨x, n, dx, e, hn, hm⟩ := (Space.C100_heat_1d (0 : ℝ) 1 1001).2 (by norm_num)
  obtain rfl : dx = 1 / 1000 := by
    have h2 := hm.2.1
    have h3 : (n : ℝ) + 2 = 1001 := by exact_mod_cast hn
    push_cast at h2
    have h4 : (n : ℝ) = 999 := by linarith
    rw [h4] at h2
    linarith
  refine ⟨x, n, e, ?_⟩
  rintro E rfl i hi p
  have hlen : exTimes.length = 65 := by simp [exTimes]
  exact C122_heat_1d_numbers (E := { exTol (exHeat n 1 (1 / 1000) fun t i => Shipped.rhs1 t (x.getD i 0))
      (fun p => Shipped.init1 (x.getD p 0)) 0 true 0 eucl norm2 with ts := [exTimes] }) (by
      show exTimes.Pairwise (· < ·)
      unfold exTimes
      rw [List.pairwise_map]
      refine List.Pairwise.imp ?_ List.pairwise_lt_range
      intro a b hab
      have : (a : ℝ) < b := by exact_mod_cast hab
      linarith) hm (fun v _ _ ht => exHeat_step zero_le_one _ 0 v ht)
    (by show tAt exTimes 0 = 0; rw [exTimes_at (by decide)]; simp) (fun _ => rfl) (fun i hi => by
      have hi : i + 1 < exTimes.length := hi
      rw [hlen] at hi
      show tAt exTimes (i + 1) - tAt exTimes i = 1 / 32
      rw [exTimes_at hi, exTimes_at (by omega)]
      push_cast
      ring) hlen i (by show i < exTimes.length; omega) p

/-- `C122_bdf2` on a mesh with 9 points. -/
example : ∃ x, Space.heat1dMesh (0 : ℝ) 1 9 = .ok (x, 7, 1 / 8) ∧ ∃ s : (Fin 7 → ℝ) × (Fin 7 → ℝ),
    ∀ i, i < 5 → ∀ p : Fin 7,
    |(timeStepping (exTol (exPairs 7 1 (1 / 8) (4 / 5) fun t i => Shipped.rhs1 t (x.getD i 0)) s 0 false 1 (fun _ => 0)
      norm1) i).1 p - Shipped.exact1 (tAt (grid exRealGrid 0) i) (x.getD p 0)| ≤
      √(2 * (4 / 5) + 5 * tAt (grid exRealGrid 0) i) * (7 / 3 * 6 ^ 2 + π ^ 4 * (1 / 8) ^ 2 / 12) := by
  obtain ⟨x, n, dx, e, hn, hm⟩ := (Space.C100_heat_1d (0 : ℝ) 1 9).2 (by decide)
  obtain rfl : n = 7 := by omega
  obtain rfl : dx = 1 / 8 := by
    have := hm.2.1
    push_cast at this
    linarith
  have hdom := Apps.heat_dominant_one 7 (1 / 8 : ℝ) (a := 1) (c := 4 / 5 / 2) (by norm_num) (by norm_num)
  obtain ⟨z, hz, -⟩ := hdom.existsUnique one_pos
    ((1 - ((4 / 5 : ℝ) / 2) • Apps.heatMatrix 7 (1 : ℝ) (1 / 8)).mulVec (fun p : Fin 7 => Shipped.init1 (x.getD p 0)) +
      ((4 / 5 : ℝ) / 2) • ((fun i : Fin 7 => Shipped.rhs1 0 (x.getD i 0)) +
        fun i : Fin 7 => Shipped.rhs1 (0 + 4 / 5) (x.getD i 0)))
  refine ⟨x, e, (fun p => Shipped.init1 (x.getD p 0), z), fun i hi p => ?_⟩
  exact (C122_bdf2 (E := exTol (exPairs 7 1 (1 / 8) (4 / 5) fun t i => Shipped.rhs1 t (x.getD i 0))
    (fun p => Shipped.init1 (x.getD p 0), z) 0 false 1 (fun _ => 0) norm1) (exRealGrid_valid.sorted 0) (by norm_num) hm
    (by norm_num) (by norm_num) (fun v _ _ ht => exPairs_step (by norm_num) (by norm_num) _ 0 v ht) rfl ⟨rfl, hz⟩
    exRealGrid_ratio exRealGrid_step i hi p).1

/-- The problem of `example_heat_2d.py` on a mesh. -/
noncomputable def exShip (nx ny : Nat) (x y : List ℝ) (dx dy : ℝ) : Apps.Heat2D ℝ where
  nx := nx
  ny := ny
  a := 7 / 2
  dx := dx
  dy := dy
  theta := 1
  rhs := fun t i j => Shipped.rhs2 (3 / 4) (3 / 2) (7 / 2) t (x.getD i 0) (y.getD j 0)
  left := fun _ => 0
  right := fun _ => 0
  bottom := fun _ => 0
  top := fun _ => 0

theorem exShip_ok (nx ny : Nat) (hnx : 2 ≤ nx) (hny : 2 ≤ ny) : ∃ x y dx dy,
    Space.heat2dMesh (0 : ℝ) (3 / 4) nx = .ok (x, nx, dx) ∧ Space.heat2dMesh (0 : ℝ) (3 / 2) ny = .ok (y, ny, dy) ∧
    (exShip nx ny x y dx dy).IsShipped (3 / 4) (3 / 2) x y := by
  obtain ⟨x, dx, e1, hmx⟩ := (Space.C100_heat_2d (0 : ℝ) (3 / 4) nx).2 hnx
  obtain ⟨y, dy, e2, hmy⟩ := (Space.C100_heat_2d (0 : ℝ) (3 / 2) ny).2 hny
  have hpos : ∀ {n : Nat} {B d : ℝ} {z : List ℝ}, 2 ≤ n → 0 < B → Space.MeshOf 0 B 0 0 z n d → 0 < d := by
    intro n B d z hn hB hz
    have h2 := hz.2.1
    push_cast at h2
    have h4 : (2 : ℝ) ≤ n := by exact_mod_cast hn
    by_contra h0
    have : ((n : ℝ) - 1) * d ≤ 0 := mul_nonpos_of_nonneg_of_nonpos (by linarith) (by linarith)
    linarith
  exact ⟨x, y, dx, dy, e1, e2, hnx, hny, by norm_num [exShip], rfl, hpos hnx (by norm_num) hmx, hpos hny (by norm_num) hmy,
    hmx, hmy, fun _ _ _ => rfl, fun _ => rfl, fun _ => rfl, fun _ => rfl, fun _ => rfl⟩

/-- `C122_heat_2d` and `C122_heat_2d_solve` for it. -/
example (nx ny : Nat) (hnx : 2 ≤ nx) (hny : 2 ≤ ny) : ∃ x y dx dy,
    Space.heat2dMesh (0 : ℝ) (3 / 4) nx = .ok (x, nx, dx) ∧ Space.heat2dMesh (0 : ℝ) (3 / 2) ny = .ok (y, ny, dy) ∧
    ∀ E : Cfg (Nat → Nat → ℝ) ℝ ℝ ℝ, E = exTol (exUnitStep (exShip nx ny x y dx dy))
      ((exShip nx ny x y dx dy).start fun _ _ => 0) 0 true 0 (exShip nx ny x y dx dy).frob norm2 →
    (∀ i < 5, ∀ p q, p < nx → q < ny →
      timeStepping E i p q = Shipped.exact2 (3 / 4) (3 / 2) (tAt (grid E.ts 0) i) (x.getD p 0) (y.getD q 0)) ∧
    ∀ (c : Conf E.P (Msg (Nat → Nat → ℝ) ℝ) (PState (Nat → Nat → ℝ) ℝ)), Steps (startConf E) c → (∀ d, ¬ Step c d) →
      ∀ r s, c.prog r = Prog.ret s → s.solveIter < E.maxIter →
      ∀ k i j : Nat, (E.info r 0).pts[k]? = some i → (E.info r 0).idx[k]? = some j → ∀ p q, p < nx → q < ny →
        |s.u 0 j p q - Shipped.exact2 (3 / 4) (3 / 2) (tAt (grid E.ts 0) i) (x.getD p 0) (y.getD q 0)| ≤
          √(((allC E.ts 0).filter (· ≠ 0)).length) * (1 / 100) := by
  obtain ⟨x, y, dx, dy, e1, e2, hP⟩ := exShip_ok nx ny hnx hny
  refine ⟨x, y, dx, dy, e1, e2, ?_⟩
  have hstep : ∀ u t t', t ≤ t' → (exShip nx ny x y dx dy).step u t t' (exUnitStep (exShip nx ny x y dx dy) 0 u t t') := by
    intro u t t' ht
    have h : ∃ z, (exShip nx ny x y dx dy).step u t t' z :=
      ((exShip nx ny x y dx dy).C59_wellposed hny hP.a (by rw [hP.theta]; exact one_pos) u ht).exists
    unfold exUnitStep
    rw [dif_pos h]
    exact h.choose_spec
  rintro E rfl
  refine ⟨fun i hi p q hp hq => ?_, fun c h1 hc r s hr hs k i j hi hj p q hp hq => ?_⟩
  · exact Apps.Heat2D.C122_heat_2d _ (E := exTol (exUnitStep (exShip nx ny x y dx dy)) ((exShip nx ny x y dx dy).start fun _ _ => 0) 0 true 0
      (exShip nx ny x y dx dy).frob norm2) hP (exRealGrid_valid.sorted 0) hstep rfl rfl i hi p q hp hq
  · exact Apps.Heat2D.C122_heat_2d_solve _ (E := exTol (exUnitStep (exShip nx ny x y dx dy)) ((exShip nx ny x y dx dy).start fun _ _ => 0) 0 true 0
      (exShip nx ny x y dx dy).frob norm2) hP
      (exTol_good _ _ _ _ (Or.inl rfl) _ _).1 (by show 1 < 2; decide) rfl hstep
      rfl rfl (fun _ => rfl) (Real.sqrt_nonneg _) (sumFactor_norm2 _) (1 / 100)
      (fun x => (exTol_lt _ _ _ _ _ _ _ x).1) h1 hc r s hr hs k i j hi hj p q hp hq

end Pymgrit
