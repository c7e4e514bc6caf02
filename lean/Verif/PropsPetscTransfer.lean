import Verif.PropsPetscHeat

/-!
# Transfers between PETSc grids (C124)

`GridTransferPetsc` on a grid and its refinement: the restriction undoes the interpolation, bilinear functions are
interpolated exactly, bounds and zero boundary values are kept, the problem of the coarse grid is the restricted problem
of the fine grid, and `solve()` with these transfers ends with sequential time stepping on the fine grid.
-/

namespace Pymgrit.Petsc
open Real

/-- The coordinates of a point of the fine grid. -/
noncomputable def Heat.x (P : Heat ℝ) (q : Nat × Nat) : ℝ × ℝ := (q.1 * P.dx, q.2 * P.dy)

theorem refined_dx {mx my : Nat} (hx : 2 ≤ mx) (a : ℝ) :
    (Heat.make mx my a).dx = 2 * (Heat.refined mx my a).dx := by
  have : (2 : ℝ) ≤ mx := by exact_mod_cast hx
  show 1 / ((mx : ℝ) - 1) = 2 * (1 / (((2 * mx - 1 : Nat) : ℝ) - 1))
  rw [Nat.cast_sub (by omega)]
  push_cast
  rw [show 2 * (mx : ℝ) - 1 - 1 = 2 * (mx - 1) by ring]
  have h : (mx : ℝ) - 1 ≠ 0 := by linarith
  field_simp

theorem refined_dy {mx my : Nat} (hy : 2 ≤ my) (a : ℝ) :
    (Heat.make mx my a).dy = 2 * (Heat.refined mx my a).dy := by
  have : (2 : ℝ) ≤ my := by exact_mod_cast hy
  show 1 / ((my : ℝ) - 1) = 2 * (1 / (((2 * my - 1 : Nat) : ℝ) - 1))
  rw [Nat.cast_sub (by omega)]
  push_cast
  rw [show 2 * (my : ℝ) - 1 - 1 = 2 * (my - 1) by ring]
  have h : (my : ℝ) - 1 ≠ 0 := by linarith
  field_simp

/-- C124: every point of the coarse grid is a point of the fine grid with the same coordinates. -/
theorem C124_coordinates {mx my : Nat} (hx : 2 ≤ mx) (hy : 2 ≤ my) (a : ℝ) (p q : Nat) (hp : p < mx) (hq : q < my) :
    2 * p < (Heat.refined mx my a).mx ∧ 2 * q < (Heat.refined mx my a).my ∧
    (Heat.refined mx my a).x (2 * p, 2 * q) = (Heat.make mx my a).x (p, q) := by
  refine ⟨show 2 * p < 2 * mx - 1 by omega, show 2 * q < 2 * my - 1 by omega, ?_⟩
  unfold Heat.x
  rw [refined_dx hx, refined_dy hy]
  push_cast
  ext <;> ring

/-- C124: the restriction undoes the interpolation. -/
theorem C124_restrict_interpolate (u : Nat × Nat → ℝ) : restriction (interpolation u) = u := by
  funext ⟨p, q⟩
  show (u (2 * p / 2, 2 * q / 2) + u ((2 * p + 1) / 2, 2 * q / 2) + u (2 * p / 2, (2 * q + 1) / 2) +
    u ((2 * p + 1) / 2, (2 * q + 1) / 2)) / 4 = _
  rw [show 2 * p / 2 = p by omega, show 2 * q / 2 = q by omega, show (2 * p + 1) / 2 = p by omega,
    show (2 * q + 1) / 2 = q by omega]
  ring

theorem half_sum (i : Nat) : ((i / 2 : Nat) : ℝ) + ((i + 1) / 2 : Nat) = i := by
  have : i / 2 + (i + 1) / 2 = i := by omega
  exact_mod_cast this

/-- C124: functions `α + β x + γ y + δ x y` of the coordinates are interpolated exactly. -/
theorem C124_bilinear {mx my : Nat} (hx : 2 ≤ mx) (hy : 2 ≤ my) (a α β γ δ : ℝ) (q : Nat × Nat) :
    interpolation (fun z => α + β * ((Heat.make mx my a).x z).1 + γ * ((Heat.make mx my a).x z).2 +
      δ * ((Heat.make mx my a).x z).1 * ((Heat.make mx my a).x z).2) q =
    α + β * ((Heat.refined mx my a).x q).1 + γ * ((Heat.refined mx my a).x q).2 +
      δ * ((Heat.refined mx my a).x q).1 * ((Heat.refined mx my a).x q).2 := by
  unfold interpolation Heat.x
  dsimp only
  rw [refined_dx hx, refined_dy hy]
  have e1 := half_sum q.1
  have e2 := half_sum q.2
  generalize ((q.1 / 2 : Nat) : ℝ) = i1 at *
  generalize (((q.1 + 1) / 2 : Nat) : ℝ) = i2 at *
  generalize ((q.2 / 2 : Nat) : ℝ) = j1 at *
  generalize (((q.2 + 1) / 2 : Nat) : ℝ) = j2 at *
  rw [← e1, ← e2]
  ring

/-- C124: interpolation stays between the bounds of the coarse values, restriction between those of the fine values. -/
theorem C124_bounds {mx my : Nat} (a : ℝ) {u v : Nat × Nat → ℝ} {lo hi : ℝ}
    (hu : ∀ p q, p < mx → q < my → lo ≤ u (p, q) ∧ u (p, q) ≤ hi)
    (hv : ∀ p q, p < (Heat.refined mx my a).mx → q < (Heat.refined mx my a).my → lo ≤ v (p, q) ∧ v (p, q) ≤ hi) :
    (∀ p q, p < (Heat.refined mx my a).mx → q < (Heat.refined mx my a).my →
      lo ≤ interpolation u (p, q) ∧ interpolation u (p, q) ≤ hi) ∧
    ∀ p q, p < mx → q < my → lo ≤ restriction v (p, q) ∧ restriction v (p, q) ≤ hi := by
  constructor
  · intro p q hp hq
    have hp : p < 2 * mx - 1 := hp
    have hq : q < 2 * my - 1 := hq
    have e1 := hu (p / 2) (q / 2) (by omega) (by omega)
    have e2 := hu ((p + 1) / 2) (q / 2) (by omega) (by omega)
    have e3 := hu (p / 2) ((q + 1) / 2) (by omega) (by omega)
    have e4 := hu ((p + 1) / 2) ((q + 1) / 2) (by omega) (by omega)
    unfold interpolation
    constructor <;> linarith [e1.1, e1.2, e2.1, e2.2, e3.1, e3.2, e4.1, e4.2]
  · intro p q hp hq
    exact hv _ _ (show 2 * p < 2 * mx - 1 by omega) (show 2 * q < 2 * my - 1 by omega)

/-- A point on the boundary of the grid. -/
def Heat.Edge (P : Heat ℝ) (p q : Nat) : Prop := p = 0 ∨ q = 0 ∨ p = P.mx - 1 ∨ q = P.my - 1

/-- C124: zero boundary values stay zero in both directions. -/
theorem C124_boundary {mx my : Nat} (hx : 2 ≤ mx) (hy : 2 ≤ my) (a : ℝ) {u v : Nat × Nat → ℝ}
    (hu : ∀ p q, p < mx → q < my → (Heat.make mx my a).Edge p q → u (p, q) = 0)
    (hv : ∀ p q, p < (Heat.refined mx my a).mx → q < (Heat.refined mx my a).my → (Heat.refined mx my a).Edge p q →
      v (p, q) = 0) :
    (∀ p q, p < (Heat.refined mx my a).mx → q < (Heat.refined mx my a).my → (Heat.refined mx my a).Edge p q →
      interpolation u (p, q) = 0) ∧
    ∀ p q, p < mx → q < my → (Heat.make mx my a).Edge p q → restriction v (p, q) = 0 := by
  constructor
  · intro p q hp hq he
    have hp : p < 2 * mx - 1 := hp
    have hq : q < 2 * my - 1 := hq
    have he : p = 0 ∨ q = 0 ∨ p = 2 * mx - 1 - 1 ∨ q = 2 * my - 1 - 1 := he
    have key : ∀ k l, (k = p / 2 ∨ k = (p + 1) / 2) → (l = q / 2 ∨ l = (q + 1) / 2) → u (k, l) = 0 := by
      intro k l hk hl
      refine hu k l (by omega) (by omega) ?_
      show k = 0 ∨ l = 0 ∨ k = mx - 1 ∨ l = my - 1
      omega
    unfold interpolation
    rw [key _ _ (.inl rfl) (.inl rfl), key _ _ (.inr rfl) (.inl rfl), key _ _ (.inl rfl) (.inr rfl),
      key _ _ (.inr rfl) (.inr rfl)]
    norm_num
  · intro p q hp hq he
    have he : p = 0 ∨ q = 0 ∨ p = mx - 1 ∨ q = my - 1 := he
    refine hv _ _ (show 2 * p < 2 * mx - 1 by omega) (show 2 * q < 2 * my - 1 by omega) ?_
    show 2 * p = 0 ∨ 2 * q = 0 ∨ 2 * p = 2 * mx - 1 - 1 ∨ 2 * q = 2 * my - 1 - 1
    omega

/-- C124: start value, stated solution and right-hand side of the coarse grid are the restricted ones of the fine grid. -/
theorem C124_same_problem {mx my : Nat} (hx : 2 ≤ mx) (hy : 2 ≤ my) (a : ℝ) (freq : Nat) (t : ℝ) :
    restriction ((Heat.refined mx my a).uExact freq t) = (Heat.make mx my a).uExact freq t ∧
    ∀ p q, (Heat.refined mx my a).rhs freq t (2 * p) (2 * q) = (Heat.make mx my a).rhs freq t p q := by
  have key : ∀ p : Nat, ∀ w : ℝ, w * ((2 * p : Nat) : ℝ) * (Heat.refined mx my a).dx = w * p * (Heat.make mx my a).dx ∧
      w * ((2 * p : Nat) : ℝ) * (Heat.refined mx my a).dy = w * p * (Heat.make mx my a).dy := by
    intro p w
    rw [refined_dx hx, refined_dy hy]
    push_cast
    constructor <;> ring
  constructor
  · funext q
    unfold restriction Heat.uExact
    dsimp only
    rw [(key q.1 _).1, (key q.2 _).2]
  · intro p q
    unfold Heat.rhs
    rw [(key p _).1, (key q _).2]
    rfl

theorem sin_mean (w : ℝ) (i : Nat) :
    sin (w * ((i / 2 : Nat) : ℝ) * 2) + sin (w * ((i + 1) / 2 : Nat) * 2) =
      2 * sin (w * i) * (if i % 2 = 0 then 1 else cos w) := by
  rcases Nat.even_or_odd' i with ⟨k, rfl | rfl⟩
  · rw [show 2 * k / 2 = k by omega, show (2 * k + 1) / 2 = k by omega, if_pos (by omega),
      show w * ((2 * k : Nat) : ℝ) = w * k * 2 by push_cast; ring]
    ring
  · rw [show (2 * k + 1) / 2 = k by omega, show (2 * k + 1 + 1) / 2 = k + 1 by omega, if_neg (by omega),
      show w * (k : ℝ) * 2 = w * ((2 * k + 1 : Nat) : ℝ) - w by push_cast; ring,
      show w * ((k + 1 : Nat) : ℝ) * 2 = w * ((2 * k + 1 : Nat) : ℝ) + w by push_cast; ring, sin_sub, sin_add]
    ring

/-- C124: interpolating the stated solution of the coarse grid gives that of the fine grid up to
`(π f)² (dx² + dy²) / 2`, with the spacings of the fine grid. -/
theorem C124_interpolate_exact {mx my : Nat} (hx : 2 ≤ mx) (hy : 2 ≤ my) (a : ℝ) (freq : Nat) (t : ℝ) (q : Nat × Nat) :
    |interpolation ((Heat.make mx my a).uExact freq t) q - (Heat.refined mx my a).uExact freq t q| ≤
      (π * freq) ^ 2 * ((Heat.refined mx my a).dx ^ 2 + (Heat.refined mx my a).dy ^ 2) / 2 := by
  set dx := (Heat.refined mx my a).dx with hdx
  set dy := (Heat.refined mx my a).dy with hdy
  have e1 := sin_mean (π * freq * dx) q.1
  have e2 := sin_mean (π * freq * dy) q.2
  set c1 := (if q.1 % 2 = 0 then 1 else cos (π * freq * dx)) with hc1
  set c2 := (if q.2 % 2 = 0 then 1 else cos (π * freq * dy)) with hc2
  have b1 : c1 ≤ 1 ∧ -1 ≤ c1 ∧ 1 - c1 ≤ (π * freq * dx) ^ 2 / 2 := by
    rw [hc1]
    split
    · exact ⟨le_rfl, by norm_num, by rw [sub_self]; positivity⟩
    · exact ⟨cos_le_one _, neg_one_le_cos _, one_sub_cos_le _⟩
  have b2 : c2 ≤ 1 ∧ -1 ≤ c2 ∧ 1 - c2 ≤ (π * freq * dy) ^ 2 / 2 := by
    rw [hc2]
    split
    · exact ⟨le_rfl, by norm_num, by rw [sub_self]; positivity⟩
    · exact ⟨cos_le_one _, neg_one_le_cos _, one_sub_cos_le _⟩
  have key : interpolation ((Heat.make mx my a).uExact freq t) q - (Heat.refined mx my a).uExact freq t q =
      -(sin (π * freq * dx * q.1) * sin (π * freq * dy * q.2) * cos t * (1 - c1 * c2)) := by
    unfold interpolation Heat.uExact
    dsimp only
    rw [refined_dx hx, refined_dy hy, ← hdx, ← hdy]
    rw [show ∀ z : ℝ, π * freq * z * (2 * dx) = π * freq * dx * z * 2 by intro z; ring,
      show π * freq * (((q.1 + 1) / 2 : Nat) : ℝ) * (2 * dx) = π * freq * dx * (((q.1 + 1) / 2 : Nat) : ℝ) * 2 by ring,
      show π * freq * ((q.2 / 2 : Nat) : ℝ) * (2 * dy) = π * freq * dy * ((q.2 / 2 : Nat) : ℝ) * 2 by ring,
      show π * freq * (((q.2 + 1) / 2 : Nat) : ℝ) * (2 * dy) = π * freq * dy * (((q.2 + 1) / 2 : Nat) : ℝ) * 2 by ring,
      show π * freq * (q.1 : ℝ) * dx = π * freq * dx * q.1 by ring,
      show π * freq * (q.2 : ℝ) * dy = π * freq * dy * q.2 by ring]
    generalize sin (π * freq * dx * ((q.1 / 2 : Nat) : ℝ) * 2) = A at *
    generalize sin (π * freq * dx * (((q.1 + 1) / 2 : Nat) : ℝ) * 2) = B at *
    generalize sin (π * freq * dy * ((q.2 / 2 : Nat) : ℝ) * 2) = C at *
    generalize sin (π * freq * dy * (((q.2 + 1) / 2 : Nat) : ℝ) * 2) = D at *
    have := congrArg₂ (· * ·) e1 e2
    linear_combination cos t / 4 * this
  have h1 : 1 - c1 * c2 ≤ (π * freq) ^ 2 * (dx ^ 2 + dy ^ 2) / 2 := by
    have : 1 - c1 * c2 ≤ (1 - c1) + (1 - c2) := by nlinarith [mul_nonneg (sub_nonneg.2 b1.1) (sub_nonneg.2 b2.1)]
    nlinarith [b1.2.2, b2.2.2]
  have h0 : 0 ≤ 1 - c1 * c2 := by
    have := abs_mul c1 c2
    have h2 : |c1| ≤ 1 := abs_le.2 ⟨b1.2.1, b1.1⟩
    have h3 : |c2| ≤ 1 := abs_le.2 ⟨b2.2.1, b2.1⟩
    have h4 : |c1 * c2| ≤ 1 := by rw [this]; exact mul_le_one₀ h2 (abs_nonneg _) h3
    linarith [le_abs_self (c1 * c2)]
  rw [key, abs_neg, abs_mul, abs_of_nonneg h0]
  refine (mul_le_of_le_one_left h0 ?_).trans h1
  rw [abs_mul, abs_mul]
  exact mul_le_one₀ (mul_le_one₀ (abs_sin_le_one _) (abs_nonneg _) (abs_sin_le_one _)) (abs_nonneg _) (abs_cos_le_one _)

/-- C124: `solve()` with these transfers between the levels 0 and 1 and copies between the others, after sufficiently many
iterations: on a refined square grid the values are within `t_i (h/2 + a (π f)⁴ dx² / 6)` of the stated solution, `dx` being
the spacing of the fine grid; whatever the coarse problems, cycle and initial guess are. -/
theorem C124_solve {E : Cfg (Nat × Nat → ℝ) ℝ ℝ ℝ} (h : E.Good) (hL : 1 < E.ts.length) (hw : E.w = 1)
    (hR0 : E.R 0 = restriction) (hI0 : E.I 0 = interpolation)
    (hR : ∀ l, 1 ≤ l → l + 1 < E.ts.length → E.R l = id) (hI : ∀ l, 1 ≤ l → l + 1 < E.ts.length → E.I l = id)
    (hmax : 0 < E.maxIter) {m : Nat} (hm : 2 ≤ m) {a : ℝ} (ha : 0 ≤ a) {freq : Nat}
    (hstart : E.start 0 = (Heat.refined m m a).uExact freq 0)
    (hstep : ∀ v t t', t ≤ t' → (Heat.refined m m a).Step freq (t' - t) v t t' (E.step 0 v t t'))
    (h0 : tAt (grid E.ts 0) 0 = 0) {dt : ℝ}
    (hdt : ∀ k, k + 1 < npts E.ts 0 → tAt (grid E.ts 0) (k + 1) - tAt (grid E.ts 0) k ≤ dt)
    (hclose : ∀ k l, k + 1 < npts E.ts 0 → l + 1 < npts E.ts 0 →
      tAt (grid E.ts 0) (k + 1) - tAt (grid E.ts 0) k = tAt (grid E.ts 0) (l + 1) - tAt (grid E.ts 0) l ∨
      ¬ isclose (tAt (grid E.ts 0) (k + 1) - tAt (grid E.ts 0) k) (tAt (grid E.ts 0) (l + 1) - tAt (grid E.ts 0) l))
    {c : Conf E.P (Msg (Nat × Nat → ℝ) ℝ) (PState (Nat × Nat → ℝ) ℝ)} (h1 : Steps (startConf E) c)
    (hc : ∀ d, ¬ Step c d) (r : Fin E.P) (s : PState (Nat × Nat → ℝ) ℝ) (hr : c.prog r = Prog.ret s)
    (hk : (grid E.ts 1).length - 1 ≤ s.solveIter * E.cf 0)
    (k i j : Nat) (hi : (E.info r 0).pts[k]? = some i) (hj : (E.info r 0).idx[k]? = some j)
    (p q : Nat) (hp : p < 2 * m - 1) (hq : q < 2 * m - 1) :
    |s.u 0 j (p, q) - (Heat.refined m m a).uExact freq (tAt (grid E.ts 0) i) (p, q)| ≤
      tAt (grid E.ts 0) i * (dt / 2 + a * (π * freq) ^ 4 * (Heat.refined m m a).dx ^ 2 / 6) := by
  have hz : restriction 0 = 0 ∧ interpolation 0 = 0 := ⟨rfl, by funext q; simp [interpolation]⟩
  have hall := C95_distributed h hL hw
    (fun l hl => by
      rcases Nat.eq_zero_or_pos l with rfl | h'
      · rw [hR0]; exact hz.1
      · rw [hR l h' hl]; rfl)
    (fun l hl => by
      rcases Nat.eq_zero_or_pos l with rfl | h'
      · rw [hI0]; exact hz.2
      · rw [hI l h' hl]; rfl) hmax h1 hc r s hr hk
  obtain ⟨s', e, hS⟩ := hall r
  rw [hr] at e
  cases e
  have hlen : i < npts E.ts 0 := ((returned h hmax h1 hc r s hr).2.2.2.2 k i j hi hj).1
  rw [hS k i j hi hj]
  have hst := C123_time_stepping (Heat.refined m m a) hstart hstep (h.valid.sorted 0) hclose
  have := C123_square (m := 2 * m - 1) (by omega) ha (h.valid.sorted 0) h0 hdt hclose hst i hlen p q hp hq
  refine this.trans (le_of_eq ?_)
  show _ = tAt (grid E.ts 0) i * (dt / 2 + a * (π * freq) ^ 4 * (1 / (((2 * m - 1 : Nat) : ℝ) - 1)) ^ 2 / 6)
  generalize ((2 * m - 1 : Nat) : ℝ) - 1 = z
  rw [div_pow, one_pow, mul_one_div, div_div, mul_comm (z ^ 2) 6]

/-! ## Examples -/

/-- A step of the class on the refined grid, with the operator of its own step size. -/
noncomputable def exPetscStep (m : Nat) : Nat → (Nat × Nat → ℝ) → ℝ → ℝ → Nat × Nat → ℝ := fun _ v t t' =>
  open Classical in if h : ∃ x, (Heat.refined m m 1).Step 1 (t' - t) v t t' x then h.choose else 0

theorem exPetscStep_spec (m : Nat) (l : Nat) (v : Nat × Nat → ℝ) (t t' : ℝ) (ht : t ≤ t') :
    (Heat.refined m m 1).Step 1 (t' - t) v t t' (exPetscStep m l v t t') := by
  have h := (C123_step (P := Heat.refined m m 1) (show (0 : ℝ) ≤ 1 by norm_num) 1 (sub_nonneg.2 ht) ht).1 v
  unfold exPetscStep
  rw [dif_pos h]
  exact h.choose_spec

/-- Two levels, three processes, spatial coarsening. -/
noncomputable def exPetsc (m : Nat) : Cfg (Nat × Nat → ℝ) ℝ ℝ ℝ :=
  { exTol (exPetscStep m) ((Heat.refined m m 1).uExact 1 0) 0 true 0 (fun _ => 0) norm2 with
    R := fun _ => restriction, I := fun _ => interpolation, w := 1 }

theorem exPetsc_good (m : Nat) : (exPetsc m).Good := by
  refine good_of_gap exRealGrid_valid (show 0 < 3 by decide) (show 3 ≤ 5 by decide)
    (fun r l hr hl => ordOK_id exRealGrid_valid (show 3 ≤ 5 by decide) hl hr) (Or.inl rfl) ?_
  intro l i hl e
  have hl' : l = 0 := by
    have : l + 1 < 2 := hl
    omega
  subst hl'
  have := exRealGrid_allC e.1
  have := exRealGrid_allC e.2
  omega

/-- `C124_solve` for every number of points. -/
example (m : Nat) (hm : 2 ≤ m) {c : Conf 3 (Msg (Nat × Nat → ℝ) ℝ) (PState (Nat × Nat → ℝ) ℝ)}
    (h1 : Steps (startConf (exPetsc m)) c) (hc : ∀ d, ¬ Step c d) (r : Fin 3) (s : PState (Nat × Nat → ℝ) ℝ)
    (hr : c.prog r = Prog.ret s) (hk : 2 ≤ s.solveIter * 1)
    (k i j : Nat) (hi : ((exPetsc m).info r 0).pts[k]? = some i) (hj : ((exPetsc m).info r 0).idx[k]? = some j)
    (p q : Nat) (hp : p < 2 * m - 1) (hq : q < 2 * m - 1) :=
  C124_solve (E := exPetsc m) (exPetsc_good m) (show 1 < 2 by decide) rfl rfl rfl
    (fun l h1 h2 => by have : l + 1 < 2 := h2; omega) (fun l h1 h2 => by have : l + 1 < 2 := h2; omega)
    (show 0 < 6 by decide) hm zero_le_one (freq := 1) rfl (exPetscStep_spec m 0) rfl (dt := 6)
    (fun k hk => by
      have hk : k = 0 ∨ k = 1 ∨ k = 2 ∨ k = 3 := by
        have : k + 1 < 5 := hk
        omega
      show tAt [0, (1 : ℝ), 3, 4, 10] (k + 1) - tAt [0, (1 : ℝ), 3, 4, 10] k ≤ 6
      rcases hk with rfl | rfl | rfl | rfl <;> norm_num [tAt])
    (fun k l hk hl => by
      have hk : k = 0 ∨ k = 1 ∨ k = 2 ∨ k = 3 := by
        have : k + 1 < 5 := hk
        omega
      have hl : l = 0 ∨ l = 1 ∨ l = 2 ∨ l = 3 := by
        have : l + 1 < 5 := hl
        omega
      show tAt [0, (1 : ℝ), 3, 4, 10] (k + 1) - tAt [0, (1 : ℝ), 3, 4, 10] k =
        tAt [0, (1 : ℝ), 3, 4, 10] (l + 1) - tAt [0, (1 : ℝ), 3, 4, 10] l ∨ ¬ isclose
        (tAt [0, (1 : ℝ), 3, 4, 10] (k + 1) - tAt [0, (1 : ℝ), 3, 4, 10] k)
        (tAt [0, (1 : ℝ), 3, 4, 10] (l + 1) - tAt [0, (1 : ℝ), 3, 4, 10] l)
      rcases hk with rfl | rfl | rfl | rfl <;> rcases hl with rfl | rfl | rfl | rfl <;>
        norm_num [tAt, isclose, abs_le])
    h1 hc r s hr hk k i j hi hj p q hp hq

/-- `C124_boundary`, `C124_bounds`, `C124_coordinates`, `C124_bilinear`, `C124_same_problem` and `C124_interpolate_exact` on
a grid of 3 x 4 points. -/
example := C124_boundary (mx := 3) (my := 4) (by norm_num) (by norm_num) 1 (u := 0) (v := 0)
  (fun _ _ _ _ _ => rfl) (fun _ _ _ _ _ => rfl)
example := C124_bounds (mx := 3) (my := 4) 1 (u := fun q => if q = (1, 1) then 1 else 0) (v := fun _ => 1 / 2) (lo := 0)
  (hi := 1) (fun p q _ _ => by split <;> norm_num) (fun p q _ _ => by norm_num)
example := C124_coordinates (mx := 3) (my := 4) (by norm_num) (by norm_num) 1 1 2 (by norm_num) (by norm_num)
example := C124_bilinear (mx := 3) (my := 4) (by norm_num) (by norm_num) 1 1 2 3 4 (3, 1)
example := C124_same_problem (mx := 3) (my := 4) (by norm_num) (by norm_num) 1 2 1
example := C124_interpolate_exact (mx := 3) (my := 4) (by norm_num) (by norm_num) 1 2 1 (3, 1)

end Pymgrit.Petsc
