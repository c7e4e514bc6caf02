import Verif.PropsCount
import Mathlib.Algebra.Order.Chebyshev

/-!
# Property C71 for `solve()`: what the default tolerance means

The default criterion stops when the norm of the residual falls below `tol`.  If the time stepper of the finest level does
not increase distances (for any coarse levels, transfers, cycles, weights, nested iteration or not), the error of the
values returned by `solve()` is at most a factor times the last recorded value; the factor depends on the norm in time and
the number of coarse points only.  Backward Euler for the heat equation in one and two dimensions is such a time stepper.
-/

set_option linter.unusedSectionVars false

namespace Pymgrit
open Cfg Sys Lin

/-- The sum of the entries is at most `γ` times the norm in time. -/
def SumFactor (tnorm : List ℝ → ℝ) (len : Nat) (γ : ℝ) : Prop :=
  ∀ xs : List ℝ, xs.length = len → (∀ x ∈ xs, 0 ≤ x) → xs.sum ≤ γ * tnorm xs

theorem sumFactor_norm1 (len : Nat) : SumFactor norm1 len 1 := by
  intro xs hl hx
  clear hl hx
  rw [one_mul]
  unfold norm1
  induction xs with
  | nil => simp
  | cons x xs ih =>
    rw [List.map_cons, List.sum_cons, List.sum_cons]
    exact add_le_add (le_abs_self x) ih

theorem sumFactor_norm2 (len : Nat) : SumFactor norm2 len (√len) := by
  intro xs hl _
  unfold norm2
  rw [← Real.sqrt_mul (Nat.cast_nonneg _)]
  refine Real.le_sqrt_of_sq_le ?_
  have h := sq_sum_le_card_mul_sum_sq (s := Finset.univ) (f := fun i : Fin xs.length => xs[i.1])
  have e1 : ∑ i : Fin xs.length, xs[i.1] = xs.sum := Fin.sum_univ_getElem xs
  have e2 : ∑ i : Fin xs.length, xs[i.1] ^ 2 = (xs.map fun x => x ^ 2).sum := Fin.sum_univ_fun_getElem xs (· ^ 2)
  rw [e1, e2, Finset.card_univ, Fintype.card_fin, hl] at h
  exact h

theorem sumFactor_normInf (len : Nat) : SumFactor normInf len len := by
  intro xs hl hx
  have hle : ∀ x ∈ xs, x ≤ normInf xs := by
    clear hl
    unfold normInf
    induction xs with
    | nil => simp
    | cons y ys ih =>
      intro x hm
      rw [List.map_cons, List.foldr_cons]
      rcases List.mem_cons.1 hm with rfl | hm
      · exact (le_abs_self _).trans (le_max_left _ _)
      · exact (ih (fun z hz => hx z (by simp [hz])) x hm).trans (le_max_right _ _)
  have := List.sum_le_card_nsmul xs (normInf xs) hle
  rwa [hl, nsmul_eq_mul] at this

section
variable {V : Type} [AddCommGroup V] [Module ℝ V] {E : Cfg V ℝ ℝ ℝ}

/-- C71 for the values returned by `solve()` on any number of processes and any schedule: with the default criterion, a
norm of vectors and a time stepper on the finest level that does not increase distances, the error at every point is at
most `γ` times the last recorded value.  Nothing is assumed about coarse levels and transfers. -/
theorem C71_solve (h : E.Good) (hL : 1 < E.ts.length) (hmax : 0 < E.maxIter) (hcrit : E.convCrit = 0)
    (hz : E.norm 0 = 0) (htri : ∀ x y z, E.norm (x - y) ≤ E.norm (x - z) + E.norm (y - z))
    (hstep : ∀ x y t t', t ≤ t' → E.norm (E.step 0 x t t' - E.step 0 y t t') ≤ E.norm (x - y))
    {γ : ℝ} (hγ : SumFactor E.tnorm ((allC E.ts 0).filter (· ≠ 0)).length γ)
    {c : Conf E.P (Msg V ℝ) (PState V ℝ)} (h1 : Steps (startConf E) c) (hc : ∀ d, ¬ Step c d)
    (r : Fin E.P) (s : PState V ℝ) (hr : c.prog r = Prog.ret s)
    (k i j : Nat) (hi : (E.info r 0).pts[k]? = some i) (hj : (E.info r 0).idx[k]? = some j) :
    E.norm (s.u 0 j - timeStepping E i) ≤ γ * s.conv s.solveIter := by
  have hwf := E.sys_wf h.valid
  obtain ⟨a1, -, -, a4, a5⟩ := returned h hmax h1 hc r s hr
  obtain ⟨m, hm⟩ : ∃ m, s.solveIter = m + 1 := ⟨s.solveIter - 1, by omega⟩
  rw [hm, Nat.add_sub_cancel] at a4
  rw [hm] at a5
  obtain ⟨hin, hval⟩ := a5 k i j hi hj
  have hsym : ∀ x y, E.norm (x - y) = E.norm (y - x) := by
    intro x y
    have e1 := htri x y x
    have e2 := htri y x y
    rw [sub_self, hz, zero_add] at e1 e2
    exact le_antisymm e1 e2
  have hn0 : ∀ x, 0 ≤ E.norm x := by
    intro x
    have := htri x x 0
    rw [sub_self, hz, sub_zero] at this
    linarith
  set U := (iterates E.sys E.sys.forwardSolve E.cyc (m + 1) (afterConstructor E).st).u 0 with hU
  set pts := (allC E.ts 0).filter (· ≠ 0) with hpts
  have hnd : pts.Nodup := ((allC_sorted h.valid 0).imp fun h => Nat.ne_of_lt h).filter _
  have hF : FRelaxed E.sys 0 (iterates E.sys E.sys.forwardSolve E.cyc (m + 1) (afterConstructor E).st) :=
    hwf.fineIteration_relaxed E.sys.forwardSolve E.cyc m _ hL
  have key : ∀ i, i < E.sys.n 0 → E.norm (U i - timeStepping E i) ≤
      ∑ c ∈ pts.toFinset.filter (· ≤ i), E.norm (E.sys.Φ 0 c (U (c - 1)) - U c) := by
    intro i
    induction i with
    | zero =>
      intro _
      rw [show U 0 = timeStepping E 0 from start_value h (m + 1), sub_self, hz]
      exact Finset.sum_nonneg fun _ _ => hn0 _
    | succ i ih =>
      intro hi
      have hi' := ih (by omega)
      have hmono := tAt_mono (h.valid.sorted 0) (i := i) (j := i + 1) (by omega) hi
      have e0 : E.norm (E.sys.Φ 0 (i + 1) (U i) - timeStepping E (i + 1)) ≤ E.norm (U i - timeStepping E i) :=
        hstep (U i) (timeStepping E i) _ _ hmono
      by_cases hC : i + 1 ∈ E.sys.C 0
      · have hmem : i + 1 ∈ pts.toFinset.filter (· ≤ i + 1) := by
          rw [Finset.mem_filter, List.mem_toFinset, hpts, List.mem_filter]
          exact ⟨⟨hC, by simp⟩, le_rfl⟩
        have e1 := htri (U (i + 1)) (timeStepping E (i + 1)) (E.sys.Φ 0 (i + 1) (U i))
        have e3 := hsym (U (i + 1)) (E.sys.Φ 0 (i + 1) (U i))
        have e4 := hsym (timeStepping E (i + 1)) (E.sys.Φ 0 (i + 1) (U i))
        have e2 : ∑ c ∈ pts.toFinset.filter (· ≤ i), E.norm (E.sys.Φ 0 c (U (c - 1)) - U c) +
            E.norm (E.sys.Φ 0 (i + 1) (U (i + 1 - 1)) - U (i + 1)) =
            ∑ c ∈ pts.toFinset.filter (· ≤ i + 1), E.norm (E.sys.Φ 0 c (U (c - 1)) - U c) := by
          rw [← Finset.sum_erase_add _ _ hmem]
          congr 1
          refine Finset.sum_congr ?_ fun _ _ => rfl
          ext c
          simp only [Finset.mem_filter, Finset.mem_erase]
          constructor
          · rintro ⟨a, b⟩; exact ⟨by omega, a, by omega⟩
          · rintro ⟨a, b, d⟩; exact ⟨b, by omega⟩
        rw [← e2, Nat.add_sub_cancel]
        linarith
      · have e1 : U (i + 1) = E.sys.Φ 0 (i + 1) (U i) := by
          have := hF (i + 1) hi hC
          simp only [prop, if_true] at this
          exact this
        rw [e1]
        refine (e0.trans hi').trans (Finset.sum_le_sum_of_subset_of_nonneg ?_ fun _ _ _ => hn0 _)
        intro c
        simp only [Finset.mem_filter]
        rintro ⟨a, b⟩
        exact ⟨a, by omega⟩
  rw [hval, hm, a4]
  unfold critValue
  dsimp only
  rw [if_pos (show E.ctl.convCrit = 0 from hcrit)]
  refine (key i hin).trans ?_
  refine (Finset.sum_le_sum_of_subset_of_nonneg (Finset.filter_subset _ _) fun _ _ _ => hn0 _).trans ?_
  rw [List.sum_toFinset _ hnd]
  refine hγ _ (by rw [List.length_map]) ?_
  intro x hx
  obtain ⟨y, -, rfl⟩ := List.mem_map.1 hx
  exact hn0 _

/-- C71: the same if `solve()` stopped before `max_iter`. -/
theorem C71_solve_tolerance (h : E.Good) (hL : 1 < E.ts.length) (hcrit : E.convCrit = 0)
    (hz : E.norm 0 = 0) (htri : ∀ x y z, E.norm (x - y) ≤ E.norm (x - z) + E.norm (y - z))
    (hstep : ∀ x y t t', t ≤ t' → E.norm (E.step 0 x t t' - E.step 0 y t t') ≤ E.norm (x - y))
    {γ : ℝ} (hγ0 : 0 ≤ γ) (hγ : SumFactor E.tnorm ((allC E.ts 0).filter (· ≠ 0)).length γ)
    (tol : ℝ) (hlt : ∀ x, E.ltTol x = true → x < tol)
    {c : Conf E.P (Msg V ℝ) (PState V ℝ)} (h1 : Steps (startConf E) c) (hc : ∀ d, ¬ Step c d)
    (r : Fin E.P) (s : PState V ℝ) (hr : c.prog r = Prog.ret s) (hs : s.solveIter < E.maxIter)
    (k i j : Nat) (hi : (E.info r 0).pts[k]? = some i) (hj : (E.info r 0).idx[k]? = some j) :
    E.norm (s.u 0 j - timeStepping E i) ≤ γ * tol :=
  (C71_solve h hL (by omega) hcrit hz htri hstep hγ h1 hc r s hr k i j hi hj).trans
    (mul_le_mul_of_nonneg_left (stopped_value h tol hlt h1 hc r s hr hs) hγ0)

end

/-! ## Backward Euler does not increase distances -/

theorem symmetric_nonexpansive {ι : Type} [Fintype ι] [DecidableEq ι] {A : Matrix ι ι ℝ} (hA : A.transpose = A)
    (hpos : ∀ (v : ι → ℝ) (μ : ℝ), v ≠ 0 → A.mulVec v = μ • v → 0 ≤ μ) {c : ℝ} (hc : 0 ≤ c) {d x : ι → ℝ}
    (hx : Solves (c • A + 1) d x) : ∑ p, x p ^ 2 ≤ ∑ p, d p ^ 2 := by
  obtain ⟨f, μ, hμ, hparseval, hfA⟩ := eigen_coords hA hpos
  rw [← hparseval x, ← hparseval d]
  refine Finset.sum_le_sum fun p _ => ?_
  have e : (1 + c * μ p) * f p x = f p d := by
    have := congrArg (f p) hx
    rw [Matrix.add_mulVec, Matrix.smul_mulVec, Matrix.one_mulVec, map_add, map_smul, hfA, smul_eq_mul] at this
    rw [← this]
    ring
  rw [← e, mul_pow]
  have := mul_nonneg hc (hμ p)
  exact le_mul_of_one_le_left (sq_nonneg _) (by nlinarith)

theorem eucl_zero {ι : Type} [Fintype ι] : eucl (0 : ι → ℝ) = 0 := by simp [eucl]

section
variable {n : Nat} {E : Cfg (Fin n → ℝ) ℝ ℝ ℝ}

/-- C71, heat equation in one dimension with backward Euler on the finest level (any coarse levels, cycles, transfers):
Euclidean distance of the returned values from sequential time stepping. -/
theorem C71_solve_heat_1d (h : E.Good) (hL : 1 < E.ts.length) (hcrit : E.convCrit = 0) {a dx : ℝ} (ha : 0 ≤ a)
    (rhs : ℝ → Fin n → ℝ) (hstep : ∀ u t t', t ≤ t' → Apps.heat1dStep a dx rhs u t t' (E.step 0 u t t'))
    (hnorm : ∀ x, E.norm x = eucl x)
    {γ : ℝ} (hγ0 : 0 ≤ γ) (hγ : SumFactor E.tnorm ((allC E.ts 0).filter (· ≠ 0)).length γ)
    (tol : ℝ) (hlt : ∀ x, E.ltTol x = true → x < tol)
    {c : Conf E.P (Msg (Fin n → ℝ) ℝ) (PState (Fin n → ℝ) ℝ)} (h1 : Steps (startConf E) c) (hc : ∀ d, ¬ Step c d)
    (r : Fin E.P) (s : PState (Fin n → ℝ) ℝ) (hr : c.prog r = Prog.ret s) (hs : s.solveIter < E.maxIter)
    (k i j : Nat) (hi : (E.info r 0).pts[k]? = some i) (hj : (E.info r 0).idx[k]? = some j) :
    eucl (s.u 0 j - timeStepping E i) ≤ γ * tol := by
  rw [← hnorm]
  refine C71_solve_tolerance h hL hcrit (by rw [hnorm, eucl_zero]) (fun x y z => by simp only [hnorm]; exact eucl_tri x y z)
    (fun x y t t' ht => ?_) hγ0 hγ tol hlt h1 hc r s hr hs k i j hi hj
  rw [hnorm, hnorm]
  refine eucl_le (Real.sqrt_nonneg _) ?_
  rw [eucl_sq]
  refine symmetric_nonexpansive (Apps.heatMatrix_symm n a dx) (fun v μ hv he => heat_eigen_nonneg ha v μ hv he)
    (sub_nonneg.2 ht) ?_
  show Matrix.mulVec _ _ = _
  rw [Matrix.mulVec_sub, hstep x t t' ht, hstep y t t' ht]
  abel

end

namespace Apps.Heat2D
variable (P : Apps.Heat2D ℝ) {E : Cfg (Nat → Nat → ℝ) ℝ ℝ ℝ}

/-- `VectorHeat2D.norm`, the Frobenius norm (heat_2d.py:70-76). -/
noncomputable def frob (x : Nat → Nat → ℝ) : ℝ := √(P.sqDiff x 0)

theorem frob_eq (x : Nat → Nat → ℝ) : P.frob x = eucl (P.flat x) := by
  unfold frob eucl
  rw [sqDiff_eq]
  congr 1
  refine Finset.sum_congr rfl fun k _ => ?_
  show (P.flat x k - 0) ^ 2 = _
  rw [sub_zero]

theorem frob_sub (x y : Nat → Nat → ℝ) : P.frob (x - y) = √(P.sqDiff x y) := by
  rw [frob_eq, sqDiff_eq]
  rfl

/-- A backward Euler step does not increase the distance of two arrays. -/
theorem step_nonexpansive (hnx : 2 ≤ P.nx) (hny : 2 ≤ P.ny) (ha : 0 ≤ P.a) (hth : P.theta = 1)
    {u v x y : Nat → Nat → ℝ} {t t' : ℝ} (ht : t ≤ t') (hx : P.step u t t' x) (hy : P.step v t t' y) :
    P.sqDiff x y ≤ P.sqDiff u v := by
  have hB : ∀ {w z}, P.step w t t' z → ∀ p q, p < P.nx → q < P.ny → ¬ P.inner p q →
      z p q = P.setBC (fun _ _ => 0) p q := by
    intro w z hz
    exact (P.boundaryOK_iff hnx hny _).1 (P.C48_implicit_partial hnx hny (by rw [hth]; exact one_ne_zero) w t t' _ hz)
  have hsolve : ∀ {w z}, P.step w t t' z → Solves ((t' - t) • P.mat + 1) (P.computeRhs w t t') (P.flat z) := by
    intro w z this
    unfold step at this
    rw [if_neg (by rw [hth]; exact one_ne_zero), hth, mul_one] at this
    obtain ⟨y, hy, e⟩ := this
    rw [e, flat_shape]
    exact hy
  have hflat : ∀ (x : Nat → Nat → ℝ) (k : Fin (P.nx * P.ny)), P.flat x k = x (k / P.ny) (k % P.ny) := fun _ _ => rfl
  have hb0 : ∀ k : Fin (P.nx * P.ny), (k : Nat) / P.ny < P.nx ∧ (k : Nat) % P.ny < P.ny := fun k =>
    ⟨(Nat.div_lt_iff_lt_mul (by omega)).2 k.2, Nat.mod_lt _ (by omega)⟩
  have hin : ∀ k : Fin (P.nx * P.ny), innerIdx P.nx P.ny k ↔ P.inner (k / P.ny) (k % P.ny) := fun _ => Iff.rfl
  have hd : ∀ k : Fin (P.nx * P.ny), ¬ innerIdx P.nx P.ny k → (P.flat x - P.flat y) k = 0 := by
    intro k hk
    rw [Pi.sub_apply, hflat, hflat, hB hx _ _ (hb0 k).1 (hb0 k).2 (by rwa [← hin]),
      hB hy _ _ (hb0 k).1 (hb0 k).2 (by rwa [← hin]), sub_self]
  have key : Solves ((t' - t) • P.inMat + 1) (P.part u - P.part v) (P.part x - P.part y) := by
    show Matrix.mulVec _ _ = _
    funext k
    have e1 := congrFun (hsolve hx) k.1
    have e2 := congrFun (hsolve hy) k.1
    have e3 := P.inMat_mulVec _ hd k
    rw [Matrix.mulVec_sub, Pi.sub_apply] at e3
    rw [step_matrix_mulVec, Pi.add_apply, Pi.smul_apply, smul_eq_mul] at e1 e2
    have e4 : P.part x - P.part y = fun q => (P.flat x - P.flat y) q.1 := rfl
    rw [step_matrix_mulVec, Pi.add_apply, Pi.smul_apply, smul_eq_mul, e4, e3]
    have e5 : ∀ w, P.computeRhs w t t' k.1 = P.flat w k.1 + (t' - t) * P.rhs t' (k.1 / P.ny) (k.1 % P.ny) := by
      intro w
      have hk := (hin k.1).1 k.2
      unfold computeRhs
      rw [if_pos hth, hflat, setBC_inner P hk, if_pos hk]
      rfl
    rw [e5] at e1 e2
    show (t' - t) * _ + (P.flat x k.1 - P.flat y k.1) = P.flat u k.1 - P.flat v k.1
    linear_combination e1 - e2
  have hsub : ∀ g : Fin (P.nx * P.ny) → ℝ, ∑ q : P.In, g q.1 =
      ∑ k ∈ Finset.univ.filter fun k : Fin (P.nx * P.ny) => innerIdx P.nx P.ny k, g k := fun g =>
    (Finset.sum_subtype (Finset.univ.filter fun k : Fin (P.nx * P.ny) => innerIdx P.nx P.ny k)
      (p := fun k : Fin (P.nx * P.ny) => innerIdx P.nx P.ny k) (by simp) g).symm
  have hle := symmetric_nonexpansive (P.inMat_symm hny) (fun v μ hv he => P.inMat_nonneg hny ha v μ hv he)
    (sub_nonneg.2 ht) key
  have l1 : ∑ q : P.In, (P.part x - P.part y) q ^ 2 = P.sqDiff x y := by
    rw [sqDiff_eq]
    refine (hsub fun k => (P.flat x k - P.flat y k) ^ 2).trans ?_
    refine Finset.sum_subset (Finset.subset_univ _) fun k _ hk => ?_
    have := hd k (by simpa using hk)
    rw [Pi.sub_apply] at this
    rw [this]
    norm_num
  have l2 : ∑ q : P.In, (P.part u - P.part v) q ^ 2 ≤ P.sqDiff u v := by
    rw [sqDiff_eq]
    refine (hsub fun k => (P.flat u k - P.flat v k) ^ 2).le.trans ?_
    exact Finset.sum_le_sum_of_subset_of_nonneg (Finset.subset_univ _) fun _ _ _ => sq_nonneg _
  rw [← l1]
  exact hle.trans l2

/-- C71, heat equation in two dimensions with backward Euler on the finest level: Frobenius distance of the returned
values from sequential time stepping. -/
theorem C71_solve_heat_2d (h : E.Good) (hL : 1 < E.ts.length) (hcrit : E.convCrit = 0) (hnx : 2 ≤ P.nx)
    (hny : 2 ≤ P.ny) (ha : 0 ≤ P.a) (hth : P.theta = 1)
    (hstep : ∀ u t t', t ≤ t' → P.step u t t' (E.step 0 u t t')) (hnorm : ∀ x, E.norm x = P.frob x)
    {γ : ℝ} (hγ0 : 0 ≤ γ) (hγ : SumFactor E.tnorm ((allC E.ts 0).filter (· ≠ 0)).length γ)
    (tol : ℝ) (hlt : ∀ x, E.ltTol x = true → x < tol)
    {c : Conf E.P (Msg (Nat → Nat → ℝ) ℝ) (PState (Nat → Nat → ℝ) ℝ)} (h1 : Steps (startConf E) c)
    (hc : ∀ d, ¬ Step c d) (r : Fin E.P) (s : PState (Nat → Nat → ℝ) ℝ) (hr : c.prog r = Prog.ret s)
    (hs : s.solveIter < E.maxIter)
    (k i j : Nat) (hi : (E.info r 0).pts[k]? = some i) (hj : (E.info r 0).idx[k]? = some j) :
    √(P.sqDiff (s.u 0 j) (timeStepping E i)) ≤ γ * tol := by
  rw [← frob_sub, ← hnorm]
  refine C71_solve_tolerance h hL hcrit (by rw [hnorm, frob_eq]; exact eucl_zero)
    (fun x y z => by simp only [hnorm, frob_eq]; exact eucl_tri (P.flat x) (P.flat y) (P.flat z))
    (fun x y t t' ht => ?_) hγ0 hγ tol hlt h1 hc r s hr hs k i j hi hj
  rw [hnorm, hnorm, frob_sub, frob_sub]
  exact Real.sqrt_le_sqrt (P.step_nonexpansive hnx hny ha hth ht (hstep x t t' ht) (hstep y t t' ht))

end Apps.Heat2D

/-! ## Examples -/

/-- `C71_solve_heat_1d` (and with it `C71_solve` and `C71_solve_tolerance`) with 7 unknowns, three processes and the
default norm in time. -/
example {c : Conf 3 (Msg (Fin 7 → ℝ) ℝ) (PState (Fin 7 → ℝ) ℝ)}
    (h1 : Steps (startConf (exTol (exHeat 7 2 (1 / 8) fun t _ => t) 1 0 true 0 eucl norm2)) c)
    (hc : ∀ d, ¬ Step c d) (r : Fin 3) (s : PState (Fin 7 → ℝ) ℝ) (hr : c.prog r = Prog.ret s) :=
  C71_solve_heat_1d (exTol_good (exHeat 7 2 (1 / 8) fun t _ => t) 1 0 true (Or.inl rfl) eucl norm2).1 (by decide) rfl
    (a := 2) (dx := 1 / 8) (by norm_num) (fun t _ => t) (fun u _ _ ht => exHeat_step (by norm_num) _ 0 u ht)
    (fun _ => rfl) (Real.sqrt_nonneg _) (sumFactor_norm2 _) (1 / 100) (fun x => (exTol_lt _ _ _ _ _ _ _ x).1) h1 hc r s hr

/-- `C71_solve_heat_2d` on the 4 × 5 grid. -/
example {c : Conf 3 (Msg (Nat → Nat → ℝ) ℝ) (PState (Nat → Nat → ℝ) ℝ)}
    (h1 : Steps (startConf (exTol exSquareStep (exSquare.start fun _ _ => 0) 0 true 0 exSquare.frob norm1)) c)
    (hc : ∀ d, ¬ Step c d) (r : Fin 3) (s : PState (Nat → Nat → ℝ) ℝ) (hr : c.prog r = Prog.ret s) :=
  exSquare.C71_solve_heat_2d
    (exTol_good exSquareStep (exSquare.start fun _ _ => 0) 0 true (Or.inl rfl) exSquare.frob norm1).1 (by decide) rfl
    (by decide) (by decide) (by norm_num [exSquare]) rfl (fun u _ _ ht => exSquareStep_step 0 u ht) (fun _ => rfl)
    zero_le_one (sumFactor_norm1 _) (1 / 100) (fun x => (exTol_lt _ _ _ _ _ _ _ x).1) h1 hc r s hr

end Pymgrit
