import Verif.Taylor
import Verif.PropsCount
import Verif.PropsSpace
import Verif.PropsApps2
import Verif.PropsApps3
import Mathlib.Analysis.SpecialFunctions.ExpDeriv
import Mathlib.Analysis.SpecialFunctions.Trigonometric.Deriv
import Mathlib.Analysis.Complex.ExponentialBounds

/-!
# Properties C101, C102: accuracy with respect to the differential equation

Error bounds for sequential time stepping with the shipped discretizations with respect to a smooth solution
of the differential equation, and for the values returned by `solve()`.
-/

set_option linter.unusedSectionVars false

namespace Pymgrit
open Cfg Sys Taylor Set

/-- Accumulation of local errors over a grid. -/
theorem accumulate {g : List ℝ} (hs : g.Pairwise (· < ·)) (C : ℝ) (err : Nat → ℝ → Prop) (h0 : err 0 0)
    (hstep : ∀ i c, i + 1 < g.length → tAt g i ≤ tAt g (i + 1) → err i c →
      err (i + 1) (c + (tAt g (i + 1) - tAt g i) * C)) :
    ∀ i, i < g.length → err i ((tAt g i - tAt g 0) * C) := by
  intro i
  induction i with
  | zero => intro _; simpa using h0
  | succ i ih =>
    intro hi
    have := hstep i _ hi (tAt_mono hs (by omega) hi) (ih (by omega))
    rwa [show (tAt g i - tAt g 0) * C + (tAt g (i + 1) - tAt g i) * C = (tAt g (i + 1) - tAt g 0) * C by ring] at this

theorem grid_mem {g : List ℝ} (hs : g.Pairwise (· < ·)) {i : Nat} (hi : i < g.length) :
    tAt g i ∈ Icc (tAt g 0) (tAt g (g.length - 1)) :=
  ⟨tAt_mono hs (by omega) hi, tAt_mono hs (by omega) (by omega)⟩

/-! ## Heat equation in one dimension -/

/-- `u t x` is a solution of `u_t = al u_xx + f` for `t` in `[t0, T]` and `x` in `[a, b]` with zero boundary
values, with derivatives up to `u_tt`, bounded by `Mt`, and `u_xxxx`, bounded by `Mx`. -/
def HeatSolution (al a b t0 T : ℝ) (f u : ℝ → ℝ → ℝ) (Mt Mx : ℝ) : Prop :=
  ∃ ut utt ux uxx u3 u4 : ℝ → ℝ → ℝ,
    (∀ x ∈ Icc a b, Deriv t0 T (fun t => u t x) (fun t => ut t x) ∧
      Deriv t0 T (fun t => ut t x) (fun t => utt t x)) ∧
    (∀ t ∈ Icc t0 T, Deriv a b (u t) (ux t) ∧ Deriv a b (ux t) (uxx t) ∧ Deriv a b (uxx t) (u3 t) ∧
      Deriv a b (u3 t) (u4 t)) ∧
    (∀ t ∈ Icc t0 T, ∀ x ∈ Icc a b, ut t x = al * uxx t x + f t x ∧ |utt t x| ≤ Mt ∧ |u4 t x| ≤ Mx) ∧
    ∀ t ∈ Icc t0 T, u t a = 0 ∧ u t b = 0

open Apps Lin in
theorem mesh_atZ {n : Nat} {a b dx : ℝ} {x : List ℝ} (hm : Space.MeshOf a b 1 1 x n dx) (φ : ℝ → ℝ) (ha : φ a = 0)
    (hb : φ b = 0) (i : Fin n) :
    x.getD i 0 = a + ((i : ℝ) + 1) * dx ∧
    atZ (fun j : Fin n => φ (x.getD j 0)) ((i : Int) - 1) = φ (x.getD i 0 - dx) ∧
    atZ (fun j : Fin n => φ (x.getD j 0)) ((i : Int) + 1) = φ (x.getD i 0 + dx) := by
  obtain ⟨h1, h2, h3⟩ := hm
  have hx : ∀ j, j < n → x.getD j 0 = a + ((j : ℝ) + 1) * dx := by
    intro j hj
    rw [List.getD_eq_getElem?_getD, h3 j hj]
    push_cast
    rfl
  have hi := i.isLt
  push_cast at h2
  refine ⟨hx i hi, ?_, ?_⟩
  · by_cases h0 : (i : Nat) = 0
    · have : atZ (fun j : Fin n => φ (x.getD j 0)) ((i : Int) - 1) = 0 := by
        unfold atZ; rw [dif_neg (by omega)]
      rw [this, hx i hi, h0, show a + (((0 : Nat) : ℝ) + 1) * dx - dx = a by push_cast; ring, ha]
    · have : atZ (fun j : Fin n => φ (x.getD j 0)) ((i : Int) - 1) = φ (x.getD ((i : Nat) - 1) 0) := by
        unfold atZ; rw [dif_pos (by omega)]
        show φ (x.getD ((i : Int) - 1).toNat 0) = _
        rw [show ((i : Int) - 1).toNat = (i : Nat) - 1 by omega]
      rw [this, hx i hi, hx _ (by omega), Nat.cast_sub (by omega)]
      congr 1; push_cast; ring
  · by_cases h0 : (i : Nat) + 1 = n
    · have : atZ (fun j : Fin n => φ (x.getD j 0)) ((i : Int) + 1) = 0 := by
        unfold atZ; rw [dif_neg (by omega)]
      have hn : (n : ℝ) = (i : ℝ) + 1 := by exact_mod_cast h0.symm
      rw [this, hx i hi, show a + ((i : ℝ) + 1) * dx + dx = b by rw [hn] at h2; linarith, hb]
    · have : atZ (fun j : Fin n => φ (x.getD j 0)) ((i : Int) + 1) = φ (x.getD ((i : Nat) + 1) 0) := by
        unfold atZ; rw [dif_pos (by omega)]
        show φ (x.getD ((i : Int) + 1).toNat 0) = _
        rw [show ((i : Int) + 1).toNat = (i : Nat) + 1 by omega]
      rw [this, hx i hi, hx _ (by omega)]
      congr 1; push_cast; ring

/-- One step: the error grows at most by the step size times the truncation error. -/
theorem heat_local {n : Nat} {al a b dx t0 T Mt Mx h : ℝ} {f u : ℝ → ℝ → ℝ} {x : List ℝ} (hal : 0 ≤ al)
    (hdx : 0 < dx) (hm : Space.MeshOf a b 1 1 x n dx) (hu : HeatSolution al a b t0 T f u Mt Mx) {s t : ℝ}
    (hst : s ≤ t) (hh : t - s ≤ h) (hs0 : t0 ≤ s) (htT : t ≤ T) {v w : Fin n → ℝ}
    (hw : Apps.heat1dStep al dx (fun t i => f t (x.getD i 0)) v s t w) {c : ℝ}
    (hc : ∀ i : Fin n, |v i - u s (x.getD i 0)| ≤ c) (i : Fin n) :
    |w i - u t (x.getD i 0)| ≤ c + (t - s) * (h / 2 * Mt + al * dx ^ 2 / 12 * Mx) := by
  obtain ⟨ut, utt, ux, uxx, u3, u4, ht', hx', hpde, hbd⟩ := hu
  have hsm : s ∈ Icc t0 T := ⟨hs0, hst.trans htT⟩
  have htm : t ∈ Icc t0 T := ⟨hs0.trans hst, htT⟩
  have hdom := Apps.heat_dominant_one n dx hal (sub_nonneg.2 hst)
  have hsol : Lin.Solves ((t - s) • Apps.heatMatrix n al dx + 1)
      ((v + (t - s) • fun i : Fin n => f t (x.getD i 0)) -
        ((t - s) • Apps.heatMatrix n al dx + 1).mulVec fun i : Fin n => u t (x.getD i 0))
      (w - fun i : Fin n => u t (x.getD i 0)) := by
    unfold Lin.Solves
    rw [Matrix.mulVec_sub]
    congr 1
  have := hdom.bound zero_le_one hsol (c := c + (t - s) * (h / 2 * Mt + al * dx ^ 2 / 12 * Mx)) (fun j => by
    obtain ⟨e1, e2, e3⟩ := mesh_atZ hm (u t) (hbd t htm).1 (hbd t htm).2 j
    have hj : (j : ℝ) + 1 ≤ n := by exact_mod_cast j.isLt
    have hend := hm.2.1
    push_cast at hend
    have hj0 : (0 : ℝ) ≤ (j : ℝ) := Nat.cast_nonneg _
    have ha1 : a ≤ x.getD j 0 - dx := by rw [e1]; nlinarith
    have hb1 : x.getD j 0 + dx ≤ b := by rw [e1]; nlinarith
    have hxm : x.getD j 0 ∈ Icc a b := ⟨by linarith, by linarith⟩
    obtain ⟨x1, x2, x3, x4⟩ := hx' t htm
    have hsd := second_difference x1 x2 x3 x4 (fun y hy => (hpde t htm y hy).2.2) hdx.le ha1 hb1
    have hbdq := backward_difference (ht' _ hxm).1 (ht' _ hxm).2 (fun r hr => (hpde r hr _ hxm).2.1)
      (x := t) (h := t - s) (sub_nonneg.2 hst) (by linarith) htT
    rw [show t - (t - s) = s by ring] at hbdq
    rw [Apps.step_matrix_mulVec]
    simp only [Pi.sub_apply, Pi.add_apply, Pi.smul_apply, smul_eq_mul, Apps.heatMatrix_mulVec, e2, e3]
    set y := x.getD j 0
    have hp := (hpde t htm y hxm).1
    have split : v j + (t - s) * f t y -
        ((t - s) * (al / dx ^ 2 * (2 * u t y - u t (y - dx) - u t (y + dx))) + u t y) =
        (v j - u s y) + -(u t y - u s y - (t - s) * ut t y) +
          (t - s) * (al / dx ^ 2 * (u t (y + dx) - 2 * u t y + u t (y - dx) - dx ^ 2 * uxx t y)) := by
      rw [hp]
      field_simp
      ring
    rw [split]
    refine (abs_add_le _ _).trans ?_
    refine (add_le_add_left (abs_add_le _ _) _).trans ?_
    rw [abs_neg, abs_mul, abs_mul, abs_of_nonneg (sub_nonneg.2 hst), abs_of_nonneg (by positivity : 0 ≤ al / dx ^ 2)]
    have k1 : (t - s) * (al / dx ^ 2 * |u t (y + dx) - 2 * u t y + u t (y - dx) - dx ^ 2 * uxx t y|) ≤
        (t - s) * (al * dx ^ 2 / 12 * Mx) := by
      refine mul_le_mul_of_nonneg_left ?_ (sub_nonneg.2 hst)
      refine (mul_le_mul_of_nonneg_left hsd (by positivity)).trans (le_of_eq ?_)
      field_simp
    have hMt : 0 ≤ Mt := (abs_nonneg _).trans (hpde t htm y hxm).2.1
    have k2 : Mt / 2 * (t - s) ^ 2 ≤ (t - s) * (h / 2 * Mt) := by
      have := mul_le_mul_of_nonneg_left hh (mul_nonneg (by linarith : 0 ≤ Mt / 2) (sub_nonneg.2 hst))
      nlinarith
    have := hc j
    linarith) i
  rwa [one_mul] at this

section
variable {n : Nat} {N : Type} [Zero N] {E : Cfg (Fin n → ℝ) ℝ ℝ N}

/-- C101, heat equation in one dimension: sequential time stepping on a grid with steps of at most `h` differs
from the solution of the differential equation at the points of the mesh by at most
`(t_i - t_0) (h/2 max |u_tt| + al dx²/12 max |u_xxxx|)`. -/
theorem C101_heat_1d (hs : (grid E.ts 0).Pairwise (· < ·)) {al a b dx Mt Mx h : ℝ} {f u : ℝ → ℝ → ℝ} {x : List ℝ}
    (hal : 0 ≤ al) (hdx : 0 < dx) (hm : Space.MeshOf a b 1 1 x n dx)
    (hu : HeatSolution al a b (tAt (grid E.ts 0) 0) (tAt (grid E.ts 0) (npts E.ts 0 - 1)) f u Mt Mx)
    (hstep : ∀ v t t', t ≤ t' → Apps.heat1dStep al dx (fun t i => f t (x.getD i 0)) v t t' (E.step 0 v t t'))
    (hstart : ∀ p : Fin n, E.start 0 p = u (tAt (grid E.ts 0) 0) (x.getD p 0))
    (hh : ∀ i, i + 1 < npts E.ts 0 → tAt (grid E.ts 0) (i + 1) - tAt (grid E.ts 0) i ≤ h)
    (i : Nat) (hi : i < npts E.ts 0) (p : Fin n) :
    |timeStepping E i p - u (tAt (grid E.ts 0) i) (x.getD p 0)| ≤
      (tAt (grid E.ts 0) i - tAt (grid E.ts 0) 0) * (h / 2 * Mt + al * dx ^ 2 / 12 * Mx) := by
  refine accumulate hs _ (fun i c => ∀ p : Fin n, |timeStepping E i p - u (tAt (grid E.ts 0) i) (x.getD p 0)| ≤ c)
    (fun p => ?_) (fun i c hi ht hc p => ?_) i hi p
  · show |E.start 0 p - _| ≤ 0
    rw [hstart, sub_self, abs_zero]
  · exact heat_local hal hdx hm hu ht (hh i hi) (grid_mem hs (by omega)).1 (grid_mem hs hi).2
      (hstep (timeStepping E i) _ _ ht) hc p

end

section
variable {n : Nat} {E : Cfg (Fin n → ℝ) ℝ ℝ ℝ}

/-- C101: the values returned by `solve()` for the heat equation (jump criterion, two levels, weight in `[0, 1]`,
stopped before `max_iter`) differ from the solution of the differential equation by at most half the tolerance
plus the error of the discretization. -/
theorem C101_heat_1d_solve (hg : E.Good) (hcrit : E.convCrit = 1) (hT : TwoLevelCopy E)
    {al a b dx Mt Mx h : ℝ} {f u : ℝ → ℝ → ℝ} {x : List ℝ}
    (hal : 0 ≤ al) (hdx : 0 < dx) (hm : Space.MeshOf a b 1 1 x n dx)
    (hu : HeatSolution al a b (tAt (grid E.ts 0) 0) (tAt (grid E.ts 0) (npts E.ts 0 - 1)) f u Mt Mx)
    (hstep : ∀ l v t t', l < E.ts.length → t ≤ t' →
      Apps.heat1dStep al dx (fun t i => f t (x.getD i 0)) v t t' (E.step l v t t'))
    (hstart : ∀ p : Fin n, E.start 0 p = u (tAt (grid E.ts 0) 0) (x.getD p 0))
    (hh : ∀ i, i + 1 < npts E.ts 0 → tAt (grid E.ts 0) (i + 1) - tAt (grid E.ts 0) i ≤ h)
    (hnorm : ∀ x, E.norm x = √(∑ y, x y ^ 2)) (htnorm : ∀ xs : List ℝ, norm2 xs ≤ E.tnorm xs)
    (tol : ℝ) (hlt : ∀ x, E.ltTol x = true → x < tol)
    {c : Conf E.P (Msg (Fin n → ℝ) ℝ) (PState (Fin n → ℝ) ℝ)} (h1 : Steps (startConf E) c)
    (hc : ∀ d, ¬ Step c d) (r : Fin E.P) (s : PState (Fin n → ℝ) ℝ) (hr : c.prog r = Prog.ret s)
    (hs : s.solveIter < E.maxIter)
    (k i j : Nat) (hi : (E.info r 0).pts[k]? = some i) (hj : (E.info r 0).idx[k]? = some j) (p : Fin n) :
    |s.u 0 j p - u (tAt (grid E.ts 0) i) (x.getD p 0)| ≤
      tol / 2 + (tAt (grid E.ts 0) i - tAt (grid E.ts 0) 0) * (h / 2 * Mt + al * dx ^ 2 / 12 * Mx) := by
  have hlen : i < npts E.ts 0 := ((returned hg (by omega) h1 hc r s hr).2.2.2.2 k i j hi hj).1
  have e1 := C97_heat_1d_tolerance hg hcrit hT hal _ hstep hnorm htnorm tol hlt h1 hc r s hr hs k i j hi hj
  have e2 := C101_heat_1d (hg.valid.sorted 0) hal hdx hm hu (fun v t t' => hstep 0 v t t' hg.valid.pos) hstart hh i
    hlen p
  have e3 : |s.u 0 j p - timeStepping E i p| ≤ √(∑ x, (s.u 0 j x - timeStepping E i x) ^ 2) := by
    rw [← Real.sqrt_sq_eq_abs]
    exact Real.sqrt_le_sqrt (Finset.single_le_sum (f := fun x => (s.u 0 j x - timeStepping E i x) ^ 2)
      (fun _ _ => sq_nonneg _) (Finset.mem_univ p))
  have := abs_sub_le (s.u 0 j p) (timeStepping E i p) (u (tAt (grid E.ts 0) i) (x.getD p 0))
  linarith

end

/-! ## Advection -/

/-- `u t x` is a solution of `u_t + c u_x = 0` for `t` in `[t0, T]` and `x` in `[a, b]`, periodic with its first
derivative, with `|u_tt| ≤ Mt` and `|u_xx| ≤ Mx`. -/
def AdvectionSolution (c a b t0 T : ℝ) (u : ℝ → ℝ → ℝ) (Mt Mx : ℝ) : Prop :=
  ∃ ut utt ux uxx : ℝ → ℝ → ℝ,
    (∀ x ∈ Icc a b, Deriv t0 T (fun t => u t x) (fun t => ut t x) ∧
      Deriv t0 T (fun t => ut t x) (fun t => utt t x)) ∧
    (∀ t ∈ Icc t0 T, Deriv a b (u t) (ux t) ∧ Deriv a b (ux t) (uxx t)) ∧
    (∀ t ∈ Icc t0 T, ∀ x ∈ Icc a b, ut t x + c * ux t x = 0 ∧ |utt t x| ≤ Mt ∧ |uxx t x| ≤ Mx) ∧
    ∀ t ∈ Icc t0 T, u t a = u t b ∧ ux t a = ux t b

theorem advection_local {n : Nat} (hn : 2 ≤ n) {c a b dx t0 T Mt Mx h : ℝ} {u : ℝ → ℝ → ℝ} {x : List ℝ}
    (hc0 : 0 ≤ c) (hdx : 0 < dx) (hm : Space.MeshOf a b 0 1 x n dx) (hu : AdvectionSolution c a b t0 T u Mt Mx)
    {s t : ℝ} (hst : s ≤ t) (hh : t - s ≤ h) (hs0 : t0 ≤ s) (htT : t ≤ T) {v w : Fin n → ℝ}
    (hw : Apps.advectionStep c dx v s t w) {e : ℝ}
    (he : ∀ i : Fin n, |v i - u s (x.getD i 0)| ≤ e) (i : Fin n) :
    |w i - u t (x.getD i 0)| ≤ e + (t - s) * (h / 2 * Mt + c * dx / 2 * Mx) := by
  obtain ⟨ut, utt, ux, uxx, ht', hx', hpde, hbd⟩ := hu
  have htm : t ∈ Icc t0 T := ⟨hs0.trans hst, htT⟩
  obtain ⟨m1, m2, m3⟩ := hm
  push_cast at m2
  have hx : ∀ j : Fin n, x.getD j 0 = a + (j : ℝ) * dx := by
    intro j
    rw [List.getD_eq_getElem?_getD, m3 j j.isLt]
    push_cast
    rw [add_zero]
    rfl
  have hn0 : (0 : ℝ) < n := by exact_mod_cast (show 0 < n by omega)
  have hab : a + n * dx = b := by linarith
  have hdom := (Apps.advection_dominant (n := n) (c := c) (dx := dx) (dt := t - s) hn
    (mul_nonneg (sub_nonneg.2 hst) (div_nonneg hc0 hdx.le))).1
  have key : ∀ j : Fin n, u t (x.getD j 0) + (t - s) * (c / dx * (u t (x.getD j 0) - u t (x.getD (Apps.pred j) 0))) =
      u s (x.getD j 0) + ((u t (x.getD j 0) - u s (x.getD j 0) - (t - s) * ut t (x.getD j 0)) +
        (t - s) * (c / dx * (u t (x.getD j 0) - u t (x.getD (Apps.pred j) 0) - dx * ux t (x.getD j 0)))) ∧
      |u t (x.getD j 0) - u t (x.getD (Apps.pred j) 0) - dx * ux t (x.getD j 0)| ≤ Mx / 2 * dx ^ 2 ∧
      x.getD j 0 ∈ Icc a b := by
    intro j
    have hj0 : (0 : ℝ) ≤ (j : ℝ) := Nat.cast_nonneg _
    have hj : (j : ℝ) + 1 ≤ n := by exact_mod_cast j.isLt
    have hxm : x.getD j 0 ∈ Icc a b := by
      rw [hx]
      exact ⟨by nlinarith, by nlinarith⟩
    obtain ⟨x1, x2⟩ := hx' t htm
    refine ⟨?_, ?_, hxm⟩
    · have hp := (hpde t htm _ hxm).1
      rw [show ut t (x.getD j 0) = -(c * ux t (x.getD j 0)) by linarith]
      field_simp
      ring
    · have hp : ((Apps.pred j : Fin n) : Nat) = if (j : Nat) = 0 then n - 1 else (j : Nat) - 1 := rfl
      by_cases h0 : (j : Nat) = 0
      · rw [if_pos h0] at hp
        have hj' : x.getD j 0 = a := by rw [hx, h0]; simp
        have hpx : x.getD (Apps.pred j) 0 = b - dx := by
          rw [hx, hp, Nat.cast_sub (by omega)]
          push_cast
          linarith
        rw [hj', hpx, (hbd t htm).1, (hbd t htm).2]
        exact backward_difference x1 x2 (fun y hy => (hpde t htm y hy).2.2) hdx.le (by nlinarith) le_rfl
      · rw [if_neg h0] at hp
        have hpx : x.getD (Apps.pred j) 0 = x.getD j 0 - dx := by
          rw [hx, hx, hp, Nat.cast_sub (by omega)]
          push_cast
          ring
        rw [hpx]
        have : (1 : ℝ) ≤ (j : ℝ) := by exact_mod_cast (show 1 ≤ (j : Nat) by omega)
        exact backward_difference x1 x2 (fun y hy => (hpde t htm y hy).2.2) hdx.le (by rw [hx]; nlinarith) hxm.2
  have hsol : Apps.advectionStep c dx (fun j => (v j - u s (x.getD j 0)) -
      ((u t (x.getD j 0) - u s (x.getD j 0) - (t - s) * ut t (x.getD j 0)) +
        (t - s) * (c / dx * (u t (x.getD j 0) - u t (x.getD (Apps.pred j) 0) - dx * ux t (x.getD j 0))))) s t
      (fun j => w j - u t (x.getD j 0)) := by
    rw [Apps.C49_stencil hn] at hw ⊢
    intro j
    have e1 := hw j
    have e2 := (key j).1
    linear_combination e1 - e2
  have := hdom.bound zero_le_one hsol (c := e + (t - s) * (h / 2 * Mt + c * dx / 2 * Mx)) (fun j => by
    obtain ⟨-, k2, hxm⟩ := key j
    have hbdq := backward_difference (ht' _ hxm).1 (ht' _ hxm).2 (fun r hr => (hpde r hr _ hxm).2.1)
      (x := t) (h := t - s) (sub_nonneg.2 hst) (by linarith) htT
    rw [show t - (t - s) = s by ring] at hbdq
    refine (abs_sub _ _).trans ?_
    refine (add_le_add_right (abs_add_le _ _) _).trans ?_
    rw [abs_mul, abs_mul, abs_of_nonneg (sub_nonneg.2 hst), abs_of_nonneg (div_nonneg hc0 hdx.le)]
    have k3 : (t - s) * (c / dx *
        |u t (x.getD j 0) - u t (x.getD (Apps.pred j) 0) - dx * ux t (x.getD j 0)|) ≤ (t - s) * (c * dx / 2 * Mx) := by
      refine mul_le_mul_of_nonneg_left ?_ (sub_nonneg.2 hst)
      refine (mul_le_mul_of_nonneg_left k2 (div_nonneg hc0 hdx.le)).trans (le_of_eq ?_)
      field_simp
    have hMt : 0 ≤ Mt := (abs_nonneg _).trans (hpde t htm _ hxm).2.1
    have k4 : Mt / 2 * (t - s) ^ 2 ≤ (t - s) * (h / 2 * Mt) := by
      have := mul_le_mul_of_nonneg_left hh (mul_nonneg (by linarith : 0 ≤ Mt / 2) (sub_nonneg.2 hst))
      nlinarith
    have := he j
    linarith) i
  rwa [one_mul] at this

section
variable {n : Nat} {N : Type} [Zero N] {E : Cfg (Fin n → ℝ) ℝ ℝ N}

/-- C101, advection with speed `c ≥ 0`: sequential time stepping differs from the solution of the differential
equation at the points of the mesh by at most `(t_i - t_0) (h/2 max |u_tt| + c dx/2 max |u_xx|)`. -/
theorem C101_advection (hs : (grid E.ts 0).Pairwise (· < ·)) (hn : 2 ≤ n) {c a b dx Mt Mx h : ℝ} {u : ℝ → ℝ → ℝ}
    {x : List ℝ} (hc0 : 0 ≤ c) (hdx : 0 < dx) (hm : Space.MeshOf a b 0 1 x n dx)
    (hu : AdvectionSolution c a b (tAt (grid E.ts 0) 0) (tAt (grid E.ts 0) (npts E.ts 0 - 1)) u Mt Mx)
    (hstep : ∀ v t t', t ≤ t' → Apps.advectionStep c dx v t t' (E.step 0 v t t'))
    (hstart : ∀ p : Fin n, E.start 0 p = u (tAt (grid E.ts 0) 0) (x.getD p 0))
    (hh : ∀ i, i + 1 < npts E.ts 0 → tAt (grid E.ts 0) (i + 1) - tAt (grid E.ts 0) i ≤ h)
    (i : Nat) (hi : i < npts E.ts 0) (p : Fin n) :
    |timeStepping E i p - u (tAt (grid E.ts 0) i) (x.getD p 0)| ≤
      (tAt (grid E.ts 0) i - tAt (grid E.ts 0) 0) * (h / 2 * Mt + c * dx / 2 * Mx) := by
  refine accumulate hs _ (fun i c => ∀ p : Fin n, |timeStepping E i p - u (tAt (grid E.ts 0) i) (x.getD p 0)| ≤ c)
    (fun p => ?_) (fun i c hi ht hc p => ?_) i hi p
  · show |E.start 0 p - _| ≤ 0
    rw [hstart, sub_self, abs_zero]
  · exact advection_local hn hc0 hdx hm hu ht (hh i hi) (grid_mem hs (by omega)).1 (grid_mem hs hi).2
      (hstep (timeStepping E i) _ _ ht) hc p

end

/-! ## Heat equation in two dimensions -/

/-- `u t x y` is a solution of `u_t = al (u_xx + u_yy) + f` for `t` in `[t0, T]` on the rectangle
`[ax, bx] × [ay, by']`, with derivatives up to `u_tt`, bounded by `Mt`, and the fourth derivatives in both
directions, bounded by `Mx` and `My`. -/
def Heat2DSolution (al ax bx ay by' t0 T : ℝ) (f u : ℝ → ℝ → ℝ → ℝ) (Mt Mx My : ℝ) : Prop :=
  ∃ ut utt ux uxx ux3 ux4 uy uyy uy3 uy4 : ℝ → ℝ → ℝ → ℝ,
    (∀ x ∈ Icc ax bx, ∀ y ∈ Icc ay by', Deriv t0 T (fun t => u t x y) (fun t => ut t x y) ∧
      Deriv t0 T (fun t => ut t x y) (fun t => utt t x y)) ∧
    (∀ t ∈ Icc t0 T, ∀ y ∈ Icc ay by', Deriv ax bx (fun x => u t x y) (fun x => ux t x y) ∧
      Deriv ax bx (fun x => ux t x y) (fun x => uxx t x y) ∧ Deriv ax bx (fun x => uxx t x y) (fun x => ux3 t x y) ∧
      Deriv ax bx (fun x => ux3 t x y) (fun x => ux4 t x y)) ∧
    (∀ t ∈ Icc t0 T, ∀ x ∈ Icc ax bx, Deriv ay by' (fun y => u t x y) (fun y => uy t x y) ∧
      Deriv ay by' (fun y => uy t x y) (fun y => uyy t x y) ∧ Deriv ay by' (fun y => uyy t x y) (fun y => uy3 t x y) ∧
      Deriv ay by' (fun y => uy3 t x y) (fun y => uy4 t x y)) ∧
    ∀ t ∈ Icc t0 T, ∀ x ∈ Icc ax bx, ∀ y ∈ Icc ay by', ut t x y = al * (uxx t x y + uyy t x y) + f t x y ∧
      |utt t x y| ≤ Mt ∧ |ux4 t x y| ≤ Mx ∧ |uy4 t x y| ≤ My

namespace Apps.Heat2D
open Lin

theorem mesh_get {a b dx : ℝ} {n : Nat} {x : List ℝ} (hm : Space.MeshOf a b 0 0 x n dx) {i : Nat} (hi : i < n) :
    x.getD i 0 = a + (i : ℝ) * dx := by
  rw [List.getD_eq_getElem?_getD, hm.2.2 i hi, add_zero]
  rfl

theorem mesh_mem {a b dx : ℝ} {n : Nat} {x : List ℝ} (hm : Space.MeshOf a b 0 0 x n dx) (hdx : 0 < dx) {i : Nat}
    (hi : i < n) : x.getD i 0 ∈ Icc a b := by
  rw [mesh_get hm hi]
  have h2 := hm.2.1
  push_cast at h2
  have h0 : (0 : ℝ) ≤ (i : ℝ) := Nat.cast_nonneg _
  have h1 : (i : ℝ) + 1 ≤ n := by exact_mod_cast hi
  exact ⟨by nlinarith, by nlinarith⟩

/-- Second difference on a mesh. -/
theorem mesh_second {a b dx M : ℝ} {n : Nat} {x : List ℝ} (hm : Space.MeshOf a b 0 0 x n dx) (hdx : 0 < dx)
    {f f1 f2 f3 f4 : ℝ → ℝ} (hf : Deriv a b f f1 ∧ Deriv a b f1 f2 ∧ Deriv a b f2 f3 ∧ Deriv a b f3 f4)
    (hM : ∀ z ∈ Icc a b, |f4 z| ≤ M) {i : Nat} (h1 : 1 ≤ i) (h2 : i + 1 < n) :
    |f (x.getD (i + 1) 0) - 2 * f (x.getD i 0) + f (x.getD (i - 1) 0) - dx ^ 2 * f2 (x.getD i 0)|
      ≤ M / 12 * dx ^ 4 := by
  have e1 : x.getD (i + 1) 0 = x.getD i 0 + dx := by
    rw [mesh_get hm h2, mesh_get hm (by omega)]; push_cast; ring
  have e2 : x.getD (i - 1) 0 = x.getD i 0 - dx := by
    rw [mesh_get hm (by omega), mesh_get hm (by omega), Nat.cast_sub h1]; push_cast; ring
  have m1 := mesh_mem hm hdx h2
  have m2 := mesh_mem hm hdx (show i - 1 < n by omega)
  rw [e1] at m1 ⊢
  rw [e2] at m2 ⊢
  exact second_difference hf.1 hf.2.1 hf.2.2.1 hf.2.2.2 hM hdx.le m2.1 m1.2

variable (P : Heat2D ℝ)

theorem heat2d_local (hnx : 2 ≤ P.nx) (hny : 2 ≤ P.ny) (ha : 0 ≤ P.a) (hth : P.theta = 1) (hdx : 0 < P.dx)
    (hdy : 0 < P.dy) {ax bx ay by' t0 T Mt Mx My h : ℝ} {f u : ℝ → ℝ → ℝ → ℝ} {x y : List ℝ}
    (hmx : Space.MeshOf ax bx 0 0 x P.nx P.dx) (hmy : Space.MeshOf ay by' 0 0 y P.ny P.dy)
    (hrhs : ∀ t i j, P.rhs t i j = f t (x.getD i 0) (y.getD j 0))
    (hu : Heat2DSolution P.a ax bx ay by' t0 T f u Mt Mx My)
    (hbd : ∀ t ∈ Icc t0 T, P.BoundaryOK fun i j => u t (x.getD i 0) (y.getD j 0)) {s t : ℝ}
    (hst : s ≤ t) (hh : t - s ≤ h) (hs0 : t0 ≤ s) (htT : t ≤ T) {v w : Nat → Nat → ℝ} (hw : P.step v s t w) {c : ℝ}
    (hc0 : 0 ≤ c) (hM : 0 ≤ h / 2 * Mt + P.a / 12 * (P.dx ^ 2 * Mx + P.dy ^ 2 * My))
    (hc : ∀ i j, i < P.nx → j < P.ny → |v i j - u s (x.getD i 0) (y.getD j 0)| ≤ c) (i j : Nat) (hi : i < P.nx)
    (hj : j < P.ny) : |w i j - u t (x.getD i 0) (y.getD j 0)| ≤
      c + (t - s) * (h / 2 * Mt + P.a / 12 * (P.dx ^ 2 * Mx + P.dy ^ 2 * My)) := by
  obtain ⟨ut, utt, ux, uxx, ux3, ux4, uy, uyy, uy3, uy4, ht', hx', hy', hpde⟩ := hu
  have htm : t ∈ Icc t0 T := ⟨hs0.trans hst, htT⟩
  set U : Nat → Nat → ℝ := fun i j => u t (x.getD i 0) (y.getD j 0) with hU
  unfold step at hw
  rw [if_neg (by rw [hth]; exact one_ne_zero)] at hw
  obtain ⟨z, hz, rfl⟩ := hw
  have hc' : 0 ≤ (t - s) * P.theta := by rw [hth, mul_one]; exact sub_nonneg.2 hst
  have hsol : Solves (((t - s) * P.theta) • P.mat + 1)
      (P.computeRhs v s t - (((t - s) * P.theta) • P.mat + 1).mulVec (P.flat U)) (z - P.flat U) := by
    unfold Solves
    rw [Matrix.mulVec_sub]
    congr 1
  have hb : ∀ p q (hp : p < P.nx) (hq : q < P.ny),
      |(P.computeRhs v s t - (((t - s) * P.theta) • P.mat + 1).mulVec (P.flat U)) ⟨p * P.ny + q, P.flatIdx_lt hp hq⟩|
        ≤ c + (t - s) * (h / 2 * Mt + P.a / 12 * (P.dx ^ 2 * Mx + P.dy ^ 2 * My)) := by
    intro p q hp hq
    rw [Pi.sub_apply, P.rhs_at hny (Or.inl hth) v s t hp hq, step_matrix_mulVec, Pi.add_apply, Pi.smul_apply,
      P.stencil_at hny U hp hq, flat_at P U hp hq, hth]
    by_cases hin : P.inner p q
    · rw [if_pos hin, if_pos hin]
      have hxm := mesh_mem hmx hdx hp
      have hym := mesh_mem hmy hdy hq
      have d1 := mesh_second hmx hdx (hx' t htm _ hym) (fun z hz => (hpde t htm z hz _ hym).2.2.1) hin.1 hin.2.1
      have d2 := mesh_second hmy hdy (hy' t htm _ hxm) (fun z hz => (hpde t htm _ hxm z hz).2.2.2) hin.2.2.1 hin.2.2.2
      have hbdq := backward_difference (ht' _ hxm _ hym).1 (ht' _ hxm _ hym).2
        (fun r hr => (hpde r hr _ hxm _ hym).2.1) (x := t) (h := t - s) (sub_nonneg.2 hst) (by linarith) htT
      rw [show t - (t - s) = s by ring] at hbdq
      have hp' := (hpde t htm _ hxm _ hym).1
      have hcc := hc p q hp hq
      have hMt : 0 ≤ Mt := (abs_nonneg _).trans (hpde t htm _ hxm _ hym).2.1
      unfold lap
      rw [hrhs, hrhs, smul_eq_mul]
      simp only [hU]
      set X := x.getD p 0
      set Y := y.getD q 0
      set Xp := x.getD (p + 1) 0
      set Xm := x.getD (p - 1) 0
      set Yp := y.getD (q + 1) 0
      set Ym := y.getD (q - 1) 0
      have split : v p q - (t - s) * (1 - 1) * (P.a / P.dx ^ 2 * (2 * v p q - v (p - 1) q - v (p + 1) q) +
            P.a / P.dy ^ 2 * (2 * v p q - v p (q - 1) - v p (q + 1))) +
            (t - s) * (1 * f t X Y + (1 - 1) * f s X Y) -
          ((t - s) * 1 * (P.a / P.dx ^ 2 * (2 * u t X Y - u t Xm Y - u t Xp Y) +
            P.a / P.dy ^ 2 * (2 * u t X Y - u t X Ym - u t X Yp)) + u t X Y) =
          (v p q - u s X Y) + -(u t X Y - u s X Y - (t - s) * ut t X Y) +
            (t - s) * (P.a / P.dx ^ 2 * (u t Xp Y - 2 * u t X Y + u t Xm Y - P.dx ^ 2 * uxx t X Y)) +
            (t - s) * (P.a / P.dy ^ 2 * (u t X Yp - 2 * u t X Y + u t X Ym - P.dy ^ 2 * uyy t X Y)) := by
        rw [hp']
        field_simp
        ring
      rw [split]
      refine (abs_add_le _ _).trans ?_
      refine (add_le_add_left (abs_add_le _ _) _).trans ?_
      refine (add_le_add_left (add_le_add_left (abs_add_le _ _) _) _).trans ?_
      rw [abs_neg, abs_mul (t - s), abs_mul (t - s), abs_mul (P.a / P.dx ^ 2), abs_mul (P.a / P.dy ^ 2),
        abs_of_nonneg (sub_nonneg.2 hst),
        abs_of_nonneg (by positivity : 0 ≤ P.a / P.dx ^ 2), abs_of_nonneg (by positivity : 0 ≤ P.a / P.dy ^ 2)]
      have k1 : (t - s) * (P.a / P.dx ^ 2 * |u t Xp Y - 2 * u t X Y + u t Xm Y - P.dx ^ 2 * uxx t X Y|) ≤
          (t - s) * (P.a / 12 * (P.dx ^ 2 * Mx)) := by
        refine mul_le_mul_of_nonneg_left ?_ (sub_nonneg.2 hst)
        refine (mul_le_mul_of_nonneg_left d1 (by positivity)).trans (le_of_eq ?_)
        field_simp
      have k2 : (t - s) * (P.a / P.dy ^ 2 * |u t X Yp - 2 * u t X Y + u t X Ym - P.dy ^ 2 * uyy t X Y|) ≤
          (t - s) * (P.a / 12 * (P.dy ^ 2 * My)) := by
        refine mul_le_mul_of_nonneg_left ?_ (sub_nonneg.2 hst)
        refine (mul_le_mul_of_nonneg_left d2 (by positivity)).trans (le_of_eq ?_)
        field_simp
      have k3 : Mt / 2 * (t - s) ^ 2 ≤ (t - s) * (h / 2 * Mt) := by
        have := mul_le_mul_of_nonneg_left hh (mul_nonneg (by linarith : 0 ≤ Mt / 2) (sub_nonneg.2 hst))
        nlinarith
      linarith
    · rw [if_neg hin, if_neg hin, smul_zero, zero_add,
        (P.boundaryOK_iff hnx hny U).1 (hbd t htm) p q hp hq hin, sub_self, abs_zero]
      exact add_nonneg hc0 (mul_nonneg (sub_nonneg.2 hst) hM)
  have := (P.dominant hny ha hc').bound zero_le_one hsol
    (c := c + (t - s) * (h / 2 * Mt + P.a / 12 * (P.dx ^ 2 * Mx + P.dy ^ 2 * My))) (fun k => by
      have hlt := k.isLt
      have h0 : 0 < P.ny := by omega
      have hq : (k : Nat) / P.ny < P.nx := (Nat.div_lt_iff_lt_mul h0).2 hlt
      have hm : (k : Nat) % P.ny < P.ny := Nat.mod_lt _ h0
      have := hb _ _ hq hm
      have e : (⟨k / P.ny * P.ny + k % P.ny, P.flatIdx_lt hq hm⟩ : Fin (P.nx * P.ny)) = k :=
        Fin.ext (by simp only; rw [Nat.mul_comm]; exact Nat.div_add_mod _ _)
      rwa [e] at this) ⟨i * P.ny + j, P.flatIdx_lt hi hj⟩
  rw [one_mul, Pi.sub_apply, flat_at P U hi hj] at this
  rwa [shape_at P _ hi hj]

section
variable {N : Type} [Zero N] {E : Cfg (Nat → Nat → ℝ) ℝ ℝ N}

/-- C101, heat equation in two dimensions, backward Euler: sequential time stepping differs from a solution of the
differential equation with the prescribed boundary values at the points of the mesh by at most
`(t_i - t_0) (h/2 max |u_tt| + a/12 (dx² max |u_xxxx| + dy² max |u_yyyy|))`. -/
theorem C101_heat_2d (hs : (grid E.ts 0).Pairwise (· < ·)) (hnx : 2 ≤ P.nx) (hny : 2 ≤ P.ny) (ha : 0 ≤ P.a)
    (hth : P.theta = 1) (hdx : 0 < P.dx) (hdy : 0 < P.dy) {ax bx ay by' Mt Mx My h : ℝ} {f u : ℝ → ℝ → ℝ → ℝ}
    {x y : List ℝ} (hmx : Space.MeshOf ax bx 0 0 x P.nx P.dx) (hmy : Space.MeshOf ay by' 0 0 y P.ny P.dy)
    (hrhs : ∀ t i j, P.rhs t i j = f t (x.getD i 0) (y.getD j 0))
    (hu : Heat2DSolution P.a ax bx ay by' (tAt (grid E.ts 0) 0) (tAt (grid E.ts 0) (npts E.ts 0 - 1)) f u Mt Mx My)
    (hbd : ∀ t ∈ Icc (tAt (grid E.ts 0) 0) (tAt (grid E.ts 0) (npts E.ts 0 - 1)),
      P.BoundaryOK fun i j => u t (x.getD i 0) (y.getD j 0))
    (hstep : ∀ v t t', t ≤ t' → P.step v t t' (E.step 0 v t t'))
    (hstart : ∀ p q, p < P.nx → q < P.ny → E.start 0 p q = u (tAt (grid E.ts 0) 0) (x.getD p 0) (y.getD q 0))
    (hh0 : 0 ≤ h) (hh : ∀ i, i + 1 < npts E.ts 0 → tAt (grid E.ts 0) (i + 1) - tAt (grid E.ts 0) i ≤ h)
    (i : Nat) (hi : i < npts E.ts 0) (p q : Nat) (hp : p < P.nx) (hq : q < P.ny) :
    |timeStepping E i p q - u (tAt (grid E.ts 0) i) (x.getD p 0) (y.getD q 0)| ≤
      (tAt (grid E.ts 0) i - tAt (grid E.ts 0) 0) *
        (h / 2 * Mt + P.a / 12 * (P.dx ^ 2 * Mx + P.dy ^ 2 * My)) := by
  have hM : 0 ≤ h / 2 * Mt + P.a / 12 * (P.dx ^ 2 * Mx + P.dy ^ 2 * My) := by
    obtain ⟨_, _, _, _, _, _, _, _, _, _, -, -, -, hpde⟩ := hu
    have := hpde _ (grid_mem hs hi) _ (mesh_mem hmx hdx hp) _ (mesh_mem hmy hdy hq)
    have m1 := (abs_nonneg _).trans this.2.1
    have m2 := (abs_nonneg _).trans this.2.2.1
    have m3 := (abs_nonneg _).trans this.2.2.2
    positivity
  refine (accumulate hs (h / 2 * Mt + P.a / 12 * (P.dx ^ 2 * Mx + P.dy ^ 2 * My)) (fun i c => 0 ≤ c ∧
    ∀ p q, p < P.nx → q < P.ny → |timeStepping E i p q - u (tAt (grid E.ts 0) i) (x.getD p 0) (y.getD q 0)| ≤ c)
    ⟨le_rfl, fun p q hp hq => ?_⟩ (fun i c hi ht hc => ⟨add_nonneg hc.1 (mul_nonneg (sub_nonneg.2 ht) hM),
      fun p q hp hq => ?_⟩) i hi).2 p q hp hq
  · show |E.start 0 p q - _| ≤ 0
    rw [hstart p q hp hq, sub_self, abs_zero]
  · exact P.heat2d_local hnx hny ha hth hdx hdy hmx hmy hrhs hu hbd ht (hh i hi) (grid_mem hs (by omega)).1
      (grid_mem hs hi).2 (hstep (timeStepping E i) _ _ ht) hc.1 hM hc.2 p q hp hq

end

end Apps.Heat2D

/-! ## Dahlquist problem -/

section
variable {N : Type} [Zero N] {E : Cfg ℝ ℝ ℝ N}

theorem deriv_exp (a b t0 lam c : ℝ) : Deriv a b (fun t => c * Real.exp (lam * (t - t0)))
    (fun t => (c * lam) * Real.exp (lam * (t - t0))) := by
  intro t _
  have h1 : HasDerivAt (fun t => lam * (t - t0)) lam t := by
    simpa using ((hasDerivAt_id t).sub_const t0).const_mul lam
  have h2 := (h1.exp).const_mul c
  rw [show c * (Real.exp (lam * (t - t0)) * lam) = c * lam * Real.exp (lam * (t - t0)) by ring] at h2
  exact h2.hasDerivWithinAt

theorem exp_decay_bound {lam c t t0 : ℝ} (hl : lam ≤ 0) (ht : t0 ≤ t) : |c * Real.exp (lam * (t - t0))| ≤ |c| := by
  rw [abs_mul, abs_of_pos (Real.exp_pos _)]
  refine mul_le_of_le_one_right (abs_nonneg _) (Real.exp_le_one_iff.2 ?_)
  exact mul_nonpos_of_nonpos_of_nonneg hl (sub_nonneg.2 ht)

/-- C102, backward Euler: first order. -/
theorem C102_backward_euler (hs : (grid E.ts 0).Pairwise (· < ·)) {lam h : ℝ} (hlam : lam ≤ 0)
    (hstep : ∀ u t t', E.step 0 u t t' = Apps.dahlquist .BE lam u t t')
    (hh : ∀ i, i + 1 < npts E.ts 0 → tAt (grid E.ts 0) (i + 1) - tAt (grid E.ts 0) i ≤ h)
    (i : Nat) (hi : i < npts E.ts 0) :
    |timeStepping E i - E.start 0 * Real.exp (lam * (tAt (grid E.ts 0) i - tAt (grid E.ts 0) 0))| ≤
      (tAt (grid E.ts 0) i - tAt (grid E.ts 0) 0) * (h / 2 * (lam ^ 2 * |E.start 0|)) := by
  refine accumulate hs _ (fun i c => |timeStepping E i -
    E.start 0 * Real.exp (lam * (tAt (grid E.ts 0) i - tAt (grid E.ts 0) 0))| ≤ c) ?_ (fun i c hi ht hc => ?_) i hi
  · show |E.start 0 - _| ≤ 0
    simp
  · have e : timeStepping E (i + 1) = Apps.dahlquist .BE lam (timeStepping E i) (tAt (grid E.ts 0) i)
        (tAt (grid E.ts 0) (i + 1)) := hstep _ _ _
    rw [e]
    have hb := backward_difference (a := tAt (grid E.ts 0) 0) (b := tAt (grid E.ts 0) (i + 1))
      (deriv_exp _ _ (tAt (grid E.ts 0) 0) lam (E.start 0)) (deriv_exp _ _ _ _ _)
      (M := lam ^ 2 * |E.start 0|) (x := tAt (grid E.ts 0) (i + 1))
      (h := tAt (grid E.ts 0) (i + 1) - tAt (grid E.ts 0) i) (fun t ht => by
        refine (exp_decay_bound hlam ht.1).trans (le_of_eq ?_)
        rw [mul_assoc, abs_mul, abs_of_nonneg (mul_self_nonneg lam)]; ring) (sub_nonneg.2 ht)
      (by have := (grid_mem hs (show i < (grid E.ts 0).length by omega)).1; linarith) le_rfl
    have hhi := hh i hi
    rw [sub_sub_cancel] at hb
    generalize tAt (grid E.ts 0) (i + 1) = t at *
    generalize tAt (grid E.ts 0) i = s at *
    generalize tAt (grid E.ts 0) 0 = t0 at *
    generalize Real.exp (lam * (t - t0)) = y at *
    generalize Real.exp (lam * (s - t0)) = z at *
    generalize timeStepping E i = v at *
    generalize E.start 0 = u0 at *
    have hz : (t - s) * lam ≤ 0 := mul_nonpos_of_nonneg_of_nonpos (sub_nonneg.2 ht) hlam
    have hd : 0 < 1 - (t - s) * lam := by linarith
    have e2 : Apps.dahlquist .BE lam v s t - u0 * y =
        ((v - u0 * z) - (u0 * y - u0 * z - (t - s) * (u0 * lam * y))) / (1 - (t - s) * lam) := by
      show 1 / (1 - (t - s) * lam) * v - u0 * y = _
      field_simp
      ring
    rw [e2, abs_div, abs_of_pos hd, div_le_iff₀ hd]
    have k1 := (abs_sub (v - u0 * z) (u0 * y - u0 * z - (t - s) * (u0 * lam * y)))
    have hM : 0 ≤ lam ^ 2 * |u0| := by positivity
    have k2 : lam ^ 2 * |u0| / 2 * (t - s) ^ 2 ≤ (t - s) * (h / 2 * (lam ^ 2 * |u0|)) := by
      have := mul_le_mul_of_nonneg_left hhi (mul_nonneg (half_pos zero_lt_two |>.le) (mul_nonneg hM (sub_nonneg.2 ht)))
      nlinarith
    have k3 : 0 ≤ c + (t - s) * (h / 2 * (lam ^ 2 * |u0|)) := by
      have := (abs_nonneg _).trans hc
      have := (abs_nonneg _).trans (hb.trans k2)
      linarith
    nlinarith

/-- C102, trapezoidal rule: second order. -/
theorem C102_trapezoidal (hs : (grid E.ts 0).Pairwise (· < ·)) {lam h : ℝ} (hlam : lam ≤ 0)
    (hstep : ∀ u t t', E.step 0 u t t' = Apps.dahlquist .TR lam u t t')
    (hh : ∀ i, i + 1 < npts E.ts 0 → tAt (grid E.ts 0) (i + 1) - tAt (grid E.ts 0) i ≤ h)
    (i : Nat) (hi : i < npts E.ts 0) :
    |timeStepping E i - E.start 0 * Real.exp (lam * (tAt (grid E.ts 0) i - tAt (grid E.ts 0) 0))| ≤
      (tAt (grid E.ts 0) i - tAt (grid E.ts 0) 0) * (h ^ 2 / 12 * (|lam| ^ 3 * |E.start 0|)) := by
  refine accumulate hs _ (fun i c => |timeStepping E i -
    E.start 0 * Real.exp (lam * (tAt (grid E.ts 0) i - tAt (grid E.ts 0) 0))| ≤ c) ?_ (fun i c hi ht hc => ?_) i hi
  · show |E.start 0 - _| ≤ 0
    simp
  · have e : timeStepping E (i + 1) = Apps.dahlquist .TR lam (timeStepping E i) (tAt (grid E.ts 0) i)
        (tAt (grid E.ts 0) (i + 1)) := hstep _ _ _
    rw [e]
    have hb := Taylor.trapezoidal (a := tAt (grid E.ts 0) 0) (b := tAt (grid E.ts 0) (i + 1))
      (deriv_exp _ _ (tAt (grid E.ts 0) 0) lam (E.start 0)) (deriv_exp _ _ _ _ _) (deriv_exp _ _ _ _ _)
      (M := |lam| ^ 3 * |E.start 0|) (x := tAt (grid E.ts 0) i)
      (h := tAt (grid E.ts 0) (i + 1) - tAt (grid E.ts 0) i) (fun t ht => by
        refine (exp_decay_bound hlam ht.1).trans (le_of_eq ?_)
        rw [abs_mul, abs_mul, abs_mul]; ring) (sub_nonneg.2 ht)
      (grid_mem hs (show i < (grid E.ts 0).length by omega)).1 (by linarith)
    have hhi := hh i hi
    rw [add_sub_cancel] at hb
    generalize tAt (grid E.ts 0) (i + 1) = t at *
    generalize tAt (grid E.ts 0) i = s at *
    generalize tAt (grid E.ts 0) 0 = t0 at *
    generalize Real.exp (lam * (t - t0)) = y at *
    generalize Real.exp (lam * (s - t0)) = z at *
    generalize timeStepping E i = v at *
    generalize E.start 0 = u0 at *
    have hz : (t - s) * lam ≤ 0 := mul_nonpos_of_nonneg_of_nonpos (sub_nonneg.2 ht) hlam
    have hd : 0 < 1 - (t - s) * lam / 2 := by linarith
    have e2 : Apps.dahlquist .TR lam v s t - u0 * y =
        ((1 + (t - s) * lam / 2) * (v - u0 * z) - (u0 * y - u0 * z - (t - s) / 2 * (u0 * lam * z + u0 * lam * y))) /
          (1 - (t - s) * lam / 2) := by
      show (1 + (t - s) * lam / 2) / (1 - (t - s) * lam / 2) * v - u0 * y = _
      rw [eq_div_iff hd.ne', sub_mul, div_mul_eq_mul_div, div_mul_cancel₀ _ hd.ne']
      ring
    rw [e2, abs_div, abs_of_pos hd, div_le_iff₀ hd]
    have k1 := abs_sub ((1 + (t - s) * lam / 2) * (v - u0 * z))
      (u0 * y - u0 * z - (t - s) / 2 * (u0 * lam * z + u0 * lam * y))
    rw [abs_mul] at k1
    have k4 : |1 + (t - s) * lam / 2| ≤ 1 - (t - s) * lam / 2 := abs_le.2 ⟨by linarith, by linarith⟩
    have hM : 0 ≤ |lam| ^ 3 * |u0| := by positivity
    have h2 : (t - s) ^ 2 ≤ h ^ 2 := by
      have : 0 ≤ t - s := sub_nonneg.2 ht
      nlinarith
    have k2 : |lam| ^ 3 * |u0| / 12 * (t - s) ^ 3 ≤ (t - s) * (h ^ 2 / 12 * (|lam| ^ 3 * |u0|)) := by
      have := mul_le_mul_of_nonneg_left h2 (mul_nonneg hM (sub_nonneg.2 ht))
      nlinarith
    have k3 : 0 ≤ (t - s) * (h ^ 2 / 12 * (|lam| ^ 3 * |u0|)) := (abs_nonneg _).trans (hb.trans k2)
    have k5 : |1 + (t - s) * lam / 2| * |v - u0 * z| ≤ (1 - (t - s) * lam / 2) * c :=
      mul_le_mul k4 hc (abs_nonneg _) hd.le
    nlinarith

/-- C102, forward Euler with steps up to the limit of stability: first order. -/
theorem C102_forward_euler (hs : (grid E.ts 0).Pairwise (· < ·)) {lam h : ℝ} (hlam : lam ≤ 0) (hst : h * |lam| ≤ 2)
    (hstep : ∀ u t t', E.step 0 u t t' = Apps.dahlquist .FE lam u t t')
    (hh : ∀ i, i + 1 < npts E.ts 0 → tAt (grid E.ts 0) (i + 1) - tAt (grid E.ts 0) i ≤ h)
    (i : Nat) (hi : i < npts E.ts 0) :
    |timeStepping E i - E.start 0 * Real.exp (lam * (tAt (grid E.ts 0) i - tAt (grid E.ts 0) 0))| ≤
      (tAt (grid E.ts 0) i - tAt (grid E.ts 0) 0) * (h / 2 * (lam ^ 2 * |E.start 0|)) := by
  refine accumulate hs _ (fun i c => |timeStepping E i -
    E.start 0 * Real.exp (lam * (tAt (grid E.ts 0) i - tAt (grid E.ts 0) 0))| ≤ c) ?_ (fun i c hi ht hc => ?_) i hi
  · show |E.start 0 - _| ≤ 0
    simp
  · have e : timeStepping E (i + 1) = Apps.dahlquist .FE lam (timeStepping E i) (tAt (grid E.ts 0) i)
        (tAt (grid E.ts 0) (i + 1)) := hstep _ _ _
    rw [e]
    have hb := forward_difference (a := tAt (grid E.ts 0) 0) (b := tAt (grid E.ts 0) (i + 1))
      (deriv_exp _ _ (tAt (grid E.ts 0) 0) lam (E.start 0)) (deriv_exp _ _ _ _ _)
      (M := lam ^ 2 * |E.start 0|) (x := tAt (grid E.ts 0) i)
      (h := tAt (grid E.ts 0) (i + 1) - tAt (grid E.ts 0) i) (fun t ht => by
        refine (exp_decay_bound hlam ht.1).trans (le_of_eq ?_)
        rw [mul_assoc, abs_mul, abs_of_nonneg (mul_self_nonneg lam)]; ring) (sub_nonneg.2 ht)
      (grid_mem hs (show i < (grid E.ts 0).length by omega)).1 (by linarith)
    have hhi := hh i hi
    rw [add_sub_cancel] at hb
    generalize tAt (grid E.ts 0) (i + 1) = t at *
    generalize tAt (grid E.ts 0) i = s at *
    generalize tAt (grid E.ts 0) 0 = t0 at *
    generalize Real.exp (lam * (t - t0)) = y at *
    generalize Real.exp (lam * (s - t0)) = z at *
    generalize timeStepping E i = v at *
    generalize E.start 0 = u0 at *
    have hz : (t - s) * lam ≤ 0 := mul_nonpos_of_nonneg_of_nonpos (sub_nonneg.2 ht) hlam
    have hz2 : -2 ≤ (t - s) * lam := by
      have := mul_le_mul_of_nonneg_right hhi (abs_nonneg lam)
      rw [abs_of_nonpos hlam] at this hst
      linarith
    have e2 : Apps.dahlquist .FE lam v s t - u0 * y =
        (1 + (t - s) * lam) * (v - u0 * z) - (u0 * y - u0 * z - (t - s) * (u0 * lam * z)) := by
      show (1 + (t - s) * lam) * v - u0 * y = _
      ring
    rw [e2]
    refine (abs_sub _ _).trans ?_
    rw [abs_mul]
    have k4 : |1 + (t - s) * lam| ≤ 1 := abs_le.2 ⟨by linarith, by linarith⟩
    have k5 : |1 + (t - s) * lam| * |v - u0 * z| ≤ 1 * c := mul_le_mul k4 hc (abs_nonneg _) zero_le_one
    have hM : 0 ≤ lam ^ 2 * |u0| := by positivity
    have k2 : lam ^ 2 * |u0| / 2 * (t - s) ^ 2 ≤ (t - s) * (h / 2 * (lam ^ 2 * |u0|)) := by
      have := mul_le_mul_of_nonneg_left hhi (mul_nonneg hM (sub_nonneg.2 ht))
      nlinarith
    linarith

/-- C102, mid-point rule, only for the default `λ = -1` (missing: all other values, for which it is wrong, see
`C102_midpoint_counterexample`): second order. -/
theorem C102_midpoint_partial (hs : (grid E.ts 0).Pairwise (· < ·)) {h : ℝ}
    (hstep : ∀ u t t', t ≤ t' → E.step 0 u t t' = Apps.dahlquist .MR (-1) u t t')
    (hh : ∀ i, i + 1 < npts E.ts 0 → tAt (grid E.ts 0) (i + 1) - tAt (grid E.ts 0) i ≤ h)
    (i : Nat) (hi : i < npts E.ts 0) :
    |timeStepping E i - E.start 0 * Real.exp (-(tAt (grid E.ts 0) i - tAt (grid E.ts 0) 0))| ≤
      (tAt (grid E.ts 0) i - tAt (grid E.ts 0) 0) * (h ^ 2 / 12 * |E.start 0|) := by
  let F : Cfg ℝ ℝ ℝ N := { E with step := fun _ u t t' => Apps.dahlquist .TR (-1) u t t' }
  have e : ∀ i, i < npts E.ts 0 → timeStepping E i = timeStepping F i := by
    intro i
    induction i with
    | zero => intro _; rfl
    | succ i ih =>
      intro hi
      have ht : tAt (grid E.ts 0) i ≤ tAt (grid E.ts 0) (i + 1) := tAt_mono hs (by omega) hi
      have e1 : timeStepping E (i + 1) = Apps.dahlquist .MR (-1) (timeStepping E i) (tAt (grid E.ts 0) i)
        (tAt (grid E.ts 0) (i + 1)) := hstep _ _ _ ht
      have e2 : timeStepping F (i + 1) = Apps.dahlquist .TR (-1) (timeStepping F i) (tAt (grid E.ts 0) i)
        (tAt (grid E.ts 0) (i + 1)) := rfl
      rw [e1, e2, ih (by omega)]
      generalize timeStepping F i = v
      generalize tAt (grid E.ts 0) (i + 1) = t at *
      generalize tAt (grid E.ts 0) i = s at *
      have hd : 1 - (t - s) * -1 / 2 ≠ 0 := by
        have := sub_nonneg.2 ht
        exact ne_of_gt (by linarith)
      show v + (t - s) * (-1 / (1 - (t - s) * -1 / 2) * v) =
        (1 + (t - s) * -1 / 2) / (1 - (t - s) * -1 / 2) * v
      rw [div_mul_eq_mul_div, div_mul_eq_mul_div, eq_div_iff hd, add_mul, mul_assoc, div_mul_cancel₀ _ hd]
      ring
  have := C102_trapezoidal (E := F) hs (lam := -1) (h := h) (by norm_num) (fun _ _ _ => rfl) hh i hi
  rw [e i hi, show -(tAt (grid E.ts 0) i - tAt (grid E.ts 0) 0) = -1 * (tAt (grid E.ts 0) i - tAt (grid E.ts 0) 0) by
    ring]
  simpa using this

/-- C102, refuted for the mid-point rule with `λ = -2` and start value 1: on every grid, however fine, the result at
time `t_0 + 1` is at least `e⁻¹`, the solution of the differential equation is `e⁻²`; the difference
is larger than `1/5`. -/
theorem C102_midpoint_counterexample (hs : (grid E.ts 0).Pairwise (· < ·))
    (hstep : ∀ u t t', E.step 0 u t t' = Apps.dahlquist .MR (-2) u t t') (hstart : E.start 0 = 1)
    (i : Nat) (hi : i < npts E.ts 0) (h1 : tAt (grid E.ts 0) i - tAt (grid E.ts 0) 0 = 1) :
    1 / 5 < timeStepping E i - E.start 0 * Real.exp (-2 * (tAt (grid E.ts 0) i - tAt (grid E.ts 0) 0)) := by
  have key : ∀ i, i < npts E.ts 0 → Real.exp (-(tAt (grid E.ts 0) i - tAt (grid E.ts 0) 0)) ≤ timeStepping E i := by
    intro i
    induction i with
    | zero =>
      intro _
      show _ ≤ E.start 0
      rw [hstart]; simp
    | succ i ih =>
      intro hi
      have ht : tAt (grid E.ts 0) i ≤ tAt (grid E.ts 0) (i + 1) := tAt_mono hs (by omega) hi
      have e1 : timeStepping E (i + 1) = Apps.dahlquist .MR (-2) (timeStepping E i) (tAt (grid E.ts 0) i)
        (tAt (grid E.ts 0) (i + 1)) := hstep _ _ _
      have := ih (by omega)
      rw [e1]
      generalize timeStepping E i = v at *
      generalize tAt (grid E.ts 0) (i + 1) = t at *
      generalize tAt (grid E.ts 0) i = s at *
      generalize tAt (grid E.ts 0) 0 = t0 at *
      have hd : 0 < 1 + (t - s) := by linarith
      have e2 : Apps.dahlquist .MR (-2) v s t = 1 / (1 + (t - s)) * v := by
        show v + (t - s) * (-1 / (1 - (t - s) * -2 / 2) * v) = _
        rw [show 1 - (t - s) * -2 / 2 = 1 + (t - s) by ring]
        field_simp
        ring
      rw [e2, show -(t - t0) = -(t - s) + -(s - t0) by ring, Real.exp_add]
      refine mul_le_mul ?_ this (Real.exp_pos _).le (by positivity)
      rw [Real.exp_neg, ← one_div]
      refine one_div_le_one_div_of_le hd ?_
      have := Real.add_one_le_exp (t - s)
      linarith
  have h2 := key i hi
  rw [hstart, h1] at *
  have e : Real.exp (-2 * 1) = Real.exp (-1) * Real.exp (-1) := by rw [← Real.exp_add]; norm_num
  rw [e]
  have l1 : (0.36 : ℝ) < Real.exp (-1) := by
    have := Real.exp_neg_one_gt_d9
    linarith
  have l2 : Real.exp (-1) < 0.37 := by
    have := Real.exp_neg_one_lt_d9
    linarith
  nlinarith

end

/-- C102: the values returned by `solve()` for the Dahlquist problem with backward Euler (jump criterion, two
levels, weight in `[0, 1]`, stopped before `max_iter`). -/
theorem C102_solve {E : Cfg ℝ ℝ ℝ ℝ} (hg : E.Good) (hcrit : E.convCrit = 1) (hT : TwoLevelCopy E)
    {lam h : ℝ} (hlam : lam ≤ 0)
    (hstep : ∀ l u t t', l < E.ts.length → E.step l u t t' = Apps.dahlquist .BE lam u t t')
    (hh : ∀ i, i + 1 < npts E.ts 0 → tAt (grid E.ts 0) (i + 1) - tAt (grid E.ts 0) i ≤ h)
    (hnorm : ∀ x, E.norm x = |x|)
    (htnorm : ∀ xs : List ℝ, (∀ x ∈ xs, 0 ≤ x) → 0 ≤ E.tnorm xs ∧ ∀ x ∈ xs, x ≤ E.tnorm xs)
    (tol : ℝ) (hlt : ∀ x, E.ltTol x = true → x < tol)
    {c : Conf E.P (Msg ℝ ℝ) (PState ℝ ℝ)} (h1 : Steps (startConf E) c) (hc : ∀ d, ¬ Step c d)
    (r : Fin E.P) (s : PState ℝ ℝ) (hr : c.prog r = Prog.ret s) (hs : s.solveIter < E.maxIter)
    (k i j : Nat) (hi : (E.info r 0).pts[k]? = some i) (hj : (E.info r 0).idx[k]? = some j) :
    |s.u 0 j - E.start 0 * Real.exp (lam * (tAt (grid E.ts 0) i - tAt (grid E.ts 0) 0))| ≤
      tol / 2 + (tAt (grid E.ts 0) i - tAt (grid E.ts 0) 0) * (h / 2 * (lam ^ 2 * |E.start 0|)) := by
  have hlen : i < npts E.ts 0 := ((returned hg (by omega) h1 hc r s hr).2.2.2.2 k i j hi hj).1
  have e1 := C97_dahlquist_tolerance hg hcrit hT hlam hstep hnorm htnorm tol hlt h1 hc r s hr hs k i j hi hj
  have e2 := C102_backward_euler (hg.valid.sorted 0) hlam (fun u t t' => hstep 0 u t t' hg.valid.pos) hh i hlen
  have := abs_sub_le (s.u 0 j) (timeStepping E i)
    (E.start 0 * Real.exp (lam * (tAt (grid E.ts 0) i - tAt (grid E.ts 0) 0)))
  linarith

/-! ## Examples -/

theorem deriv_quartic (a b c0 c1 c2 c3 c4 : ℝ) :
    Deriv a b (fun x => c0 + c1 * x + c2 * x ^ 2 + c3 * x ^ 3 + c4 * x ^ 4)
      (fun x => c1 + 2 * c2 * x + 3 * c3 * x ^ 2 + 4 * c4 * x ^ 3) := by
  intro x _
  have h := ((((hasDerivAt_const x c0).add ((hasDerivAt_id x).const_mul c1)).add
    ((hasDerivAt_pow 2 x).const_mul c2)).add ((hasDerivAt_pow 3 x).const_mul c3)).add
    ((hasDerivAt_pow 4 x).const_mul c4)
  have e : 0 + c1 * 1 + c2 * (((2 : Nat) : ℝ) * x ^ (2 - 1)) + c3 * (((3 : Nat) : ℝ) * x ^ (3 - 1)) +
      c4 * (((4 : Nat) : ℝ) * x ^ (4 - 1)) = c1 + 2 * c2 * x + 3 * c3 * x ^ 2 + 4 * c4 * x ^ 3 := by
    push_cast; ring
  rw [e] at h
  exact h.hasDerivWithinAt

/-- The derivatives of `c + d x² (1 - x)²`. -/
theorem deriv_bump (c d : ℝ) :
    Deriv 0 1 (fun x => c + d * (x ^ 2 * (1 - x) ^ 2)) (fun x => d * (2 * x - 6 * x ^ 2 + 4 * x ^ 3)) ∧
    Deriv 0 1 (fun x => d * (2 * x - 6 * x ^ 2 + 4 * x ^ 3)) (fun x => d * (2 - 12 * x + 12 * x ^ 2)) ∧
    Deriv 0 1 (fun x => d * (2 - 12 * x + 12 * x ^ 2)) (fun x => d * (-12 + 24 * x)) ∧
    Deriv 0 1 (fun x => d * (-12 + 24 * x)) (fun _ => d * 24) :=
  ⟨(deriv_quartic 0 1 c 0 d (-2 * d) d).congr' (fun _ _ => by ring) (fun _ _ => by ring),
    (deriv_quartic 0 1 0 (2 * d) (-6 * d) (4 * d) 0).congr' (fun _ _ => by ring) (fun _ _ => by ring),
    (deriv_quartic 0 1 (2 * d) (-12 * d) (12 * d) 0 0).congr' (fun _ _ => by ring) (fun _ _ => by ring),
    (deriv_quartic 0 1 (-12 * d) (24 * d) 0 0 0).congr' (fun _ _ => by ring) (fun _ _ => by ring)⟩

theorem bump_le {x : ℝ} (hx : x ∈ Icc (0 : ℝ) 1) : 0 ≤ x ^ 2 * (1 - x) ^ 2 ∧ x ^ 2 * (1 - x) ^ 2 ≤ 1 := by
  have h1 : 0 ≤ 1 - x := by linarith [hx.2]
  refine ⟨by positivity, ?_⟩
  have a1 : x ^ 2 ≤ 1 := pow_le_one₀ hx.1 hx.2
  have a2 : (1 - x) ^ 2 ≤ 1 := pow_le_one₀ h1 (by linarith [hx.1])
  calc x ^ 2 * (1 - x) ^ 2 ≤ 1 * 1 := mul_le_mul a1 a2 (by positivity) zero_le_one
    _ = 1 := one_mul 1

/-- `t² x² (1 - x)²` solves the heat equation with diffusivity 2 and the source that fits. -/
noncomputable def exSource (t x : ℝ) : ℝ :=
  2 * t * (x ^ 2 * (1 - x) ^ 2) - 2 * (t ^ 2 * (2 - 12 * x + 12 * x ^ 2))

theorem exSource_solution : HeatSolution 2 0 1 0 10 exSource (fun t x => t ^ 2 * (x ^ 2 * (1 - x) ^ 2)) 2 2400 := by
  refine ⟨fun t x => 2 * t * (x ^ 2 * (1 - x) ^ 2), fun t x => 2 * (x ^ 2 * (1 - x) ^ 2),
    fun t x => t ^ 2 * (2 * x - 6 * x ^ 2 + 4 * x ^ 3), fun t x => t ^ 2 * (2 - 12 * x + 12 * x ^ 2),
    fun t x => t ^ 2 * (-12 + 24 * x), fun t _ => t ^ 2 * 24, ?_, ?_, ?_, ?_⟩
  · intro x _
    exact ⟨(deriv_quartic 0 10 0 0 (x ^ 2 * (1 - x) ^ 2) 0 0).congr' (fun _ _ => by ring) (fun _ _ => by ring),
      (deriv_quartic 0 10 0 (2 * (x ^ 2 * (1 - x) ^ 2)) 0 0 0).congr' (fun _ _ => by ring) (fun _ _ => by ring)⟩
  · intro t _
    obtain ⟨h1, h2, h3, h4⟩ := deriv_bump 0 (t ^ 2)
    exact ⟨h1.congr' (fun _ _ => by ring) (fun _ _ => rfl), h2, h3, h4⟩
  · intro t ht x hx
    have hb := bump_le hx
    refine ⟨by unfold exSource; ring, ?_, ?_⟩
    · rw [abs_of_nonneg (by linarith)]; linarith
    · rw [abs_of_nonneg (by positivity)]
      nlinarith [ht.1, ht.2]
  · intro t _
    constructor <;> ring

theorem exRealGrid_step (i : Nat) (hi : i + 1 < npts exRealGrid 0) :
    tAt (grid exRealGrid 0) (i + 1) - tAt (grid exRealGrid 0) i ≤ 6 := by
  have hi : i + 1 < 5 := hi
  have : i < 4 := by omega
  interval_cases i <;> norm_num [exRealGrid, grid, tAt]

/-- `C101_heat_1d_solve` on a mesh with 9 points. -/
example : ∃ x, (Space.heat1dMesh (0 : ℝ) 1 9).toOption = some (x, 7, 1 / 8) ∧
    ∀ {c : Conf 3 (Msg (Fin 7 → ℝ) ℝ) (PState (Fin 7 → ℝ) ℝ)}
    (_ : Steps (startConf (exTol (exHeat 7 2 (1 / 8) fun t i => exSource t (x.getD i 0)) 0 0 false 1 eucl norm1)) c)
    (_ : ∀ d, ¬ Step c d) (r : Fin 3) (s : PState (Fin 7 → ℝ) ℝ) (_ : c.prog r = Prog.ret s) (_ : s.solveIter < 6)
    (k i j : Nat) (_ : (Cfg.info (exTol (exHeat 7 2 (1 / 8) fun t i => exSource t (x.getD i 0)) 0 0 false 1 eucl norm1)
      r 0).pts[k]? = some i)
    (_ : (Cfg.info (exTol (exHeat 7 2 (1 / 8) fun t i => exSource t (x.getD i 0)) 0 0 false 1 eucl norm1)
      r 0).idx[k]? = some j) (p : Fin 7),
    |s.u 0 j p - tAt (grid exRealGrid 0) i ^ 2 * ((x.getD p 0) ^ 2 * (1 - x.getD p 0) ^ 2)| ≤ 1 / 100 / 2 +
      (tAt (grid exRealGrid 0) i - tAt (grid exRealGrid 0) 0) * (6 / 2 * 2 + 2 * (1 / 8) ^ 2 / 12 * 2400) := by
  obtain ⟨x, n, dx, e, hn, hm⟩ := (Space.C100_heat_1d (0 : ℝ) 1 9).2 (by decide)
  obtain rfl : n = 7 := by omega
  obtain rfl : dx = 1 / 8 := by
    have := hm.2.1
    push_cast at this
    linarith
  refine ⟨x, by rw [e]; rfl, fun h1 hc r s hr hs k i j hi hj p => ?_⟩
  exact C101_heat_1d_solve (exTol_good _ 0 0 false (Or.inr rfl) eucl norm1).1 rfl
    (exTol_good _ 0 0 false (Or.inr rfl) eucl norm1).2 (by norm_num) (by norm_num) hm exSource_solution
    (fun l u _ _ _ ht => exHeat_step (by norm_num) _ l u ht)
    (fun p => by
      show (0 : ℝ) = (0 : ℝ) ^ 2 * _
      simp)
    exRealGrid_step (fun _ => rfl) norm2_le_norm1 (1 / 100) (fun x => (exTol_lt _ _ _ _ _ _ _ x).1) h1 hc r s hr hs
    k i j hi hj p

/-- `C102_solve`. -/
example {c : Conf 3 (Msg ℝ ℝ) (PState ℝ ℝ)}
    (h1 : Steps (startConf (exTol exBE 1 0 true 1 (fun x => |x|) norm2)) c)
    (hc : ∀ d, ¬ Step c d) (r : Fin 3) (s : PState ℝ ℝ) (hr : c.prog r = Prog.ret s) :=
  C102_solve (exTol_good exBE 1 0 true (Or.inr rfl) (fun x => |x|) norm2).1 rfl
    (exTol_good exBE 1 0 true (Or.inr rfl) (fun x => |x|) norm2).2 (lam := -2) (by norm_num)
    (fun _ _ _ _ _ => rfl) exRealGrid_step (fun _ => rfl) norm2_entry (1 / 100)
    (fun x => (exTol_lt _ _ _ _ _ _ _ x).1) h1 hc r s hr

/-- `C102_trapezoidal` with `λ = -1`. -/
example (i : Nat) (hi : i < 5) :=
  C102_trapezoidal (E := exTol (fun _ u t t' => Apps.dahlquist .TR (-1) u t t') 1 0 true 1 (fun x => |x|) norm2)
    (exRealGrid_valid.sorted 0) (lam := -1) (by norm_num) (fun _ _ _ => rfl) exRealGrid_step i hi

/-- `C102_forward_euler` with `λ = -1/3`. -/
example (i : Nat) (hi : i < 5) :=
  C102_forward_euler (E := exTol (fun _ u t t' => Apps.dahlquist .FE (-1 / 3) u t t') 1 0 true 1 (fun x => |x|) norm2)
    (exRealGrid_valid.sorted 0) (lam := -1 / 3) (h := 6) (by norm_num) (by norm_num [abs_of_neg]) (fun _ _ _ => rfl)
    exRealGrid_step i hi

/-- `C102_midpoint_partial`. -/
example (i : Nat) (hi : i < 5) :=
  C102_midpoint_partial (E := exTol (fun _ u t t' => Apps.dahlquist .MR (-1) u t t') 1 0 true 1 (fun x => |x|) norm2)
    (exRealGrid_valid.sorted 0) (fun _ _ _ _ => rfl) exRealGrid_step i hi

/-- `C102_midpoint_counterexample` with one step. -/
example := C102_midpoint_counterexample
  (E := exTol (fun _ u t t' => Apps.dahlquist .MR (-2) u t t') 1 0 true 1 (fun x => |x|) norm2)
    (exRealGrid_valid.sorted 0) (fun _ _ _ => rfl) rfl 1 (show 1 < 5 by decide) (by
      show (1 : ℝ) - 0 = 1
      norm_num)

/-- `sin (x - 2 t)` solves the advection equation with speed 2 on a period of length `2 π`. -/
theorem exWave : AdvectionSolution 2 0 (2 * Real.pi) 0 10 (fun t x => Real.sin (x - 2 * t)) 4 1 := by
  have h1 : ∀ (t x : ℝ), HasDerivAt (fun t => x - 2 * t) (-2) t := fun t x => by
    simpa using ((hasDerivAt_id t).const_mul 2).const_sub x
  have h2 : ∀ (t x : ℝ), HasDerivAt (fun x => x - 2 * t) 1 x := fun t x => by
    simpa using (hasDerivAt_id x).sub_const (2 * t)
  refine ⟨fun t x => -2 * Real.cos (x - 2 * t), fun t x => -4 * Real.sin (x - 2 * t),
    fun t x => Real.cos (x - 2 * t), fun t x => -Real.sin (x - 2 * t), ?_, ?_, ?_, ?_⟩
  · intro x _
    refine ⟨fun t _ => ?_, fun t _ => ?_⟩
    · have := (h1 t x).sin
      rw [mul_comm] at this
      exact this.hasDerivWithinAt
    · have := ((h1 t x).cos).const_mul (-2)
      rw [show -2 * (-Real.sin (x - 2 * t) * -2) = -4 * Real.sin (x - 2 * t) by ring] at this
      exact this.hasDerivWithinAt
  · intro t _
    refine ⟨fun x _ => ?_, fun x _ => ?_⟩
    · have := (h2 t x).sin
      rw [mul_one] at this
      exact this.hasDerivWithinAt
    · have := (h2 t x).cos
      rw [mul_one] at this
      exact this.hasDerivWithinAt
  · intro t _ x _
    refine ⟨by ring, ?_, ?_⟩
    · rw [abs_mul]
      have := Real.abs_sin_le_one (x - 2 * t)
      norm_num
      linarith
    · rw [abs_neg]; exact Real.abs_sin_le_one _
  · intro t _
    refine ⟨?_, ?_⟩
    · show Real.sin (0 - 2 * t) = Real.sin (2 * Real.pi - 2 * t)
      rw [show 2 * Real.pi - 2 * t = (0 - 2 * t) + 2 * Real.pi by ring, Real.sin_add_two_pi]
    · show Real.cos (0 - 2 * t) = Real.cos (2 * Real.pi - 2 * t)
      rw [show 2 * Real.pi - 2 * t = (0 - 2 * t) + 2 * Real.pi by ring, Real.cos_add_two_pi]

/-- The time stepper of the advection problem, by choice of the unique solution. -/
noncomputable def exShift (n : Nat) (c dx : ℝ) : Nat → (Fin n → ℝ) → ℝ → ℝ → Fin n → ℝ :=
  open Classical in
  fun _ u t t' => if h : ∃ x, Apps.advectionStep c dx u t t' x then h.choose else 0

/-- `C101_advection` for any number of points. -/
example (nx : Nat) (hnx : 3 ≤ nx) : ∃ x n dx, Space.advectionMesh 0 (2 * Real.pi) nx = .ok (x, n, dx) ∧ n + 1 = nx ∧
    ∀ i < 5, ∀ p : Fin n, |timeStepping (exTol (exShift n 2 dx)
      (fun p => Real.sin (x.getD p 0)) 0 false 1 eucl norm1) i p -
        Real.sin (x.getD p 0 - 2 * tAt (grid exRealGrid 0) i)| ≤
      (tAt (grid exRealGrid 0) i - tAt (grid exRealGrid 0) 0) * (6 / 2 * 4 + 2 * dx / 2 * 1) := by
  obtain ⟨x, n, dx, e, hn, hm⟩ := (Space.C100_advection (0 : ℝ) (2 * Real.pi) nx).2 hnx
  refine ⟨x, n, dx, e, hn, fun i hi p => ?_⟩
  have hdx : 0 < dx := by
    have h2 := hm.2.1
    push_cast at h2
    have : (n : ℝ) * dx = 2 * Real.pi := by linarith
    by_contra h0
    have : (n : ℝ) * dx ≤ 0 := mul_nonpos_of_nonneg_of_nonpos (Nat.cast_nonneg _) (by linarith)
    linarith [Real.pi_pos]
  exact C101_advection (E := exTol (exShift n 2 dx) (fun p => Real.sin (x.getD p 0)) 0 false 1 eucl norm1)
    (exRealGrid_valid.sorted 0) (by omega) (by norm_num) hdx hm exWave (fun u t t' ht => by
      have h : ∃ x, Apps.advectionStep 2 dx u t t' x := (Apps.C49_wellposed (by omega) u hdx (by
        have := sub_nonneg.2 ht
        linarith)).exists
      show Apps.advectionStep 2 dx u t t' (exShift n 2 dx 0 u t t')
      unfold exShift
      rw [dif_pos h]
      exact h.choose_spec)
    (fun p => by
      show Real.sin (x.getD p 0) = Real.sin (x.getD p 0 - 2 * 0)
      rw [mul_zero, sub_zero])
    exRealGrid_step i hi p

/-- The source for which `x + t² x² (1 - x)² y² (1 - y)²` solves the heat equation. -/
noncomputable def exSource2 (t x y : ℝ) : ℝ :=
  2 * t * ((x ^ 2 * (1 - x) ^ 2) * (y ^ 2 * (1 - y) ^ 2)) -
    (t ^ 2 * (y ^ 2 * (1 - y) ^ 2) * (2 - 12 * x + 12 * x ^ 2) +
      t ^ 2 * (x ^ 2 * (1 - x) ^ 2) * (2 - 12 * y + 12 * y ^ 2))

theorem exSource2_solution : Heat2DSolution 1 0 1 0 1 0 10 exSource2
    (fun t x y => x + t ^ 2 * ((x ^ 2 * (1 - x) ^ 2) * (y ^ 2 * (1 - y) ^ 2))) 2 2400 2400 := by
  refine ⟨fun t x y => 2 * t * ((x ^ 2 * (1 - x) ^ 2) * (y ^ 2 * (1 - y) ^ 2)),
    fun t x y => 2 * ((x ^ 2 * (1 - x) ^ 2) * (y ^ 2 * (1 - y) ^ 2)),
    fun t x y => 1 + (t ^ 2 * (y ^ 2 * (1 - y) ^ 2)) * (2 * x - 6 * x ^ 2 + 4 * x ^ 3),
    fun t x y => (t ^ 2 * (y ^ 2 * (1 - y) ^ 2)) * (2 - 12 * x + 12 * x ^ 2),
    fun t x y => (t ^ 2 * (y ^ 2 * (1 - y) ^ 2)) * (-12 + 24 * x), fun t x y => (t ^ 2 * (y ^ 2 * (1 - y) ^ 2)) * 24,
    fun t x y => (t ^ 2 * (x ^ 2 * (1 - x) ^ 2)) * (2 * y - 6 * y ^ 2 + 4 * y ^ 3),
    fun t x y => (t ^ 2 * (x ^ 2 * (1 - x) ^ 2)) * (2 - 12 * y + 12 * y ^ 2),
    fun t x y => (t ^ 2 * (x ^ 2 * (1 - x) ^ 2)) * (-12 + 24 * y), fun t x y => (t ^ 2 * (x ^ 2 * (1 - x) ^ 2)) * 24,
    ?_, ?_, ?_, ?_⟩
  · intro x _ y _
    exact ⟨(deriv_quartic 0 10 x 0 ((x ^ 2 * (1 - x) ^ 2) * (y ^ 2 * (1 - y) ^ 2)) 0 0).congr' (fun _ _ => by ring)
        (fun _ _ => by ring),
      (deriv_quartic 0 10 0 (2 * ((x ^ 2 * (1 - x) ^ 2) * (y ^ 2 * (1 - y) ^ 2))) 0 0 0).congr' (fun _ _ => by ring)
        (fun _ _ => by ring)⟩
  · intro t _ y _
    obtain ⟨h1, h2, h3, h4⟩ := deriv_bump 0 (t ^ 2 * (y ^ 2 * (1 - y) ^ 2))
    exact ⟨((Deriv.id 0 1).add h1).congr' (fun _ _ => by ring) (fun _ _ => rfl),
      ((Deriv.const 0 1 1).add h2).congr' (fun _ _ => rfl) (fun _ _ => by ring), h3, h4⟩
  · intro t _ x _
    obtain ⟨h1, h2, h3, h4⟩ := deriv_bump x (t ^ 2 * (x ^ 2 * (1 - x) ^ 2))
    exact ⟨h1.congr' (fun _ _ => by ring) (fun _ _ => rfl), h2, h3, h4⟩
  · intro t ht x hx y hy
    have bx := bump_le hx
    have bY := bump_le hy
    have ht2 : t ^ 2 ≤ 100 := by nlinarith [ht.1, ht.2]
    have hb : ∀ z : ℝ, 0 ≤ z ∧ z ≤ 1 → |t ^ 2 * z * 24| ≤ 2400 := by
      intro z hz
      have h0 : 0 ≤ t ^ 2 * z * 24 := mul_nonneg (mul_nonneg (sq_nonneg _) hz.1) (by norm_num)
      rw [abs_of_nonneg h0]
      nlinarith [mul_le_mul ht2 hz.2 hz.1 (by norm_num : (0 : ℝ) ≤ 100)]
    refine ⟨by unfold exSource2; ring, ?_, hb _ bY, hb _ bx⟩
    have h0 := mul_nonneg bx.1 bY.1
    rw [abs_of_nonneg (by linarith)]
    have := mul_le_mul bx.2 bY.2 bY.1 zero_le_one
    linarith

/-- A problem on the unit square with this source and the boundary values of the solution. -/
noncomputable def exUnit (nx ny : Nat) (x y : List ℝ) (dx dy : ℝ) : Apps.Heat2D ℝ where
  nx := nx
  ny := ny
  a := 1
  dx := dx
  dy := dy
  theta := 1
  rhs := fun t i j => exSource2 t (x.getD i 0) (y.getD j 0)
  left := fun i => x.getD i 0
  right := fun i => x.getD i 0
  bottom := fun _ => 1
  top := fun _ => 0

/-- Its time stepper, by choice of the unique solution. -/
noncomputable def exUnitStep (P : Apps.Heat2D ℝ) : Nat → (Nat → Nat → ℝ) → ℝ → ℝ → Nat → Nat → ℝ :=
  open Classical in
  fun _ u t t' => if h : ∃ x, P.step u t t' x then h.choose else 0

theorem unit_spacing {n : Nat} {x : List ℝ} {dx : ℝ} (hm : Space.MeshOf (0 : ℝ) 1 0 0 x n dx) (hn : 2 ≤ n) :
    0 < dx ∧ x.getD 0 0 = 0 ∧ x.getD (n - 1) 0 = 1 := by
  have h2 := hm.2.1
  push_cast at h2
  have h3 : ((n : ℝ) - 1) * dx = 1 := by linarith
  have h4 : (2 : ℝ) ≤ n := by exact_mod_cast hn
  refine ⟨?_, ?_, ?_⟩
  · by_contra h0
    have : ((n : ℝ) - 1) * dx ≤ 0 := mul_nonpos_of_nonneg_of_nonpos (by linarith) (by linarith)
    linarith
  · rw [Apps.Heat2D.mesh_get hm (by omega)]; simp
  · rw [Apps.Heat2D.mesh_get hm (by omega), Nat.cast_sub (by omega)]; push_cast; linarith

/-- `C101_heat_2d` for any numbers of points. -/
example (nx ny : Nat) (hnx : 2 ≤ nx) (hny : 2 ≤ ny) : ∃ x y dx dy, Space.heat2dMesh (0 : ℝ) 1 nx = .ok (x, nx, dx) ∧
    Space.heat2dMesh (0 : ℝ) 1 ny = .ok (y, ny, dy) ∧ ∀ i < 5, ∀ p q, p < nx → q < ny →
    |timeStepping (exTol (exUnitStep (exUnit nx ny x y dx dy)) (fun p _ => x.getD p 0) 0 false 1 (fun _ => 0) norm1)
        i p q - (x.getD p 0 + tAt (grid exRealGrid 0) i ^ 2 * (((x.getD p 0) ^ 2 * (1 - x.getD p 0) ^ 2) *
          ((y.getD q 0) ^ 2 * (1 - y.getD q 0) ^ 2)))| ≤
      (tAt (grid exRealGrid 0) i - tAt (grid exRealGrid 0) 0) *
        (6 / 2 * 2 + 1 / 12 * (dx ^ 2 * 2400 + dy ^ 2 * 2400)) := by
  obtain ⟨x, dx, e1, hmx⟩ := (Space.C100_heat_2d (0 : ℝ) 1 nx).2 hnx
  obtain ⟨y, dy, e2, hmy⟩ := (Space.C100_heat_2d (0 : ℝ) 1 ny).2 hny
  obtain ⟨hdx, x0, x1⟩ := unit_spacing hmx hnx
  obtain ⟨hdy, y0, y1⟩ := unit_spacing hmy hny
  refine ⟨x, y, dx, dy, e1, e2, fun i hi p q hp hq => ?_⟩
  exact Apps.Heat2D.C101_heat_2d (exUnit nx ny x y dx dy)
    (E := exTol (exUnitStep (exUnit nx ny x y dx dy)) (fun p _ => x.getD p 0) 0 false 1 (fun _ => 0) norm1)
    (exRealGrid_valid.sorted 0) hnx hny (zero_le_one : (0 : ℝ) ≤ 1) rfl hdx hdy hmx hmy (fun _ _ _ => rfl)
    exSource2_solution
    (fun t _ => ⟨fun j _ => by
        show x.getD 0 0 + t ^ 2 * ((x.getD 0 0 ^ 2 * (1 - x.getD 0 0) ^ 2) * _) = (0 : ℝ)
        rw [x0]; ring, fun j _ => by
        show x.getD (nx - 1) 0 + t ^ 2 * ((x.getD (nx - 1) 0 ^ 2 * (1 - x.getD (nx - 1) 0) ^ 2) * _) = (1 : ℝ)
        rw [x1]; ring, fun i _ _ => by
        show x.getD i 0 + t ^ 2 * (_ * (y.getD (ny - 1) 0 ^ 2 * (1 - y.getD (ny - 1) 0) ^ 2)) = x.getD i 0
        rw [y1]; ring, fun i _ _ => by
        show x.getD i 0 + t ^ 2 * (_ * (y.getD 0 0 ^ 2 * (1 - y.getD 0 0) ^ 2)) = x.getD i 0
        rw [y0]; ring⟩)
    (fun u t t' ht => by
      have h : ∃ z, (exUnit nx ny x y dx dy).step u t t' z :=
        ((exUnit nx ny x y dx dy).C59_wellposed hny (zero_le_one : (0 : ℝ) ≤ 1) (zero_lt_one : (0 : ℝ) < 1) u ht).exists
      show (exUnit nx ny x y dx dy).step u t t' (exUnitStep (exUnit nx ny x y dx dy) 0 u t t')
      unfold exUnitStep
      rw [dif_pos h]
      exact h.choose_spec)
    (fun p q _ _ => by
      show x.getD p 0 = x.getD p 0 + (0 : ℝ) ^ 2 * _
      ring)
    (by norm_num) exRealGrid_step i hi p q hp hq

end Pymgrit
