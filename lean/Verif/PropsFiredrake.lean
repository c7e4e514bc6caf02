import Verif.PropsConv
import Verif.Forms
import Verif.Firedrake

/-!
# Property C116: the diffusion problem coupled with Firedrake

`Diffusion2D` (diffusion_2d_firedrake.py) discretises with discontinuous elements and a penalty `mu` that does not depend
on the mesh.  The step conserves the total amount on every mesh.  It is well defined and stable for all step sizes
exactly if the penalty form is nonnegative; a condition relating `mu` to the size of the triangles is sufficient.  The
shipped example (20 × 20 squares) meets it; with the same default `mu` on the same domain and more than 50 × 50 squares
there are step sizes without (unique) solution, and step sizes for which the solution grows.
-/

set_option linter.unusedSectionVars false

namespace Pymgrit.Firedrake
open Forms

variable {Cell Facet : Type} [Fintype Cell] [Fintype Facet]

namespace TriMesh
variable {M : TriMesh Cell Facet} {kappa mu : ℝ}

/-- Integral of a function. -/
noncomputable def amount (M : TriMesh Cell Facet) (u : DG1 Cell) : ℝ := ∑ c, M.area c * ((∑ i, u c i) / 3)

/-- Square of the `L²`-norm. -/
noncomputable def normSq (M : TriMesh Cell Facet) (u : DG1 Cell) : ℝ := M.mass u u

theorem jump_add (x y : DG1 Cell) (f : Facet) (e : Bool) : M.jump (x + y) f e = M.jump x f e + M.jump y f e := by
  simp only [jump, Pi.add_apply]; ring

theorem jump_smul (a : ℝ) (x : DG1 Cell) (f : Facet) (e : Bool) : M.jump (a • x) f e = a * M.jump x f e := by
  simp only [jump, Pi.smul_apply, smul_eq_mul]; ring

theorem gradX_add (x y : DG1 Cell) (c : Cell) : M.gradX (x + y) c = M.gradX x c + M.gradX y c := by
  simp only [gradX, Pi.add_apply]; ring

theorem gradX_smul (a : ℝ) (x : DG1 Cell) (c : Cell) : M.gradX (a • x) c = a * M.gradX x c := by
  simp only [gradX, Pi.smul_apply, smul_eq_mul]; ring

theorem gradY_add (x y : DG1 Cell) (c : Cell) : M.gradY (x + y) c = M.gradY x c + M.gradY y c := by
  simp only [gradY, Pi.add_apply]; ring

theorem gradY_smul (a : ℝ) (x : DG1 Cell) (c : Cell) : M.gradY (a • x) c = a * M.gradY x c := by
  simp only [gradY, Pi.smul_apply, smul_eq_mul]; ring

theorem flux_add (x y : DG1 Cell) (f : Facet) : M.flux (x + y) f = M.flux x f + M.flux y f := by
  simp only [flux, gradX_add, gradY_add]; ring

theorem flux_smul (a : ℝ) (x : DG1 Cell) (f : Facet) : M.flux (a • x) f = a * M.flux x f := by
  simp only [flux, gradX_smul, gradY_smul]; ring

theorem mass_form : IsForm M.mass where
  add := fun x y z => by
    simp only [mass, ← Finset.sum_add_distrib]
    refine Finset.sum_congr rfl fun c _ => ?_
    simp only [Fin.sum_univ_three, Pi.add_apply]; ring
  smul := fun a x z => by
    simp only [mass, Finset.mul_sum]
    refine Finset.sum_congr rfl fun c _ => ?_
    simp only [Fin.sum_univ_three, Pi.smul_apply, smul_eq_mul]; ring
  symm := fun x y => by
    simp only [mass]
    refine Finset.sum_congr rfl fun c _ => ?_
    simp only [Fin.sum_univ_three]; ring

theorem diffusion_form : IsForm (M.diffusion kappa mu) where
  add := fun x y z => by
    have h1 : M.gradForm (x + y) z = M.gradForm x z + M.gradForm y z := by
      simp only [gradForm, ← Finset.sum_add_distrib]
      refine Finset.sum_congr rfl fun c _ => ?_
      rw [gradX_add, gradY_add]; ring
    have h2 : M.fluxForm (x + y) z = M.fluxForm x z + M.fluxForm y z := by
      simp only [fluxForm, ← Finset.sum_add_distrib]
      refine Finset.sum_congr rfl fun c _ => ?_
      rw [flux_add]; ring
    have h3 : M.fluxForm z (x + y) = M.fluxForm z x + M.fluxForm z y := by
      simp only [fluxForm, ← Finset.sum_add_distrib]
      refine Finset.sum_congr rfl fun c _ => ?_
      rw [jump_add, jump_add]; ring
    have h4 : M.jumpForm (x + y) z = M.jumpForm x z + M.jumpForm y z := by
      simp only [jumpForm, ← Finset.sum_add_distrib]
      refine Finset.sum_congr rfl fun c _ => ?_
      rw [jump_add, jump_add]; ring
    simp only [diffusion, h1, h2, h3, h4]; ring
  smul := fun a x z => by
    have h1 : M.gradForm (a • x) z = a * M.gradForm x z := by
      simp only [gradForm, Finset.mul_sum]
      refine Finset.sum_congr rfl fun c _ => ?_
      rw [gradX_smul, gradY_smul]; ring
    have h2 : M.fluxForm (a • x) z = a * M.fluxForm x z := by
      simp only [fluxForm, Finset.mul_sum]
      refine Finset.sum_congr rfl fun c _ => ?_
      rw [flux_smul]; ring
    have h3 : M.fluxForm z (a • x) = a * M.fluxForm z x := by
      simp only [fluxForm, Finset.mul_sum]
      refine Finset.sum_congr rfl fun c _ => ?_
      rw [jump_smul, jump_smul]; ring
    have h4 : M.jumpForm (a • x) z = a * M.jumpForm x z := by
      simp only [jumpForm, Finset.mul_sum]
      refine Finset.sum_congr rfl fun c _ => ?_
      rw [jump_smul, jump_smul]; ring
    simp only [diffusion, h1, h2, h3, h4]; ring
  symm := fun x y => by
    have h1 : M.gradForm x y = M.gradForm y x := by
      simp only [gradForm]
      refine Finset.sum_congr rfl fun c _ => ?_
      ring
    have h4 : M.jumpForm x y = M.jumpForm y x := by
      simp only [jumpForm]
      refine Finset.sum_congr rfl fun c _ => ?_
      ring
    simp only [diffusion, h1, h4]; ring

theorem Ok.area_pos (h : M.Ok) (c : Cell) : 0 < M.area c := by
  have := abs_pos.2 (h.det c)
  unfold area
  linarith

theorem mass_self (u : DG1 Cell) :
    M.mass u u = ∑ c, M.area c / 12 * (u c 0 ^ 2 + u c 1 ^ 2 + u c 2 ^ 2 + (u c 0 + u c 1 + u c 2) ^ 2) := by
  simp only [mass]
  refine Finset.sum_congr rfl fun c _ => ?_
  simp only [Fin.sum_univ_three]; ring

theorem mass_pos (h : M.Ok) (u : DG1 Cell) (hu : u ≠ 0) : 0 < M.mass u u := by
  rw [mass_self]
  obtain ⟨c, hc⟩ : ∃ c, u c ≠ 0 := by
    by_contra hne
    push Not at hne
    exact hu (funext hne)
  refine Finset.sum_pos' (fun c _ => ?_) ⟨c, Finset.mem_univ c, ?_⟩
  · have := (h.area_pos c).le
    positivity
  · refine mul_pos (by have := h.area_pos c; positivity) ?_
    obtain ⟨i, hi⟩ : ∃ i, u c i ≠ 0 := by
      by_contra hne
      push Not at hne
      exact hc (funext hne)
    have h0 := sq_nonneg (u c 0)
    have h1 := sq_nonneg (u c 1)
    have h2 := sq_nonneg (u c 2)
    have h3 := sq_nonneg (u c 0 + u c 1 + u c 2)
    have hp : 0 < u c i ^ 2 := by positivity
    fin_cases i <;> simp only [Fin.zero_eta, Fin.mk_one, Fin.reduceFinMk] at hp <;> linarith

theorem step_iff {u u' : DG1 Cell} {t t' : ℝ} :
    M.step kappa mu u t t' u' ↔ Weak M.mass (M.diffusion kappa mu) u (t' - t) u' := Iff.rfl

/-- A constant has neither gradient nor jumps. -/
theorem diffusion_const (a : ℝ) (u : DG1 Cell) : M.diffusion kappa mu (fun _ _ => a) u = 0 := by
  have hx : ∀ c, M.gradX (fun _ _ => a) c = 0 := fun c => by simp [gradX]
  have hy : ∀ c, M.gradY (fun _ _ => a) c = 0 := fun c => by simp [gradY]
  have hj : ∀ f e, M.jump (fun _ _ => a) f e = 0 := fun f e => by simp [jump]
  have hf : ∀ f, M.flux (fun _ _ => a) f = 0 := fun f => by simp [flux, hx, hy]
  simp [diffusion, gradForm, fluxForm, jumpForm, hx, hy, hj, hf]

theorem mass_one (u : DG1 Cell) : M.mass (fun _ _ => 1) u = M.amount u := by
  simp only [mass, amount]
  refine Finset.sum_congr rfl fun c _ => ?_
  simp only [Fin.sum_univ_three]; ring

/-- C116.  Every step conserves the integral of the solution: all meshes, diffusion coefficients, penalties, step
sizes. -/
theorem C116_amount {u u' : DG1 Cell} {t t' : ℝ} (h : M.step kappa mu u t t' u') : M.amount u' = M.amount u := by
  have := h fun _ _ => 1
  rwa [diffusion_const, mul_zero, add_zero, mass_one, mass_one] at this

/-- C116.  Constants are stationary. -/
theorem C116_constant (a : ℝ) (t t' : ℝ) : M.step kappa mu (fun _ _ => a) t t' (fun _ _ => a) := by
  intro γ
  rw [diffusion_form.symm, diffusion_const, mul_zero, add_zero]

/-- Coordinates in which both forms are diagonal. -/
theorem Ok.coords (h : M.Ok) (kappa mu : ℝ) :
    ∃ (n : Nat) (f : Fin n → DG1 Cell →ₗ[ℝ] ℝ) (v : Fin n → DG1 Cell) (μ : Fin n → ℝ),
      (∀ j k, f j (v k) = if j = k then 1 else 0) ∧ (∀ x, ∑ k, f k x • v k = x) ∧
      (∀ x y, M.mass x y = ∑ k, f k x * f k y) ∧ ∀ x y, M.diffusion kappa mu x y = ∑ k, μ k * (f k x * f k y) :=
  exists_coords mass_form (mass_pos h) diffusion_form

theorem eigen_nonneg {n : Nat} {f : Fin n → DG1 Cell →ₗ[ℝ] ℝ} {v : Fin n → DG1 Cell} {μ : Fin n → ℝ}
    (hfv : ∀ j k, f j (v k) = if j = k then 1 else 0)
    (hb : ∀ x y, M.diffusion kappa mu x y = ∑ k, μ k * (f k x * f k y)) (k : Fin n) :
    M.diffusion kappa mu (v k) (v k) = μ k := by
  rw [hb]
  simp [hfv]

/-- C116.  The step has exactly one result for every start vector and every positive step size if and only if the
penalised form is nonnegative. -/
theorem C116_wellposed_iff (h : M.Ok) :
    (∀ (u : DG1 Cell) (t t' : ℝ), t < t' → ∃! u', M.step kappa mu u t t' u') ↔
      ∀ φ, 0 ≤ M.diffusion kappa mu φ φ := by
  obtain ⟨n, f, v, μ, hfv, hsum, hm, hb⟩ := h.coords kappa mu
  constructor
  · intro hw φ
    have hμ : ∀ k, 0 ≤ μ k := by
      intro k
      by_contra hneg
      push Not at hneg
      have h1 : ∀ a : ℝ, M.step kappa mu 0 0 (1 / -μ k) (a • v k) := by
        intro a
        rw [step_iff, weak_iff hfv hm hb]
        intro j
        rw [map_smul, hfv, map_zero, sub_zero]
        split
        · next e =>
          subst e
          have : μ j ≠ 0 := hneg.ne
          field_simp
          simp
        · simp
      obtain ⟨u', -, hu⟩ := hw 0 0 (1 / -μ k) (by have : 0 < -μ k := by linarith
                                                  positivity)
      have e := (hu _ (h1 0)).trans (hu _ (h1 1)).symm
      have := congrArg (f k) e
      rw [map_smul, map_smul, hfv, if_pos rfl] at this
      norm_num at this
    rw [hb]
    exact Finset.sum_nonneg fun k _ => mul_nonneg (hμ k) (mul_self_nonneg _)
  · intro hpos u t t' ht
    have hμ : ∀ k, 0 ≤ μ k := fun k => (eigen_nonneg hfv hb k) ▸ hpos (v k)
    have hne : ∀ k, 1 + (t' - t) * μ k ≠ 0 := fun k => by
      have := mul_nonneg (sub_nonneg.2 ht.le) (hμ k)
      linarith
    refine ⟨∑ k, (f k u / (1 + (t' - t) * μ k)) • v k, ?_, ?_⟩
    · show M.step _ _ _ _ _ _
      rw [step_iff, weak_iff hfv hm hb]
      intro j
      rw [map_sum]
      simp only [map_smul, hfv, smul_eq_mul, mul_ite, mul_one, mul_zero, Finset.sum_ite_eq, Finset.mem_univ, if_true]
      rw [mul_div_cancel₀ _ (hne j)]
    · intro x hx
      rw [step_iff, weak_iff hfv hm hb] at hx
      rw [← hsum x]
      refine Finset.sum_congr rfl fun k _ => ?_
      congr 1
      rw [eq_div_iff (hne k), mul_comm]
      exact hx k

/-- C116.  The norm of the solution does not increase, for all start vectors and step sizes, if and only if the penalised
form is nonnegative. -/
theorem C116_stable_iff (h : M.Ok) :
    (∀ (u u' : DG1 Cell) (t t' : ℝ), t < t' → M.step kappa mu u t t' u' → M.normSq u' ≤ M.normSq u) ↔
      ∀ φ, 0 ≤ M.diffusion kappa mu φ φ := by
  obtain ⟨n, f, v, μ, hfv, hsum, hm, hb⟩ := h.coords kappa mu
  constructor
  · intro hw φ
    have hμ : ∀ k, 0 ≤ μ k := by
      intro k
      by_contra hneg
      push Not at hneg
      have h1 : M.step kappa mu (v k) 0 (1 / (2 * -μ k)) ((2 : ℝ) • v k) := by
        rw [step_iff, weak_iff hfv hm hb]
        intro j
        rw [map_smul, hfv, sub_zero]
        split
        · next e =>
          subst e
          have : μ j ≠ 0 := hneg.ne
          field_simp
          norm_num
        · simp
      have := hw _ _ 0 (1 / (2 * -μ k)) (by have : 0 < -μ k := by linarith
                                            positivity) h1
      unfold normSq at this
      rw [mass_form.smul, mass_form.smul_right] at this
      have h2 := mass_pos h (v k) (fun e => by
        have := hfv k k
        rw [e, map_zero, if_pos rfl] at this
        norm_num at this)
      linarith
    rw [hb]
    exact Finset.sum_nonneg fun k _ => mul_nonneg (hμ k) (mul_self_nonneg _)
  · intro hpos u u' t t' ht hs
    have h1 := hs u'
    have h2 := mul_nonneg (sub_nonneg.2 ht.le) (hpos u')
    have h3 : M.mass u' u' ≤ M.mass u' u := by linarith
    have h4 : 0 ≤ M.mass (u' - u) (u' - u) := by
      rw [mass_self]
      refine Finset.sum_nonneg fun c _ => ?_
      have := (h.area_pos c).le
      positivity
    rw [mass_form.sub_right, mass_form.symm (u' - u), mass_form.symm (u' - u), mass_form.sub_right,
      mass_form.sub_right, mass_form.symm u u'] at h4
    unfold normSq
    linarith

/-- C116.  The penalised form is nonnegative if on every triangle the penalty dominates the normal components of a
gradient on the facets. -/
theorem C116_penalty [DecidableEq Cell] (h : M.Ok) (hk : 0 ≤ kappa) (hmu : 0 < mu)
    (hpen : ∀ c (p q : ℝ), ∑ f, ∑ s, (if M.side f s = c then M.len f * (p * M.nx f + q * M.ny f) ^ 2 else 0)
      ≤ 2 * mu * M.area c * (p ^ 2 + q ^ 2)) (φ : DG1 Cell) : 0 ≤ M.diffusion kappa mu φ φ := by
  set g : Cell → Facet → ℝ := fun c f => M.gradX φ c * M.nx f + M.gradY φ c * M.ny f with hg
  have hflux : ∀ f, M.flux φ f = (g (M.side f true) f + g (M.side f false) f) / 2 := fun f => by
    simp only [flux, hg]; ring
  have h1 : ∑ f, M.len f * M.flux φ f ^ 2 ≤ mu * M.gradForm φ φ := by
    have e1 : ∀ f, M.len f * M.flux φ f ^ 2 ≤ ∑ s, M.len f / 2 * g (M.side f s) f ^ 2 := by
      intro f
      have := h.len f
      rw [Fintype.sum_bool, hflux]
      nlinarith [mul_nonneg this.le (sq_nonneg (g (M.side f true) f - g (M.side f false) f))]
    refine (Finset.sum_le_sum fun f _ => e1 f).trans ?_
    have e2 : ∀ f s, M.len f / 2 * g (M.side f s) f ^ 2
        = ∑ c, 1 / 2 * (if M.side f s = c then M.len f * g c f ^ 2 else 0) := by
      intro f s
      rw [← Finset.mul_sum, Finset.sum_ite_eq, if_pos (Finset.mem_univ _)]
      ring
    simp only [e2]
    have e3 : ∑ f, ∑ s, ∑ c, (1 / 2 * (if M.side f s = c then M.len f * g c f ^ 2 else 0) : ℝ)
        = ∑ c, 1 / 2 * ∑ f, ∑ s, (if M.side f s = c then M.len f * g c f ^ 2 else 0) := by
      simp only [Finset.mul_sum]
      rw [Finset.sum_comm' (t' := Finset.univ) (s' := fun _ => Finset.univ) (by simp)]
      rw [show (∑ c, ∑ f, ∑ s, (1 / 2 * (if M.side f s = c then M.len f * g c f ^ 2 else 0) : ℝ))
        = ∑ f, ∑ c, ∑ s, (1 / 2 * (if M.side f s = c then M.len f * g c f ^ 2 else 0) : ℝ) from Finset.sum_comm]
      rw [show (∑ f, ∑ c, ∑ s, (1 / 2 * (if M.side f s = c then M.len f * g c f ^ 2 else 0) : ℝ))
        = ∑ f, ∑ s, ∑ c, (1 / 2 * (if M.side f s = c then M.len f * g c f ^ 2 else 0) : ℝ) from
        Finset.sum_congr rfl fun f _ => Finset.sum_comm]
      exact Finset.sum_comm
    rw [e3, gradForm, Finset.mul_sum]
    refine Finset.sum_le_sum fun c _ => ?_
    have := hpen c (M.gradX φ c) (M.gradY φ c)
    have e4 : ∀ f, g c f = M.gradX φ c * M.nx f + M.gradY φ c * M.ny f := fun f => rfl
    simp only [e4]
    nlinarith
  have h2 : 2 * mu * M.fluxForm φ φ ≤ mu ^ 2 * M.jumpForm φ φ + ∑ f, M.len f * M.flux φ f ^ 2 := by
    rw [fluxForm, jumpForm, Finset.mul_sum, Finset.mul_sum, ← Finset.sum_add_distrib]
    refine Finset.sum_le_sum fun f _ => ?_
    set a := M.jump φ f false
    set b := M.jump φ f true
    set x := M.flux φ f
    have e1 : (a + b) ^ 2 / 4 ≤ 1 / 6 * (2 * (a * a) + a * b + b * a + 2 * (b * b)) := by
      nlinarith [sq_nonneg (a - b)]
    have e2 : 2 * mu * ((a + b) / 2 * x) ≤ mu ^ 2 * ((a + b) ^ 2 / 4) + x ^ 2 := by
      nlinarith [sq_nonneg (mu * ((a + b) / 2) - x)]
    have e3 : mu ^ 2 * ((a + b) ^ 2 / 4) ≤ mu ^ 2 * (1 / 6 * (2 * (a * a) + a * b + b * a + 2 * (b * b))) :=
      mul_le_mul_of_nonneg_left e1 (sq_nonneg _)
    have e4 := mul_le_mul_of_nonneg_left (e2.trans (add_le_add e3 le_rfl)) (h.len f).le
    nlinarith
  have h3 : 0 ≤ mu * (M.gradForm φ φ - 2 * M.fluxForm φ φ + mu * M.jumpForm φ φ) := by nlinarith
  have h4 := nonneg_of_mul_nonneg_right h3 hmu
  have e : M.diffusion kappa mu φ φ
      = kappa * (M.gradForm φ φ - 2 * M.fluxForm φ φ + mu * M.jumpForm φ φ) := by
    simp only [diffusion]; ring
  rw [e]
  exact mul_nonneg hk h4

/-- C116.  If the penalised form is negative somewhere, then all sufficiently small time steps let some function grow:
refining the time grid does not help. -/
theorem C116_unstable (h : M.Ok) {φ : DG1 Cell} (hφ : M.diffusion kappa mu φ φ < 0) :
    ∃ (lam : ℝ) (v : DG1 Cell), 0 < lam ∧ v ≠ 0 ∧
      ∀ t t' : ℝ, t < t' → (t' - t) * lam < 1 → M.step kappa mu v t t' ((1 / (1 - (t' - t) * lam)) • v) := by
  obtain ⟨n, f, v, μ, hfv, hsum, hm, hb⟩ := h.coords kappa mu
  obtain ⟨k, hk⟩ : ∃ k, μ k < 0 := by
    by_contra hne
    push Not at hne
    rw [hb] at hφ
    exact absurd (Finset.sum_nonneg fun k _ => mul_nonneg (hne k) (mul_self_nonneg (f k φ))) (not_le.2 hφ)
  refine ⟨-μ k, v k, by linarith, fun e => ?_, fun t t' ht h1 => ?_⟩
  · have := hfv k k
    rw [e, map_zero, if_pos rfl] at this
    norm_num at this
  · rw [step_iff, weak_iff hfv hm hb]
    intro j
    rw [map_smul, hfv]
    split
    · next e =>
      subst e
      have : 1 - (t' - t) * -μ j ≠ 0 := by linarith
      rw [smul_eq_mul, mul_one, mul_one_div, div_eq_one_iff_eq this]
      ring
    · simp

end TriMesh

/-- Specification of a mesh of a torus of side `L`: `ox c`, `oy c` is the position of the cell on the torus.  The end points
of a facet are the same points of the torus seen from both sides, its length is their distance, the normal is orthogonal
to the facet and points away from the third vertex of side `+`, and every edge of every cell (given by the opposite
vertex `k`) is one side of exactly one facet. -/
structure Conforming {Cell Facet : Type} (M : TriMesh Cell Facet) (L : ℝ) (ox oy : Cell → ℝ) : Prop where
  fits : ∀ f e, ∃ p q : ℤ,
    ox (M.side f true) + M.x (M.side f true) (M.node f true e) =
      ox (M.side f false) + M.x (M.side f false) (M.node f false e) + p * L ∧
    oy (M.side f true) + M.y (M.side f true) (M.node f true e) =
      oy (M.side f false) + M.y (M.side f false) (M.node f false e) + q * L
  ends : ∀ f s, M.node f s true ≠ M.node f s false
  len : ∀ f s, M.len f ^ 2 =
    (M.x (M.side f s) (M.node f s true) - M.x (M.side f s) (M.node f s false)) ^ 2 +
      (M.y (M.side f s) (M.node f s true) - M.y (M.side f s) (M.node f s false)) ^ 2
  orthogonal : ∀ f s, (M.x (M.side f s) (M.node f s true) - M.x (M.side f s) (M.node f s false)) * M.nx f +
    (M.y (M.side f s) (M.node f s true) - M.y (M.side f s) (M.node f s false)) * M.ny f = 0
  outward : ∀ f k, k ≠ M.node f true true → k ≠ M.node f true false →
    (M.x (M.side f true) k - M.x (M.side f true) (M.node f true true)) * M.nx f +
      (M.y (M.side f true) k - M.y (M.side f true) (M.node f true true)) * M.ny f < 0
  complete : ∀ c k, ∃! p : Facet × Bool, M.side p.1 p.2 = c ∧ k ≠ M.node p.1 p.2 true ∧ k ≠ M.node p.1 p.2 false

section
variable (n : Nat) [NeZero n] {h : ℝ}

/-- C116: the periodic square is a mesh of the torus. -/
theorem C116_mesh (hh : 0 < h) :
    Conforming (periodicSquare n h) (n * h) (fun c => (c.1 : ℕ) * h) (fun c => (c.2.1 : ℕ) * h) where
  fits := by
    have key : ∀ i : Fin n, ∃ p : ℤ, ((i : ℕ) : ℝ) * h + h = ((i + 1 : Fin n) : ℕ) * h + p * (n * h) := by
      intro i
      have hn : 0 < n := Nat.pos_of_ne_zero (NeZero.ne n)
      have hv : ((i + 1 : Fin n) : ℕ) = (i + 1) % n := by
        rw [Fin.val_add, Fin.val_one', Nat.add_mod_mod]
      rcases Nat.lt_or_ge ((i : ℕ) + 1) n with h1 | h1
      · refine ⟨0, ?_⟩
        rw [hv, Nat.mod_eq_of_lt h1]
        push_cast
        ring
      · have e : (i : ℕ) + 1 = n := by omega
        refine ⟨1, ?_⟩
        rw [hv, e, Nat.mod_self]
        have : ((i : ℕ) : ℝ) + 1 = n := by exact_mod_cast e
        push_cast
        linear_combination h * this
    rintro ⟨i, j, k⟩ e
    obtain ⟨p, hp⟩ := key i
    obtain ⟨q, hq⟩ := key j
    fin_cases k
    · exact ⟨0, 0, by cases e <;> simp [periodicSquare], by cases e <;> simp [periodicSquare]⟩
    · refine ⟨p, 0, ?_, ?_⟩ <;> cases e <;> simp [periodicSquare] <;> linarith
    · refine ⟨0, q, ?_, ?_⟩ <;> cases e <;> simp [periodicSquare] <;> linarith
  ends := by
    rintro ⟨i, j, k⟩ s
    fin_cases k <;> cases s <;> simp [periodicSquare]
  len := by
    rintro ⟨i, j, k⟩ s
    fin_cases k <;> cases s <;> simp [periodicSquare, mul_pow] <;> ring
  orthogonal := by
    rintro ⟨i, j, k⟩ s
    fin_cases k <;> cases s <;> simp [periodicSquare]
  outward := by
    rintro ⟨i, j, k⟩ l
    fin_cases k <;> fin_cases l <;> simp [periodicSquare, hh]
  complete := by
    rintro ⟨i, j, b⟩ l
    have mk : ∀ p : (Fin n × Fin n × Fin 3) × Bool, ((periodicSquare n h).side p.1 p.2 = (i, j, b) ∧
        l ≠ (periodicSquare n h).node p.1 p.2 true ∧ l ≠ (periodicSquare n h).node p.1 p.2 false) →
        (∀ p' : (Fin n × Fin n × Fin 3) × Bool, ((periodicSquare n h).side p'.1 p'.2 = (i, j, b) ∧
        l ≠ (periodicSquare n h).node p'.1 p'.2 true ∧ l ≠ (periodicSquare n h).node p'.1 p'.2 false) → p' = p) →
        ∃! p : (Fin n × Fin n × Fin 3) × Bool, (periodicSquare n h).side p.1 p.2 = (i, j, b) ∧
        l ≠ (periodicSquare n h).node p.1 p.2 true ∧ l ≠ (periodicSquare n h).node p.1 p.2 false :=
      fun p h1 h2 => ⟨p, h1, h2⟩
    cases b <;> fin_cases l
    · refine mk ((i, j, 0), true) (by simp [periodicSquare]) ?_
      rintro ⟨⟨i', j', k⟩, s⟩
      fin_cases k <;> cases s <;> simp [periodicSquare]
    · refine mk ((i - 1, j, 1), false) (by simp [periodicSquare]) ?_
      rintro ⟨⟨i', j', k⟩, s⟩
      fin_cases k <;> cases s <;> simp [periodicSquare]
      rintro rfl rfl; simp
    · refine mk ((i, j - 1, 2), false) (by simp [periodicSquare]) ?_
      rintro ⟨⟨i', j', k⟩, s⟩
      fin_cases k <;> cases s <;> simp [periodicSquare]
      rintro rfl rfl; simp
    · refine mk ((i, j, 0), false) (by simp [periodicSquare]) ?_
      rintro ⟨⟨i', j', k⟩, s⟩
      fin_cases k <;> cases s <;> simp [periodicSquare]
    · refine mk ((i, j, 1), true) (by simp [periodicSquare]) ?_
      rintro ⟨⟨i', j', k⟩, s⟩
      fin_cases k <;> cases s <;> simp [periodicSquare]
    · refine mk ((i, j, 2), true) (by simp [periodicSquare]) ?_
      rintro ⟨⟨i', j', k⟩, s⟩
      fin_cases k <;> cases s <;> simp [periodicSquare]

theorem periodicSquare_det (c : Fin n × Fin n × Bool) :
    (periodicSquare n h).det c = h * h := by
  obtain ⟨i, j, b⟩ := c
  cases b <;> simp [TriMesh.det, periodicSquare]

theorem periodicSquare_ok (hh : 0 < h) : (periodicSquare n h).Ok where
  det := fun c => by
    rw [periodicSquare_det]
    exact (mul_pos hh hh).ne'
  len := fun f => by
    obtain ⟨i, j, e⟩ := f
    have : 0 < √2 * h := by positivity
    fin_cases e <;> simp [periodicSquare, hh]
  unit := fun f => by
    obtain ⟨i, j, e⟩ := f
    fin_cases e <;> simp [periodicSquare]
    norm_num

theorem periodicSquare_area (hh : 0 < h) (c : Fin n × Fin n × Bool) :
    (periodicSquare n h).area c = h * h / 2 := by
  unfold TriMesh.area
  rw [periodicSquare_det, abs_of_pos (mul_pos hh hh)]

/-- C116.  On the periodic square the form is nonnegative if `mu` is at least `(1 + √2) / h`. -/
theorem C116_periodic {kappa mu : ℝ} (hh : 0 < h) (hk : 0 ≤ kappa) (hmu : 1 + √2 ≤ h * mu)
    (φ : DG1 (Fin n × Fin n × Bool)) : 0 ≤ (periodicSquare n h).diffusion kappa mu φ φ := by
  have hs : 0 ≤ √2 := Real.sqrt_nonneg 2
  have hs2 : √2 * √2 = 2 := Real.mul_self_sqrt (by norm_num)
  have hmu0 : 0 < mu := (pos_iff_pos_of_mul_pos (show 0 < h * mu by linarith)).1 hh
  refine TriMesh.C116_penalty (periodicSquare_ok n hh) hk hmu0 ?_ φ
  rintro ⟨i, j, b⟩ p q
  rw [periodicSquare_area n hh]
  have key : ∑ f, ∑ s, (if (periodicSquare n h).side f s = (i, j, b) then
      (periodicSquare n h).len f * (p * (periodicSquare n h).nx f + q * (periodicSquare n h).ny f) ^ 2 else 0)
      = √2 * h * (p * (1 / √2) + q * (1 / √2)) ^ 2 + h * p ^ 2 + h * q ^ 2 := by
    simp only [Fintype.sum_prod_type, Fin.sum_univ_three, Fintype.sum_bool, periodicSquare]
    cases b
    · simp [Finset.sum_add_distrib, ite_and, ← eq_sub_iff_add_eq]
    · simp [Finset.sum_add_distrib, ite_and]
  rw [key]
  have e1 : √2 * h * (p * (1 / √2) + q * (1 / √2)) ^ 2 = √2 / 2 * h * (p + q) ^ 2 := by
    have : √2 ≠ 0 := by positivity
    field_simp
    nlinarith
  rw [e1]
  have e2 : (p + q) ^ 2 ≤ 2 * (p ^ 2 + q ^ 2) := by nlinarith [sq_nonneg (p - q)]
  have e3 := mul_le_mul_of_nonneg_left e2 (show 0 ≤ √2 / 2 * h by positivity)
  have e4 := mul_le_mul_of_nonneg_right hmu (show 0 ≤ h * (p ^ 2 + q ^ 2) by positivity)
  nlinarith

/-- The function that rises from `0` to `h` in every square in the first direction. -/
noncomputable def sawtooth (h : ℝ) : DG1 (Fin n × Fin n × Bool) := (periodicSquare n h).x

theorem sawtooth_form {kappa mu : ℝ} (hh : 0 < h) :
    (periodicSquare n h).diffusion kappa mu (sawtooth n h) (sawtooth n h)
      = kappa * (n * n) * h ^ 2 * (mu * h - 1) := by
  have hd : h * h ≠ 0 := (mul_pos hh hh).ne'
  have gx : ∀ c, (periodicSquare n h).gradX (sawtooth n h) c = 1 := by
    intro c
    have := (periodicSquare_ok n hh).det c
    unfold TriMesh.gradX
    rw [div_eq_one_iff_eq this]
    rfl
  have gy : ∀ c, (periodicSquare n h).gradY (sawtooth n h) c = 0 := by
    intro c
    unfold TriMesh.gradY sawtooth
    rw [mul_comm, sub_self, zero_div]
  have hj : ∀ i j k e, (periodicSquare n h).jump (sawtooth n h) (i, j, k) e = if k = 1 then h else 0 := by
    intro i j k e
    fin_cases k <;> cases e <;> simp [TriMesh.jump, sawtooth, periodicSquare]
  have hf : ∀ i j k, (periodicSquare n h).flux (sawtooth n h) (i, j, k) = (periodicSquare n h).nx (i, j, k) := by
    intro i j k
    simp [TriMesh.flux, gx, gy]
  have e1 : (periodicSquare n h).gradForm (sawtooth n h) (sawtooth n h) = n * n * h ^ 2 := by
    simp only [TriMesh.gradForm, gx, gy, periodicSquare_area n hh, Finset.sum_const, Finset.card_univ,
      Fintype.card_prod, Fintype.card_bool, Fintype.card_fin, nsmul_eq_mul, Nat.cast_mul, Nat.cast_ofNat]
    ring
  have e2 : (periodicSquare n h).fluxForm (sawtooth n h) (sawtooth n h) = n * n * h ^ 2 := by
    simp only [TriMesh.fluxForm, Fintype.sum_prod_type, Fin.sum_univ_three, hj, hf]
    simp [periodicSquare]
    ring
  have e3 : (periodicSquare n h).jumpForm (sawtooth n h) (sawtooth n h) = n * n * h ^ 3 := by
    simp only [TriMesh.jumpForm, Fintype.sum_prod_type, Fin.sum_univ_three, hj]
    simp [periodicSquare]
    ring
  simp only [TriMesh.diffusion, e1, e2, e3]
  ring

/-- C116.  If `mu < 1 / h` the step on the periodic square is neither well defined nor stable for all step sizes. -/
theorem C116_periodic_counterexample {kappa mu : ℝ} (hh : 0 < h) (hk : 0 < kappa) (hmu : h * mu < 1) :
    (¬ ∀ (u : DG1 (Fin n × Fin n × Bool)) (t t' : ℝ), t < t' → ∃! u', (periodicSquare n h).step kappa mu u t t' u') ∧
    (¬ ∀ (u u' : DG1 (Fin n × Fin n × Bool)) (t t' : ℝ), t < t' → (periodicSquare n h).step kappa mu u t t' u' →
      (periodicSquare n h).normSq u' ≤ (periodicSquare n h).normSq u) ∧
    ∃ (lam : ℝ) (v : DG1 (Fin n × Fin n × Bool)), 0 < lam ∧ v ≠ 0 ∧ ∀ t t' : ℝ, t < t' → (t' - t) * lam < 1 →
      (periodicSquare n h).step kappa mu v t t' ((1 / (1 - (t' - t) * lam)) • v) := by
  have hn : (0 : ℝ) < n := by exact_mod_cast NeZero.pos n
  have hneg : (periodicSquare n h).diffusion kappa mu (sawtooth n h) (sawtooth n h) < 0 := by
    rw [sawtooth_form n hh]
    exact mul_neg_of_pos_of_neg (by positivity) (by linarith)
  refine ⟨fun hw => ?_, fun hw => ?_, TriMesh.C116_unstable (periodicSquare_ok n hh) hneg⟩
  · exact absurd ((TriMesh.C116_wellposed_iff (periodicSquare_ok n hh)).1 hw _) (not_le.2 hneg)
  · exact absurd ((TriMesh.C116_stable_iff (periodicSquare_ok n hh)).1 hw _) (not_le.2 hneg)

/-- C116.  The square of the shipped example (side `10`, default penalty `5`): up to `20 × 20` squares every step is well
defined and stable; from `51 × 51` on not. -/
theorem C116_default_partial {kappa : ℝ} (hk : 0 < kappa) :
    (n ≤ 20 → (∀ (u : DG1 (Fin n × Fin n × Bool)) (t t' : ℝ), t < t' →
        ∃! u', (periodicSquare n (10 / n)).step kappa 5 u t t' u') ∧
      ∀ (u u' : DG1 (Fin n × Fin n × Bool)) (t t' : ℝ), t < t' → (periodicSquare n (10 / n)).step kappa 5 u t t' u' →
        (periodicSquare n (10 / n)).normSq u' ≤ (periodicSquare n (10 / n)).normSq u) ∧
    (50 < n → (¬ ∀ (u : DG1 (Fin n × Fin n × Bool)) (t t' : ℝ), t < t' →
        ∃! u', (periodicSquare n (10 / n)).step kappa 5 u t t' u') ∧
      ¬ ∀ (u u' : DG1 (Fin n × Fin n × Bool)) (t t' : ℝ), t < t' → (periodicSquare n (10 / n)).step kappa 5 u t t' u' →
        (periodicSquare n (10 / n)).normSq u' ≤ (periodicSquare n (10 / n)).normSq u) := by
  have hn : (0 : ℝ) < n := by exact_mod_cast NeZero.pos n
  have hh : (0 : ℝ) < 10 / n := by positivity
  constructor
  · intro hle
    have h20 : (n : ℝ) ≤ 20 := by exact_mod_cast hle
    have hs : √2 ≤ 1.5 := by
      rw [Real.sqrt_le_left (by norm_num)]
      norm_num
    have hmu : 1 + √2 ≤ (10 / n : ℝ) * 5 := by
      have : (2.5 : ℝ) ≤ 10 / n * 5 := by
        rw [div_mul_eq_mul_div, le_div_iff₀ hn]
        linarith
      linarith
    exact ⟨(TriMesh.C116_wellposed_iff (periodicSquare_ok n hh)).2 (C116_periodic n hh hk.le hmu),
      (TriMesh.C116_stable_iff (periodicSquare_ok n hh)).2 (C116_periodic n hh hk.le hmu)⟩
  · intro hlt
    have h50 : (50 : ℝ) < n := by exact_mod_cast hlt
    have hmu : (10 / n : ℝ) * 5 < 1 := by
      rw [div_mul_eq_mul_div, div_lt_one hn]
      linarith
    obtain ⟨a, b, -⟩ := C116_periodic_counterexample n (kappa := kappa) hh hk hmu
    exact ⟨a, b⟩

end

/-! ## Multigrid -/

section
variable {V N : Type} [Zero N] [AddCommGroup V] [Module ℝ V] {E : Cfg V ℝ ℝ N}

/-- A linear quantity whose differences the steps of all levels keep meets the conditions of the convergence theorem with
`κ = 0`. -/
theorem conserved_approx (h : Valid E.ts) {c : V →ₗ[ℝ] ℝ}
    (hc : ∀ l x y t t', l < E.ts.length → t ≤ t' → c (E.step l x t t') - c (E.step l y t t') = c x - c y) :
    Approx E.sys ((normSeminorm ℝ ℝ).comp c) 0 := by
  have hwf := E.sys_wf h
  have hD : Damped E c 0 := fun l x y t t' hl ht => by rw [hc l x y t t' hl ht]; simp
  constructor
  · intro l i x y hl h1 hi
    show |c (_ - _)| ≤ |c (x - y)|
    rw [map_sub, hD.point h hl h1 hi, map_sub]
    simp
  · intro l k hl h1 hk
    have hl' : l + 1 < E.ts.length := hl
    have hlt : E.sys.cpt l (k - 1) < E.sys.cpt l k := hwf.cpt_lt hl (by omega) hk
    have hb : E.sys.cpt l k < npts E.ts l := hwf.cpt_bound hl hk
    refine ⟨1, zero_le_one, le_rfl, ?_, ?_⟩
    · intro x y
      show |c (_ - _)| ≤ 1 * |c (x - y)|
      rw [map_sub, hD.point h hl' h1 hk, map_sub]
      simp
    · intro g x y
      show |c (_ - _)| ≤ _
      have e4 : ∀ a b a' b' : V, c (a - b - (a' - b')) = (c a - c a') - (c b - c b') := by
        intro a b a' b'; simp only [map_sub]; ring
      rw [e4, hD.point h hl' h1 hk, hD.steps h g (show l < E.ts.length by omega) _ _ (by omega)]
      simp [decay]

/-- The returned values have the amount of time stepping in every such quantity, whatever the initial guess. -/
theorem conserved_returned (h : E.Good) (hmax : 0 < E.maxIter) (hT : Copying E) {f : V →ₗ[ℝ] ℝ}
    (hf : ∀ l x y t t', l < E.ts.length → t ≤ t' → f (E.step l x t t') - f (E.step l y t t') = f x - f y)
    {c : Conf E.P (Msg V N) (PState V N)} (h1 : Steps (startConf E) c) (hc : ∀ d, ¬ Step c d)
    (r : Fin E.P) (s : PState V N) (hr : c.prog r = Prog.ret s)
    (k i j : Nat) (hi : (E.info r 0).pts[k]? = some i) (hj : (E.info r 0).idx[k]? = some j) :
    f (s.u 0 j) = f (timeStepping E i) := by
  have hD : ∀ i, i ∈ allC E.ts 0 → |f ((afterConstructor E).st.u 0 i - timeStepping E i)|
      ≤ ∑ i ∈ (allC E.ts 0).toFinset, |f ((afterConstructor E).st.u 0 i - timeStepping E i)| := fun i hi =>
    Finset.single_le_sum (f := fun i => |f ((afterConstructor E).st.u 0 i - timeStepping E i)|)
      (fun _ _ => abs_nonneg _) (List.mem_toFinset.2 hi)
  have := C93_multilevel (p := (normSeminorm ℝ ℝ).comp f) h hmax hT le_rfl (conserved_approx h.valid hf) _ hD h1 hc r
    s hr k i j hi hj
  obtain ⟨a1, -⟩ := returned h hmax h1 hc r s hr
  unfold convRate at this
  rw [rate_zero, zero_pow (by omega), zero_mul] at this
  have h0 : |f (s.u 0 j - timeStepping E i)| ≤ 0 := this
  have := abs_nonpos_iff.1 h0
  rwa [map_sub, sub_eq_zero] at this

end

section
variable {N : Type} [Zero N] {M : TriMesh Cell Facet} {kappa mu : ℝ} {E : Cfg (DG1 Cell) ℝ ℝ N}

/-- C116.  Whatever the initial guess, mesh and penalty: the values returned after any number of iterations contain
exactly the amount of the initial condition. -/
theorem C116_amount_returned (h : E.Good) (hmax : 0 < E.maxIter) (hT : Copying E)
    (hstep : ∀ l u t t', l < E.ts.length → t ≤ t' → M.step kappa mu u t t' (E.step l u t t'))
    {c : Conf E.P (Msg (DG1 Cell) N) (PState (DG1 Cell) N)} (h1 : Steps (startConf E) c) (hc : ∀ d, ¬ Step c d)
    (r : Fin E.P) (s : PState (DG1 Cell) N) (hr : c.prog r = Prog.ret s)
    (k i j : Nat) (hi : (E.info r 0).pts[k]? = some i) (hj : (E.info r 0).idx[k]? = some j) :
    M.amount (s.u 0 j) = M.amount (E.start 0) := by
  have hlin : ∀ u, (TriMesh.mass_form (M := M)).functional (fun _ _ => 1) u = M.amount u := fun u =>
    TriMesh.mass_one u
  have hcons : ∀ l u t t', l < E.ts.length → t ≤ t' → M.amount (E.step l u t t') = M.amount u := fun l u t t' hl ht =>
    TriMesh.C116_amount (hstep l u t t' hl ht)
  have := conserved_returned h hmax hT (f := (TriMesh.mass_form (M := M)).functional fun _ _ => 1)
    (fun l x y t t' hl ht => by rw [hlin, hlin, hlin, hlin, hcons l x t t' hl ht, hcons l y t t' hl ht])
    h1 hc r s hr k i j hi hj
  rw [hlin, hlin] at this
  rw [this]
  obtain ⟨-, -, -, -, a5⟩ := returned h hmax h1 hc r s hr
  have hlt := (a5 k i j hi hj).1
  have hL := h.valid.pos
  clear hi hj this a5
  induction i with
  | zero => rfl
  | succ i ih =>
    refine Eq.trans ?_ (ih (by omega))
    exact hcons 0 _ _ _ hL (tAt_mono (h.valid.sorted 0) (by omega) hlt)

/-- C116.  Convergence to time stepping if the penalised form is nonnegative, in the norm of the finite element
space. -/
theorem C116_returned (hM : M.Ok) (hpos : ∀ φ, 0 ≤ M.diffusion kappa mu φ φ)
    (h : E.Good) (hmax : 0 < E.maxIter) (hT : Copying E) (hnest : E.nested = false)
    (hstep : ∀ l u t t', l < E.ts.length → t ≤ t' → M.step kappa mu u t t' (E.step l u t t'))
    {c : Conf E.P (Msg (DG1 Cell) N) (PState (DG1 Cell) N)} (h1 : Steps (startConf E) c) (hc : ∀ d, ¬ Step c d)
    (r : Fin E.P) (s : PState (DG1 Cell) N) (hr : c.prog r = Prog.ret s)
    (k i j : Nat) (hi : (E.info r 0).pts[k]? = some i) (hj : (E.info r 0).idx[k]? = some j) :
    M.normSq (s.u 0 j - timeStepping E i)
      ≤ (convRate E (1 / 3) ^ 2) ^ s.solveIter *
        ∑ i ∈ (allC E.ts 0).toFinset.erase 0, M.normSq (E.guess i - timeStepping E i) := by
  obtain ⟨n, f, v, μ, hfv, hsum, hm, hb⟩ := hM.coords kappa mu
  have hμ : ∀ k, 0 ≤ μ k := fun k => (TriMesh.eigen_nonneg hfv hb k) ▸ hpos (v k)
  have hd : ∀ p, Damped E (f p) (μ p) := by
    intro p l x y t t' hl ht
    have e1 := (TriMesh.step_iff.trans (weak_iff hfv hm hb _ _ _)).1 (hstep l x t t' hl ht) p
    have e2 := (TriMesh.step_iff.trans (weak_iff hfv hm hb _ _ _)).1 (hstep l y t t' hl ht) p
    have hne : 1 + (t' - t) * μ p ≠ 0 := by
      have := mul_nonneg (sub_nonneg.2 ht) (hμ p)
      linarith
    rw [← e1, ← e2]
    field_simp
  have hnorm : ∀ u, M.normSq u = ∑ p, (f p u) ^ 2 := fun u => by
    unfold TriMesh.normSq
    rw [hm]
    exact Finset.sum_congr rfl fun p _ => (sq _).symm
  let D : Fin n → ℝ := fun p =>
    √(∑ i ∈ (allC E.ts 0).toFinset.erase 0, (f p (E.guess i - timeStepping E i)) ^ 2)
  have hcomp : ∀ p, |f p (s.u 0 j - timeStepping E i)| ≤ convRate E (1 / 3) ^ s.solveIter * D p := by
    intro p
    refine damped_returned h hmax hT (hμ p) (hd p) (D p) ?_ h1 hc r s hr k i j hi hj
    intro i hi
    rw [constructor_value hnest]
    split
    · next e =>
      subst e
      show |f p (E.start 0 - E.start 0)| ≤ _
      rw [sub_self, map_zero, abs_zero]
      exact Real.sqrt_nonneg _
    · next e =>
      rw [if_pos rfl, ← Real.sqrt_sq_eq_abs]
      refine Real.sqrt_le_sqrt ?_
      exact Finset.single_le_sum (f := fun i => (f p (E.guess i - timeStepping E i)) ^ 2)
        (fun _ _ => sq_nonneg _) (Finset.mem_erase.2 ⟨e, List.mem_toFinset.2 hi⟩)
  have e2 : ∑ i ∈ (allC E.ts 0).toFinset.erase 0, M.normSq (E.guess i - timeStepping E i) = ∑ p, (D p) ^ 2 := by
    have : ∀ p, (D p) ^ 2 = ∑ i ∈ (allC E.ts 0).toFinset.erase 0, (f p (E.guess i - timeStepping E i)) ^ 2 :=
      fun p => Real.sq_sqrt (Finset.sum_nonneg fun _ _ => sq_nonneg _)
    simp only [this, hnorm]
    exact Finset.sum_comm
  rw [hnorm, e2, Finset.mul_sum]
  refine Finset.sum_le_sum fun p _ => ?_
  have h3 := mul_self_le_mul_self (abs_nonneg _) (hcomp p)
  rw [← sq, sq_abs] at h3
  refine h3.trans (le_of_eq ?_)
  rw [← pow_mul, mul_comm 2, pow_mul]
  ring

/-- C116.  The same with nested iteration. -/
theorem C116_returned_nested (hM : M.Ok) (hpos : ∀ φ, 0 ≤ M.diffusion kappa mu φ φ)
    (h : E.Good) (hmax : 0 < E.maxIter) (hT : Copying E) (hnest : E.nested = true)
    (hzero : ∀ l, l ≠ 0 → l < E.ts.length → E.zero l = 0)
    (hstart : ∀ l, l < E.ts.length → E.start l = E.start 0)
    (hstep : ∀ l u t t', l < E.ts.length → t ≤ t' → M.step kappa mu u t t' (E.step l u t t'))
    {c : Conf E.P (Msg (DG1 Cell) N) (PState (DG1 Cell) N)} (h1 : Steps (startConf E) c) (hc : ∀ d, ¬ Step c d)
    (r : Fin E.P) (s : PState (DG1 Cell) N) (hr : c.prog r = Prog.ret s)
    (k i j : Nat) (hi : (E.info r 0).pts[k]? = some i) (hj : (E.info r 0).idx[k]? = some j) :
    M.normSq (s.u 0 j - timeStepping E i)
      ≤ (convRate E (1 / 3) ^ s.solveIter * nestRate E (1 / 3)) ^ 2 * M.normSq (E.start 0) := by
  obtain ⟨n, f, v, μ, hfv, hsum, hm, hb⟩ := hM.coords kappa mu
  have hμ : ∀ k, 0 ≤ μ k := fun k => (TriMesh.eigen_nonneg hfv hb k) ▸ hpos (v k)
  have hs : ∀ p l x t t', l < E.ts.length → t ≤ t' → f p (E.step l x t t') = 1 / (1 + (t' - t) * μ p) * f p x := by
    intro p l x t t' hl ht
    have e1 := (TriMesh.step_iff.trans (weak_iff hfv hm hb _ _ _)).1 (hstep l x t t' hl ht) p
    have hne : 1 + (t' - t) * μ p ≠ 0 := by
      have := mul_nonneg (sub_nonneg.2 ht) (hμ p)
      linarith
    rw [← e1]
    field_simp
  have hd : ∀ p, Damped E (f p) (μ p) := by
    intro p l x y t t' hl ht
    rw [hs p l x t t' hl ht, hs p l y t t' hl ht]
    ring
  have hnorm : ∀ u, M.normSq u = ∑ p, (f p u) ^ 2 := fun u => by
    unfold TriMesh.normSq
    rw [hm]
    exact Finset.sum_congr rfl fun p _ => (sq _).symm
  rw [hnorm, hnorm, Finset.mul_sum]
  refine Finset.sum_le_sum fun p _ => ?_
  have h3 := damped_returned h hmax hT (hμ p) (hd p) _
    (damped_nested h hnest hT (hμ p) (hd p) (fun l t t' hl ht => by rw [hs p l 0 t t' hl ht, map_zero, mul_zero]) hzero
      hstart) h1 hc r s hr k i j hi hj
  have h4 := mul_self_le_mul_self (abs_nonneg _) h3
  rw [← sq, sq_abs] at h4
  refine h4.trans (le_of_eq ?_)
  rw [← sq_abs (f p (E.start 0))]
  ring

end

/-! ## Examples -/

/-- The shipped example: `20 × 20` squares of side `1 / 2`. -/
noncomputable abbrev exMesh : TriMesh (Fin 20 × Fin 20 × Bool) (Fin 20 × Fin 20 × Fin 3) := periodicSquare 20 (1 / 2)

theorem exMesh_ok : exMesh.Ok := periodicSquare_ok 20 (by norm_num)

theorem exMesh_nonneg (φ : DG1 (Fin 20 × Fin 20 × Bool)) : 0 ≤ exMesh.diffusion (1 / 10) 5 φ φ := by
  refine C116_periodic 20 (by norm_num) (by norm_num) ?_ φ
  have hs : √2 ≤ 1.5 := by
    rw [Real.sqrt_le_left (by norm_num)]
    norm_num
  linarith

theorem exMesh_step (u : DG1 (Fin 20 × Fin 20 × Bool)) (t t' : ℝ) :
    ∃ u', t ≤ t' → exMesh.step (1 / 10) 5 u t t' u' := by
  rcases lt_trichotomy t t' with ht | ht | ht
  · obtain ⟨u', hu, -⟩ := (TriMesh.C116_wellposed_iff exMesh_ok).2 exMesh_nonneg u t t' ht
    exact ⟨u', fun _ => hu⟩
  · refine ⟨u, fun _ γ => ?_⟩
    rw [ht, sub_self, zero_mul, add_zero]
  · exact ⟨u, fun h => absurd h (not_le.2 ht)⟩

/-- Time stepper of the example, by choice of the solution. -/
noncomputable def exDiffusion : Nat → DG1 (Fin 20 × Fin 20 × Bool) → ℝ → ℝ → DG1 (Fin 20 × Fin 20 × Bool) :=
  fun _ u t t' => Classical.choose (exMesh_step u t t')

theorem exDiffusion_step (l : Nat) (u : DG1 (Fin 20 × Fin 20 × Bool)) {t t' : ℝ} (ht : t ≤ t') :
    exMesh.step (1 / 10) 5 u t t' (exDiffusion l u t t') := Classical.choose_spec (exMesh_step u t t') ht

/-- `C116_amount`, `C116_amount_returned`, `C116_returned` for the example with a saw-tooth as initial condition, F-cycles
on four levels. -/
example {c : Conf 3 (Msg (DG1 (Fin 20 × Fin 20 × Bool)) Nat) (PState (DG1 (Fin 20 × Fin 20 × Bool)) Nat)}
    (h1 : Steps (startConf (exFour exDiffusion (sawtooth 20 (1 / 2)) 0 false .F 1)) c) (hc : ∀ d, ¬ Step c d)
    (r : Fin 3) (s : PState (DG1 (Fin 20 × Fin 20 × Bool)) Nat) (hr : c.prog r = Prog.ret s) :=
  And.intro
    (C116_amount_returned (exFour_good _ _ 0 false .F 1).1 (by show 0 < 5; decide) (exFour_good _ _ 0 false .F 1).2
      (fun l u _ _ _ ht => exDiffusion_step l u ht) h1 hc r s hr)
    (C116_returned exMesh_ok exMesh_nonneg (exFour_good _ _ 0 false .F 1).1 (by show 0 < 5; decide)
      (exFour_good _ _ 0 false .F 1).2 rfl (fun l u _ _ _ ht => exDiffusion_step l u ht) h1 hc r s hr)

/-- `C116_returned_nested` for the example. -/
example {c : Conf 3 (Msg (DG1 (Fin 20 × Fin 20 × Bool)) Nat) (PState (DG1 (Fin 20 × Fin 20 × Bool)) Nat)}
    (h1 : Steps (startConf (exFour exDiffusion (sawtooth 20 (1 / 2)) 0 true .V 1)) c) (hc : ∀ d, ¬ Step c d)
    (r : Fin 3) (s : PState (DG1 (Fin 20 × Fin 20 × Bool)) Nat) (hr : c.prog r = Prog.ret s) :=
  C116_returned_nested exMesh_ok exMesh_nonneg (exFour_good _ _ 0 true .V 1).1 (by show 0 < 5; decide)
    (exFour_good _ _ 0 true .V 1).2 rfl (fun _ _ _ => rfl) (fun _ _ => rfl)
    (fun l u _ _ _ ht => exDiffusion_step l u ht) h1 hc r s hr

/-- The saw-tooth is not constant, and the step changes it. -/
example : ¬ exMesh.step (1 / 10) 5 (sawtooth 20 (1 / 2)) 0 1 (sawtooth 20 (1 / 2)) := by
  intro h
  have := h (sawtooth 20 (1 / 2))
  have e := sawtooth_form 20 (h := 1 / 2) (kappa := 1 / 10) (mu := 5) (by norm_num)
  rw [e] at this
  norm_num at this

/-- `C116_periodic_counterexample` for `100 × 100` squares. -/
example := C116_periodic_counterexample 100 (h := 1 / 10) (kappa := 1) (mu := 5) (by norm_num) one_pos (by norm_num)

end Pymgrit.Firedrake
