import Verif.Contract
import Mathlib.Analysis.InnerProductSpace.Spectrum

/-!
# Symmetric bilinear forms and backward Euler in weak form

Auxiliary facts for `Verif.PropsFiredrake`: a symmetric form has an eigenbasis with respect to a positive definite one.
-/

namespace Pymgrit.Forms

variable {U : Type} [AddCommGroup U] [Module ℝ U]

/-- A symmetric bilinear form. -/
structure IsForm (b : U → U → ℝ) : Prop where
  add : ∀ x y z, b (x + y) z = b x z + b y z
  smul : ∀ (a : ℝ) x z, b (a • x) z = a * b x z
  symm : ∀ x y, b x y = b y x

namespace IsForm
variable {b : U → U → ℝ} (h : IsForm b)
include h

theorem add_right (x y z : U) : b x (y + z) = b x y + b x z := by
  rw [h.symm, h.add, h.symm y, h.symm z]

theorem smul_right (a : ℝ) (x z : U) : b x (a • z) = a * b x z := by
  rw [h.symm, h.smul, h.symm z]

theorem zero_left (z : U) : b 0 z = 0 := by
  have := h.smul 0 0 z
  rwa [zero_smul, zero_mul] at this

theorem zero_right (z : U) : b z 0 = 0 := by rw [h.symm, h.zero_left]

theorem sub_right (x y z : U) : b x (y - z) = b x y - b x z := by
  have : y - z = y + (-1 : ℝ) • z := by rw [neg_one_smul, sub_eq_add_neg]
  rw [this, h.add_right, h.smul_right]
  ring

theorem sum_right {ι : Type} (s : Finset ι) (f : ι → U) (x : U) : b x (∑ i ∈ s, f i) = ∑ i ∈ s, b x (f i) := by
  classical
  induction s using Finset.induction_on with
  | empty => simp [h.zero_right]
  | insert i s hi ih => rw [Finset.sum_insert hi, Finset.sum_insert hi, h.add_right, ih]

/-- The functional `b x`. -/
def functional (x : U) : U →ₗ[ℝ] ℝ where
  toFun := b x
  map_add' := h.add_right x
  map_smul' := fun a z => h.smul_right a x z

end IsForm

/-- A symmetric form in coordinates that are orthonormal for a positive definite one. -/
theorem exists_coords [FiniteDimensional ℝ U] {m b : U → U → ℝ} (hm : IsForm m) (hpos : ∀ x, x ≠ 0 → 0 < m x x)
    (hb : IsForm b) :
    ∃ (n : Nat) (f : Fin n → U →ₗ[ℝ] ℝ) (v : Fin n → U) (μ : Fin n → ℝ),
      (∀ j k, f j (v k) = if j = k then 1 else 0) ∧ (∀ x, ∑ k, f k x • v k = x) ∧
      (∀ x y, m x y = ∑ k, f k x * f k y) ∧ ∀ x y, b x y = ∑ k, μ k * (f k x * f k y) := by
  let core : InnerProductSpace.Core ℝ U :=
    { inner := m
      conj_inner_symm := fun x y => by simp [hm.symm y x]
      re_inner_nonneg := fun x => by
        by_cases hx : x = 0
        · subst hx; simp [hm.zero_left]
        · simpa using (hpos x hx).le
      add_left := hm.add
      smul_left := fun x y r => by simpa using hm.smul r x y
      definite := fun x hx => by
        by_contra h0
        have := hpos x h0
        rw [show m x x = 0 from hx] at this
        exact lt_irrefl _ this }
  letI : NormedAddCommGroup U := core.toNormedAddCommGroup
  letI : InnerProductSpace ℝ U := InnerProductSpace.ofCore core.toCore
  have hin : ∀ x y : U, inner ℝ x y = m x y := fun _ _ => rfl
  let e := stdOrthonormalBasis ℝ U
  let T : U →ₗ[ℝ] U := ∑ i, ((hb.functional (e i)).smulRight (e i))
  have hT0 : ∀ x, T x = ∑ i, b (e i) x • e i := by
    intro x
    simp only [T, LinearMap.sum_apply, LinearMap.smulRight_apply]
    rfl
  have hT : ∀ x y, inner ℝ (T x) y = b x y := by
    intro x y
    rw [hT0, sum_inner]
    simp only [inner_smul_left]
    have hy : ∑ i, inner ℝ (e i) y • e i = y := e.sum_repr' y
    conv_rhs => rw [← hy]
    rw [hb.sum_right]
    refine Finset.sum_congr rfl fun i _ => ?_
    rw [hb.smul_right, hb.symm x]
    simp [mul_comm]
  have hsym : T.IsSymmetric := fun x y => by
    rw [hT, real_inner_comm, hT, hb.symm]
  let w := hsym.eigenvectorBasis (n := Module.finrank ℝ U) rfl
  let f : Fin (Module.finrank ℝ U) → U →ₗ[ℝ] ℝ := fun k => hm.functional (w k)
  have hf : ∀ k x, f k x = inner ℝ (w k) x := fun _ _ => rfl
  refine ⟨Module.finrank ℝ U, f, fun k => w k, hsym.eigenvalues rfl, ?_, ?_, ?_, ?_⟩
  · intro j k
    rw [hf, orthonormal_iff_ite.1 w.orthonormal j k]
  · intro x
    simp only [hf]
    exact w.sum_repr' x
  · intro x y
    rw [← hin, ← w.sum_inner_mul_inner x y]
    refine Finset.sum_congr rfl fun k _ => ?_
    rw [hf, hf, real_inner_comm]
  · intro x y
    rw [← hT, ← w.sum_inner_mul_inner (T x) y]
    refine Finset.sum_congr rfl fun k _ => ?_
    rw [hf, hf, hsym x (w k), hsym.apply_eigenvectorBasis, inner_smul_right, real_inner_comm]
    show (hsym.eigenvalues rfl k * _) * _ = _
    ring

/-- One backward Euler step in weak form: find `x` with `m γ x + dt b γ x = m γ u` for all test functions `γ`. -/
def Weak (m b : U → U → ℝ) (u : U) (dt : ℝ) (x : U) : Prop := ∀ γ, m γ x + dt * b γ x = m γ u

section
variable {m b : U → U → ℝ} {n : Nat} {f : Fin n → U →ₗ[ℝ] ℝ} {v : Fin n → U} {μ : Fin n → ℝ}

/-- In coordinates. -/
theorem weak_iff (hfv : ∀ j k, f j (v k) = if j = k then 1 else 0)
    (hm : ∀ x y, m x y = ∑ k, f k x * f k y) (hb : ∀ x y, b x y = ∑ k, μ k * (f k x * f k y)) (u : U) (dt : ℝ)
    (x : U) : Weak m b u dt x ↔ ∀ k, (1 + dt * μ k) * f k x = f k u := by
  constructor
  · intro h k
    have := h (v k)
    rw [hm, hb, hm] at this
    simp only [hfv] at this
    simp only [ite_mul, one_mul, zero_mul, mul_ite, mul_zero, Finset.sum_ite_eq', Finset.mem_univ, if_true] at this
    linarith
  · intro h γ
    rw [hm, hb, hm, Finset.mul_sum, ← Finset.sum_add_distrib]
    refine Finset.sum_congr rfl fun k _ => ?_
    rw [← h k]
    ring

end

end Pymgrit.Forms
