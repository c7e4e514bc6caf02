import Mathlib.LinearAlgebra.Matrix.NonsingularInverse
import Mathlib.Algebra.Order.BigOperators.Group.Finset
import Mathlib.Algebra.Order.BigOperators.Ring.Finset
import Mathlib.Algebra.Order.Field.Basic
import Mathlib.Algebra.BigOperators.Field
import Mathlib.Data.Finset.Max
import Mathlib.Algebra.Order.BigOperators.Group.List
import Mathlib.Tactic.Ring
import Mathlib.Tactic.Linarith

/-!
# Sparse matrices and linear systems

Model of the SciPy functions used by the applications, in exact arithmetic over an ordered field:
`scipy.sparse.diags` and `scipy.sparse.linalg.spsolve`, and the facts about diagonally dominant
systems needed for the applications.
-/

namespace Pymgrit.Lin
open Matrix

variable {K : Type} [Field K] {ι : Type} [Fintype ι] [DecidableEq ι]

/-- `scipy.sparse.diags(diagonals, offsets, shape=(n, n))`: entry `t` of a diagonal with offset `k` is
at position `(t, t + k)` for `k ≥ 0` and `(t - k, t)` for `k < 0`.  Each diagonal is an array with at
least as many entries as needed (longer ones are cut by SciPy); the offsets are distinct (SciPy
raises otherwise). -/
def diags (n : Nat) (ds : List ((Nat → K) × Int)) : Matrix (Fin n) (Fin n) K :=
  fun i j => ((ds.filter fun d => decide (d.2 = (j : Int) - (i : Int))).map
    fun d => d.1 (min (i : Nat) (j : Nat))).sum

/-- `x` is what `spsolve(A, b)` computes: the solution of the system (in exact arithmetic). -/
def Solves (A : Matrix ι ι K) (b x : ι → K) : Prop := A.mulVec x = b

/-- Sum over the entries with a given index. -/
theorem sum_at {n : Nat} (k : Int) (c : Fin n → K) (d : K) (hd : ∀ j : Fin n, (j : Int) = k → c j = d)
    (h0 : ∀ j : Fin n, (j : Int) ≠ k → c j = 0) :
    ∑ j, c j = if 0 ≤ k ∧ k < n then d else 0 := by
  split
  · rename_i hk
    have hlt : k.toNat < n := by omega
    rw [Finset.sum_eq_single (⟨k.toNat, hlt⟩ : Fin n)]
    · exact hd _ (by simp; omega)
    · intro j _ hj
      refine h0 j fun he => hj (Fin.ext ?_)
      simp; omega
    · intro h; exact absurd (Finset.mem_univ _) h
  · rename_i hk
    refine Finset.sum_eq_zero fun j _ => h0 j fun he => hk ?_
    have := j.isLt
    omega

/-- Value of a vector at an integer position, zero outside (homogeneous Dirichlet values). -/
def atZ {n : Nat} (x : Fin n → K) (k : Int) : K :=
  if h : 0 ≤ k ∧ k < n then x ⟨k.toNat, by omega⟩ else 0

theorem atZ_val {n : Nat} (x : Fin n → K) (i : Fin n) : atZ x i = x i := by
  unfold atZ
  rw [dif_pos ⟨by omega, by have := i.isLt; omega⟩]
  rfl

theorem sum_pick {n : Nat} (k : Int) (c : K) (x : Fin n → K) :
    ∑ j : Fin n, (if (j : Int) = k then c else 0) * x j = c * atZ x k := by
  rw [sum_at k _ (c * atZ x k)]
  · split
    · rfl
    · rename_i h
      unfold atZ
      rw [dif_neg h, mul_zero]
  · intro j hj
    rw [if_pos hj, ← hj, atZ_val]
  · intro j hj
    rw [if_neg hj, zero_mul]

theorem mulVec_split (A : Matrix ι ι K) (x : ι → K) (i : ι) :
    A.mulVec x i = A i i * x i + ∑ j ∈ Finset.univ.erase i, A i j * x j := by
  rw [Matrix.mulVec, dotProduct, ← Finset.add_sum_erase _ _ (Finset.mem_univ i)]

variable [LinearOrder K] [IsStrictOrderedRing K]

/-- Row-wise diagonal dominance with excess `d`. -/
def Dominant (d : K) (A : Matrix ι ι K) : Prop :=
  ∀ i, d + ∑ j ∈ Finset.univ.erase i, |A i j| ≤ A i i

/-- The solution is bounded by the right-hand side. -/
theorem Dominant.bound {d : K} (hd : 0 ≤ d) {A : Matrix ι ι K} (hA : Dominant d A) {b x : ι → K}
    (hs : Solves A b x) {c : K} (hb : ∀ i, |b i| ≤ c) (i : ι) : d * |x i| ≤ c := by
  have hne : (Finset.univ : Finset ι).Nonempty := ⟨i, Finset.mem_univ i⟩
  obtain ⟨m, -, hm⟩ := Finset.exists_max_image Finset.univ (fun i => |x i|) hne
  refine le_trans (mul_le_mul_of_nonneg_left (hm i (Finset.mem_univ i)) hd) ?_
  have h1 : A m m * x m = b m - ∑ j ∈ Finset.univ.erase m, A m j * x j := by
    have := congrFun hs m
    rw [mulVec_split] at this
    rw [← this]; ring
  have hAm := hA m
  have hpos : 0 ≤ ∑ j ∈ Finset.univ.erase m, |A m j| := Finset.sum_nonneg fun _ _ => abs_nonneg _
  have h2 : |∑ j ∈ Finset.univ.erase m, A m j * x j| ≤ (∑ j ∈ Finset.univ.erase m, |A m j|) * |x m| := by
    refine le_trans (Finset.abs_sum_le_sum_abs _ _) ?_
    rw [Finset.sum_mul]
    refine Finset.sum_le_sum fun j _ => ?_
    rw [abs_mul]
    exact mul_le_mul_of_nonneg_left (hm j (Finset.mem_univ j)) (abs_nonneg _)
  have h3 : A m m * |x m| ≤ c + (∑ j ∈ Finset.univ.erase m, |A m j|) * |x m| := by
    have : A m m * |x m| = |A m m * x m| := by rw [abs_mul, abs_of_nonneg (a := A m m) (by linarith)]
    rw [this, h1]
    refine le_trans (abs_sub _ _) ?_
    exact add_le_add (hb m) h2
  nlinarith [abs_nonneg (x m)]

/-- A matrix with a trivial kernel: every system has exactly one solution. -/
theorem existsUnique_of_kernel {A : Matrix ι ι K} (h : ∀ x, Solves A 0 x → x = 0) (b : ι → K) :
    ∃! x, Solves A b x := by
  have hinj : Function.Injective A.mulVec := by
    intro x y hxy
    have : Solves A 0 (x - y) := by
      show A.mulVec (x - y) = 0
      rw [Matrix.mulVec_sub, hxy, sub_self]
    exact sub_eq_zero.1 (h _ this)
  have hu : IsUnit A := Matrix.mulVec_injective_iff_isUnit.1 hinj
  obtain ⟨x, hx⟩ := (Matrix.mulVec_surjective_iff_isUnit.2 hu) b
  exact ⟨x, hx, fun y hy => hinj (hy.trans hx.symm)⟩

/-- The system has exactly one solution. -/
theorem Dominant.existsUnique {d : K} (hd : 0 < d) {A : Matrix ι ι K} (hA : Dominant d A)
    (b : ι → K) : ∃! x, Solves A b x := by
  refine existsUnique_of_kernel (fun x hx => ?_) b
  funext i
  have := hA.bound hd.le hx (c := 0) (fun i => by simp) i
  have h0 := abs_nonneg (x i)
  have : |x i| = 0 := by nlinarith
  exact abs_eq_zero.1 this

/-- With non-positive off-diagonal entries, a non-negative right-hand side gives a non-negative
solution. -/
theorem Dominant.nonneg {d : K} (hd : 0 < d) {A : Matrix ι ι K} (hA : Dominant d A)
    (hoff : ∀ i j, i ≠ j → A i j ≤ 0) {b x : ι → K} (hs : Solves A b x) (hb : ∀ i, 0 ≤ b i)
    (i : ι) : 0 ≤ x i := by
  have hne : (Finset.univ : Finset ι).Nonempty := ⟨i, Finset.mem_univ i⟩
  obtain ⟨m, -, hm⟩ := Finset.exists_min_image Finset.univ x hne
  refine le_trans ?_ (hm i (Finset.mem_univ i))
  by_contra hneg
  push Not at hneg
  have h1 := congrFun hs m
  rw [mulVec_split] at h1
  have hAm := hA m
  have h2 : ∑ j ∈ Finset.univ.erase m, A m j * x j ≤ -(∑ j ∈ Finset.univ.erase m, |A m j|) * x m := by
    rw [neg_mul, Finset.sum_mul, ← Finset.sum_neg_distrib]
    refine Finset.sum_le_sum fun j hj => ?_
    have ho := hoff m j (Finset.ne_of_mem_erase hj).symm
    rw [abs_of_nonpos ho]
    have := hm j (Finset.mem_univ j)
    nlinarith
  have := hb m
  nlinarith

/-- Bound of the off-diagonal sum of a row with entries at given places. -/
theorem sum_off {n : Nat} (A : Matrix (Fin n) (Fin n) K) (i : Fin n) (ks : List (Int × K))
    (hpos : ∀ p ∈ ks, 0 ≤ p.2)
    (h : ∀ j, j ≠ i → |A i j| ≤ (ks.map fun p => if (j : Int) = p.1 then p.2 else 0).sum) :
    ∑ j ∈ Finset.univ.erase i, |A i j| ≤ (ks.map fun p => p.2).sum := by
  have h1 : ∑ j ∈ Finset.univ.erase i, |A i j| ≤
      ∑ j ∈ Finset.univ.erase i, (ks.map fun p => if (j : Int) = p.1 then p.2 else 0).sum :=
    Finset.sum_le_sum fun j hj => h j (Finset.ne_of_mem_erase hj)
  refine le_trans h1 ?_
  have hnn : ∀ j : Fin n, 0 ≤ (ks.map fun p => if (j : Int) = p.1 then p.2 else 0).sum := by
    intro j
    apply List.sum_nonneg
    intro y hy
    obtain ⟨p, hp, rfl⟩ := List.mem_map.1 hy
    split
    · exact hpos p hp
    · exact le_refl 0
  refine le_trans (Finset.sum_le_sum_of_subset_of_nonneg (Finset.subset_univ _)
    (fun j _ _ => hnn j)) ?_
  clear h1 h hnn
  induction ks with
  | nil => simp
  | cons p ps ih =>
    simp only [List.map_cons, List.sum_cons, Finset.sum_add_distrib]
    refine add_le_add ?_ (ih fun q hq => hpos q (List.mem_cons_of_mem _ hq))
    rw [sum_at p.1 _ p.2 (fun j hj => if_pos hj) (fun j hj => if_neg hj)]
    split
    · exact le_refl _
    · exact hpos p List.mem_cons_self

/-- Rows and columns dominant: the quadratic form is bounded below. -/
theorem Dominant.quadratic {d : K} {A : Matrix ι ι K} (hA : Dominant d A) (hAt : Dominant d A.transpose)
    (x : ι → K) : d * ∑ i, x i * x i ≤ ∑ i, x i * A.mulVec x i := by
  have hterm : ∀ i j, -(|A i j| * ((x i * x i + x j * x j) / 2)) ≤ x i * (A i j * x j) := by
    intro i j
    have h1 := abs_nonneg (A i j)
    have h2 := neg_abs_le (A i j)
    have h3 := le_abs_self (A i j)
    have e1 := mul_self_nonneg (x i - x j)
    have e2 := mul_self_nonneg (x i + x j)
    have e3 := mul_nonneg (sub_nonneg.2 h3) (mul_self_nonneg (x i - x j))
    have e4 := mul_nonneg (by linarith : 0 ≤ A i j + |A i j|) (mul_self_nonneg (x i + x j))
    linarith
  have hrow : ∀ i, x i * A.mulVec x i = A i i * (x i * x i) +
      ∑ j ∈ Finset.univ.erase i, x i * (A i j * x j) := by
    intro i
    rw [mulVec_split, mul_add, Finset.mul_sum]; ring
  have e1 : ∑ i, ∑ j ∈ Finset.univ.erase i, |A i j| * ((x i * x i + x j * x j) / 2) =
      (∑ i, (∑ j ∈ Finset.univ.erase i, |A i j|) * (x i * x i)) / 2 +
      (∑ i, (∑ j ∈ Finset.univ.erase i, |A j i|) * (x i * x i)) / 2 := by
    have a1 : ∑ i, ∑ j ∈ Finset.univ.erase i, |A i j| * (x j * x j) =
        ∑ i, (∑ j ∈ Finset.univ.erase i, |A j i|) * (x i * x i) := by
      have : ∀ i, ∑ j ∈ Finset.univ.erase i, |A i j| * (x j * x j) =
          ∑ j, if j = i then 0 else |A i j| * (x j * x j) := by
        intro i
        rw [← Finset.add_sum_erase _ _ (Finset.mem_univ i), if_pos rfl, zero_add]
        exact Finset.sum_congr rfl fun j hj => (if_neg (Finset.ne_of_mem_erase hj)).symm
      simp only [this]
      rw [Finset.sum_comm]
      refine Finset.sum_congr rfl fun j _ => ?_
      rw [Finset.sum_mul, ← Finset.add_sum_erase _ _ (Finset.mem_univ j), if_pos rfl, zero_add]
      exact Finset.sum_congr rfl fun i hi => if_neg (Finset.ne_of_mem_erase hi).symm
    rw [← a1, ← add_div, ← Finset.sum_add_distrib, Finset.sum_div]
    refine Finset.sum_congr rfl fun i _ => ?_
    rw [Finset.sum_mul, ← Finset.sum_add_distrib, Finset.sum_div]
    exact Finset.sum_congr rfl fun j _ => by ring
  have hr : ∑ i, (d + ∑ j ∈ Finset.univ.erase i, |A i j|) * (x i * x i) ≤ ∑ i, A i i * (x i * x i) :=
    Finset.sum_le_sum fun i _ => mul_le_mul_of_nonneg_right (hA i) (mul_self_nonneg _)
  have hc : ∑ i, (d + ∑ j ∈ Finset.univ.erase i, |A j i|) * (x i * x i) ≤ ∑ i, A i i * (x i * x i) :=
    Finset.sum_le_sum fun i _ => mul_le_mul_of_nonneg_right (hAt i) (mul_self_nonneg _)
  simp only [add_mul, Finset.sum_add_distrib, ← Finset.mul_sum] at hr hc
  have hsum : ∑ i, x i * A.mulVec x i = ∑ i, A i i * (x i * x i) +
      ∑ i, ∑ j ∈ Finset.univ.erase i, x i * (A i j * x j) := by
    rw [← Finset.sum_add_distrib]; exact Finset.sum_congr rfl fun i _ => hrow i
  have hlow : -(∑ i, ∑ j ∈ Finset.univ.erase i, |A i j| * ((x i * x i + x j * x j) / 2)) ≤
      ∑ i, ∑ j ∈ Finset.univ.erase i, x i * (A i j * x j) := by
    rw [← Finset.sum_neg_distrib]
    refine Finset.sum_le_sum fun i _ => ?_
    rw [← Finset.sum_neg_distrib]
    exact Finset.sum_le_sum fun j _ => hterm i j
  rw [hsum]
  linarith

/-- Rows and columns dominant with excess one: the Euclidean norm of the solution is at most that of
the right-hand side. -/
theorem Dominant.euclid {A : Matrix ι ι K} (hA : Dominant 1 A) (hAt : Dominant 1 A.transpose)
    {b x : ι → K} (hs : Solves A b x) : ∑ i, x i * x i ≤ ∑ i, b i * b i := by
  have h1 := hA.quadratic hAt x
  rw [show A.mulVec x = b from hs] at h1
  have h2 : ∑ i, 2 * (x i * b i) ≤ ∑ i, (x i * x i + b i * b i) :=
    Finset.sum_le_sum fun i _ => by nlinarith [mul_self_nonneg (x i - b i)]
  rw [← Finset.mul_sum, Finset.sum_add_distrib] at h2
  linarith

end Pymgrit.Lin
