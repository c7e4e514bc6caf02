import Verif.Region
import Verif.PropsJl
import Verif.PropsWorkflow

/-!
# C135: values and criterion of the optimization workflow
-/

namespace Pymgrit.Opt
open Jl

variable {ts : List (List ℚ)} {P : Nat} {ord : Nat → Nat → List Nat → List Nat}

theorem block_values {A : Type} (h : Valid ts) (hPn : P ≤ npts ts 0) (hord : ∀ r l xs, (ord r l xs).Perm xs) (f : ℚ → A)
    {r : Nat} (hr : r < P) :
    ((setupLevel ts P (ord r 0) r 0).idx.map fun j => f (tAt (setupLevel ts P (ord r 0) r 0).t j)) =
      (List.range' (lo ts P 0 r) (lo ts P 0 (r + 1) - lo ts P 0 r)).map fun i => f (tAt (grid ts 0) i) := by
  have s := spec0 h hPn hord hr h.pos
  have hg : gh r ≤ lo ts P 0 r := by
    unfold gh
    split
    · omega
    · have := h.lo_pos (r := r) hPn h.pos (by omega) (by omega)
      omega
  rw [s.idx]
  refine List.ext_getElem (by simp) fun i h1 h2 => ?_
  simp only [List.length_map, List.length_range'] at h1 h2
  simp only [List.getElem_map, List.getElem_range', Nat.one_mul]
  have := s.t_at (by omega) (lo ts P 0 r + i) (by unfold off; omega) (by omega)
  rw [← this]
  congr 2
  unfold off
  omega

/-- C135.  The values of all processes, put together, are the values at the points of the finest grid in the order of time, for
every number of processes. -/
theorem C135_gather {A : Type} (h : Valid ts) (hP : 0 < P) (hPn : P ≤ npts ts 0) (hord : ∀ r l xs, (ord r l xs).Perm xs)
    (f : ℚ → A) : gathered ts P ord f = (grid ts 0).map f := by
  have key : ∀ Q, Q ≤ P → ((List.range Q).flatMap fun r =>
      (setupLevel ts P (ord r 0) r 0).idx.map fun j => f (tAt (setupLevel ts P (ord r 0) r 0).t j)) =
      (List.range (lo ts P 0 Q)).map fun i => f (tAt (grid ts 0) i) := by
    intro Q hQ
    induction Q with
    | zero => rw [h.lo_zero hP hPn h.pos]; rfl
    | succ Q ih =>
      have hm := h.lo_mono hP hPn h.pos (show Q ≤ Q + 1 by omega) hQ
      rw [List.range_succ, List.flatMap_append, ih (by omega), List.flatMap_singleton, block_values h hPn hord f (by omega),
        ← List.map_append]
      congr 1
      rw [List.range_eq_range', List.range_eq_range']
      have := List.range'_append_1 (s := 0) (m := lo ts P 0 Q) (n := lo ts P 0 (Q + 1) - lo ts P 0 Q)
      rw [Nat.zero_add] at this
      rw [this]
      congr 1
      omega
  unfold gathered
  dsimp only
  rw [key P le_rfl, show lo ts P 0 P = npts ts 0 by simp [lo]]
  refine List.ext_getElem (by simp [npts]) fun i h1 h2 => ?_
  simp only [List.length_map] at h2
  simp [tAt, List.getD_eq_getElem?_getD, List.getElem?_eq_getElem h2]

/-- C135.  The history of the criterion does not depend on the number of processes. -/
theorem C135_processes {P' : Nat} {ord' : Nat → Nat → List Nat → List Nat} (h : Valid ts) (hP : 0 < P) (hPn : P ≤ npts ts 0)
    (hord : ∀ r l xs, (ord r l xs).Perm xs) (hP' : 0 < P') (hPn' : P' ≤ npts ts 0) (hord' : ∀ r l xs, (ord' r l xs).Perm xs)
    (region : ℚ) (jls : List (ℚ → ℚ)) : ∀ last, history ts P ord region last jls = history ts P' ord' region last jls := by
  induction jls with
  | nil => intro last; rfl
  | cons jl jls ih =>
    intro last
    have e : criterion ts P ord region last jl = criterion ts P' ord' region last jl := by
      unfold criterion
      rw [C135_gather h hP hPn hord, C135_gather h hP' hPn' hord']
    unfold history
    rw [e]
    dsimp only
    rw [ih]

theorem mem_drop_iff {A : Type} {l : List A} {k : Nat} {x : A} : x ∈ l.drop k ↔ ∃ i, k ≤ i ∧ l[i]? = some x := by
  rw [List.mem_iff_getElem?]
  constructor
  · rintro ⟨i, hi⟩
    rw [List.getElem?_drop] at hi
    exact ⟨k + i, by omega, hi⟩
  · rintro ⟨i, hk, hi⟩
    exact ⟨i - k, by rw [List.getElem?_drop, show k + (i - k) = i by omega]; exact hi⟩

theorem regionValue_lt (t : List ℚ) (region : ℚ) (last new : ℚ → ℚ) {tol : ℚ} (ht : 0 < tol) :
    regionValue t region (t.map last) (t.map new) < tol ↔
      ∀ i x, t[i]? = some x → findNearest t (t.getLastD 0 - region) ≤ i → new x ≠ 0 →
        100 * |new x - last x| < tol * |new x| := by
  unfold regionValue
  dsimp only
  rw [← List.map_drop, ← List.map_drop, List.zipWith_map, List.zipWith_self, ← lt_div_iff₀' (by norm_num), npMax_lt]
  have hx : ∀ x, |relChange (last x) (new x)| < tol / 100 ↔ (new x ≠ 0 → 100 * |new x - last x| < tol * |new x|) := by
    intro x
    unfold relChange
    by_cases h0 : new x = 0
    · simp [h0, ht]
    · rw [if_pos h0, abs_div, div_lt_div_iff₀ (abs_pos.2 h0) (by norm_num)]
      simp [h0, mul_comm]
  constructor
  · rintro ⟨-, H⟩ i x hi hk
    exact (hx x).1 (H _ (List.mem_map.2 ⟨_, List.mem_map.2 ⟨x, mem_drop_iff.2 ⟨i, hk, hi⟩, rfl⟩, rfl⟩))
  · intro H
    refine ⟨by positivity, fun y hy => ?_⟩
    obtain ⟨z, hz, rfl⟩ := List.mem_map.1 hy
    obtain ⟨x, hxm, rfl⟩ := List.mem_map.1 hz
    obtain ⟨i, hk, hi⟩ := mem_drop_iff.1 hxm
    exact (hx x).2 (H i x hi hk)

/-- **C135 (partial)**: after a further iteration the criterion is below the tolerance (in percent) if and only if at all
points of the region with losses other than zero the losses changed by less than this percentage.  The region contains all points
from `t_end - region` on, and at most one point before it.  Missing: points where the losses became zero
(`C135_zero_counterexample`). -/
theorem C135_criterion_partial (h : Valid ts) (hP : 0 < P) (hPn : P ≤ npts ts 0) (hord : ∀ r l xs, (ord r l xs).Perm xs)
    (region : ℚ) (last₀ : List ℚ) (old new : ℚ → ℚ) {tol : ℚ} (ht : 0 < tol) :
    ∃ k < (grid ts 0).length,
      (∀ j x, (grid ts 0)[j]? = some x →
        ((grid ts 0).getLastD 0 - region ≤ x → k ≤ j) ∧ (k < j → (grid ts 0).getLastD 0 - region ≤ x)) ∧
      ((criterion ts P ord region (criterion ts P ord region last₀ old).2 new).1 < tol ↔
        ∀ i x, (grid ts 0)[i]? = some x → k ≤ i → new x ≠ 0 → 100 * |new x - old x| < tol * |new x|) := by
  obtain ⟨r1, r2⟩ := C129_region (h.sorted 0) h.ne0 ((grid ts 0).getLastD 0 - region)
  refine ⟨_, r1, r2, ?_⟩
  unfold criterion
  dsimp only
  rw [C135_gather h hP hPn hord, C135_gather h hP hPn hord]
  exact regionValue_lt _ _ _ _ ht

/-- **C135, counterexample**: losses that become zero in the whole region count as no change, whatever they were. -/
theorem C135_zero_counterexample (h : Valid ts) (hP : 0 < P) (hPn : P ≤ npts ts 0) (hord : ∀ r l xs, (ord r l xs).Perm xs)
    (region : ℚ) (last₀ : List ℚ) (old : ℚ → ℚ) {tol : ℚ} (ht : 0 < tol) :
    (criterion ts P ord region (criterion ts P ord region last₀ old).2 fun _ => 0).1 < tol := by
  obtain ⟨k, -, -, e⟩ := C135_criterion_partial h hP hPn hord region last₀ old (fun _ => 0) ht
  exact e.2 fun i x _ _ h0 => absurd rfl h0

open Classical in
/-- C135.  The value that the constructor records is 100 if there are losses in the region, and 0 otherwise: it says nothing
about the approximation. -/
theorem C135_first (h : Valid ts) (hP : 0 < P) (hPn : P ≤ npts ts 0) (hord : ∀ r l xs, (ord r l xs).Perm xs)
    (region : ℚ) (jl : ℚ → ℚ) :
    (criterion ts P ord region (List.replicate (grid ts 0).length 0) jl).1 =
      if ∃ i x, (grid ts 0)[i]? = some x ∧ findNearest (grid ts 0) ((grid ts 0).getLastD 0 - region) ≤ i ∧ jl x ≠ 0
      then 100 else 0 := by
  have e : List.replicate (grid ts 0).length (0 : ℚ) = (grid ts 0).map fun _ => 0 := by simp
  unfold criterion
  dsimp only
  rw [C135_gather h hP hPn hord, e]
  have key := fun tol (ht : (0 : ℚ) < tol) => regionValue_lt (grid ts 0) region (fun _ => 0) jl ht
  have hnn : 0 ≤ regionValue (grid ts 0) region ((grid ts 0).map fun _ => 0) ((grid ts 0).map jl) := by
    unfold regionValue
    exact mul_nonneg (by norm_num) (npMax_nonneg _)
  split
  · rename_i hx
    obtain ⟨i, x, h1, h2, h3⟩ := hx
    refine le_antisymm (le_of_forall_gt fun c hc => ?_) (not_lt.1 fun hlt => ?_)
    · refine (key c (by linarith)).2 fun i x _ _ h0 => ?_
      rw [sub_zero]
      exact mul_lt_mul_of_pos_right hc (abs_pos.2 h0)
    · have := (key 100 (by norm_num)).1 hlt i x h1 h2 h3
      rw [sub_zero] at this
      exact lt_irrefl _ this
  · rename_i hx
    refine le_antisymm (le_of_forall_gt fun c hc => ?_) hnn
    exact (key c hc).2 fun i x h1 h2 h0 => absurd ⟨i, x, h1, h2, h0⟩ hx

/-! ### Example -/

/-- Five points on two processes; the region starts at 3: values in the region decide. -/
example : gathered [[0, 1, 2, 3, 4], [0, 2, 4]] 2 (fun _ _ => id) (fun t => t * t) = [0, 1, 4, 9, 16] := by decide +kernel

example : history [[0, 1, 2, 3, 4], [0, 2, 4]] 2 (fun _ _ => id) 1 [0, 0, 0, 0, 0]
    [fun t => t, fun t => if t < 3 then 7 else 2 * t, fun t => if t < 3 then 9 else 2 * t] = [100, 50, 0] := by decide +kernel

/-- The hypotheses on the grids. -/
example : Valid [[(0 : ℚ), 1, 2, 3, 4], [0, 2, 4]] ∧ 2 ≤ npts [[(0 : ℚ), 1, 2, 3, 4], [0, 2, 4]] 0 := by
  refine ⟨⟨by decide, by decide, fun l => ?_, fun l hl => ?_, fun l hl => ?_⟩, by decide⟩
  · rcases l with _ | _ | l
    · show List.Pairwise (· < ·) [(0 : ℚ), 1, 2, 3, 4]
      decide
    · show List.Pairwise (· < ·) [(0 : ℚ), 2, 4]
      decide
    · simp [grid]
  · have : l = 0 := by simp at hl; omega
    subst this
    show ∀ x ∈ [(0 : ℚ), 2, 4], x ∈ [(0 : ℚ), 1, 2, 3, 4]
    decide
  · have : l = 0 ∨ l = 1 := by simp at hl; omega
    rcases this with rfl | rfl <;> rfl

end Pymgrit.Opt
