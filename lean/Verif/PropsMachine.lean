import Verif.Machine
import Mathlib.Algebra.Ring.Int.Defs

/-!
# Properties C43 and C44: induction machine
-/

namespace Pymgrit.Machine

variable {α : Type}

/-- C43.  Setting a vector from the flattened values and the scalars of another with the same layout
gives the values of the other, if the back part is not empty. -/
theorem C43_flatten_partial (u v : Vec α) (hu : u.Fits) (h1 : v.frontSize = u.frontSize)
    (h2 : v.middleSize = u.middleSize) (h3 : v.backSize = u.backSize) (hb : 0 < u.backSize) :
    v.setValues u.getValues u.scal = u := by
  obtain ⟨f1, f2, f3⟩ := hu
  obtain ⟨uf, um, ub, front, middle, back, sc⟩ := u
  obtain ⟨vf, vm, vb, front', middle', back', sc'⟩ := v
  simp only at f1 f2 f3 h1 h2 h3 hb
  subst h1 h2 h3 f1 f2 f3
  have hneg : ¬ (0 : Int) ≤ -(back.length : Int) := by omega
  have e : ((front ++ middle ++ back).length + -(back.length : Int)).toNat
      = front.length + middle.length := by
    simp only [List.length_append]; omega
  simp only [Vec.setValues, Vec.getValues, slice, bound]
  rw [if_neg (by omega), if_pos (by omega), e, Int.toNat_natCast]
  have e0 : min (front ++ middle ++ back).length front.length = front.length := by
    simp only [List.length_append]; omega
  rw [e0]
  congr 1
  · simp
  · rw [List.take_append_of_le_length (by simp), List.take_of_length_le (by simp)]
    simp
  · rw [List.take_of_length_le (Nat.le_refl _)]
    rw [← List.length_append, List.drop_left]

/-- C43.  The literal claim is false: with an empty back part the middle part is lost and everything
lands in the back part. -/
theorem C43_empty_back (u v : Vec α) (hu : u.Fits) (h1 : v.frontSize = u.frontSize)
    (h3 : v.backSize = u.backSize) (hb : u.backSize = 0) :
    (v.setValues u.getValues u.scal).middle = [] ∧
    (v.setValues u.getValues u.scal).back = u.front ++ u.middle := by
  obtain ⟨f1, f2, f3⟩ := hu
  rw [hb] at f3 h3
  have hback : u.back = [] := List.eq_nil_of_length_eq_zero f3
  simp only [Vec.setValues, Vec.getValues, slice, bound, h3, hback]
  simp [List.take_of_length_le]

/-- Layout of the tests, and the layout that fails. -/
example : (⟨1, 2, 1, [1], [2, 3], [4], []⟩ : Vec Int).Fits ∧
    (⟨1, 2, 0, [1], [2, 3], [], []⟩ : Vec Int).Fits := ⟨⟨rfl, rfl, rfl⟩, ⟨rfl, rfl, rfl⟩⟩

variable [Semiring α] [LT α] [DecidableLT α]

theorem scatter_length {xs ys : List α} {idx : List Nat} {vals : List α}
    (h : scatter xs idx vals = .ok ys) : ys.length = xs.length := by
  unfold scatter at h
  split at h
  · cases h
  split at h
  · cases h
  rename_i hany
  clear hany
  injection h with h
  subst h
  generalize idx.zip vals = ps
  induction ps generalizing xs with
  | nil => rfl
  | cons p ps ih =>
    rw [List.foldl_cons, ih, List.length_set]

/-- What a successful interpolation returns. -/
theorem interpolation_ok {nan : α} {d : Data α} {u w : Vec α} (h : interpolation nan d u = .ok w) :
    d.sizeStart ≤ d.sizeStop ∧
    (u.middle.length ≤ d.sizeStop - d.sizeStart ∨ u.middle.length = 1) ∧
    ∃ m : List α, m.length = d.sizeStop - d.sizeStart ∧
      w = { u with middle := u.middle ++ m
                   middleSize := (u.middle ++ m).length } := by
  unfold interpolation at h
  simp only [List.length_replicate] at h
  by_cases h0 : d.sizeStop < d.sizeStart
  · rw [if_pos h0] at h; cases h
  rw [if_neg h0] at h
  refine ⟨by omega, ?_⟩
  cases e1 : takeIdx u.middle d.mapInner with
  | error e => rw [e1] at h; cases h
  | ok x1 =>
    rw [e1] at h
    cases e2 : meshTransfer nan x1 d.vtxInner d.wtsInner d.addInner with
    | error e => simp only [bind, Except.bind, e2] at h; cases h
    | ok x2 =>
      cases e3 : takeIdx u.middle d.mapOuter with
      | error e => simp only [bind, Except.bind, e2, e3] at h; cases h
      | ok x3 =>
        cases e4 : meshTransfer nan x3 d.vtxOuter d.wtsOuter d.addOuter with
        | error e => simp only [bind, Except.bind, e2, e3, e4] at h; cases h
        | ok x4 =>
          simp only [bind, Except.bind, e2, e3, e4] at h
          by_cases h5 : d.sizeStop - d.sizeStart < u.middle.length ∧ u.middle.length ≠ 1
          · rw [if_pos h5] at h; cases h
          rw [if_neg h5] at h
          refine ⟨by omega, ?_⟩
          simp only [pure, Except.pure] at h
          split at h
          · cases h
          rename_i y1 hy1
          split at h
          · cases h
          rename_i y2 hy2
          injection h with h
          refine ⟨y2, ?_, h.symm⟩
          rw [scatter_length hy2, scatter_length hy1]
          simp only [List.length_take, List.length_append, List.length_drop, List.length_replicate]
          omega

/-- C44.  Restricting an interpolated vector of the coarse size returns it. -/
theorem C44_restrict_interpolate (nan : α) (d : Data α) (u w : Vec α) (hu : u.Fits)
    (hs : u.middleSize = d.sizeStart) (h : interpolation nan d u = .ok w) : restriction d w = u := by
  obtain ⟨-, -, m, hm, rfl⟩ := interpolation_ok h
  obtain ⟨f1, f2, f3⟩ := hu
  obtain ⟨uf, um, ub, front, middle, back, sc⟩ := u
  simp only at f2 hs
  subst f2
  simp only [restriction, slice, bound]
  rw [if_neg (by omega), Int.toNat_natCast, ← hs]
  have : min (middle ++ m).length middle.length = middle.length := by
    simp only [List.length_append]; omega
  rw [this]
  simp

/-- C44.  The interpolated vector has the fine size. -/
theorem C44_fine_size (nan : α) (d : Data α) (u w : Vec α) (hu : u.Fits)
    (hs : u.middleSize = d.sizeStart) (h : interpolation nan d u = .ok w) :
    w.Fits ∧ w.middleSize = d.sizeStop := by
  obtain ⟨h0, -, m, hm, rfl⟩ := interpolation_ok h
  obtain ⟨f1, f2, f3⟩ := hu
  refine ⟨⟨f1, rfl, f3⟩, ?_⟩
  simp only [List.length_append, hm, f2, hs]
  omega

/-- C44.  Interpolation never succeeds if the fine mesh has fewer than twice the unknowns of the coarse
mesh (and the coarse mesh more than one): the assignment to `new_middle[:len(u.u_middle)]` fails. -/
theorem C44_needs_double (nan : α) (d : Data α) (u : Vec α) (hu : u.Fits)
    (hs : u.middleSize = d.sizeStart) (h1 : 1 < d.sizeStart) (h2 : d.sizeStop < 2 * d.sizeStart) (w : Vec α) :
    interpolation nan d u ≠ .ok w := by
  intro h
  obtain ⟨h0, h3, -⟩ := interpolation_ok h
  obtain ⟨f1, f2, f3⟩ := hu
  omega

/-- A transfer from two to five unknowns for which the interpolation succeeds. -/
def exData : Data Int where
  sizeStart := 2
  sizeStop := 5
  mapInner := [0]
  mapOuter := [1]
  mapInnerNew := [0]
  mapOuterNew := [1, 2]
  vtxInner := [[0, 1]]
  wtsInner := [[1, 1]]
  vtxOuter := [[0, 1], [1, 0]]
  wtsOuter := [[1, 0], [0, 1]]
  addInner := 1
  addOuter := 1

example : interpolation 0 exData ⟨1, 2, 1, [9], [7, 8], [6], []⟩ =
    .ok ⟨1, 5, 1, [9], [7, 8, 7, 8, 8], [6], []⟩ := by rfl

end Pymgrit.Machine
